import Verif.Lemmas.Wait
import Verif.Examples

/-!
# C103: an order waits exactly until enough has traded through its price

The fate of a resting order over a whole history depends on nothing but the market updates: as long
as the user leaves it alone, what is left of it is its open quantity less the volume that traded
through its price, and it leaves the book when that volume is reached and not earlier.
-/

namespace Lfest
open Spec

theorem reach_history {c : Cfg} {s s' : State} {ops : List Op} {tr : List (Op × Resp)}
    (hs : Reachable c s) (h : history c s ops = .ok (s', tr)) : Reachable c s' :=
  (history_induct (c := c) (P := fun s _ => Reachable c s) (fun _ _ _ _ _ h hst => h.step hst)
    ops s s' [] tr hs h)

theorem waits_of_mem {c : Cfg} {s : State} (hr : Reachable c s) {o : Limit} (ho : o ∈ s.active) :
    Waits s o o.remaining :=
  ⟨(hr.inv.orders o ho).fresh, .inl ⟨(hr.inv.orders o ho).rem, o, ho, rfl, rfl, rfl, rfl, rfl⟩⟩

theorem waits_history {c : Cfg} : ∀ (ops : List Op) {s s' : State} {tr : List (Op × Resp)}
    {o : Limit} {rem : Int}, Reachable c s → Waits s o rem → history c s ops = .ok (s', tr) →
    (∀ x ∈ tr, withdraws o.id x = false) → Waits s' o (left rem (passed o tr))
  | [], s, s', tr, o, rem, _, hw, h, _ => by
    simp only [history, ok_inj, Prod.mk.injEq] at h
    obtain ⟨rfl, rfl⟩ := h
    have : left rem (passed o []) = rem := by
      have := hw.nonneg
      simp only [passed, left]; split <;> omega
    rw [this]; exact hw
  | op :: ops, s, s', tr, o, rem, hr, hw, h, hn => by
    simp only [history, bind_ok, ok_inj, Prod.mk.injEq] at h
    obtain ⟨⟨s1, r⟩, h1, ⟨s2, tr'⟩, h2, rfl, rfl⟩ := h
    have h3 := waits_history ops (hr.step h1) (hw.step hr h1 (hn _ (by simp))) h2
      (fun x hx => hn x (by simp [hx]))
    rw [left_plus (fun _ => brings_nonneg) (fun _ => passed_nonneg)] at h3
    exact h3

/-- C103: an order the user leaves alone is open by what it was open by, less the volume that traded
through its price since, in every history, whatever else the user does and whatever happens to the
position. -/
theorem C103_waiting (c : Cfg) (s s' : State) (hs : Reachable c s) (o : Limit) (ho : o ∈ s.active)
    (ops : List Op) (tr : List (Op × Resp)) (h : history c s ops = .ok (s', tr))
    (hw : ∀ x ∈ tr, withdraws o.id x = false) :
    openQty s' o.id = left o.remaining (passed o tr) := by
  have hr' : Reachable c s' := reach_history hs h
  rcases (waits_history ops hs (waits_of_mem hs ho) h hw).rest with
    ⟨_, o', ho', e1, _, _, _, e5⟩ | ⟨h0, hno⟩
  · rw [← e5, ← e1, openQty_of_mem hr'.inv.nodup ho']
  · rw [h0, openQty_of_not hno]

/-- C103: it stays in the book, at its price and on its side, as long as less than its open quantity
has traded through its price. -/
theorem C103_still_there (c : Cfg) (s s' : State) (hs : Reachable c s) (o : Limit)
    (ho : o ∈ s.active) (ops : List Op) (tr : List (Op × Resp))
    (h : history c s ops = .ok (s', tr)) (hw : ∀ x ∈ tr, withdraws o.id x = false)
    (v : Int) (hv : passed o tr = some v) (hlt : v < o.remaining) :
    ∃ o' ∈ s'.active, o'.id = o.id ∧ o'.side = o.side ∧ o'.price = o.price ∧ o'.uid = o.uid ∧
      o'.remaining = o.remaining - v := by
  have hl : left o.remaining (passed o tr) = o.remaining - v := by
    rw [hv]; exact if_pos hlt
  rcases (waits_history ops hs (waits_of_mem hs ho) h hw).rest with ⟨_, h1⟩ | ⟨h0, _⟩
  · rw [hl] at h1; exact h1
  · omega

/-- C103: and it is gone as soon as that much has traded through, or a candle has. -/
theorem C103_gone (c : Cfg) (s s' : State) (hs : Reachable c s) (o : Limit)
    (ho : o ∈ s.active) (ops : List Op) (tr : List (Op × Resp))
    (h : history c s ops = .ok (s', tr)) (hw : ∀ x ∈ tr, withdraws o.id x = false)
    (hv : ∀ v, passed o tr = some v → o.remaining ≤ v) :
    ∀ x ∈ s'.active, x.id ≠ o.id := by
  have hl : left o.remaining (passed o tr) = 0 := by
    cases hp : passed o tr with
    | none => rfl
    | some v =>
      have := hv v hp
      exact if_neg (by omega)
  rcases (waits_history ops hs (waits_of_mem hs ho) h hw).rest with ⟨h0, _⟩ | ⟨_, h1⟩
  · omega
  · exact h1

theorem untouched_step {c : Cfg} {s s' : State} {op : Op} {r : Resp} {o : Limit}
    (hr : Reachable c s) (ho : o ∈ s.active) (hst : step c s op = .ok (s', r))
    (hw : withdraws o.id (op, r) = false) (hb : brings o (op, r) = some 0) : o ∈ s'.active := by
  have hi := hr.inv
  have key : ∀ {u : UpdateArg} {e : Env}, s'.active.Perm (s.active.filterMap (survivor e u)) →
      (∀ o ∈ s.active, ∀ q, fillRule u o = some q → 0 < q ∧ q ≤ o.remaining) →
      through u o = some 0 → o ∈ s'.active := fun {u e} h1 h5 ht => by
    rw [h1.mem_iff, List.mem_filterMap]
    refine ⟨o, ho, ?_⟩
    cases hf : fillRule u o with
    | none => simp [survivor, hf]
    | some q =>
      obtain ⟨hq, hle⟩ := h5 o ho q hf
      have := fill_through hf hq hle
      rw [ht] at this
      simp only [left] at this
      split at this <;> omega
  by_cases hu : ∃ u ups, (op, r) = (.update u, .update (.ok ups))
  · obtain ⟨u, ups, e⟩ := hu
    cases e
    obtain ⟨h1, _, _, _, h5, _⟩ := update_spec hi hst
    exact key h1 h5 hb
  by_cases hc : ∃ u, (op, r) = (.checkActive u, .unit)
  · obtain ⟨u, e⟩ := hc
    cases e
    simp only [Lfest.step, bind_ok, ok_inj, Prod.mk.injEq, and_true] at hst
    obtain ⟨v, hb', _, hst, rfl⟩ := hst
    obtain ⟨h1, _, _, h5, _, _⟩ := checkActive_spec hb' hi hst
    exact key h1 h5 hb
  exact (step_others hr hst (fun u ups e => hu ⟨u, ups, e⟩) (fun u e => hc ⟨u, e⟩)).1 o ho hw

/-- C103: as long as nothing trades through its price it stays exactly as it is. -/
theorem C103_untouched (c : Cfg) (s s' : State) (hs : Reachable c s) (o : Limit)
    (ho : o ∈ s.active) (ops : List Op) (tr : List (Op × Resp))
    (h : history c s ops = .ok (s', tr)) (hw : ∀ x ∈ tr, withdraws o.id x = false)
    (hv : passed o tr = some 0) : o ∈ s'.active := by
  induction ops generalizing s tr with
  | nil =>
    simp only [history, ok_inj, Prod.mk.injEq] at h
    obtain ⟨rfl, rfl⟩ := h
    exact ho
  | cons op ops ih =>
    simp only [history, bind_ok, ok_inj, Prod.mk.injEq] at h
    obtain ⟨⟨s1, r⟩, h1, ⟨s2, tr'⟩, h2, rfl, rfl⟩ := h
    simp only [passed] at hv
    cases hb : brings o (op, r) with
    | none => rw [hb] at hv; cases hv
    | some a =>
      cases ht : passed o tr' with
      | none => rw [hb, ht] at hv; cases hv
      | some b =>
        rw [hb, ht] at hv
        simp only [plus, Option.some.injEq] at hv
        have ha := brings_nonneg hb
        have hb' := passed_nonneg ht
        obtain rfl : a = 0 := by omega
        obtain rfl : b = 0 := by omega
        exact ih s1 (hs.step h1) (untouched_step hs ho h1 (hw _ (by simp)) hb) tr' h2
          (fun x hx => hw x (by simp [hx])) ht

/-- C103, from the submission on: an accepted limit order of quantity `qty` is, after any further
history, open by what has not traded through its price. -/
theorem C103_from_submission (c : Cfg) (s s1 s' : State) (hs : Reachable c s) (side : Side)
    (price qty : Int) (uid : Nat) (o : Limit)
    (h1 : step c s (.limit side price qty uid) = .ok (s1, .limit (.ok o)))
    (ops : List Op) (tr : List (Op × Resp)) (h : history c s1 ops = .ok (s', tr))
    (hw : ∀ x ∈ tr, withdraws o.id x = false) :
    o.side = side ∧ o.price = price ∧ openQty s' o.id = left qty (passed o tr) := by
  obtain ⟨h2, h3, _⟩ := C18_accepted_limit c s s1 hs side price qty uid o h1
  have := C103_waiting c s1 s' (hs.step h1) o (by rw [h3]; simp) ops tr h hw
  rw [this, h2]
  exact ⟨rfl, rfl, rfl⟩

/-- C103: whatever two users do besides, the same order in the same market meets the same fate. -/
theorem C103_same_fate (c : Cfg) (s s' t t' : State) (hs : Reachable c s) (ht : Reachable c t)
    (o p : Limit) (ho : o ∈ s.active) (hp : p ∈ t.active) (hrem : o.remaining = p.remaining)
    (ops ops' : List Op) (tr tr' : List (Op × Resp)) (h : history c s ops = .ok (s', tr))
    (h' : history c t ops' = .ok (t', tr')) (hw : ∀ x ∈ tr, withdraws o.id x = false)
    (hw' : ∀ x ∈ tr', withdraws p.id x = false) (hpass : passed o tr = passed p tr') :
    openQty s' o.id = openQty t' p.id := by
  rw [C103_waiting c s s' hs o ho ops tr h hw, C103_waiting c t t' ht p hp ops' tr' h' hw', hrem,
    hpass]

/-- The state after the first history and the trace of a second one. -/
def Ex.onward (c : Cfg) (ops ops' : List Op)
    (p : State → State → List (Op × Resp) → Bool) : Bool :=
  match run c (State.init c) ops with
  | .ok s => match history c s ops' with
    | .ok (s', tr) => p s s' tr
    | .error _ => false
  | .error _ => false

theorem Ex.onward_reach {c : Cfg} {ops ops' : List Op}
    {p : State → State → List (Op × Resp) → Bool} (h : Ex.onward c ops ops' p = true) :
    ∃ s s' tr, Reachable c s ∧ history c s ops' = .ok (s', tr) ∧ p s s' tr = true := by
  unfold Ex.onward at h
  split at h
  · next s hs =>
    split at h
    · next s' tr hr => exact ⟨s, s', tr, ⟨ops, hs⟩, hr, h⟩
    · simp at h
  · simp at h

/-- The resting sell of 3 at 110 (`Ex.ops1`), through a trade of 2 above its price, quotes, a trade
on the other side, a trade at its very price, a cancelled order and a market order. -/
def Ex.waiting : List Op :=
  [.update (.trade ⟨2, Ex.d 111, Ex.d 2, .buy⟩), .update (.bba ⟨Ex.d 100, Ex.d 101, 3⟩),
   .update (.trade ⟨4, Ex.d 99, Ex.d 50, .sell⟩), .update (.trade ⟨5, Ex.d 110, Ex.d 50, .buy⟩),
   .cancel (.userOrderId 2), .market .buy (Ex.d 1) 3]

/-- Non-vacuity of C103_waiting, C103_still_there and C103_same_fate: 1 of the 3 is left. -/
example : ∃ s s' o tr, Reachable Ex.linR s ∧ o ∈ s.active ∧
    history Ex.linR s Ex.waiting = .ok (s', tr) ∧ (∀ x ∈ tr, withdraws o.id x = false) ∧
    o.remaining = Ex.d 3 ∧ passed o tr = some (Ex.d 2) ∧ openQty s' o.id = Ex.d 1 := by
  have h : Ex.onward Ex.linR Ex.ops1 Ex.waiting (fun s s' tr => s.active.any (fun o =>
      tr.all (fun x => !withdraws o.id x) && decide (o.remaining = Ex.d 3) &&
      decide (passed o tr = some (Ex.d 2)) && decide (openQty s' o.id = Ex.d 1))) = true := by
    decide +kernel
  obtain ⟨s, s', tr, hr, hh, hp⟩ := Ex.onward_reach h
  rw [List.any_eq_true] at hp
  obtain ⟨o, ho, hp⟩ := hp
  simp only [Bool.and_eq_true, decide_eq_true_eq, List.all_eq_true, Bool.not_eq_true'] at hp
  exact ⟨s, s', o, tr, hr, ho, hh, hp.1.1.1, hp.1.1.2, hp.1.2, hp.2⟩

/-- Non-vacuity of C103_gone: one more unit above the price completes it. -/
example : ∃ s s' o tr, Reachable Ex.linR s ∧ o ∈ s.active ∧
    history Ex.linR s (Ex.waiting ++ [.update (.trade ⟨7, Ex.d 112, Ex.d 1, .buy⟩)]) = .ok (s', tr) ∧
    (∀ x ∈ tr, withdraws o.id x = false) ∧ (∀ v, passed o tr = some v → o.remaining ≤ v) := by
  have h : Ex.onward Ex.linR Ex.ops1 (Ex.waiting ++ [.update (.trade ⟨7, Ex.d 112, Ex.d 1, .buy⟩)])
      (fun s _ tr => s.active.any (fun o => tr.all (fun x => !withdraws o.id x) &&
      decide (passed o tr = some o.remaining))) = true := by
    decide +kernel
  obtain ⟨s, s', tr, hr, hh, hp⟩ := Ex.onward_reach h
  rw [List.any_eq_true] at hp
  obtain ⟨o, ho, hp⟩ := hp
  simp only [Bool.and_eq_true, decide_eq_true_eq, List.all_eq_true, Bool.not_eq_true'] at hp
  exact ⟨s, s', o, tr, hr, ho, hh, hp.1, fun v hv => by
    rw [hp.2] at hv; cases hv; exact Int.le_refl _⟩

/-- Non-vacuity of C103_untouched: the same calls without the trade above the price. -/
example : ∃ s s' o tr, Reachable Ex.linR s ∧ o ∈ s.active ∧
    history Ex.linR s Ex.waiting.tail = .ok (s', tr) ∧ (∀ x ∈ tr, withdraws o.id x = false) ∧
    passed o tr = some 0 := by
  have h : Ex.onward Ex.linR Ex.ops1 Ex.waiting.tail (fun s _ tr => s.active.any (fun o =>
      tr.all (fun x => !withdraws o.id x) && decide (passed o tr = some 0))) = true := by
    decide +kernel
  obtain ⟨s, s', tr, hr, hh, hp⟩ := Ex.onward_reach h
  rw [List.any_eq_true] at hp
  obtain ⟨o, ho, hp⟩ := hp
  simp only [Bool.and_eq_true, decide_eq_true_eq, List.all_eq_true, Bool.not_eq_true'] at hp
  exact ⟨s, s', o, tr, hr, ho, hh, hp.1, hp.2⟩

/-- Non-vacuity of C103_from_submission: a buy of 3 at 98, and a candle down to 90. -/
example : ∃ s s1 s' o tr, Reachable Ex.linR s ∧
    step Ex.linR s (.limit .buy (Ex.d 98) (Ex.d 3) 9) = .ok (s1, .limit (.ok o)) ∧
    history Ex.linR s1 [.update (.candle ⟨Ex.d 96, Ex.d 97, Ex.d 90, Ex.d 99, 3⟩)] =
      .ok (s', tr) ∧ (∀ x ∈ tr, withdraws o.id x = false) ∧ passed o tr = none := by
  have h : Ex.onward Ex.linR Ex.ops1 [.limit .buy (Ex.d 98) (Ex.d 3) 9,
      .update (.candle ⟨Ex.d 96, Ex.d 97, Ex.d 90, Ex.d 99, 3⟩)] (fun _ _ tr =>
        match tr with
        | [(_, .limit (.ok o)), x] => !withdraws o.id x && decide (passed o [x] = none)
        | _ => false) = true := by
    decide +kernel
  obtain ⟨s, s', tr, hr, hh, hp⟩ := Ex.onward_reach h
  rw [history] at hh
  simp only [bind_ok, ok_inj, Prod.mk.injEq] at hh
  obtain ⟨⟨s1, r⟩, h1, ⟨s2, tr'⟩, h2, rfl, rfl⟩ := hh
  split at hp
  · next o x e =>
    simp only [List.cons.injEq, Prod.mk.injEq] at e
    obtain ⟨⟨_, rfl⟩, rfl⟩ := e
    simp only [Bool.and_eq_true, decide_eq_true_eq, Bool.not_eq_true'] at hp
    exact ⟨s, s1, s2, o, [x], hr, h1, h2, by simpa using hp.1, hp.2⟩
  · cases hp

/-- The claim fails for an update that liquidates the position: the candle is through the price of
the resting buy order, which is left as it was, because a liquidation ends the update before any
orders are matched. -/
theorem C103_liquidation_skips : ∃ (c : Cfg) (s s' : State) (o : Limit) (k : Candle)
    (e : Error),
    Reachable c s ∧ o ∈ s.active ∧
    step c s (.update (.candle k)) = .ok (s', .update (.error e)) ∧
    through (.candle k) o = none ∧ o ∈ s'.active := by
  have h : Ex.onward Ex.linR Ex.ops1 [.update (.candle ⟨Ex.d 40, Ex.d 41, Ex.d 40, Ex.d 99, 7⟩)]
      (fun s s' tr => match tr with
        | [(_, .update (.error _))] => s.active.any (fun o => s'.active.any (fun x => x == o) &&
            decide (through (.candle ⟨Ex.d 40, Ex.d 41, Ex.d 40, Ex.d 99, 7⟩) o = none))
        | _ => false) = true := by
    decide +kernel
  obtain ⟨s, s', tr, hr, hh, hp⟩ := Ex.onward_reach h
  simp only [history, bind_ok, ok_inj, Prod.mk.injEq] at hh
  obtain ⟨⟨s1, r⟩, h1, _, ⟨rfl, rfl⟩, rfl, rfl⟩ := hh
  split at hp
  · next op e he =>
    simp only [List.cons.injEq, Prod.mk.injEq, and_true] at he
    obtain ⟨_, rfl⟩ := he
    rw [List.any_eq_true] at hp
    obtain ⟨o, ho, hp⟩ := hp
    simp only [Bool.and_eq_true, decide_eq_true_eq, List.any_eq_true, beq_iff_eq] at hp
    obtain ⟨⟨x, hx, rfl⟩, hp⟩ := hp
    exact ⟨_, s, s1, x, _, _, hr, ho, h1, hp, hx⟩
  · cases hp

end Lfest
