import Verif.Lemmas.Time
import Verif.Examples

/-!
# C105: times in the answers of the exchange
-/

namespace Lfest
open Spec

/-- C105: in any history, the times in the answers are those of the market updates. -/
theorem C105_stamps (c : Cfg) (ops : List Op) (s : State) (tr : List (Op × Resp))
    (h : history c (State.init c) ops = .ok (s, tr)) :
    (∀ earlier x later, tr = earlier ++ x :: later → WellStamped earlier x) ∧
    s.ms.ts = clockAt tr ∧ ∀ o ∈ s.active, receivedAt tr o.id o.ts :=
  ⟨(history_stamped h).all, (history_stamped h).clock, (history_stamped h).book⟩

/-- The history up to a call. -/
theorem history_upto {c : Cfg} {ops : List Op} : ∀ {s s' : State} {e l : List (Op × Resp)},
    history c s ops = .ok (s', e ++ l) → ∃ ops1 ops2 s1, history c s ops1 = .ok (s1, e) ∧
      history c s1 ops2 = .ok (s', l) := by
  induction ops with
  | nil =>
    intro s s' e l h
    simp only [history, ok_inj, Prod.mk.injEq] at h
    have := List.append_eq_nil_iff.1 h.2.symm
    exact ⟨[], [], s, by simp [history, this.1], by simp [history, this.2, h.1]⟩
  | cons op ops ih =>
    intro s s' e l h
    cases e with
    | nil => exact ⟨[], op :: ops, s, by simp [history], h⟩
    | cons x e =>
      simp only [history, bind_ok, ok_inj, Prod.mk.injEq] at h
      obtain ⟨⟨s1, r⟩, h1, ⟨s2, tr2⟩, h2, h3, h4⟩ := h
      simp only [List.cons_append, List.cons.injEq] at h4
      obtain ⟨rfl, rfl⟩ := h4
      obtain ⟨o1, o2, s3, h5, h6⟩ := ih h2
      refine ⟨op :: o1, o2, s3, ?_, ?_⟩
      · simp only [history, bind_ok, ok_inj, Prod.mk.injEq]
        exact ⟨(s1, r), h1, (s3, e), h5, rfl, rfl⟩
      · simp only at h3
        rw [← h3]; exact h6

theorem receipt_call {op : Op} {r : Resp} {y : Nat × Int} (hx : receipt (op, r) = some y) :
    op.isUpdate = false ∧ r.orderOk = true := by
  cases op <;> cases r <;> first
    | (simp [receipt, accepted] at hx; done)
    | skip
  all_goals (rename_i z; cases z <;> simp_all [receipt, accepted, Op.isUpdate, Resp.orderOk])

/-- Before an order there was a market update. -/
theorem update_before {c : Cfg} {ops : List Op} {s : State} {e l : List (Op × Resp)}
    {x : Op × Resp} (hu : c.spec.priceFilter.multiplierUp ≠ 0)
    (h : history c (State.init c) ops = .ok (s, e ++ x :: l)) {y : Nat × Int}
    (hx : receipt x = some y) : e.filterMap timeOf ≠ [] := by
  intro hn
  obtain ⟨ops1, ops2, s1, h1, h2⟩ := history_upto h
  have hops := timeOf_nil h1 hn
  obtain ⟨_, _, _, _, h5⟩ := C75_nothing_before_first_update c ops1 s1 hu hops (history_run h1)
  cases ops2 with
  | nil => simp [history] at h2
  | cons op ops2 =>
    simp only [history, bind_ok, ok_inj, Prod.mk.injEq] at h2
    obtain ⟨⟨s2, r⟩, h6, ⟨_, _⟩, _, _, h7⟩ := h2
    simp only [List.cons.injEq] at h7
    obtain ⟨rfl, _⟩ := h7
    have key := receipt_call hx
    have := h5 op s2 r key.1 h6
    rw [key.2] at this
    cases this

theorem receipt_of_accepted {x : Op × Resp} {o : Limit} (h : accepted x = some o) :
    receipt x = some (o.id, o.ts) := by
  obtain ⟨op, r⟩ := x
  cases op <;> simp_all [receipt, accepted]

theorem handed {x : Op × Resp} {y : Nat × Int} (h : receipt x = some y) :
    handedOut x = some y.1 := by
  obtain ⟨op, r⟩ := x
  cases op <;> cases r <;> first
    | (simp [receipt, accepted] at h; done)
    | skip
  all_goals (rename_i z; cases z <;> simp [receipt, handedOut, accepted] at h ⊢)
  all_goals rw [← h]

theorem receipt_time {c : Cfg} {ops : List Op} {s : State} {e l : List (Op × Resp)}
    {x : Op × Resp} (h : history c (State.init c) ops = .ok (s, e ++ x :: l)) {y : Nat × Int}
    (hx : receipt x = some y) : y.2 = clockAt e := by
  have hw := (history_stamped h).all e x l rfl
  obtain ⟨op, r⟩ := x
  cases op <;> cases r <;> first
    | (simp [receipt, accepted] at hx; done)
    | skip
  all_goals (rename_i z; cases z)
  all_goals simp [receipt, accepted] at hx
  · rw [← hx]; exact hw.1
  · rw [← hx]; exact hw
  · rw [← hx]; exact hw

/-- C105: if the market updates never go back in time, no order is executed before it was received,
orders with larger ids were not received earlier, and nothing was received or executed after the
present. -/
theorem C105_causal (c : Cfg) (ops : List Op) (s : State) (tr : List (Op × Resp))
    (hu : c.spec.priceFilter.multiplierUp ≠ 0)
    (h : history c (State.init c) ops = .ok (s, tr))
    (ht : (tr.filterMap timeOf).Pairwise (· ≤ ·)) :
    (tr.filterMap receipt).Pairwise (fun a b => a.1 < b.1 ∧ a.2 ≤ b.2) ∧
    (∀ u ups f, (.update u, .update (.ok ups)) ∈ tr → .fullyFilled f ∈ ups →
      f.ts ≤ f.tsExecuted ∧ f.tsExecuted ≤ s.ms.ts) ∧
    (∀ o ∈ s.active, o.ts ≤ s.ms.ts) ∧
    (∀ a ∈ s.active, ∀ b ∈ s.active, a.id < b.id → a.ts ≤ b.ts) := by
  have hst := history_stamped h
  have hrec : ∀ {tr' l : List (Op × Resp)} {id : Nat} {t : Int}, tr = tr' ++ l →
      receivedAt tr' id t → t ≤ clockAt tr := by
    intro tr' l id t he hr
    obtain ⟨e, x, l', o, rfl, ha, _, rfl⟩ := hr
    subst he
    rw [List.append_assoc, List.cons_append] at *
    exact clockAt_le ht (update_before hu h (receipt_of_accepted ha))
  have hpair : ∀ (n : Nat) (t : List (Op × Resp)), t.length = n → ∀ l, tr = t ++ l →
      (t.filterMap receipt).Pairwise (fun a b => a.1 < b.1 ∧ a.2 ≤ b.2) := by
    intro n
    induction n with
    | zero => intro t hn l _; rw [List.length_eq_zero_iff.1 hn]; exact .nil
    | succ n ih =>
      intro t hn l he
      rcases List.eq_nil_or_concat t with rfl | ⟨t', x, rfl⟩
      · exact .nil
      · have hn' : t'.length = n := by simpa using hn
        have he' : tr = t' ++ x :: l := by rw [he]; simp
        rw [List.concat_eq_append, List.filterMap_append]
        refine List.pairwise_append.2 ⟨ih t' hn' _ he', ?_, ?_⟩
        · cases hx : receipt x <;> simp [hx]
        · intro a ha b hb
          have hxb : receipt x = some b := by
            simpa [List.mem_filterMap] using hb
          rw [List.mem_filterMap] at ha
          obtain ⟨y, hy, hya⟩ := ha
          obtain ⟨e1, e2, rfl⟩ := List.append_of_mem hy
          subst he'
          have hb2 := receipt_time h hxb
          rw [List.append_assoc, List.cons_append] at h ht
          have ha2 := receipt_time h hya
          have hne := update_before hu h hya
          constructor
          · obtain ⟨hids, _⟩ := C12_ids_increase c ops s _ h
            have e1' : handedOut y = some a.1 := handed hya
            have e2' : handedOut x = some b.1 := handed hxb
            rw [List.filterMap_append, List.filterMap_cons, e1', List.filterMap_append,
              List.filterMap_cons, e2'] at hids
            have := (List.pairwise_append.1 hids).2.1
            exact (List.pairwise_cons.1 this).1 _ (by simp)
          · rw [ha2, hb2]
            refine clockAt_le ?_ hne
            have : e1 ++ (y :: (e2 ++ x :: l)) = (e1 ++ y :: e2) ++ x :: l := by simp
            rw [this, List.filterMap_append] at ht
            exact (List.pairwise_append.1 ht).1
  refine ⟨hpair _ tr rfl [] (by simp), fun u ups f hm hf => ?_, fun o ho => ?_, ?_⟩
  · obtain ⟨e, l, rfl⟩ := List.append_of_mem hm
    have hw := (hst.all e _ l rfl).2 f hf
    have hlast : clockAt (e ++ [(.update u, .update (.ok ups))]) = f.tsExecuted :=
      clockAt_snoc_some hw.2
    have hsplit : e ++ (Op.update u, Resp.update (.ok ups)) :: l
        = (e ++ [(.update u, .update (.ok ups))]) ++ l := by simp
    have hne : (e ++ [(Op.update u, Resp.update (.ok ups))]).filterMap timeOf ≠ [] := by
      simp [timeOf, hw.2]
    rw [hsplit] at h ht hst
    refine ⟨?_, ?_⟩
    · obtain ⟨e', x, l', o, rfl, ha, _, hts⟩ := hw.1
      have h' := h
      rw [List.append_assoc, List.append_assoc, List.cons_append] at h'
      have hne' := update_before hu h' (receipt_of_accepted ha)
      rw [hts, ← hlast]
      rw [List.filterMap_append] at ht
      have ht' := (List.pairwise_append.1 ht).1
      rw [List.append_assoc] at ht' ⊢
      exact clockAt_le ht' hne'
    · rw [hst.clock, ← hlast]
      exact clockAt_le ht hne
  · rw [hst.clock]
    exact hrec (l := []) (by simp) (hst.book o ho)
  · intro a ha b hb hab
    obtain ⟨e1, x1, l1, o1, h1, h2, h3, h4⟩ := hst.book a ha
    obtain ⟨e2, x2, l2, o2, k1, k2, k3, k4⟩ := hst.book b hb
    have m1 : ((a.id, a.ts) : Nat × Int) ∈ tr.filterMap receipt := by
      rw [List.mem_filterMap]
      refine ⟨x1, by rw [h1]; simp, ?_⟩
      have := receipt_of_accepted h2
      rw [h1] at h
      have ht := receipt_time h this
      rw [this, h3, h4, ← ht]
    have m2 : ((b.id, b.ts) : Nat × Int) ∈ tr.filterMap receipt := by
      rw [List.mem_filterMap]
      refine ⟨x2, by rw [k1]; simp, ?_⟩
      have := receipt_of_accepted k2
      rw [k1] at h
      have ht := receipt_time h this
      rw [this, k3, k4, ← ht]
    have hp := hpair _ tr rfl [] (by simp)
    obtain ⟨i, hi, hia⟩ := List.getElem_of_mem m1
    obtain ⟨j, hj, hjb⟩ := List.getElem_of_mem m2
    rw [List.pairwise_iff_getElem] at hp
    rcases Nat.lt_trichotomy i j with hij | hij | hij
    · have := (hp i j hi hj hij).2
      rw [hia, hjb] at this
      exact this
    · subst hij
      rw [hia] at hjb
      simp only [Prod.mk.injEq] at hjb
      omega
    · have := (hp j i hj hi hij).1
      rw [hia, hjb] at this
      simp only at this
      omega

/-- A history with every kind of stamp: an order is filled in two parts, one is cancelled, one
rests. Times 1, 5, 5 and 9. -/
def Ex.timed : List Op :=
  [.update (.bba ⟨Ex.d 100, Ex.d 101, 1⟩), .limit .buy (Ex.d 99) (Ex.d 3) 1,
   .limit .buy (Ex.d 98) (Ex.d 1) 2,
   .update (.trade ⟨5, Ex.d 98, Ex.d 2, .sell⟩), .market .buy (Ex.d 1) 3,
   .limit .buy (Ex.d 97) (Ex.d 1) 4, .cancel (.userOrderId 2),
   .update (.trade ⟨5, Ex.d 98, Ex.d 2, .sell⟩), .update (.bba ⟨Ex.d 100, Ex.d 101, 9⟩)]

/-- Received and executed times in the answers of a history. -/
def Ex.times (tr : List (Op × Resp)) : List (Nat × Int × Option Int) :=
  tr.flatMap fun x =>
    match x.2 with
    | .limit (.ok o) => [(o.id, o.ts, none)]
    | .market (.ok f) => [(f.id, f.ts, some f.tsExecuted)]
    | .update (.ok ups) => ups.map fun
      | .partiallyFilled o => (o.id, o.ts, none)
      | .fullyFilled f => (f.id, f.ts, some f.tsExecuted)
    | _ => []

/-- Non-vacuity of C105_stamps and C105_causal. -/
example : Ex.linR.spec.priceFilter.multiplierUp ≠ 0 ∧
    ∃ s tr, history Ex.linR (State.init Ex.linR) Ex.timed = .ok (s, tr) ∧
      (tr.filterMap timeOf).Pairwise (· ≤ ·) ∧ s.active.length = 1 ∧
      Ex.times tr = [(0, 1, none), (1, 1, none), (0, 1, none), (2, 5, some 5), (3, 5, none),
        (1, 1, none), (0, 1, some 5)] := by
  refine ⟨by decide, ?_⟩
  have h : (match history Ex.linR (State.init Ex.linR) Ex.timed with
    | .ok (s, tr) => decide ((tr.filterMap timeOf).Pairwise (· ≤ ·)) && s.active.length == 1 &&
        Ex.times tr == [(0, 1, none), (1, 1, none), (0, 1, none), (2, 5, some 5), (3, 5, none),
          (1, 1, none), (0, 1, some 5)]
    | .error _ => false) = true := by decide +kernel
  split at h
  · rename_i s tr he
    simp only [Bool.and_eq_true, decide_eq_true_eq, beq_iff_eq] at h
    exact ⟨s, tr, he, h.1.1, h.1.2, h.2⟩
  · cases h

/-- C105, what does not hold: updates may go back in time, and then an order is reported as executed
before it was received. -/
theorem C105_time_travel : ∃ c ops s tr u ups f,
    history c (State.init c) ops = .ok (s, tr) ∧ (.update u, .update (.ok ups)) ∈ tr ∧
    .fullyFilled f ∈ ups ∧ f.tsExecuted < f.ts := by
  have h : (match history Ex.lin (State.init Ex.lin)
      [.update (.bba ⟨Ex.d 100, Ex.d 101, 7⟩), .limit .buy (Ex.d 99) (Ex.d 2) 1,
       .update (.trade ⟨3, Ex.d 98, Ex.d 2, .sell⟩)] with
    | .ok (_, [_, _, (.update _, .update (.ok [.fullyFilled f]))]) => decide (f.tsExecuted < f.ts)
    | _ => false) = true := by decide +kernel
  split at h
  · rename_i s _ _ u f he
    exact ⟨_, _, s, _, u, [.fullyFilled f], f, he, by simp, by simp, by simpa using h⟩
  · cases h

end Lfest
