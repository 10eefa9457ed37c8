import Verif.Props.Audit
import Verif.SpecWait

/-!
# What the calls of others do to a resting order
-/

namespace Lfest

open Spec

/-- Calls that match no orders leave the orders they do not withdraw, and add only new ones. -/
theorem step_others {c : Cfg} {s s' : State} {op : Op} {r : Resp} (hr : Reachable c s)
    (hst : step c s op = .ok (s', r)) (hu : ∀ u ups, (op, r) ≠ (.update u, .update (.ok ups)))
    (hc : ∀ u, (op, r) ≠ (.checkActive u, .unit)) :
    (∀ x ∈ s.active, withdraws x.id (op, r) = false → x ∈ s'.active) ∧
    (∀ x ∈ s'.active, x ∈ s.active ∨ s.nextId ≤ x.id) := by
  have hi := hr.inv
  have same : ∀ {t : State}, t.active = s.active →
      (∀ x ∈ s.active, withdraws x.id (op, r) = false → x ∈ t.active) ∧
      (∀ x ∈ t.active, x ∈ s.active ∨ s.nextId ≤ x.id) := fun e => by
    rw [e]; exact ⟨fun _ h _ => h, fun _ h => .inl h⟩
  rcases step_cases hst with ⟨u, u', x, rfl, hb, _, rfl⟩ | ⟨a, u, rfl, hb, _, rfl⟩ |
    ⟨err, rfl, rfl⟩ |
    ⟨side, q, uid, x, rfl, hq0, _, rfl⟩ | ⟨side, p, q, uid, x, rfl, _, hq0, _, rfl⟩ |
    ⟨id, side, p, q, uid, x, rfl, _, _, hamend, rfl⟩ | ⟨b, x, rfl, _, rfl⟩
  · cases x with
    | ok ups => exact absurd rfl (hu u ups)
    | error err =>
      obtain ⟨_, h2, h3, _⟩ := C30_liquidation_flattens c s s' u err hr hst
      exact same h3
  · exact absurd rfl (hc a)
  · exact same rfl
  · cases x with
    | ok f =>
      obtain ⟨_, _, _, h3, _⟩ := C21_market_order c s s' hr side q uid f hst
      exact same h3
    | error err =>
      obtain ⟨h1, _⟩ := C17_rejected_market c s s' side q uid err hst
      exact same (by rw [h1])
  · cases x with
    | ok o =>
      obtain ⟨h0, h1, _⟩ := C18_accepted_limit c s s' hr side p q uid o hst
      rw [h1]
      refine ⟨fun x hx _ => by simp [hx], fun x hx => ?_⟩
      simp only [List.mem_append, List.mem_singleton] at hx
      rcases hx with hx | rfl
      · exact .inl hx
      · rw [h0]; exact .inr (Nat.le_refl _)
    | error err =>
      obtain ⟨h1, _⟩ := C17_rejected_limit c s s' hr side p q uid err hst
      exact same (by rw [h1])
  · by_cases hex : ∃ old ∈ s.active, old.id = id
    · obtain ⟨old, hold, rfl⟩ := hex
      obtain ⟨_, h3, h4, _⟩ := C20_amend c s s' hr old hold side p q uid x hst
      cases x with
      | ok o =>
        obtain ⟨_, h6, _, h7⟩ := h3 o rfl
        simp only [h7.mem_iff, List.mem_cons, List.mem_filter, decide_eq_true_eq, withdraws]
        refine ⟨fun x hx hw => .inr ⟨hx, fun e => ?_⟩, fun x hx => ?_⟩
        · simp [e] at hw
        · rcases hx with rfl | hx
          · rw [h6]; exact .inr (Nat.le_refl _)
          · exact .inl hx.1
      | error err =>
        have h5 := (amend_known hi hold hamend).2
        simp only [(h4 err rfl).mem_iff, List.mem_filter, decide_eq_true_eq]
        refine ⟨fun x hx hw => ⟨hx, fun e => ?_⟩, fun x hx => .inl hx.1⟩
        simp only [withdraws, e] at hw
        cases err <;> simp at hw h5
    · obtain ⟨rfl, _⟩ := C20_amend_unknown c s s' id
        (fun o ho e => hex ⟨o, ho, e⟩) side p q uid x hst
      exact same rfl
  · cases x with
    | ok o =>
      obtain ⟨⟨a, z, h1, _, _, h3⟩, _⟩ := C19_cancel_removes c s s' b o hst
      simp only [h3.mem_iff, h1, List.mem_append, List.mem_cons, withdraws]
      refine ⟨fun x hx hw => ?_, fun x hx => .inl ?_⟩
      · rcases hx with hx | rfl | hx
        · exact .inl hx
        · simp at hw
        · exact .inr hx
      · rcases hx with hx | hx <;> simp [hx]
    | error err =>
      exact same (by rw [((C19_cancel_errors c s s' b _ hst).2 err rfl).1])

/-- A fill takes what trades through, up to what is left. -/
theorem fill_through {u : UpdateArg} {o : Limit} {q : Int} (h : fillRule u o = some q) (hq : 0 < q)
    (hle : q ≤ o.remaining) : left o.remaining (through u o) = o.remaining - q := by
  cases u with
  | bba _ => simp [fillRule] at h
  | trade t =>
    simp only [fillRule] at h
    split at h
    · next hh =>
      simp only [Option.some.injEq, smaller] at h
      simp only [through, hh, if_true, atLeast0, left]
      split at h <;> (split <;> split <;> omega)
    · cases h
  | candle k =>
    simp only [fillRule] at h
    cases hs : o.side <;> simp only [hs] at h <;> split at h
    all_goals first
      | (next hh => simp only [through, hs, hh, if_true, left]; simp at h; omega)
      | cases h
  | smart ts b f =>
    simp only [fillRule] at h
    split at h
    · cases h
    · simp only [Option.some.injEq, smaller] at h
      simp only [through, atLeast0, left]
      split at h <;> (split <;> split <;> omega)
  | custom k =>
    simp only [fillRule] at h
    split at h
    · next hh =>
      simp only [through, hh, if_true, atLeast0, left, h, Option.getD_some]
      split <;> split <;> omega
    · cases h

/-- Without a fill nothing trades through. -/
theorem none_through {u : UpdateArg} {o : Limit} (h : fillRule u o = none) :
    through u o = some 0 := by
  cases u with
  | bba _ => rfl
  | trade t =>
    simp only [fillRule] at h
    split at h
    · cases h
    · next hh => simp [through, hh, atLeast0]
  | candle k =>
    simp only [fillRule] at h
    cases hs : o.side <;> simp only [hs] at h <;> split at h
    all_goals first
      | (next hh => simp only [through, hs, hh, if_false]; rfl)
      | cases h
  | smart ts b f =>
    simp only [fillRule] at h
    split at h
    · next hh => simp [through, hh, tradeSum, atLeast0]
    · cases h
  | custom k =>
    simp only [fillRule] at h
    split at h
    · next hh => simp [through, hh, h, atLeast0]
    · next hh => simp [through, hh, atLeast0]

theorem through_nonneg {u : UpdateArg} {o : Limit} {v : Int} (h : through u o = some v) : 0 ≤ v := by
  have hv : ∀ x, atLeast0 x = some v → 0 ≤ v := fun x hx => by
    simp only [atLeast0, Option.some.injEq] at hx
    split at hx <;> omega
  cases u with
  | bba _ => exact hv _ h
  | trade t => exact hv _ h
  | candle k =>
    simp only [through] at h
    split at h <;> split at h
    · cases h
    · exact hv _ h
    · cases h
    · exact hv _ h
  | smart ts b f => exact hv _ h
  | custom k => exact hv _ h

theorem brings_nonneg {o : Limit} {x : Op × Resp} {v : Int} (h : brings o x = some v) : 0 ≤ v := by
  obtain ⟨op, r⟩ := x
  unfold brings at h
  split at h
  · exact through_nonneg h
  · exact through_nonneg h
  · simp [atLeast0] at h; omega

theorem through_same {u : UpdateArg} {o o' : Limit} (h1 : o'.id = o.id) (h2 : o'.side = o.side)
    (h3 : o'.price = o.price) : through u o' = through u o := by
  cases u <;> simp only [through, h1, h2, h3]

theorem left_plus {rem : Int} : ∀ {a b : Option Int}, (∀ v, a = some v → 0 ≤ v) →
    (∀ v, b = some v → 0 ≤ v) → left (left rem a) b = left rem (plus a b)
  | none, none, _, _ => rfl
  | none, some b, _, hb => by
    have := hb b rfl
    simp only [left, plus]
    exact if_neg (by omega)
  | some a, none, _, _ => rfl
  | some a, some b, ha, hb => by
    have := hb b rfl
    have := ha a rfl
    simp only [left, plus]
    split <;> split <;> split <;> omega

theorem passed_nonneg {o : Limit} : ∀ {tr : List (Op × Resp)} {v : Int}, passed o tr = some v → 0 ≤ v
  | [], v, h => by simp [passed] at h; omega
  | x :: tr, v, h => by
    simp only [passed] at h
    cases hb : brings o x with
    | none => rw [hb] at h; cases h
    | some a =>
      cases ht : passed o tr with
      | none => rw [hb, ht] at h; cases h
      | some b =>
        rw [hb, ht] at h
        simp only [plus, Option.some.injEq] at h
        have := brings_nonneg hb
        have := passed_nonneg ht
        omega

/-- The order `o`, of which `rem` is left. -/
structure Waits (s : State) (o : Limit) (rem : Int) : Prop where
  old : o.id < s.nextId
  rest : (0 < rem ∧ ∃ o' ∈ s.active, o'.id = o.id ∧ o'.side = o.side ∧ o'.price = o.price ∧
    o'.uid = o.uid ∧ o'.remaining = rem) ∨ (rem = 0 ∧ ∀ x ∈ s.active, x.id ≠ o.id)

theorem Waits.nonneg {s : State} {o : Limit} {rem : Int} (h : Waits s o rem) : 0 ≤ rem := by
  rcases h.rest with ⟨h, _⟩ | ⟨h, _⟩ <;> omega

theorem Waits.matched {s s' : State} {o : Limit} {rem : Int} {u : UpdateArg} {e : Env}
    (h : Waits s o rem) (hnd : IdsNodup s.active) (hn : s'.nextId = s.nextId)
    (h1 : s'.active.Perm (s.active.filterMap (survivor e u)))
    (h5 : ∀ o ∈ s.active, ∀ q, fillRule u o = some q → 0 < q ∧ q ≤ o.remaining) :
    Waits s' o (left rem (through u o)) := by
  have hid : ∀ x y, survivor e u x = some y → y.id = x.id := fun x y hxy => by
    unfold survivor at hxy
    split at hxy
    · cases hxy; rfl
    · split at hxy
      · cases hxy
      · cases hxy; rfl
  refine ⟨by rw [hn]; exact h.old, ?_⟩
  rcases h.rest with ⟨hpos, o', ho', e1, e2, e3, e4, e5⟩ | ⟨rfl, hno⟩
  · rw [← through_same e1 e2 e3, ← e5]
    cases hf : fillRule u o' with
    | none =>
      rw [none_through hf]
      have : left o'.remaining (some 0) = o'.remaining := by
        simp only [left]; split <;> omega
      rw [this]
      refine .inl ⟨by omega, o', ?_, e1, e2, e3, e4, rfl⟩
      rw [h1.mem_iff, List.mem_filterMap]
      exact ⟨o', ho', by simp [survivor, hf]⟩
    | some q =>
      obtain ⟨hq, hle⟩ := h5 o' ho' q hf
      rw [fill_through hf hq hle]
      by_cases hlt : q = o'.remaining
      · refine .inr ⟨by omega, fun x hx => ?_⟩
        rw [h1.mem_iff, List.mem_filterMap] at hx
        obtain ⟨y, hy, hyx⟩ := hx
        rw [hid y x hyx]
        intro hyo
        have : y = o' := by
          have a := getById_of_mem hnd hy
          have b := getById_of_mem hnd ho'
          rw [hyo, ← e1, b] at a
          exact (Option.some.inj a).symm
        subst this
        simp [survivor, hf, hlt] at hyx
      · refine .inl ⟨by omega, filledBy e o' q, ?_, e1, e2, e3, e4, rfl⟩
        rw [h1.mem_iff, List.mem_filterMap]
        exact ⟨o', ho', by simp [survivor, hf, hlt]⟩
  · have : left 0 (through u o) = 0 := by
      cases ht : through u o with
      | none => rfl
      | some v =>
        have := through_nonneg ht
        simp only [left]; split <;> omega
    rw [this]
    refine .inr ⟨rfl, fun x hx => ?_⟩
    rw [h1.mem_iff, List.mem_filterMap] at hx
    obtain ⟨y, hy, hyx⟩ := hx
    rw [hid y x hyx]
    exact hno y hy

theorem Waits.step {c : Cfg} {s s' : State} {op : Op} {r : Resp} {o : Limit} {rem : Int}
    (hr : Reachable c s) (h : Waits s o rem) (hst : Lfest.step c s op = .ok (s', r))
    (hw : withdraws o.id (op, r) = false) : Waits s' o (left rem (brings o (op, r))) := by
  have hi := hr.inv
  by_cases hu : ∃ u ups, (op, r) = (.update u, .update (.ok ups))
  · obtain ⟨u, ups, e⟩ := hu
    cases e
    obtain ⟨h1, _, _, _, h5, h6⟩ := update_spec hi hst
    exact h.matched hi.nodup h6 h1 h5
  by_cases hc : ∃ u, (op, r) = (.checkActive u, .unit)
  · obtain ⟨u, e⟩ := hc
    cases e
    simp only [Lfest.step, bind_ok, ok_inj, Prod.mk.injEq, and_true] at hst
    obtain ⟨v, hb, _, hst, rfl⟩ := hst
    obtain ⟨h1, _, _, h5, _, h6⟩ := checkActive_spec hb hi hst
    exact h.matched hi.nodup h6 h1 h5
  have hb : brings o (op, r) = some 0 := by
    unfold brings
    split
    · exact absurd ⟨_, _, ‹_›⟩ hu
    · exact absurd ⟨_, ‹_›⟩ hc
    · rfl
  obtain ⟨h1, h2⟩ := step_others hr hst (fun u ups e => hu ⟨u, ups, e⟩) (fun u e => hc ⟨u, e⟩)
  have hn := (step_nextId hi hst).1
  rw [hb]
  have : left rem (some 0) = rem := by
    have := h.nonneg
    simp only [left]; split <;> omega
  rw [this]
  refine ⟨by have := h.old; omega, ?_⟩
  rcases h.rest with ⟨hpos, o', ho', e1, e2⟩ | ⟨hz, hno⟩
  · exact .inl ⟨hpos, o', h1 o' ho' (by rw [e1]; exact hw), e1, e2⟩
  · refine .inr ⟨hz, fun x hx e => ?_⟩
    rcases h2 x hx with h3 | h3
    · exact hno x h3 e
    · have := h.old; omega

end Lfest
