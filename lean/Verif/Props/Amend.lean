import Verif.Lemmas.Ledger
import Verif.Examples

/-!
# Amending is cancelling and submitting again: C120
-/

namespace Lfest

open Spec

/-- Every call but `amend_limit_order`. -/
def isNoAmend : Op → Bool
  | .amend .. => false
  | _ => true

theorem total_of {n : Nat} {o : Limit} (h : OrderWF n o) :
    o.totalQuantity = .ok (o.remaining + o.filledQuantity) := by
  have hr := h.rem
  have hq := h.fq
  unfold Limit.totalQuantity Limit.filledQuantity
  cases hf : o.fq with
  | unfilled => simp [assertP, hr, bind, Except.bind]
  | filled x a =>
    have : 0 < o.remaining + x := by have := hq x a hf; omega
    simp [assertP, this, bind, Except.bind]

theorem cancel_succeeds {c : Cfg} {s s1 : State} {id : Nat} {old : Limit} {y}
    (hold : s.active.getById id = some old)
    (h : cancelLimit c s (.orderId id) = .ok (s1, y)) : ∃ x, y = .ok x := by
  obtain ⟨h1, h2⟩ := getById_some hold
  obtain ⟨_, ⟨h3, _, _⟩ | ⟨_, _, _, _, _, _, _, _, _, _, _, hh⟩⟩ := cancelLimit_ok h
  · have := (removeBy_none (p := fun o => o.id == id) (b := s.active)).1 h3 old h1
    simp [h2] at this
  · exact ⟨_, hh⟩

/-- C120: amending an active order of which `F` has been filled to a total quantity above `F` is
cancelling it and submitting a new one with the rest: same answer, same state in every respect, and
if one panics so does the other, for the same reason. -/
theorem C120_amend (c : Cfg) (s : State) (hs : Reachable c s) (old : Limit) (hold : old ∈ s.active)
    (side : Side) (price qty : Int) (uid : Nat) (hp : 0 < price) (hq : old.filledQuantity < qty) :
    step c s (.amend old.id side price qty uid) = (do
      let r ← step c s (.cancel (.orderId old.id))
      step c r.1 (.limit side price (qty - old.filledQuantity) uid)) := by
  have hi := hs.inv
  have hw := hi.orders old hold
  have hget : s.active.getById old.id = some old := getById_of_mem hi.nodup hold
  have h0 := hw.cum
  have e1 : old.remaining + (qty - (old.remaining + old.filledQuantity)) = qty - old.filledQuantity := by
    omega
  have e2 : ¬ qty - old.filledQuantity ≤ 0 := by omega
  have e3 : ¬ price ≤ 0 := by omega
  have e4 : ¬ qty ≤ 0 := by omega
  have e5 : qty - old.filledQuantity > 0 := by omega
  cases hc : cancelLimit c s (.orderId old.id) with
  | error p =>
    simp [step, NewLimit.new, e3, e4, amendLimit, hget, total_of hw, NewLimit.totalQuantity, e1, e2,
      NewLimit.setRemaining, assertP, hq, hc, bind, Except.bind]
  | ok r =>
    obtain ⟨s1, y⟩ := r
    obtain ⟨x, rfl⟩ := cancel_succeeds hget hc
    simp [step, NewLimit.new, e3, e4, amendLimit, hget, total_of hw, NewLimit.totalQuantity, e1, e2,
      NewLimit.setRemaining, assertP, hq, hc, bind, Except.bind]

/-- C120: amending an active order to a quantity that has been filled already is cancelling it; only
the answer differs. -/
theorem C120_amend_filled (c : Cfg) (s : State) (hs : Reachable c s) (old : Limit)
    (hold : old ∈ s.active) (side : Side) (price qty : Int) (uid : Nat) (hp : 0 < price)
    (h1 : 0 < qty) (hq : qty ≤ old.filledQuantity) :
    step c s (.amend old.id side price qty uid) = (do
      let r ← step c s (.cancel (.orderId old.id))
      .ok (r.1, .limit (.error .amendQtyAlreadyFilled))) := by
  have hi := hs.inv
  have hw := hi.orders old hold
  have hget : s.active.getById old.id = some old := getById_of_mem hi.nodup hold
  have e1 : old.remaining + (qty - (old.remaining + old.filledQuantity)) = qty - old.filledQuantity := by
    omega
  have e2 : qty - old.filledQuantity ≤ 0 := by omega
  have e3 : ¬ price ≤ 0 := by omega
  have e4 : ¬ qty ≤ 0 := by omega
  cases hc : cancelLimit c s (.orderId old.id) with
  | error p =>
    simp [step, NewLimit.new, e3, e4, amendLimit, hget, total_of hw, NewLimit.totalQuantity, e1, e2,
      hc, bind, Except.bind]
  | ok r =>
    obtain ⟨s1, y⟩ := r
    obtain ⟨x, rfl⟩ := cancel_succeeds hget hc
    simp [step, NewLimit.new, e3, e4, amendLimit, hget, total_of hw, NewLimit.totalQuantity, e1, e2,
      hc, bind, Except.bind]

/-- C120: nobody needs amendments. Whatever can be reached with them can be reached without, down to
the last counter of the account tracker, by a history that has all other calls in the same order. -/
theorem C120_never_needed (c : Cfg) (ops : List Op) (s : State)
    (h : run c (State.init c) ops = .ok s) :
    ∃ ops', run c (State.init c) ops' = .ok s ∧ (∀ id sd p q u, .amend id sd p q u ∉ ops') ∧
      (ops.filter isNoAmend).Sublist ops' := by
  suffices hh : ∀ s0, Reachable c s0 → run c s0 ops = .ok s →
      ∃ ops', run c s0 ops' = .ok s ∧ (∀ id sd p q u, .amend id sd p q u ∉ ops') ∧
        (ops.filter isNoAmend).Sublist ops' from
    hh _ ⟨[], rfl⟩ h
  clear h
  induction ops with
  | nil => intro s0 _ h; exact ⟨[], h, by simp, by simp⟩
  | cons op ops ih =>
    intro s0 hr h
    simp only [run, bind_ok] at h
    obtain ⟨⟨s1, r⟩, h1, h2⟩ := h
    obtain ⟨l, l1, l2, l3⟩ := ih s1 (hr.step h1) h2
    have keep : (∀ id sd p q u, op ≠ .amend id sd p q u) →
        ∃ ops', run c s0 ops' = .ok s ∧ (∀ id sd p q u, .amend id sd p q u ∉ ops') ∧
          ((op :: ops).filter isNoAmend).Sublist ops' := by
      intro hne
      refine ⟨op :: l, ?_, ?_, ?_⟩
      · simp only [run, bind_ok]; exact ⟨_, h1, l1⟩
      · intro id sd p q u hm
        rcases List.mem_cons.1 hm with hm | hm
        · exact hne _ _ _ _ _ hm.symm
        · exact l2 _ _ _ _ _ hm
      · rw [List.filter_cons]
        split
        · exact l3.cons_cons _
        · exact l3.cons _
    cases op with
    | amend id sd p q u =>
      have drop : ((Op.amend id sd p q u :: ops).filter isNoAmend)
          = ops.filter isNoAmend := by rfl
      rw [drop]
      by_cases hp : p ≤ 0
      · have : s1 = s0 := by
          simp [step, NewLimit.new, hp] at h1; exact h1.1.symm
        subst this; exact ⟨l, l1, l2, l3⟩
      by_cases hq : q ≤ 0
      · have : s1 = s0 := by
          simp [step, NewLimit.new, hp, hq] at h1; exact h1.1.symm
        subst this; exact ⟨l, l1, l2, l3⟩
      cases hg : s0.active.getById id with
      | none =>
        have : s1 = s0 := by
          simp [step, NewLimit.new, hp, hq, amendLimit, hg, bind, Except.bind] at h1; exact h1.1.symm
        subst this; exact ⟨l, l1, l2, l3⟩
      | some old =>
        obtain ⟨hm, hid⟩ := getById_some hg
        subst hid
        by_cases hf : old.filledQuantity < q
        · rw [C120_amend c s0 hr old hm sd p q u (by omega) hf, bind_ok] at h1
          obtain ⟨⟨s2, r2⟩, h3, h4⟩ := h1
          refine ⟨.cancel (.orderId old.id) :: .limit sd p (q - old.filledQuantity) u :: l, ?_, ?_, ?_⟩
          · simp only [run, bind_ok]; exact ⟨_, h3, _, h4, l1⟩
          · intro id sd p q u hm
            simp only [List.mem_cons, reduceCtorEq, false_or] at hm
            exact l2 _ _ _ _ _ hm
          · exact (l3.cons _).cons _
        · rw [C120_amend_filled c s0 hr old hm sd p q u (by omega) (by omega) (by omega), bind_ok] at h1
          obtain ⟨⟨s2, r2⟩, h3, h4⟩ := h1
          simp only [ok_inj, Prod.mk.injEq] at h4
          obtain ⟨rfl, _⟩ := h4
          refine ⟨.cancel (.orderId old.id) :: l, ?_, ?_, ?_⟩
          · simp only [run, bind_ok]; exact ⟨_, h3, l1⟩
          · intro id sd p q u hm
            simp only [List.mem_cons, reduceCtorEq, false_or] at hm
            exact l2 _ _ _ _ _ hm
          · exact l3.cons _
    | _ => exact keep (by simp)

/-- Non-vacuity: an order for three of which two are filled is amended to six (four are left), and to
two (nothing is left). -/
example : Ex.after Ex.lin Ex.ops2 (fun s => s.active.any fun o =>
    decide (o.id = 1 ∧ o.filledQuantity = Ex.d 2 ∧ o.remaining = Ex.d 1)) = true ∧
    Ex.last Ex.lin Ex.ops2 (.amend 1 .sell (Ex.d 112) (Ex.d 6) 5) (fun _ s' _ =>
      s'.active.any fun o => decide (o.id ≠ 1 ∧ o.remaining = Ex.d 4)) = true ∧
    Ex.last Ex.lin (Ex.ops2 ++ [.cancel (.orderId 1)]) (.limit .sell (Ex.d 112) (Ex.d 4) 5) (fun _ s' _ =>
      s'.active.any fun o => decide (o.id ≠ 1 ∧ o.remaining = Ex.d 4)) = true ∧
    Ex.last Ex.lin Ex.ops2 (.amend 1 .sell (Ex.d 112) (Ex.d 2) 5) (fun _ s' r =>
      decide (r = .limit (.error .amendQtyAlreadyFilled) ∧ s'.active.length = 1)) = true := by
  decide +kernel

end Lfest
