import Verif.Props.Priority
import Verif.SpecUnits

/-!
# C112: a change of units changes nothing but rounding
-/

namespace Lfest
open Spec

variable {c : Cfg} {k : Int}

theorem value_resized (hk : 0 < k) {f f' : Fill} (h : Resized c k f f') :
    value c.env f'.qty f'.price = value c.env f.qty f.price := by
  obtain ⟨_, _, hq, hp⟩ := h
  unfold value
  cases hkd : c.env.kind with
  | linear =>
    simp only [hkd] at hp ⊢
    rw [hq, hp, Int.mul_comm k f.qty, Int.mul_assoc]
  | inverse =>
    simp only [hkd] at hp ⊢
    rw [hq, hp, Int.mul_assoc]
    exact Int.mul_tdiv_mul_of_pos _ _ hk

theorem allResized_sums (hk : 0 < k) {fs fs' : List Fill} (h : allResized c k fs fs') :
    netBought fs' = k * netBought fs ∧ feeSum c fs' = feeSum c fs := by
  induction fs generalizing fs' with
  | nil =>
    cases fs' with
    | nil => simp [netBought, feeSum]
    | cons _ _ => exact h.elim
  | cons f fs ih =>
    cases fs' with
    | nil => exact h.elim
    | cons f' fs' =>
      obtain ⟨h1, h2⟩ := h
      obtain ⟨i1, i2⟩ := ih h2
      have hf : f'.fee c = f.fee c := by
        unfold Fill.fee
        rw [value_resized hk h1, h1.1]
      have hs : f'.signed = k * f.signed := by
        unfold Fill.signed
        rw [h1.2.1, h1.2.2.1]
        cases f.side <;> simp [Int.mul_neg]
      refine ⟨?_, ?_⟩
      · simp only [netBought, i1, hs, Int.mul_add]
      · simp only [feeSum, i2, hf]

theorem allResized_gains (hl : c.env.kind = .linear) (p : Int) {fs fs' : List Fill}
    (h : allResized c k fs fs') :
    (fs'.map fun f => f.signed * (p - f.price)).sum =
      (fs.map fun f => f.signed * (k * p - f.price)).sum := by
  induction fs generalizing fs' with
  | nil =>
    cases fs' with
    | nil => rfl
    | cons _ _ => exact h.elim
  | cons f fs ih =>
    cases fs' with
    | nil => exact h.elim
    | cons f' fs' =>
      obtain ⟨⟨_, h1, h2, h3⟩, h4⟩ := h
      simp only [hl] at h3
      have hs : f'.signed = f.signed * k := by
        unfold Fill.signed
        rw [h1, h2]
        cases f.side <;> simp [Int.mul_comm k, Int.neg_mul]
      simp only [List.map_cons, List.sum_cons, ih h4]
      rw [hs, h3, Int.mul_assoc, Int.mul_sub k]

/-- C112, quantity and fees: after a change of units there are `k` times as many contracts in the
position, and with fee rates that are not negative the fees are exactly the same. -/
theorem C112_quantity_and_fees (c : Cfg) (s s' : State) (k : Int) (hk : 0 < k)
    (hr : Reachable c s) (hr' : Reachable c s')
    (hf : allResized c k (fills s.log) (fills s'.log)) :
    s'.pos.quantity = k * s.pos.quantity ∧
    (0 ≤ c.spec.feeMaker → 0 ≤ c.spec.feeTaker →
      s'.feesPaid + s'.pos.outstandingFees = s.feesPaid + s.pos.outstandingFees) := by
  obtain ⟨ops, h⟩ := hr
  obtain ⟨ops', h'⟩ := hr'
  obtain ⟨e1, e2⟩ := allResized_sums hk hf
  refine ⟨?_, fun hm ht => ?_⟩
  · rw [(C06_position_quantity c ops s h).1, (C06_position_quantity c ops' s' h').1, e1]
  · rw [C04_fee_schedule c ops s h hm ht, C04_fee_schedule c ops' s' h' hm ht, e2]

/-- C112, profit: in a linear contract the gain before fees is the same at every mark price, up to
what rounding may take. -/
theorem C112_profit (c : Cfg) (s s' : State) (k p : Int) (hl : c.env.kind = .linear)
    (hr : Reachable c s) (hr' : Reachable c s')
    (hf : allResized c k (fills s.log) (fills s'.log)) :
    Spec.abs (gainAt c s' p - gainAt c s (k * p)) ≤
      profitRounding c (fills s'.log) + profitRounding c (fills s.log) := by
  obtain ⟨ops, h⟩ := hr
  obtain ⟨ops', h'⟩ := hr'
  have e1 := C68_marked c ops s (k * p) hl h
  have e2 := C68_marked c ops' s' p hl h'
  rw [allResized_gains hl p hf] at e2
  unfold gainAt
  unfold Spec.abs at *
  (repeat' split at e1) <;> (repeat' split at e2) <;> split <;> omega

/-- C112, flat: … so the balances of accounts that are flat are the same up to rounding. -/
theorem C112_flat (c : Cfg) (s s' : State) (k : Int) (hk : 0 < k) (hl : c.env.kind = .linear)
    (hm : 0 ≤ c.spec.feeMaker) (ht : 0 ≤ c.spec.feeTaker) (hr : Reachable c s)
    (hr' : Reachable c s') (hf : allResized c k (fills s.log) (fills s'.log))
    (hn : s.pos = .neutral) :
    s'.pos = .neutral ∧ s'.feesPaid = s.feesPaid ∧
    Spec.abs ((equity s' - equity s) * c.scale) ≤
      profitRounding c (fills s'.log) + profitRounding c (fills s.log) := by
  obtain ⟨e1, _⟩ := allResized_sums hk hf
  have n' : s'.pos = .neutral := by
    obtain ⟨ops, h⟩ := hr
    obtain ⟨ops', h'⟩ := hr'
    refine (C06_position_quantity c ops' s' h').2.2.2.mp ?_
    rw [e1, (C06_position_quantity c ops s h).2.2.2.mpr hn, Int.mul_zero]
  have hfe := (C112_quantity_and_fees c s s' k hk hr hr' hf).2 hm ht
  have hg := C112_profit c s s' k 0 hl hr hr' hf
  rw [hn, n'] at hfe
  simp only [Position.outstandingFees, Int.add_zero] at hfe
  refine ⟨n', hfe, ?_⟩
  unfold gainAt at hg
  rw [hn, n', hfe] at hg
  simp only [Position.quantity, Int.zero_mul, Int.add_zero] at hg
  rw [← Int.sub_mul] at hg
  have e : equity s' - c.start + s.feesPaid - (equity s - c.start + s.feesPaid) =
      equity s' - equity s := by omega
  rwa [e] at hg

instance (c : Cfg) (k : Int) (f f' : Fill) : Decidable (Resized c k f f') := by
  unfold Resized
  cases c.env.kind <;> infer_instance

instance decAllResized (c : Cfg) (k : Int) : (fs fs' : List Fill) → Decidable (allResized c k fs fs')
  | [], [] => .isTrue trivial
  | f :: fs, f' :: fs' =>
    have := decAllResized c k fs fs'
    inferInstanceAs (Decidable (Resized c k f f' ∧ allResized c k fs fs'))
  | [], _ :: _ => .isFalse id
  | _ :: _, [] => .isFalse id

/-- Three contracts, bought at 300 and 303 and sold at 330. -/
def Ex.beforeSplit : List Op :=
  [Ex.q 297 300 1, .market .buy (Ex.d 1) 0, Ex.q 297 303 2, .market .buy (Ex.d 2) 0,
   Ex.q 330 333 3, .market .sell (Ex.d 3) 0]

/-- The same after a split of three to one. -/
def Ex.afterSplit : List Op :=
  [Ex.q 99 100 1, .market .buy (Ex.d 3) 0, Ex.q 99 101 2, .market .buy (Ex.d 6) 0,
   Ex.q 110 111 3, .market .sell (Ex.d 9) 0]

/-- The hypotheses are met, and the balances do differ: the average price 302 is not rounded, a third of
it is. -/
theorem C112_rounding : ∃ s s', Reachable Ex.linR s ∧ Reachable Ex.linR s' ∧
    allResized Ex.linR 3 (fills s.log) (fills s'.log) ∧ (fills s.log).length = 3 ∧
    s.pos = .neutral ∧ equity s = 108286240 ∧ equity s' = 108286246 := by
  have h : Ex.twoRuns Ex.linR Ex.beforeSplit Ex.afterSplit (fun s s' =>
      decide (allResized Ex.linR 3 (fills s.log) (fills s'.log) ∧ (fills s.log).length = 3 ∧
        s.pos = .neutral ∧ equity s = 108286240 ∧ equity s' = 108286246)) = true := by
    decide +kernel
  obtain ⟨s, s', e, e', h⟩ := Ex.two_runs h
  simp only [decide_eq_true_eq] at h
  exact ⟨s, s', ⟨_, e⟩, ⟨_, e'⟩, h⟩

/-- The same for `C112_quantity_and_fees` in an inverse contract. -/
example : ∃ s s', Reachable Ex.invR s ∧ Reachable Ex.invR s' ∧
    allResized Ex.invR 3 (fills s.log) (fills s'.log) ∧ (fills s.log).length = 3 ∧
    s.pos.quantity = Ex.d 2000 ∧ s'.pos.quantity = Ex.d 6000 ∧ s.feesPaid = 2333 := by
  have h : Ex.twoRuns Ex.invR
      [Ex.q 99 100 1, .market .buy (Ex.d 1000) 0, Ex.q 99 101 2, .market .buy (Ex.d 2000) 0,
        Ex.q 110 111 3, .market .sell (Ex.d 1000) 0]
      [Ex.q 297 300 1, .market .buy (Ex.d 3000) 0, Ex.q 297 303 2, .market .buy (Ex.d 6000) 0,
        Ex.q 330 333 3, .market .sell (Ex.d 3000) 0] (fun s s' =>
      decide (allResized Ex.invR 3 (fills s.log) (fills s'.log) ∧ (fills s.log).length = 3 ∧
        s.pos.quantity = Ex.d 2000 ∧ s'.pos.quantity = Ex.d 6000 ∧ s.feesPaid = 2333)) = true := by
    decide +kernel
  obtain ⟨s, s', e, e', h⟩ := Ex.two_runs h
  simp only [decide_eq_true_eq] at h
  exact ⟨s, s', ⟨_, e⟩, ⟨_, e'⟩, h⟩

end Lfest
