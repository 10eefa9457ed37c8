import Verif.Props.Priority
import Verif.SpecParts

/-!
# C111: strategies add up

Several strategies that trade the same contract, each on an account of its own, or all of them on one
account: if the fills are the same, so is the result, up to rounding, in linear contracts.
-/

namespace Lfest
open Spec

variable {c : Cfg} {parts : List SubAccount}

theorem Spec.SameContract.scale {c c' : Cfg} (h : SameContract c c') : c'.scale = c.scale := by
  unfold Cfg.scale Env.scale
  rw [h.decimals]

theorem Spec.SameContract.fee {c c' : Cfg} (h : SameContract c c') (f : Fill) :
    f.fee c' = f.fee c := by
  have hs : c'.env.scale = c.env.scale := h.scale
  have hv : value c'.env f.qty f.price = value c.env f.qty f.price := by
    unfold value
    rw [h.kind, hs]
  unfold Fill.fee share
  rw [hv, hs, h.feeMaker, h.feeTaker]

theorem Spec.SameContract.feeSum {c c' : Cfg} (h : SameContract c c') (fs : List Fill) :
    feeSum c' fs = feeSum c fs := by
  induction fs with
  | nil => rfl
  | cons f fs ih => unfold Spec.feeSum; rw [h.fee, ih]

theorem netBought_append (fs gs : List Fill) :
    netBought (fs ++ gs) = netBought fs + netBought gs := by
  induction fs with
  | nil => simp [netBought]
  | cons f fs ih => simp only [List.cons_append, netBought, ih]; omega

theorem feeSum_append (c : Cfg) (fs gs : List Fill) :
    feeSum c (fs ++ gs) = feeSum c fs + feeSum c gs := by
  induction fs with
  | nil => simp [feeSum]
  | cons f fs ih => simp only [List.cons_append, feeSum, ih]; omega

theorem boughtAndSold_append (fs gs : List Fill) :
    boughtAndSold (fs ++ gs) = boughtAndSold fs + boughtAndSold gs := by
  induction fs with
  | nil => simp [boughtAndSold]
  | cons f fs ih => simp only [List.cons_append, boughtAndSold, ih]; omega

theorem anyOrderRounding_append (c : Cfg) (fs gs : List Fill) :
    anyOrderRounding c fs + anyOrderRounding c gs ≤ anyOrderRounding c (fs ++ gs) := by
  unfold anyOrderRounding
  rw [List.length_append, boughtAndSold_append, Int.natCast_add]
  have h1 := Int.mul_nonneg (Int.natCast_nonneg fs.length) (boughtAndSold_nonneg gs)
  have h2 := Int.mul_nonneg (Int.natCast_nonneg gs.length) (boughtAndSold_nonneg fs)
  grind

/-- C111, quantity and fees: the position of the common account is the sum of the positions of the
accounts that have the same fills between them, and with fee rates that are not negative it has been
charged as much as all of them. -/
theorem C111_quantity_and_fees (c : Cfg) (s : State) (parts : List SubAccount) (hr : Reachable c s)
    (ha : Separate c parts) (hp : (fills s.log).Perm (allFills parts)) :
    s.pos.quantity = (parts.map fun a => a.2.pos.quantity).sum ∧
    (0 ≤ c.spec.feeMaker → 0 ≤ c.spec.feeTaker →
      s.feesPaid + s.pos.outstandingFees =
        (parts.map fun a => a.2.feesPaid + a.2.pos.outstandingFees).sum) := by
  obtain ⟨ops, h⟩ := hr
  constructor
  · rw [(C06_position_quantity c ops s h).1, netBought_perm hp]
    clear hp
    induction parts with
    | nil => rfl
    | cons a as ih =>
      obtain ⟨_, ops', h'⟩ := ha a (by simp)
      have e : allFills (a :: as) = fills a.2.log ++ allFills as := rfl
      rw [e, netBought_append, ih (fun b hb => ha b (by simp [hb])),
        ← (C06_position_quantity _ ops' _ h').1]
      rfl
  · intro hm ht
    rw [C04_fee_schedule c ops s h hm ht, feeSum_perm hp]
    clear hp
    induction parts with
    | nil => rfl
    | cons a as ih =>
      obtain ⟨hc, ops', h'⟩ := ha a (by simp)
      have e : allFills (a :: as) = fills a.2.log ++ allFills as := rfl
      rw [e, feeSum_append, ih (fun b hb => ha b (by simp [hb])), ← hc.feeSum,
        ← C04_fee_schedule _ ops' _ h' (hc.feeMaker ▸ hm) (hc.feeTaker ▸ ht)]
      rfl

theorem gains_sum (hk : c.env.kind = .linear) (ha : Separate c parts) (p : Int) :
    Spec.abs ((parts.map fun a => gainAt a.1 a.2 p).sum -
      ((allFills parts).map (fun f => f.signed * (p - f.price))).sum) ≤
      anyOrderRounding c (allFills parts) := by
  induction parts with
  | nil => simp [allFills, anyOrderRounding, Spec.abs]
  | cons a as ih =>
    obtain ⟨hc, ops', h'⟩ := ha a (by simp)
    have ih := ih (fun b hb => ha b (by simp [hb]))
    have e : allFills (a :: as) = fills a.2.log ++ allFills as := rfl
    have h1 := C68_marked a.1 ops' a.2 p (hc.kind.trans hk) h'
    have h2 := rounding_le a.1 (fills a.2.log)
    have h3 : anyOrderRounding a.1 (fills a.2.log) = anyOrderRounding c (fills a.2.log) := by
      unfold anyOrderRounding; rw [hc.scale]
    have h4 := anyOrderRounding_append c (fills a.2.log) (allFills as)
    have h5 : gainAt a.1 a.2 p = (equity a.2 - a.1.start + a.2.feesPaid) * a.1.scale +
      a.2.pos.quantity * (p - a.2.pos.entryPrice) := rfl
    rw [e, List.map_append, List.sum_append, List.map_cons, List.sum_cons, h5]
    unfold Spec.abs at *
    (repeat' split at h1) <;> (repeat' split at ih) <;> split <;> omega

/-- C111, profit: in a linear contract the common account has gained, at any mark price, what the
accounts have gained that have the same fills between them, up to an allowance for rounding. -/
theorem C111_profit (c : Cfg) (s : State) (parts : List SubAccount) (p : Int)
    (hk : c.env.kind = .linear) (hr : Reachable c s) (ha : Separate c parts)
    (hp : (fills s.log).Perm (allFills parts)) :
    Spec.abs (gainAt c s p - (parts.map fun a => gainAt a.1 a.2 p).sum) ≤
      2 * anyOrderRounding c (fills s.log) := by
  obtain ⟨ops, h⟩ := hr
  have e1 := C68_marked c ops s p hk h
  have e2 := gains_sum hk ha p
  have r1 := rounding_le c (fills s.log)
  have hr : anyOrderRounding c (allFills parts) = anyOrderRounding c (fills s.log) := by
    unfold anyOrderRounding
    rw [boughtAndSold_perm hp, hp.length_eq]
  have hsum : ((fills s.log).map (fun f => f.signed * (p - f.price))).sum =
      ((allFills parts).map (fun f => f.signed * (p - f.price))).sum := sum_perm (hp.map _)
  rw [hsum] at e1
  have e3 : gainAt c s p = (equity s - c.start + s.feesPaid) * c.scale +
      s.pos.quantity * (p - s.pos.entryPrice) := rfl
  rw [e3]
  unfold Spec.abs at *
  (repeat' split at e1) <;> (repeat' split at e2) <;> split <;> omega

/-- Buys 1 at 101 and sells it at 150. -/
def Ex.strategyA (q : Int) : List Op :=
  [Ex.q 100 101 1, .market .buy (Ex.d q) 0, Ex.q 150 151 2, .market .sell (Ex.d q) 0]

/-- Buys 1 at 201 and sells it at 150. -/
def Ex.strategyB (q : Int) : List Op :=
  [Ex.q 200 201 1, .market .buy (Ex.d q) 0, Ex.q 150 151 2, .market .sell (Ex.d q) 0]

/-- The same trades on one account. -/
def Ex.together (q : Int) : List Op :=
  [Ex.q 100 101 1, .market .buy (Ex.d q) 0, Ex.q 200 201 2, .market .buy (Ex.d q) 0,
   Ex.q 150 151 3, .market .sell (Ex.d q) 0, .market .sell (Ex.d q) 0]

/-- Do three runs succeed, with the given property? -/
def Ex.threeRuns (c : Cfg) (ops1 ops2 ops3 : List Op) (p : State → State → State → Bool) : Bool :=
  match run c (State.init c) ops1, run c (State.init c) ops2, run c (State.init c) ops3 with
  | .ok s1, .ok s2, .ok s3 => p s1 s2 s3
  | _, _, _ => false

theorem Ex.three_runs {c : Cfg} {ops1 ops2 ops3 : List Op} {p : State → State → State → Bool}
    (h : Ex.threeRuns c ops1 ops2 ops3 p = true) :
    ∃ s1 s2 s3, Reachable c s1 ∧ Reachable c s2 ∧ Reachable c s3 ∧ p s1 s2 s3 = true := by
  unfold Ex.threeRuns at h
  split at h
  · next s1 s2 s3 e1 e2 e3 => exact ⟨s1, s2, s3, ⟨_, e1⟩, ⟨_, e2⟩, ⟨_, e3⟩, h⟩
  · cases h

/-- The hypotheses are met: together the strategies earn what they earn apart, a loss of 2 before
fees. -/
example : ∃ s a b, Reachable Ex.linR s ∧ Separate Ex.linR [(Ex.linR, a), (Ex.linR, b)] ∧
    (fills s.log).Perm (allFills [(Ex.linR, a), (Ex.linR, b)]) ∧ (fills s.log).length = 4 ∧
    gainAt Ex.linR s 0 = -2 * Ex.linR.scale * Ex.linR.scale ∧
    gainAt Ex.linR a 0 + gainAt Ex.linR b 0 = gainAt Ex.linR s 0 := by
  have h : Ex.threeRuns Ex.linR (Ex.together 1) (Ex.strategyA 1) (Ex.strategyB 1) (fun s a b =>
      decide ((fills s.log).Perm (allFills [(Ex.linR, a), (Ex.linR, b)]) ∧
        (fills s.log).length = 4 ∧
        gainAt Ex.linR s 0 = -2 * Ex.linR.scale * Ex.linR.scale ∧
        gainAt Ex.linR a 0 + gainAt Ex.linR b 0 = gainAt Ex.linR s 0)) = true := by
    decide +kernel
  obtain ⟨s, a, b, e1, e2, e3, h⟩ := Ex.three_runs h
  simp only [decide_eq_true_eq] at h
  refine ⟨s, a, b, e1, ?_, h⟩
  intro x hx
  simp only [List.mem_cons, List.not_mem_nil, or_false] at hx
  rcases hx with rfl | rfl
  · exact ⟨⟨rfl, rfl, rfl, rfl⟩, e2⟩
  · exact ⟨⟨rfl, rfl, rfl, rfl⟩, e3⟩

/-- In inverse contracts strategies do not add up: two that have gained 1.54 between them on their own
accounts have lost 0.09 on a common one, with the same fills and before fees. -/
theorem C111_inverse : ∃ s a b, Reachable Ex.invR s ∧
    Separate Ex.invR [(Ex.invR, a), (Ex.invR, b)] ∧
    (fills s.log).Perm (allFills [(Ex.invR, a), (Ex.invR, b)]) ∧
    s.pos = .neutral ∧ a.pos = .neutral ∧ b.pos = .neutral ∧
    (equity a - Ex.invR.start + a.feesPaid) + (equity b - Ex.invR.start + b.feesPaid) = 154279 ∧
    equity s - Ex.invR.start + s.feesPaid = -8830 := by
  have h : Ex.threeRuns Ex.invR (Ex.together 1000) (Ex.strategyA 1000) (Ex.strategyB 1000)
      (fun s a b =>
      decide ((fills s.log).Perm (allFills [(Ex.invR, a), (Ex.invR, b)]) ∧
        s.pos = .neutral ∧ a.pos = .neutral ∧ b.pos = .neutral ∧
        (equity a - Ex.invR.start + a.feesPaid) + (equity b - Ex.invR.start + b.feesPaid) = 154279 ∧
        equity s - Ex.invR.start + s.feesPaid = -8830)) = true := by
    decide +kernel
  obtain ⟨s, a, b, e1, e2, e3, h⟩ := Ex.three_runs h
  simp only [decide_eq_true_eq] at h
  refine ⟨s, a, b, e1, ?_, h⟩
  intro x hx
  simp only [List.mem_cons, List.not_mem_nil, or_false] at hx
  rcases hx with rfl | rfl
  · exact ⟨⟨rfl, rfl, rfl, rfl⟩, e2⟩
  · exact ⟨⟨rfl, rfl, rfl, rfl⟩, e3⟩

end Lfest
