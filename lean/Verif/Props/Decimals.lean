import Verif.Props.Priority
import Verif.SpecDecimals

/-!
# C109: more decimals change nothing but rounding
-/

namespace Lfest
open Spec

variable {n : Nat} {c c' : Cfg}

theorem ten_pos (n : Nat) : (0 : Int) < 10 ^ n := Int.pow_pos (by decide)

theorem Spec.MoreDecimals.scale (h : MoreDecimals n c c') : c'.scale = 10 ^ n * c.scale := by
  unfold Cfg.scale Env.scale
  rw [h.decimals, Nat.pow_add, Nat.mul_comm, Int.natCast_mul]
  congr 1

theorem signed_withMore (n : Nat) (f : Fill) : (f.withMore n).signed = 10 ^ n * f.signed := by
  unfold Fill.signed Fill.withMore
  cases f.side <;> simp [Int.mul_neg]

theorem netBought_withMore (n : Nat) (fs : List Fill) :
    netBought (fs.map (Fill.withMore n)) = 10 ^ n * netBought fs := by
  induction fs with
  | nil => simp [netBought]
  | cons f fs ih =>
    rw [List.map_cons]
    unfold netBought
    rw [ih, signed_withMore, Int.mul_add]

theorem abs_scale (n : Nat) (x : Int) : Spec.abs (10 ^ n * x) = 10 ^ n * Spec.abs x := by
  have h := ten_pos n
  unfold Spec.abs
  by_cases hx : 0 ≤ x
  · rw [if_pos hx, if_pos (Int.mul_nonneg (Int.le_of_lt h) hx)]
  · have := Int.mul_neg_of_pos_of_neg h (Int.not_le.mp hx)
    rw [if_neg hx, if_neg (by omega), Int.mul_neg]

theorem rounding_withMore (h : MoreDecimals n c c') (fs : List Fill) :
    profitRounding c' (fs.map (Fill.withMore n)) = 10 ^ n * profitRounding c fs := by
  induction fs with
  | nil => simp [profitRounding]
  | cons f fs ih =>
    have e := netBought_withMore n (f :: fs)
    rw [List.map_cons] at e ⊢
    unfold profitRounding
    rw [ih, e, abs_scale, h.scale]
    simp only [Int.mul_add, Int.mul_left_comm]

theorem marked_withMore (n : Nat) (p : Int) (fs : List Fill) :
    ((fs.map (Fill.withMore n)).map (fun f => f.signed * (10 ^ n * p - f.price))).sum =
      10 ^ n * (10 ^ n * (fs.map (fun f => f.signed * (p - f.price))).sum) := by
  induction fs with
  | nil => simp
  | cons f fs ih =>
    simp only [List.map_cons, List.sum_cons]
    rw [ih, signed_withMore]
    have : (f.withMore n).price = 10 ^ n * f.price := rfl
    rw [this]
    grind

/-- C109, quantity: two histories with the same fills, written with different numbers of decimals,
end with the same position. -/
theorem C109_quantity (n : Nat) (c c' : Cfg) (ops ops' : List Op) (s s' : State)
    (h : run c (State.init c) ops = .ok s) (h' : run c' (State.init c') ops' = .ok s')
    (hf : fills s'.log = (fills s.log).map (Fill.withMore n)) :
    s'.pos.quantity = 10 ^ n * s.pos.quantity := by
  rw [(C06_position_quantity c ops s h).1, (C06_position_quantity c' ops' s' h').1, hf,
    netBought_withMore]

/-- C109, profit: in a linear contract they have gained the same before fees at every mark price, up
to the rounding of the first and the (smaller) rounding of the second. -/
theorem C109_profit (n : Nat) (c c' : Cfg) (ops ops' : List Op) (s s' : State) (p : Int)
    (hc : MoreDecimals n c c') (hk : c.env.kind = .linear)
    (h : run c (State.init c) ops = .ok s) (h' : run c' (State.init c') ops' = .ok s')
    (hf : fills s'.log = (fills s.log).map (Fill.withMore n)) :
    Spec.abs (gainAt c' s' (10 ^ n * p) - 10 ^ n * (10 ^ n * gainAt c s p)) ≤
      10 ^ n * profitRounding c (fills s.log) + 10 ^ n * (10 ^ n * profitRounding c (fills s.log)) := by
  have e := C68_marked c ops s p hk h
  have e' := C68_marked c' ops' s' (10 ^ n * p) (hc.kind.trans hk) h'
  rw [hf, marked_withMore, rounding_withMore hc] at e'
  unfold gainAt
  generalize (equity s - c.start + s.feesPaid) * c.scale +
      s.pos.quantity * (p - s.pos.entryPrice) = g at *
  generalize (equity s' - c'.start + s'.feesPaid) * c'.scale +
      s'.pos.quantity * (10 ^ n * p - s'.pos.entryPrice) = g' at *
  generalize ((fills s.log).map (fun f => f.signed * (p - f.price))).sum = t at *
  generalize profitRounding c (fills s.log) = r at *
  have m : 10 ^ n * (10 ^ n * Spec.abs (g - t)) ≤ 10 ^ n * (10 ^ n * r) :=
    Int.mul_le_mul_of_nonneg_left
      (Int.mul_le_mul_of_nonneg_left e (Int.le_of_lt (ten_pos n))) (Int.le_of_lt (ten_pos n))
  rw [← abs_scale, ← abs_scale, Int.mul_sub, Int.mul_sub] at m
  generalize (10 : Int) ^ n * (10 ^ n * g) = G at *
  generalize (10 : Int) ^ n * (10 ^ n * t) = T at *
  unfold Spec.abs at *
  (repeat' split at e') <;> (repeat' split at m) <;> split <;> omega

/-- Rounding `k * a / b` down gives `k` times as much as rounding `a / b` down, and less than `k`
more. -/
theorem floor_scale {k a b : Int} (hk : 0 < k) (ha : 0 ≤ a) (hb : 0 < b) :
    k * a.tdiv b ≤ (k * a).tdiv b ∧ (k * a).tdiv b ≤ k * a.tdiv b + (k - 1) := by
  rw [Int.tdiv_eq_ediv_of_nonneg ha, Int.tdiv_eq_ediv_of_nonneg (Int.mul_nonneg (by omega) ha)]
  have e := Int.mul_ediv_add_emod a b
  have r := Int.emod_nonneg a (show b ≠ 0 by omega)
  have r' := Int.emod_lt_of_pos a hb
  generalize a / b = x at *
  generalize a % b = y at *
  subst e
  constructor
  · apply Int.le_ediv_of_mul_le hb
    have : k * (b * x + y) = k * x * b + k * y := by grind
    have := Int.mul_nonneg (Int.le_of_lt hk) r
    omega
  · apply Int.le_of_lt_add_one
    apply Int.ediv_lt_of_lt_mul hb
    have e1 : k * (b * x + y) = k * x * b + k * y := by grind
    have e2 : (k * x + (k - 1) + 1) * b = k * x * b + k * b := by grind
    have := Int.mul_lt_mul_of_pos_left r' hk
    omega

theorem value_withMore (hc : MoreDecimals n c c') {f : Fill} (hp : 0 < f.price) (hq : 0 < f.qty) :
    10 ^ n * value c.env f.qty f.price ≤ value c'.env (f.withMore n).qty (f.withMore n).price ∧
    value c'.env (f.withMore n).qty (f.withMore n).price ≤
      10 ^ n * value c.env f.qty f.price + (10 ^ n - 1) := by
  have hk := ten_pos n
  have hs : 0 < c.env.scale := scale_pos c.env
  have hs' : c'.env.scale = 10 ^ n * c.env.scale := hc.scale
  unfold value Fill.withMore
  rw [hc.kind, hs']
  cases c.env.kind with
  | linear =>
    dsimp only
    have : (10 ^ n * f.qty * (10 ^ n * f.price)) = 10 ^ n * (10 ^ n * (f.qty * f.price)) := by grind
    rw [this, Int.mul_tdiv_mul_of_pos _ _ hk]
    exact floor_scale hk (Int.le_of_lt (Int.mul_pos hq hp)) hs
  | inverse =>
    dsimp only
    have : (10 ^ n * f.qty * (10 ^ n * c.env.scale)) = 10 ^ n * (10 ^ n * (f.qty * c.env.scale)) := by
      grind
    rw [this, Int.mul_tdiv_mul_of_pos _ _ hk]
    exact floor_scale hk (Int.le_of_lt (Int.mul_pos hq hs)) hp

theorem share_withMore {k x x' r S : Int} (hk : 0 < k) (hS : 0 < S) (hx : 0 ≤ x) (hr : 0 ≤ r)
    (h1 : k * x ≤ x') (h2 : x' ≤ k * x + (k - 1)) :
    k * (x * r).tdiv S ≤ (x' * (k * r)).tdiv (k * S) ∧
    ((x' * (k * r)).tdiv (k * S) - k * (x * r).tdiv S) * S ≤ k * (S + r) := by
  have hx' : 0 ≤ x' := Int.le_trans (Int.mul_nonneg (Int.le_of_lt hk) hx) h1
  have e : x' * (k * r) = k * (x' * r) := by grind
  rw [e, Int.mul_tdiv_mul_of_pos _ _ hk, Int.tdiv_eq_ediv_of_nonneg (Int.mul_nonneg hx hr),
    Int.tdiv_eq_ediv_of_nonneg (Int.mul_nonneg hx' hr)]
  have d := Int.mul_ediv_add_emod (x * r) S
  have d0 := Int.emod_nonneg (x * r) (show S ≠ 0 by omega)
  have d1 := Int.emod_lt_of_pos (x * r) hS
  have d' := Int.mul_ediv_add_emod (x' * r) S
  have d0' := Int.emod_nonneg (x' * r) (show S ≠ 0 by omega)
  have lo := Int.mul_le_mul_of_nonneg_right h1 hr
  have hi := Int.mul_le_mul_of_nonneg_right h2 hr
  have m := Int.mul_le_mul_of_nonneg_left (Int.le_of_lt d1) (Int.le_of_lt hk)
  have z := Int.mul_nonneg (Int.le_of_lt hk) d0
  have e1 : k * x * r = k * (x * r / S) * S + k * (x * r % S) := by
    rw [Int.mul_assoc, ← d]
    grind
  have e2 : (k * x + (k - 1)) * r = k * x * r + k * r - r := by grind
  constructor
  · apply Int.le_ediv_of_mul_le hS
    omega
  · have e3 : (x' * r / S - k * (x * r / S)) * S = S * (x' * r / S) - k * (x * r / S) * S := by grind
    have e4 : k * (S + r) = k * S + k * r := Int.mul_add ..
    rw [e3, e4]
    omega

theorem feeSum_withMore (hc : MoreDecimals n c c') (hm : 0 ≤ c.spec.feeMaker)
    (ht : 0 ≤ c.spec.feeTaker) (fs : List Fill) (hf : ∀ f ∈ fs, 0 < f.price ∧ 0 < f.qty) :
    10 ^ n * feeSum c fs ≤ feeSum c' (fs.map (Fill.withMore n)) ∧
    (feeSum c' (fs.map (Fill.withMore n)) - 10 ^ n * feeSum c fs) * c.scale ≤
      fs.length * (10 ^ n * (c.scale + largerRate c)) := by
  induction fs with
  | nil => simp [feeSum]
  | cons f fs ih =>
    obtain ⟨i1, i2⟩ := ih (fun g hg => hf g (List.mem_cons_of_mem _ hg))
    obtain ⟨hp, hq⟩ := hf f (List.mem_cons_self ..)
    obtain ⟨v1, v2⟩ := value_withMore hc hp hq
    have hs : 0 < c.env.scale := scale_pos c.env
    have hv : 0 ≤ value c.env f.qty f.price := by
      unfold value
      cases c.env.kind with
      | linear =>
        exact Int.tdiv_nonneg (Int.le_of_lt (Int.mul_pos hq hp)) (Int.le_of_lt hs)
      | inverse =>
        exact Int.tdiv_nonneg (Int.le_of_lt (Int.mul_pos hq hs)) (Int.le_of_lt hp)
    have key : 10 ^ n * f.fee c ≤ (f.withMore n).fee c' ∧
        ((f.withMore n).fee c' - 10 ^ n * f.fee c) * c.scale ≤
          10 ^ n * (c.scale + largerRate c) := by
      have hs' : c'.env.scale = 10 ^ n * c.env.scale := hc.scale
      unfold Fill.fee share
      rw [hs']
      have hmk : (f.withMore n).maker = f.maker := rfl
      rw [hmk, hc.feeMaker, hc.feeTaker]
      by_cases hb : f.maker = true
      · rw [if_pos hb, if_pos hb]
        obtain ⟨a, b⟩ := share_withMore (ten_pos n) hs hv hm v1 v2
        refine ⟨a, Int.le_trans b (Int.mul_le_mul_of_nonneg_left ?_ (Int.le_of_lt (ten_pos n)))⟩
        unfold largerRate Cfg.scale
        split <;> omega
      · rw [if_neg hb, if_neg hb]
        obtain ⟨a, b⟩ := share_withMore (ten_pos n) hs hv ht v1 v2
        refine ⟨a, Int.le_trans b (Int.mul_le_mul_of_nonneg_left ?_ (Int.le_of_lt (ten_pos n)))⟩
        unfold largerRate Cfg.scale
        split <;> omega
    rw [List.map_cons, List.length_cons]
    unfold feeSum
    refine ⟨by rw [Int.mul_add]; omega, ?_⟩
    have e1 : ((f.withMore n).fee c' + feeSum c' (fs.map (Fill.withMore n)) -
        10 ^ n * (f.fee c + feeSum c fs)) * c.scale =
        ((f.withMore n).fee c' - 10 ^ n * f.fee c) * c.scale +
        (feeSum c' (fs.map (Fill.withMore n)) - 10 ^ n * feeSum c fs) * c.scale := by grind
    have e2 : ((fs.length + 1 : Nat) : Int) * (10 ^ n * (c.scale + largerRate c)) =
        fs.length * (10 ^ n * (c.scale + largerRate c)) + 10 ^ n * (c.scale + largerRate c) := by
      rw [Int.natCast_add, Int.add_mul]
      omega
    rw [e1, e2]
    omega

/-- C109, fees: with fee rates that are not negative, more decimals never charge less, and at most
`1 + rate` units in the last place of the coarser amounts more per fill. -/
theorem C109_fees (n : Nat) (c c' : Cfg) (ops ops' : List Op) (s s' : State)
    (hc : MoreDecimals n c c') (hm : 0 ≤ c.spec.feeMaker) (ht : 0 ≤ c.spec.feeTaker)
    (h : run c (State.init c) ops = .ok s) (h' : run c' (State.init c') ops' = .ok s')
    (hf : fills s'.log = (fills s.log).map (Fill.withMore n)) :
    10 ^ n * (s.feesPaid + s.pos.outstandingFees) ≤ s'.feesPaid + s'.pos.outstandingFees ∧
    (s'.feesPaid + s'.pos.outstandingFees - 10 ^ n * (s.feesPaid + s.pos.outstandingFees)) * c.scale
      ≤ (fills s.log).length * (10 ^ n * (c.scale + largerRate c)) := by
  have hk := Int.le_of_lt (ten_pos n)
  rw [C04_fee_schedule c ops s h hm ht, C04_fee_schedule c' ops' s' h'
    (by rw [hc.feeMaker]; exact Int.mul_nonneg hk hm)
    (by rw [hc.feeTaker]; exact Int.mul_nonneg hk ht), hf]
  exact feeSum_withMore hc hm ht _ (Reachable.fill_price ⟨ops, h⟩)

/-- C109, balances: once everything is closed, the balances of a linear contract differ by no more
than rounding, per fill `1 + rate` units in the last place of the coarser amounts besides the
rounding of the profit. -/
theorem C109_flat (n : Nat) (c c' : Cfg) (ops ops' : List Op) (s s' : State)
    (hc : MoreDecimals n c c') (hk : c.env.kind = .linear)
    (hm : 0 ≤ c.spec.feeMaker) (ht : 0 ≤ c.spec.feeTaker)
    (h : run c (State.init c) ops = .ok s) (h' : run c' (State.init c') ops' = .ok s')
    (hf : fills s'.log = (fills s.log).map (Fill.withMore n)) (hn : s.pos = .neutral) :
    s'.pos = .neutral ∧
    Spec.abs ((equity s' - 10 ^ n * equity s) * c.scale) ≤
      profitRounding c (fills s.log) + 10 ^ n * profitRounding c (fills s.log) +
      (fills s.log).length * (10 ^ n * (c.scale + largerRate c)) := by
  have hz : netBought (fills s.log) = 0 := (C06_position_quantity c ops s h).2.2.2.mpr hn
  have hn' : s'.pos = .neutral := by
    refine (C06_position_quantity c' ops' s' h').2.2.2.mp ?_
    rw [hf, netBought_withMore, hz, Int.mul_zero]
  refine ⟨hn', ?_⟩
  have hg := C109_profit n c c' ops ops' s s' 0 hc hk h h' hf
  obtain ⟨f1, f2⟩ := C109_fees n c c' ops ops' s s' hc hm ht h h' hf
  unfold gainAt at hg
  rw [hn, hn'] at hg f1 f2
  simp only [Position.quantity, Int.zero_mul, Int.add_zero, Position.outstandingFees] at hg f1 f2
  have e : (equity s' - c'.start + s'.feesPaid) * c'.scale -
      10 ^ n * (10 ^ n * ((equity s - c.start + s.feesPaid) * c.scale)) =
      10 ^ n * ((equity s' - 10 ^ n * equity s) * c.scale +
        (s'.feesPaid - 10 ^ n * s.feesPaid) * c.scale) := by
    rw [hc.scale, hc.start]
    grind
  rw [e, abs_scale, ← Int.mul_add] at hg
  have hg := Int.le_of_mul_le_mul_left hg (ten_pos n)
  have f1 : 0 ≤ (s'.feesPaid - 10 ^ n * s.feesPaid) * c.scale :=
    Int.mul_nonneg (by omega) (Int.le_of_lt (scale_pos c.env))
  generalize (s'.feesPaid - 10 ^ n * s.feesPaid) * c.scale = d at *
  generalize (equity s' - 10 ^ n * equity s) * c.scale = x at *
  generalize profitRounding c (fills s.log) + 10 ^ n * profitRounding c (fills s.log) = y at *
  unfold Spec.abs at *
  (repeat' split at hg) <;> split <;> omega

/-- `Ex.linR` with one more decimal. -/
def Ex.linR6 : Cfg :=
  ⟨⟨.linear, 6, false⟩, 1000000000, 10,
    ⟨1000000, 500000, .default 1000000, ⟨none, none, 10000⟩, 200, 600⟩, 3600⟩

/-- Buy 3 at 101, buy 4 at 95 by a limit order, sell 7 at 97, all in units of `1/k`. -/
def Ex.inUnits (k : Int) : List Op :=
  [.update (.bba ⟨100 * k, 101 * k, 1⟩), .market .buy (3 * k) 0, .limit .buy (95 * k) (4 * k) 1,
   .update (.trade ⟨2, 94 * k, 4 * k, .sell⟩), .update (.bba ⟨97 * k, 98 * k, 3⟩),
   .market .sell (7 * k) 0]

theorem Ex.linR6_more : MoreDecimals 1 Ex.linR Ex.linR6 := ⟨rfl, rfl, rfl, rfl, rfl⟩

/-- The hypotheses are met, and the balances do differ: the exact result is 995.3348, which six
decimals miss by 0.000004 and five decimals by 0.00006, the average price having been rounded. -/
theorem C109_rounding : ∃ s s',
    run Ex.linR (State.init Ex.linR) (Ex.inUnits 100000) = .ok s ∧
    run Ex.linR6 (State.init Ex.linR6) (Ex.inUnits 1000000) = .ok s' ∧
    fills s'.log = (fills s.log).map (Fill.withMore 1) ∧ (fills s.log).length = 3 ∧
    s.pos = .neutral ∧ equity s = 99533486 ∧ equity s' = 995334804 := by
  have h : (match run Ex.linR (State.init Ex.linR) (Ex.inUnits 100000),
        run Ex.linR6 (State.init Ex.linR6) (Ex.inUnits 1000000) with
      | .ok s, .ok s' => decide (fills s'.log = (fills s.log).map (Fill.withMore 1) ∧
        (fills s.log).length = 3 ∧ s.pos = .neutral ∧ equity s = 99533486 ∧ equity s' = 995334804)
      | _, _ => false) = true := by
    decide +kernel
  split at h
  · next s s' h1 h2 =>
    simp only [decide_eq_true_eq] at h
    exact ⟨s, s', h1, h2, h⟩
  · cases h

end Lfest
