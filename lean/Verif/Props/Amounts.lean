import Verif.Model.Amount
import Verif.Examples
import Verif.Lemmas.Ledger

/-!
# Conversions between the two currencies: C94
-/

namespace Lfest

/-- Bounds of a rounded quotient. -/
theorem quotient_bounds {x s : Int} (hx : 0 ≤ x) (hs : 0 < s) :
    0 ≤ x.tdiv s ∧ x.tdiv s * s ≤ x ∧ x < (x.tdiv s + 1) * s := by
  rw [Int.tdiv_eq_ediv_of_nonneg hx]
  have h1 := Int.ediv_mul_le x (Int.ne_of_gt hs)
  have h2 := Int.lt_ediv_add_one_mul_self x hs
  exact ⟨Int.ediv_nonneg hx (Int.le_of_lt hs), h1, h2⟩

/-- C94: a conversion at a positive price always succeeds; it never gives more than the exact amount,
and less than one unit of the last decimal place less. -/
theorem C94_convert (e : Env) (q p : Int) (hq : 0 ≤ q) (hp : 0 < p) :
    ∃ v, convert e q p = .ok v ∧ 0 ≤ v ∧
      (e.kind = .linear → v * e.scale ≤ q * p ∧ q * p < (v + 1) * e.scale) ∧
      (e.kind = .inverse → v * p ≤ q * e.scale ∧ q * e.scale < (v + 1) * p) := by
  have hs := scale_pos e
  unfold convert
  cases hk : e.kind with
  | linear =>
    obtain ⟨a, b, c⟩ := quotient_bounds (Int.mul_nonneg hq (Int.le_of_lt hp)) hs
    exact ⟨_, rfl, a, fun _ => ⟨b, c⟩, by simp⟩
  | inverse =>
    obtain ⟨a, b, c⟩ := quotient_bounds (Int.mul_nonneg hq (Int.le_of_lt hs)) hp
    refine ⟨(q * e.scale).tdiv p, ?_, a, by simp, fun _ => ⟨b, c⟩⟩
    simp only [ddiv, if_neg (Int.ne_of_gt hp)]

/-- C94: what is sold short costs what is bought: a negative amount is worth minus the positive one. -/
theorem C94_convert_negative (e : Env) (q p v : Int) (h : convert e q p = .ok v) :
    convert e (-q) p = .ok (-v) := by
  unfold convert dmul ddiv at *
  cases hk : e.kind with
  | linear =>
    simp only [hk, ok_inj] at h ⊢
    rw [Int.neg_mul, Int.neg_tdiv, h]
  | inverse =>
    simp only [hk] at h ⊢
    split at h
    · cases h
    · next h0 =>
      simp only [ok_inj] at h
      rw [if_neg h0, Int.neg_mul, Int.neg_tdiv, h]

/-- C94: the exchange of an amount into the other currency and back at the same price never yields more
than there was, and loses less than one unit of each currency. -/
theorem C94_there_and_back (e : Env) (q p v q' : Int) (hq : 0 ≤ q) (hp : 0 < p)
    (h : convert e q p = .ok v) (h' : convertBack e v p = .ok q') :
    0 ≤ q' ∧ q' ≤ q ∧
      (e.kind = .linear → (q - q') * p < e.scale + p) ∧
      (e.kind = .inverse → (q - q') * e.scale < p + e.scale) := by
  have hs := scale_pos e
  obtain ⟨w, hw, h0, h1, h2⟩ := C94_convert e q p hq hp
  rw [h] at hw
  cases hw
  unfold convertBack at h'
  cases hk : e.kind with
  | linear =>
    simp only [hk, ddiv, if_neg (Int.ne_of_gt hp), ok_inj] at h'
    subst h'
    obtain ⟨a, b, c⟩ := quotient_bounds (Int.mul_nonneg h0 (Int.le_of_lt hs)) hp
    obtain ⟨h3, h4⟩ := h1 hk
    refine ⟨a, ?_, fun _ => ?_, by simp⟩
    · exact Int.le_of_mul_le_mul_right (Int.le_trans b h3) hp
    · rw [Int.add_mul, Int.one_mul] at h4 c
      rw [Int.sub_mul]; omega
  | inverse =>
    simp only [hk, dmul, ok_inj] at h'
    subst h'
    obtain ⟨a, b, c⟩ := quotient_bounds (Int.mul_nonneg h0 (Int.le_of_lt hp)) hs
    obtain ⟨h3, h4⟩ := h2 hk
    refine ⟨a, ?_, by simp, fun _ => ?_⟩
    · exact Int.le_of_mul_le_mul_right (Int.le_trans b h3) hs
    · rw [Int.add_mul, Int.one_mul] at h4 c
      rw [Int.sub_mul]; omega

/-- C94: converting in two parts gives what converting at once gives, or one unit of the last place
less. -/
theorem C94_parts (e : Env) (a b p x y v : Int) (ha : 0 ≤ a) (hb : 0 ≤ b) (hp : 0 < p)
    (hx : convert e a p = .ok x) (hy : convert e b p = .ok y) (hv : convert e (a + b) p = .ok v) :
    x + y = v ∨ x + y + 1 = v := by
  have hs := scale_pos e
  have key : ∀ m n s : Int, 0 ≤ m → 0 ≤ n → 0 < s →
      m.tdiv s + n.tdiv s = (m + n).tdiv s ∨ m.tdiv s + n.tdiv s + 1 = (m + n).tdiv s := by
    intro m n s hm hn hs
    obtain ⟨_, a1, a2⟩ := quotient_bounds hm hs
    obtain ⟨_, b1, b2⟩ := quotient_bounds hn hs
    obtain ⟨_, c1, c2⟩ := quotient_bounds (Int.add_nonneg hm hn) hs
    generalize m.tdiv s = i at *
    generalize n.tdiv s = j at *
    generalize (m + n).tdiv s = k at *
    have l1 : i + j < k + 1 := Int.lt_of_mul_lt_mul_right
      (show (i + j) * s < (k + 1) * s by rw [Int.add_mul]; omega) (Int.le_of_lt hs)
    have l2 : k < i + j + 2 := Int.lt_of_mul_lt_mul_right
      (show k * s < (i + j + 2) * s by
        rw [show i + j + 2 = (i + 1) + (j + 1) by omega, Int.add_mul]; omega) (Int.le_of_lt hs)
    omega
  unfold convert at hx hy hv
  cases hk : e.kind with
  | linear =>
    simp only [hk, dmul, ok_inj, Int.add_mul] at hx hy hv
    subst hx hy hv
    exact key _ _ _ (Int.mul_nonneg ha (by omega)) (Int.mul_nonneg hb (by omega)) hs
  | inverse =>
    simp only [hk, ddiv, if_neg (Int.ne_of_gt hp), ok_inj, Int.add_mul] at hx hy hv
    subst hx hy hv
    exact key _ _ _ (Int.mul_nonneg ha (by omega)) (Int.mul_nonneg hb (by omega)) hp

/-- C94: the price computed from cost and quantity. It never panics, is zero without a quantity
(linear) or without a cost (inverse), and gives back the price at which the cost was computed up to
rounding: downwards by less than one unit of cost per contract plus one unit (linear), upwards by less
than the price over the cost (inverse). -/
theorem C94_price_paid (e : Env) (q p v : Int) (hq : 0 ≤ q) (hp : 0 < p)
    (h : convert e q p = .ok v) :
    ∃ r, pricePaidForQty e v q = .ok r ∧
      (e.kind = .linear → (q = 0 → r = 0) ∧ (0 < q → r ≤ p ∧ (p - r) * q < e.scale + q)) ∧
      (e.kind = .inverse → (v = 0 → r = 0) ∧ (0 < v → p ≤ r ∧ (r - p) * v < p)) := by
  have hs := scale_pos e
  obtain ⟨w, hw, h0, h1, h2⟩ := C94_convert e q p hq hp
  rw [h] at hw
  cases hw
  unfold pricePaidForQty
  cases hk : e.kind with
  | linear =>
    obtain ⟨h3, h4⟩ := h1 hk
    by_cases hz : q = 0
    · exact ⟨0, by simp [hz], fun _ => ⟨fun _ => rfl, fun _ => by omega⟩, by simp⟩
    · obtain ⟨a, b, c⟩ := quotient_bounds (Int.mul_nonneg h0 (Int.le_of_lt hs)) (show 0 < q by omega)
      refine ⟨(v * e.scale).tdiv q, by simp [hz, ddiv],
        fun _ => ⟨fun h => absurd h hz, fun hq => ⟨?_, ?_⟩⟩,
        by simp⟩
      · exact Int.le_of_mul_le_mul_right (Int.le_trans b (by rw [Int.mul_comm p]; exact h3)) hq
      · rw [Int.add_mul, Int.one_mul] at h4 c
        rw [Int.sub_mul, Int.mul_comm p]; omega
  | inverse =>
    obtain ⟨h3, h4⟩ := h2 hk
    by_cases hz : v = 0
    · exact ⟨0, by simp [hz], by simp, fun _ => ⟨fun _ => rfl, fun _ => by omega⟩⟩
    · obtain ⟨a, b, c⟩ := quotient_bounds (Int.mul_nonneg hq (Int.le_of_lt hs)) (show 0 < v by omega)
      refine ⟨(q * e.scale).tdiv v, by simp [hz, ddiv], by simp,
        fun _ => ⟨fun h => absurd h hz, fun hv => ⟨?_, ?_⟩⟩⟩
      · refine Int.le_of_lt_add_one (Int.lt_of_mul_lt_mul_right
          (Int.lt_of_le_of_lt ?_ c) (Int.le_of_lt hv))
        rw [Int.mul_comm p]; exact h3
      · rw [Int.add_mul, Int.one_mul] at h4
        rw [Int.sub_mul, Int.mul_comm p]; omega

/-- C94: an amount is its absolute value times its sign, by the multiplication of the library; exactly
one of positive, negative and zero holds, and the absolute value is never negative. -/
theorem C94_signs (e : Env) (x : Int) :
    dmul e.scale (amountAbs x) (amountSignum e.scale x) = x ∧ 0 ≤ amountAbs x ∧
    (amountIsPositive x = true ↔ amountSignum e.scale x = e.scale) ∧
    (amountIsNegative x = true ↔ amountSignum e.scale x = -e.scale) ∧
    (x = 0 ↔ amountIsPositive x = false ∧ amountIsNegative x = false) := by
  have hs := scale_pos e
  unfold dmul amountAbs amountSignum amountIsPositive amountIsNegative
  simp only [decide_eq_true_eq, decide_eq_false_iff_not]
  by_cases h1 : x < 0
  · simp only [if_pos h1]
    refine ⟨?_, by omega, ⟨fun h => by omega, fun h => by omega⟩,
      ⟨fun _ => trivial, fun _ => h1⟩, ⟨fun h => by omega, fun h => by omega⟩⟩
    rw [Int.neg_mul_neg, Int.mul_tdiv_cancel _ (by omega)]
  · simp only [if_neg h1]
    by_cases h2 : x = 0
    · subst h2; simp; omega
    · simp only [if_neg h2]
      refine ⟨Int.mul_tdiv_cancel _ (by omega), by omega, ⟨fun _ => trivial, fun _ => by omega⟩,
        ⟨fun h => by omega, fun h => by omega⟩, ⟨fun h => by omega, fun h => by omega⟩⟩

/-- 1.23456 contracts at 7.77777: converting loses a fraction of a unit, and so does converting back;
in two parts one unit more is lost; the price comes back one unit too low. -/
example : convert Ex.lin.env 123456 777777 = .ok 960212 ∧
    convertBack Ex.lin.env 960212 777777 = .ok 123455 ∧
    (convert Ex.lin.env 61728 777777 = .ok 480106 ∧ convert Ex.lin.env 3 777777 = .ok 23 ∧
      convert Ex.lin.env 1 777777 = .ok 7 ∧ convert Ex.lin.env 2 777777 = .ok 15) ∧
    pricePaidForQty Ex.lin.env 960212 123456 = .ok 777776 ∧
    convert Ex.inv.env 123456 777777 = .ok 15872 ∧
    pricePaidForQty Ex.inv.env 15872 123456 = .ok 777822 := by decide +kernel

end Lfest
