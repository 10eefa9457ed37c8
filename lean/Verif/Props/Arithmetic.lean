import Verif.SpecAmount
import Verif.Model.Amount
import Verif.Lemmas.Quantize
import Verif.Lemmas.Arith
import Verif.Examples

/-!
# Arithmetic of amounts: C117
-/

namespace Lfest

open Spec

theorem abs_minus (x : Int) : Spec.abs (-x) = Spec.abs x := by unfold Spec.abs; split <;> split <;> omega

theorem abs_of {x : Int} (h : 0 ≤ x) : Spec.abs x = x := if_pos h

/-- A claim that does not depend on the sign of an integer needs a proof for one sign only. -/
theorem sign_induct {P : Int → Prop} (x : Int) (hn : ∀ x, P x → P (-x)) (hp : ∀ x, 0 ≤ x → P x) :
    P x := by
  rcases Int.le_total 0 x with h | h
  · exact hp x h
  · have := hn (-x) (hp (-x) (by omega)); rwa [Int.neg_neg] at this

theorem rounds_tdiv (n : Int) {d : Int} (hd : d ≠ 0) : RoundsToZero n d (n.tdiv d) := by
  revert hd
  refine sign_induct (P := fun n => d ≠ 0 → RoundsToZero n d (n.tdiv d)) n ?_ ?_
  · intro n h hd
    obtain ⟨a, b, c⟩ := h hd
    refine ⟨?_, ?_, ?_⟩
    · rwa [Int.neg_tdiv, abs_minus, abs_minus]
    · rwa [Int.neg_tdiv, abs_minus, abs_minus]
    · rwa [Int.neg_tdiv, Int.neg_mul n d, Int.neg_mul_neg]
  · intro n hn
    refine sign_induct (P := fun d => d ≠ 0 → RoundsToZero n d (n.tdiv d)) d ?_ ?_
    · intro d h hd
      obtain ⟨a, b, c⟩ := h (by omega)
      refine ⟨?_, ?_, ?_⟩
      · rwa [Int.tdiv_neg, abs_minus, abs_minus]
      · rwa [Int.tdiv_neg, abs_minus, abs_minus]
      · rwa [Int.tdiv_neg, Int.mul_neg n d, Int.neg_mul_neg]
    · intro d hd0 hd
      obtain ⟨a, b, c⟩ := tdiv_bounds hn (by omega : 0 < d)
      refine ⟨?_, ?_, ?_⟩
      · rwa [abs_of c, abs_of hd0, abs_of hn]
      · rw [abs_of c, abs_of hd0, abs_of hn, Int.add_mul]; omega
      · exact Int.mul_nonneg c (Int.mul_nonneg hn hd0)

theorem sign_cases (x : Int) : ∃ y, 0 ≤ y ∧ Spec.abs x = y ∧ (x = y ∨ x = -y) := by
  rcases Int.le_total 0 x with h | h
  · exact ⟨x, h, abs_of h, .inl rfl⟩
  · exact ⟨-x, by omega, by rw [← abs_minus, abs_of (by omega)], .inr (by omega)⟩

/-- C117 (specification): the rounded result is unique. -/
theorem rounds_unique {n d r r' : Int} (h : RoundsToZero n d r) (h' : RoundsToZero n d r') :
    r = r' := by
  obtain ⟨a, b, c⟩ := h
  obtain ⟨a', b', c'⟩ := h'
  obtain ⟨x, hx, ex, sx⟩ := sign_cases r
  obtain ⟨y, hy, ey, sy⟩ := sign_cases r'
  obtain ⟨k, hk, ek, sk⟩ := sign_cases d
  obtain ⟨m, hm, em, sm⟩ := sign_cases n
  rw [ex, ek, em] at a b
  rw [ey, ek, em] at a' b'
  have h1 : x < y + 1 := Int.lt_of_mul_lt_mul_right (a := k) (by omega) hk
  have h2 : y < x + 1 := Int.lt_of_mul_lt_mul_right (a := k) (by omega) hk
  have hxy : x = y := by omega
  subst hxy
  rcases Int.lt_or_eq_of_le hx with h0 | h0
  · have hk0 : 0 < k := by
      rcases Int.lt_or_eq_of_le hk with h | h
      · exact h
      · subst h; simp at b; omega
    have hm0 : 0 < m := by
      have := Int.mul_pos h0 hk0; omega
    have hp := Int.mul_pos h0 (Int.mul_pos hm0 hk0)
    rcases sx with rfl | rfl <;> rcases sy with rfl | rfl <;> rcases sk with rfl | rfl <;>
      rcases sm with rfl | rfl <;> simp [Int.neg_mul, Int.mul_neg] at c c' ⊢ <;> omega
  · omega

/-- C117: the product of two amounts is the exact product rounded toward zero. The raw values are
multiples of `1 / scale`, so the exact product is `a * b / scale` of these. -/
theorem C117_product (e : Env) (a b : Int) : RoundsToZero (a * b) e.scale (amountMul e.scale a b) :=
  rounds_tdiv _ (by have := scale_pos e; omega)

/-- C117: the quotient of two amounts is the exact quotient rounded toward zero; it panics exactly for
a zero divisor. -/
theorem C117_quotient (e : Env) (a b : Int) :
    (∀ r, amountDiv e.scale a b = .ok r ↔ b ≠ 0 ∧ RoundsToZero (a * e.scale) b r) ∧
    ((∃ p, amountDiv e.scale a b = .error p) ↔ b = 0) := by
  unfold amountDiv ddiv
  by_cases hb : b = 0
  · simp [hb]
  · simp only [if_neg hb, ok_inj]
    refine ⟨fun r => ⟨?_, ?_⟩, by simp [hb]⟩
    · rintro rfl; exact ⟨hb, rounds_tdiv _ hb⟩
    · rintro ⟨-, h⟩; exact rounds_unique (rounds_tdiv _ hb) h

/-- 1.5 * -2.25 = -3.375 and 1 / 3 = 0.33333, -1 / 3 = -0.33333 with five decimals. -/
example : amountMul Ex.lin.env.scale 150000 (-225000) = -337500 ∧
    amountDiv Ex.lin.env.scale (Ex.d 1) (Ex.d 3) = .ok 33333 ∧
    amountDiv Ex.lin.env.scale (-Ex.d 1) (Ex.d 3) = .ok (-33333) ∧
    amountDiv Ex.lin.env.scale (Ex.d 1) 0 = .error .divByZero := by decide +kernel

/-- C117: what holds exactly. One is neutral for both operations and the only amount `is_one` accepts,
factors can be exchanged, signs can be taken out, and sizes multiply. -/
theorem C117_exact_laws (e : Env) (a b : Int) :
    let s := e.scale
    amountMul s a (amountOne s) = a ∧ amountMul s (amountOne s) a = a ∧
    amountDiv s a (amountOne s) = .ok a ∧
    (amountIsOne s a = true ↔ ∀ x, amountMul s a x = x) ∧
    amountMul s a b = amountMul s b a ∧
    amountMul s (-a) b = -amountMul s a b ∧ amountMul s a (-b) = -amountMul s a b ∧
    amountMul s (amountAbs a) (amountAbs b) = amountAbs (amountMul s a b) ∧
    amountMul s a 0 = 0 ∧ (b ≠ 0 → amountDiv s 0 b = .ok 0) ∧
    (b ≠ 0 → amountDiv s b b = .ok (amountOne s)) := by
  have hs := scale_pos e
  have h1 : ∀ x, (x * e.scale).tdiv e.scale = x := fun x => Int.mul_tdiv_cancel _ (by omega)
  simp only [amountMul, amountDiv, amountOne, dmul, ddiv, amountIsOne,
    if_neg (Int.ne_of_gt hs), h1, Int.mul_comm e.scale, Int.neg_mul, Int.mul_neg, Int.neg_tdiv,
    Int.mul_comm b a, Int.mul_zero, Int.zero_mul, Int.zero_tdiv, true_and]
  refine ⟨⟨?_, ?_⟩, ?_, ?_, ?_⟩
  · intro h x; rw [of_decide_eq_true h, Int.mul_comm]; exact h1 x
  · intro h; have := h e.scale; rw [h1] at this; exact decide_eq_true this
  · unfold amountAbs
    have k : ∀ x y : Int, x < 0 → y < 0 → 0 ≤ (x * y).tdiv e.scale := fun x y hx hy =>
      Int.tdiv_nonneg (Int.le_of_lt (Int.mul_pos_of_neg_of_neg hx hy)) (by omega)
    have k1 : ∀ x y : Int, 0 ≤ x → 0 ≤ y → 0 ≤ (x * y).tdiv e.scale := fun x y hx hy =>
      Int.tdiv_nonneg (Int.mul_nonneg hx hy) (by omega)
    split <;> split <;> try simp only [Int.neg_mul, Int.mul_neg, Int.neg_tdiv, Int.neg_neg]
    · rw [if_neg (by have := k a b ‹_› ‹_›; omega)]
    · have := k1 (-a) b (by omega) (by omega)
      rw [Int.neg_mul, Int.neg_tdiv] at this
      split <;> omega
    · have := k1 a (-b) (by omega) (by omega)
      rw [Int.mul_neg, Int.neg_tdiv] at this
      split <;> omega
    · rw [if_neg (by have := k1 a b (by omega) (by omega); omega)]
  · intro h; rw [if_neg h]
  · intro h; rw [if_neg h, Int.mul_comm, Int.mul_tdiv_cancel _ h]

theorem rounded (x : Int) {s : Int} (hs : 0 < s) :
    x.tdiv s * s = x - x.tmod s ∧ (0 ≤ x → 0 ≤ x.tmod s ∧ x.tmod s < s ∧ x.tmod s ≤ x) ∧
      (x ≤ 0 → x.tmod s ≤ 0 ∧ -s < x.tmod s ∧ x ≤ x.tmod s) := by
  have h := tmod_bounds x (q := s) (by omega)
  rw [abs_of (by omega : 0 ≤ s)] at h
  exact ⟨tdiv_mul_eq x s, fun hx => by have := h.1 hx; omega, fun hx => by have := h.2 hx; omega⟩

theorem small_multiple {k s m : Int} (hs : 0 < s) (h1 : k * s < (m + 1) * s)
    (h2 : -((m + 1) * s) < k * s) : Spec.abs k ≤ m := by
  have a := Int.lt_of_mul_lt_mul_right h1 (by omega)
  rw [← Int.neg_mul] at h2
  have b := Int.lt_of_mul_lt_mul_right h2 (by omega)
  unfold Spec.abs; split <;> omega

/-- C117: products distribute over sums up to one unit in the last place. -/
theorem C117_distributes (e : Env) (a b c : Int) :
    Spec.abs (amountMul e.scale a (b + c) - (amountMul e.scale a b + amountMul e.scale a c)) ≤ 1 := by
  have hs := scale_pos e
  obtain ⟨x0, x1, x2⟩ := rounded (a * b) hs
  obtain ⟨y0, y1, y2⟩ := rounded (a * c) hs
  obtain ⟨z0, z1, z2⟩ := rounded (a * b + a * c) hs
  apply small_multiple hs <;> unfold amountMul dmul <;> rw [Int.mul_add a b c, Int.sub_mul, Int.add_mul ((a * b).tdiv _)] <;>
    omega

/-- C117: products keep the order. -/
theorem C117_order (e : Env) (a b c : Int) (h : a ≤ b) (hc : 0 ≤ c) :
    amountMul e.scale a c ≤ amountMul e.scale b c := by
  have hs := scale_pos e
  have hm := Int.mul_le_mul_of_nonneg_right h hc
  unfold amountMul dmul
  obtain ⟨x0, x1, x2⟩ := rounded (a * c) hs
  obtain ⟨y0, y1, y2⟩ := rounded (b * c) hs
  suffices (a * c).tdiv e.scale < (b * c).tdiv e.scale + 1 by omega
  apply Int.lt_of_mul_lt_mul_right (a := e.scale) _ (by omega)
  rw [Int.add_mul]
  omega

/-- C117: a remainder is what quantising cuts off: it has the sign of the amount and is smaller than
the quantum. It panics exactly for a zero divisor. -/
theorem C117_remainder (a b : Int) :
    (∀ r, amountRem a b = .ok r → ∃ q, quantizeRoundToZero a b = .ok q ∧ q + r = a ∧ b ∣ q ∧
      (0 ≤ a → 0 ≤ r) ∧ (a ≤ 0 → r ≤ 0) ∧ Spec.abs r < Spec.abs b) ∧
    ((∃ p, amountRem a b = .error p) ↔ b = 0) := by
  constructor
  · intro r h
    obtain ⟨hb, rfl⟩ := drem_ok.1 h
    obtain ⟨h1, h2⟩ := tmod_bounds a hb
    refine ⟨_, quantize_eq hb, Int.tdiv_mul_add_tmod a b, ⟨_, Int.mul_comm _ _⟩,
      fun h => (h1 h).1, fun h => (h2 h).1, ?_⟩
    rcases Int.le_total 0 a with h | h
    · have := h1 h; rw [abs_of this.1]; omega
    · have := h2 h; rw [← abs_minus, abs_of (by omega)]; omega
  · unfold amountRem drem; split <;> simp [*]

/-- -17 = -15 + -2 with quantum 5, also with quantum -5. -/
example : amountRem (-17) 5 = .ok (-2) ∧ quantizeRoundToZero (-17) 5 = .ok (-15) ∧
    amountRem (-17) (-5) = .ok (-2) ∧ amountRem 17 5 = .ok 2 := by decide +kernel

/-- C117: the positive difference. -/
theorem C117_abs_sub (a b : Int) :
    0 ≤ amountAbsSub a b ∧ amountAbsSub a b - amountAbsSub b a = a - b ∧
    (amountAbsSub a b = 0 ∨ amountAbsSub b a = 0) ∧
    amountAbsSub a b + amountAbsSub b a = amountAbs (a - b) := by
  unfold amountAbsSub amountAbs; split <;> split <;> split <;> omega

theorem mul_down {x y s : Int} (hx : 0 ≤ x) (hy : 0 ≤ y) (hs : 0 < s) :
    0 ≤ (x * y).tdiv s ∧ (x * y).tdiv s * s ≤ x * y ∧ x * y < (x * y).tdiv s * s + s := by
  obtain ⟨a, b, c⟩ := tdiv_bounds (Int.mul_nonneg hx hy) hs; exact ⟨c, a, b⟩

theorem assoc_half {a b c s : Int} (ha : 0 ≤ a) (hb : 0 ≤ b) (hc : 0 ≤ c) (hs : 0 < s) :
    let r := ((a * b).tdiv s * c).tdiv s
    0 ≤ r ∧ r * s * s ≤ a * b * c ∧ a * b * c ≤ r * s * s + (s - 1) * c + (s - 1) * s := by
  obtain ⟨p0, p1, p2⟩ := mul_down ha hb hs
  generalize (a * b).tdiv s = p at *
  obtain ⟨r0, r1, r2⟩ := mul_down p0 hc hs
  generalize (p * c).tdiv s = r at *
  have e1 := Int.mul_le_mul_of_nonneg_right p1 hc
  have e2 := Int.mul_le_mul_of_nonneg_right (by omega : a * b ≤ p * s + (s - 1)) hc
  have e3 := Int.mul_le_mul_of_nonneg_right r1 (by omega : 0 ≤ s)
  have e4 := Int.mul_le_mul_of_nonneg_right (by omega : p * c ≤ r * s + (s - 1)) (by omega : 0 ≤ s)
  have e5 : p * s * c = p * c * s := by grind
  rw [Int.add_mul] at e2 e4
  refine ⟨r0, ?_, ?_⟩ <;> omega

theorem assoc_pos {a b c s : Int} (ha : 0 ≤ a) (hb : 0 ≤ b) (hc : 0 ≤ c) (hs : 0 < s) :
    Spec.abs (((a * b).tdiv s * c).tdiv s - (a * (b * c).tdiv s).tdiv s) * s < max a c + s := by
  obtain ⟨r0, r1, r2⟩ := assoc_half ha hb hc hs
  obtain ⟨q0, q1, q2⟩ := assoc_half hc hb ha hs
  rw [Int.mul_comm c b, Int.mul_comm ((b * c).tdiv s) a] at q0 q1 q2
  have e : b * c * a = a * b * c := by grind
  rw [e] at q1 q2
  generalize ((a * b).tdiv s * c).tdiv s = r at *
  generalize (a * (b * c).tdiv s).tdiv s = q at *
  have hm : ∀ x, x ≤ max a c → (s - 1) * x ≤ (s - 1) * max a c := fun x hx =>
    Int.mul_le_mul_of_nonneg_left hx (by omega)
  have h1 := hm a (by omega)
  have h2 := hm c (by omega)
  have h3 : 0 ≤ max a c := by omega
  generalize max a c = m at *
  have key : ∀ x y : Int, y * s * s ≤ x * s * s + (s - 1) * m + (s - 1) * s → (y - x) * s < m + s := by
    intro x y h
    apply Int.lt_of_mul_lt_mul_right (a := s) _ (by omega)
    rw [Int.sub_mul, Int.sub_mul, Int.add_mul]
    have : (s - 1) * m = m * s - m := by grind
    have : (s - 1) * s = s * s - s := by grind
    omega
  unfold Spec.abs
  split
  · exact key _ _ (by omega)
  · rw [Int.neg_sub]; exact key _ _ (by omega)

/-- C117: products can be regrouped up to one unit and the rounding of the first product, scaled by
the remaining factor. -/
theorem C117_associates (e : Env) (a b c : Int) :
    let s := e.scale
    Spec.abs (amountMul s (amountMul s a b) c - amountMul s a (amountMul s b c)) * s <
      max (Spec.abs a) (Spec.abs c) + s := by
  have hs := scale_pos e
  obtain ⟨x, hx, ex, sx⟩ := sign_cases a
  obtain ⟨y, hy, ey, sy⟩ := sign_cases b
  obtain ⟨z, hz, ez, sz⟩ := sign_cases c
  have h := assoc_pos hx hy hz hs
  simp only [amountMul, dmul]
  rw [ex, ez]
  have hd : ∀ x y : Int, Spec.abs (-x - -y) = Spec.abs (x - y) := fun x y => by
    rw [← abs_minus]; congr 1; omega
  rcases sx with rfl | rfl <;> rcases sy with rfl | rfl <;> rcases sz with rfl | rfl <;>
    first
    | exact h
    | (simp only [Int.neg_mul, Int.mul_neg, Int.neg_tdiv, Int.neg_neg, hd]; exact h)

theorem undone_pos {a b s : Int} (ha : 0 ≤ a) (hb : 0 < b) (hs : 0 < s) :
    let r := ((a * b).tdiv s * s).tdiv b
    0 ≤ r ∧ r ≤ a ∧ (a - r) * b < s + b := by
  obtain ⟨p0, p1, p2⟩ := mul_down ha (by omega : 0 ≤ b) hs
  generalize (a * b).tdiv s = p at *
  obtain ⟨r0, r1, r2⟩ := mul_down p0 (by omega : 0 ≤ s) hb
  generalize (p * s).tdiv b = r at *
  refine ⟨r0, Int.le_of_mul_le_mul_right (by omega : r * b ≤ a * b) hb, ?_⟩
  rw [Int.sub_mul]; omega

/-- C117: dividing a product by one factor gives back the other, up to one unit and the rounding of
the product, scaled; never more than it. -/
theorem C117_product_undone (e : Env) (a b r : Int)
    (h : amountDiv e.scale (amountMul e.scale a b) b = .ok r) :
    Spec.abs r ≤ Spec.abs a ∧ 0 ≤ r * a ∧ Spec.abs (a - r) * Spec.abs b < e.scale + Spec.abs b := by
  have hs := scale_pos e
  unfold amountDiv amountMul ddiv dmul at h
  split at h
  · cases h
  next hb =>
  simp only [ok_inj] at h
  subst h
  obtain ⟨x, hx, ex, sx⟩ := sign_cases a
  obtain ⟨y, hy, ey, sy⟩ := sign_cases b
  have hy : 0 < y := by omega
  obtain ⟨h0, h1, h2⟩ := undone_pos hx hy hs
  have e1 : Spec.abs (((x * y).tdiv e.scale * e.scale).tdiv y) ≤ x := by rwa [abs_of h0]
  have e2 := Int.mul_nonneg h0 hx
  have e3 : Spec.abs (x - ((x * y).tdiv e.scale * e.scale).tdiv y) * y < e.scale + y := by
    rwa [abs_of (by omega)]
  have hd : ∀ x y : Int, Spec.abs (-x - -y) = Spec.abs (x - y) := fun x y => by
    rw [← abs_minus]; congr 1; omega
  rw [ex, ey]
  rcases sx with rfl | rfl <;> rcases sy with rfl | rfl <;>
    first
    | exact ⟨e1, e2, e3⟩
    | (simp only [Int.neg_mul, Int.mul_neg, Int.neg_tdiv, Int.tdiv_neg, Int.neg_neg, abs_minus, hd]
       exact ⟨e1, e2, e3⟩)

/-- C117: multiplying a quotient by the divisor gives back the dividend, up to one unit and the
rounding of the quotient, scaled; never more than it. -/
theorem C117_quotient_undone (e : Env) (a b r : Int) (h : amountDiv e.scale a b = .ok r) :
    let x := amountMul e.scale r b
    Spec.abs x ≤ Spec.abs a ∧ 0 ≤ x * a ∧
      Spec.abs (a - x) * e.scale < Spec.abs b + e.scale := by
  have hs := scale_pos e
  unfold amountDiv ddiv at h
  split at h
  · cases h
  next hb =>
  simp only [ok_inj] at h
  subst h
  obtain ⟨x, hx, ex, sx⟩ := sign_cases a
  obtain ⟨y, hy, ey, sy⟩ := sign_cases b
  have hy : 0 < y := by omega
  obtain ⟨h0, h1, h2⟩ := undone_pos hx hs hy
  simp only [amountMul, dmul]
  have e1 : Spec.abs (((x * e.scale).tdiv y * y).tdiv e.scale) ≤ x := by rwa [abs_of h0]
  have e2 := Int.mul_nonneg h0 hx
  have e3 : Spec.abs (x - ((x * e.scale).tdiv y * y).tdiv e.scale) * e.scale < y + e.scale := by
    rwa [abs_of (by omega)]
  have hd : ∀ x y : Int, Spec.abs (-x - -y) = Spec.abs (x - y) := fun x y => by
    rw [← abs_minus]; congr 1; omega
  rw [ex, ey]
  rcases sx with rfl | rfl <;> rcases sy with rfl | rfl <;>
    first
    | exact ⟨e1, e2, e3⟩
    | (simp only [Int.neg_mul, Int.mul_neg, Int.neg_tdiv, Int.tdiv_neg, Int.neg_neg, abs_minus, hd]
       exact ⟨e1, e2, e3⟩)

/-- With five decimals, 0.1 * 0.00003 rounds to zero while 0.1 * 0.00006 + 0.1 * 0.00006 loses what
0.1 * 0.00012 has; 1 / 3 * 3 is 0.99999, and 700 / 300 * 300 is 699.99900. -/
example : amountMul Ex.lin.env.scale 10000 3 = 0 ∧
    amountMul Ex.lin.env.scale 10000 12 = 1 ∧ amountMul Ex.lin.env.scale 10000 6 = 0 ∧
    (amountDiv Ex.lin.env.scale (Ex.d 1) (Ex.d 3)).map (amountMul Ex.lin.env.scale · (Ex.d 3)) =
      .ok 99999 ∧
    (amountDiv Ex.lin.env.scale (Ex.d 700) (Ex.d 300)).map
      (amountMul Ex.lin.env.scale · (Ex.d 300)) = .ok 69999900 := by decide +kernel

/-- C117: none of the four laws holds exactly, with any number of decimals but none. -/
theorem C117_not_exact (e : Env) (hd : 0 < e.decimals) :
    let s := e.scale
    (∃ a b c, amountMul s a (b + c) ≠ amountMul s a b + amountMul s a c) ∧
    (∃ a b c, amountMul s (amountMul s a b) c ≠ amountMul s a (amountMul s b c)) ∧
    (∃ a b, b ≠ 0 ∧ amountDiv s (amountMul s a b) b ≠ .ok a) ∧
    (∃ a b r, amountDiv s a b = .ok r ∧ amountMul s r b ≠ a) := by
  have h10 : ∃ k, 0 < k ∧ e.scale = 10 * k := by
    unfold Env.scale
    obtain ⟨n, hn⟩ := Nat.exists_eq_succ_of_ne_zero (by omega : e.decimals ≠ 0)
    refine ⟨((10 ^ n : Nat) : Int), by have := Nat.pow_pos (n := n) (by decide : 0 < 10); omega, ?_⟩
    rw [hn, Nat.pow_succ]; push_cast; omega
  obtain ⟨k, hk, hs⟩ := h10
  simp only [hs]
  have t1 : ∀ x : Int, 0 ≤ x → x < 10 * k → x.tdiv (10 * k) = 0 := fun x h h' =>
    Int.tdiv_eq_zero_of_lt h h'
  have t2 : ∀ x : Int, (x * (10 * k)).tdiv (10 * k) = x := fun x => Int.mul_tdiv_cancel _ (by omega)
  refine ⟨⟨5 * k, 1, 1, ?_⟩, ⟨1, 5 * k, 20 * k, ?_⟩, ⟨1, 1, by decide, ?_⟩, ⟨1, 20 * k, 0, ?_, ?_⟩⟩
  · simp only [amountMul, dmul]
    rw [t1 (5 * k * 1) (by omega) (by omega), show 5 * k * (1 + 1) = 1 * (10 * k) by omega, t2]
    decide
  · simp only [amountMul, dmul]
    rw [t1 (1 * (5 * k)) (by omega) (by omega),
      show 5 * k * (20 * k) = 10 * k * (10 * k) by grind, t2, Int.zero_mul, Int.zero_tdiv,
      show 1 * (10 * k) = 1 * (10 * k) from rfl, t2]
    decide
  · simp only [amountMul, amountDiv, dmul, ddiv]
    rw [t1 (1 * 1) (by omega) (by omega)]
    simp
  · simp only [amountDiv, ddiv]
    rw [if_neg (by omega), Int.tdiv_eq_zero_of_lt (by omega) (by omega)]
  · simp [amountMul, dmul]

end Lfest
