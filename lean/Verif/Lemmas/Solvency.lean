import Verif.Lemmas.Safety
import Verif.Lemmas.Arith

/-!
# Lemmas for C78
-/

namespace Lfest

open Spec

/-! ## Integer arithmetic -/

theorem survive_linear_long {S m q e b : Int} (hS : 0 < S) (hm : m ≤ S) (he : 0 ≤ e)
    (hq : 0 < q) (hb : (e * (S - m)).tdiv S ≤ b) :
    -(q * e * m) - q * S - S * S ≤ ((q * b).tdiv S - (q * e).tdiv S) * S * S := by
  have h1 : 0 ≤ e * (S - m) := Int.mul_nonneg he (by omega)
  obtain ⟨_, a2, a3⟩ := tdiv_bounds h1 hS
  have hb0 : 0 ≤ b := by omega
  obtain ⟨_, c2, _⟩ := tdiv_bounds (Int.mul_nonneg (Int.le_of_lt hq) hb0) hS
  obtain ⟨d1, _, _⟩ := tdiv_bounds (Int.mul_nonneg (Int.le_of_lt hq) he) hS
  have h2 : e * (S - m) - S ≤ b * S := by
    have := Int.mul_le_mul_of_nonneg_right hb (Int.le_of_lt hS)
    omega
  have h3 := Int.mul_le_mul_of_nonneg_left h2 (Int.le_of_lt hq)
  have h4 : q * b - q * e - S ≤ ((q * b).tdiv S - (q * e).tdiv S) * S := by
    rw [Int.sub_mul]; omega
  have h5 := Int.mul_le_mul_of_nonneg_right h4 (Int.le_of_lt hS)
  have e1 : q * (e * (S - m) - S) = q * e * S - q * e * m - q * S := by grind
  have e2 : (q * b - q * e - S) * S = q * (b * S) - q * e * S - S * S := by grind
  rw [e1] at h3
  rw [e2] at h5
  omega

theorem survive_linear_short {S m q e a : Int} (hS : 0 < S) (hm0 : 0 ≤ m) (he : 0 ≤ e)
    (hq : 0 < q) (ha : a ≤ (e * (S + m)).tdiv S) :
    -(q * e * m) - S * S ≤ ((q * e).tdiv S - (q * a).tdiv S) * S * S := by
  have h1 : 0 ≤ e * (S + m) := Int.mul_nonneg he (by omega)
  obtain ⟨a1, _, _⟩ := tdiv_bounds h1 hS
  obtain ⟨_, d2, d3⟩ := tdiv_bounds (Int.mul_nonneg (Int.le_of_lt hq) he) hS
  have hqe : 0 ≤ q * e * m := Int.mul_nonneg (Int.mul_nonneg (Int.le_of_lt hq) he) hm0
  have hSS : 0 ≤ S * S := Int.mul_nonneg (Int.le_of_lt hS) (Int.le_of_lt hS)
  by_cases ha0 : 0 ≤ a
  · obtain ⟨c1, _, _⟩ := tdiv_bounds (Int.mul_nonneg (Int.le_of_lt hq) ha0) hS
    have h2 : a * S ≤ e * (S + m) := by
      have := Int.mul_le_mul_of_nonneg_right ha (Int.le_of_lt hS)
      omega
    have h3 := Int.mul_le_mul_of_nonneg_left h2 (Int.le_of_lt hq)
    have h4 : q * e - S - q * a ≤ ((q * e).tdiv S - (q * a).tdiv S) * S := by
      rw [Int.sub_mul]; omega
    have h5 := Int.mul_le_mul_of_nonneg_right h4 (Int.le_of_lt hS)
    have e1 : q * (e * (S + m)) = q * e * S + q * e * m := by grind
    have e2 : (q * e - S - q * a) * S = q * e * S - S * S - q * (a * S) := by grind
    rw [e1] at h3
    rw [e2] at h5
    omega
  · have h2 : (q * a).tdiv S ≤ 0 := by
      have : q * a = -(q * -a) := by grind
      rw [this, Int.neg_tdiv]
      have := Int.tdiv_nonneg (Int.mul_nonneg (Int.le_of_lt hq) (by omega : 0 ≤ -a)) (Int.le_of_lt hS)
      omega
    have h3 : 0 ≤ ((q * e).tdiv S - (q * a).tdiv S) * S * S :=
      Int.mul_nonneg (Int.mul_nonneg (by omega) (Int.le_of_lt hS)) (Int.le_of_lt hS)
    omega

/-- `M` margin, `E` value at entry, `L` value at the bid of a long inverse position. -/
theorem survive_inverse_long {S i m q p b : Int} (hS : 0 < S) (hm0 : 0 ≤ m) (hm : m ≤ S)
    (hi : 0 ≤ i) (hp : 0 < p) (hq : 0 < q) (hb0 : 0 < b) (hc : m * S ≤ i * (S - m))
    (hb : (p * (S - m)).tdiv S ≤ b) :
    0 ≤ (((q * S).tdiv p * i).tdiv S + ((q * S).tdiv p - (q * S).tdiv b)) * p * (S - m) +
      2 * p * S + (q * S).tdiv b * S := by
  have hqS : 0 ≤ q * S := Int.mul_nonneg (Int.le_of_lt hq) (Int.le_of_lt hS)
  obtain ⟨_, e2, e3⟩ := tdiv_bounds hqS hp
  obtain ⟨l1, _, l3⟩ := tdiv_bounds hqS hb0
  generalize (q * S).tdiv p = E at *
  generalize (q * S).tdiv b = L at *
  obtain ⟨_, m2, m3⟩ := tdiv_bounds (Int.mul_nonneg e3 hi) hS
  generalize (E * i).tdiv S = M at *
  obtain ⟨_, b2, _⟩ := tdiv_bounds (Int.mul_nonneg (Int.le_of_lt hp) (by omega : 0 ≤ S - m)) hS
  have h2 : p * (S - m) - S ≤ b * S := by
    have := Int.mul_le_mul_of_nonneg_right hb (Int.le_of_lt hS)
    omega
  -- L * (p (S - m) - S) ≤ L * b * S ≤ q S S ≤ (E + 1) p S
  have h3 := Int.mul_le_mul_of_nonneg_left h2 l3
  have h4 := Int.mul_le_mul_of_nonneg_right l1 (Int.le_of_lt hS)
  have h5 := Int.mul_le_mul_of_nonneg_right (Int.le_of_lt e2) (Int.le_of_lt hS)
  -- margin: E i ≤ M S + S
  have h6 := Int.mul_le_mul_of_nonneg_right (Int.le_of_lt m2)
    (Int.mul_nonneg (Int.le_of_lt hp) (by omega : 0 ≤ S - m))
  have h7 := Int.mul_le_mul_of_nonneg_left hc (Int.mul_nonneg e3 (Int.le_of_lt hp))
  have h8 : L * (p * (S - m) - S) ≤ (E * p + p) * S := by
    have : L * (b * S) = L * b * S := by grind
    omega
  have h9 := Int.mul_le_mul_of_nonneg_right h8 (Int.le_of_lt hS)
  have h10 := Int.mul_nonneg (Int.mul_nonneg (Int.le_of_lt hS) (Int.le_of_lt hp)) hm0
  have h11 : 0 ≤ ((M + (E - L)) * p * (S - m) + 2 * p * S + L * S) * S := by
    have e1 : ((M + (E - L)) * p * (S - m) + 2 * p * S + L * S) * S =
        ((M * S + S) * (p * (S - m)) - E * i * (p * (S - m))) +
        (E * p * (i * (S - m)) - E * p * (m * S)) +
        ((E * p + p) * S * S - L * (p * (S - m) - S) * S) + S * p * m := by grind
    rw [e1]
    omega
  exact Int.nonneg_of_mul_nonneg_left h11 hS

/-- `E` value at entry, `L` value at the ask of a short inverse position. -/
theorem survive_inverse_short {S i m q p a : Int} (hS : 0 < S) (hm0 : 0 ≤ m)
    (hi : 0 ≤ i) (hp : 0 < p) (hq : 0 < q) (ha0 : 0 < a)
    (ha : a ≤ (p * (S + m)).tdiv S) :
    (q * S).tdiv p * (i - m) ≤
      (((q * S).tdiv p * i).tdiv S + ((q * S).tdiv a - (q * S).tdiv p) + 2) * S := by
  have hqS : 0 ≤ q * S := Int.mul_nonneg (Int.le_of_lt hq) (Int.le_of_lt hS)
  obtain ⟨e1, _, e3⟩ := tdiv_bounds hqS hp
  obtain ⟨_, l2, l3⟩ := tdiv_bounds hqS ha0
  generalize (q * S).tdiv p = E at *
  generalize (q * S).tdiv a = L at *
  obtain ⟨_, m2, m3⟩ := tdiv_bounds (Int.mul_nonneg e3 hi) hS
  generalize (E * i).tdiv S = M at *
  obtain ⟨b1, _, _⟩ := tdiv_bounds (Int.mul_nonneg (Int.le_of_lt hp) (by omega : 0 ≤ S + m)) hS
  have h2 : a * S ≤ p * (S + m) := by
    have := Int.mul_le_mul_of_nonneg_right ha (Int.le_of_lt hS)
    omega
  have h3 := Int.mul_le_mul_of_nonneg_left h2 (by omega : 0 ≤ L + 1)
  have h4 : E * p * S ≤ (L * a + a) * S :=
    Int.mul_le_mul_of_nonneg_right (by omega) (Int.le_of_lt hS)
  have h5 : E * S * p ≤ (L + 1) * (S + m) * p := by
    have a1 : E * S * p = E * p * S := by grind
    have a2 : (L + 1) * (S + m) * p = (L + 1) * (p * (S + m)) := by grind
    have a3 : (L + 1) * (a * S) = (L * a + a) * S := by grind
    omega
  have h6 : E * S ≤ (L + 1) * (S + m) := Int.le_of_mul_le_mul_right h5 hp
  have h7 : 0 ≤ E * m * m := Int.mul_nonneg (Int.mul_nonneg e3 hm0) hm0
  have h8 := Int.mul_le_mul_of_nonneg_right (Int.le_of_lt m2) (by omega : 0 ≤ S + m)
  have h9 := Int.mul_le_mul_of_nonneg_right h6 (Int.le_of_lt hS)
  have h10 : E * (i - m) * (S + m) ≤ ((M + (L - E) + 2) * S) * (S + m) := by
    have e1 : ((M + (L - E) + 2) * S) * (S + m) - E * (i - m) * (S + m) =
      ((M * S + S) * (S + m) - E * i * (S + m)) + ((L + 1) * (S + m) * S - E * S * S) +
      E * m * m := by grind
    omega
  exact Int.le_of_mul_le_mul_right h10 (by omega)

/-- A position opened by a single fill. -/
theorem opened_once {c : Cfg} {s : State} {f : Fill} {fs : List Fill} (hr : Reachable c s)
    (hf : fills s.log = f :: fs) (ht : roundTrips fs) :
    0 < s.pos.entryPrice ∧ s.pos.entryPrice = f.price ∧ Spec.abs s.pos.quantity = f.qty ∧
    s.acct.balance .positionMargin =
      share c.env (value c.env (Spec.abs s.pos.quantity) s.pos.entryPrice) c.spec.initMarginReq := by
  obtain ⟨hp, hM⟩ := hr.trips.opened f fs hf ht
  obtain ⟨h1, h2⟩ := hr.fill_price f (by rw [hf]; simp)
  simp only [State.core] at hp hM
  have e1 : s.pos.entryPrice = f.price := by
    rw [hp]; unfold opened; cases f.side <;> rfl
  have e2 : Spec.abs s.pos.quantity = f.qty := by
    rw [hp]; unfold opened; cases f.side <;> simp [Position.quantity, Spec.abs] <;> omega
  exact ⟨by omega, e1, e2, by rw [e1, e2]; exact hM⟩

end Lfest
