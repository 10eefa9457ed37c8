import Verif.SpecGap
import Verif.Props.Margined

/-!
# Margins and gaps: arithmetic
-/

namespace Lfest

/-- The price after a fall. -/
theorem gap_low {S m g E B P : Int} (hS : 0 < S) (hg0 : 0 ≤ g) (hg : g ≤ S)
    (hB : E * (S - m) < (B + 1) * S) (hP : B * (S - g) ≤ P * S) :
    E * ((S - m) * (S - g)) - S * S ≤ P * (S * S) := by
  have a1 : (E * (S - m) - S) * (S - g) ≤ B * S * (S - g) :=
    Int.mul_le_mul_of_nonneg_right (by grind) (by omega)
  have a2 : B * (S - g) * S ≤ P * S * S := Int.mul_le_mul_of_nonneg_right hP (by omega)
  have a3 : 0 ≤ S * g := Int.mul_nonneg (by omega) hg0
  grind

/-- The price after a rise. -/
theorem gap_high {S m g E B P : Int} (hS : 0 < S) (hg0 : 0 ≤ g)
    (hB : B * S ≤ E * (S + m)) (hP : P * S ≤ B * (S + g)) :
    P * (S * S) ≤ E * ((S + m) * (S + g)) := by
  have a1 : B * S * (S + g) ≤ E * (S + m) * (S + g) :=
    Int.mul_le_mul_of_nonneg_right hB (by omega)
  have a2 : P * S * S ≤ B * (S + g) * S := Int.mul_le_mul_of_nonneg_right hP (by omega)
  grind

/-- Linear, long. -/
theorem gap_linear_long {S i m f g d Q E P V N : Int} (hS : 0 < S) (hi : i ≤ S)
    (hf0 : 0 ≤ f) (hf : f ≤ S) (hQ : 0 < Q) (hE0 : 0 < E) (hd : 0 ≤ d)
    (hP : E * ((S - m) * (S - g)) - S * S ≤ P * (S * S))
    (hc : S * S * (S - i + d) ≤ (S - m) * (S - g) * (S - f))
    (hV : V * S ≤ Q * E) (hN : Q * P < (N + 1) * S) (hE : 6 * S ≤ E * d) (hVd : 6 * S ≤ V * d) :
    V * (S - i) ≤ N * (S - f) := by
  have hSS : 0 < S * S := Int.mul_pos hS hS
  have b3 : (E * ((S - m) * (S - g)) - S * S) * (Q * (S - f)) ≤ P * (S * S) * (Q * (S - f)) :=
    Int.mul_le_mul_of_nonneg_right hP (Int.mul_nonneg (by omega) (by omega))
  have b4 : Q * E * (S * S * (S - i + d)) ≤ Q * E * ((S - m) * (S - g) * (S - f)) :=
    Int.mul_le_mul_of_nonneg_left hc (Int.mul_nonneg (by omega) (by omega))
  have b5 : Q * E * (S - i + d) - Q * (S - f) ≤ Q * P * (S - f) := by
    refine Int.le_of_mul_le_mul_left ?_ hSS
    grind
  have c1 : (Q * P - S) * (S - f) ≤ N * S * (S - f) :=
    Int.mul_le_mul_of_nonneg_right (by grind) (by omega)
  have c2 : V * S * (S - i) ≤ Q * E * (S - i) := Int.mul_le_mul_of_nonneg_right hV (by omega)
  have d1 : Q * (6 * S) ≤ Q * (E * d) := Int.mul_le_mul_of_nonneg_left hE (by omega)
  have d2 : V * S * d ≤ Q * E * d := Int.mul_le_mul_of_nonneg_right hV hd
  have d3 : 6 * S * S ≤ V * d * S := Int.mul_le_mul_of_nonneg_right hVd (by omega)
  have d4 : 0 ≤ Q * f := Int.mul_nonneg (by omega) hf0
  have d5 : 0 ≤ S * f := Int.mul_nonneg (by omega) hf0
  have d6 : 0 < Q * S := Int.mul_pos hQ hS
  refine Int.le_of_mul_le_mul_left ?_ hS
  grind

/-- Linear, short. -/
theorem gap_linear_short {S i m f g d Q E P V N : Int} (hS : 0 < S) (hi0 : 0 ≤ i) (hi : i ≤ S)
    (hf0 : 0 ≤ f) (hQ : 0 < Q) (hE0 : 0 < E) (hd : 0 ≤ d)
    (hP : P * (S * S) ≤ E * ((S + m) * (S + g)))
    (hc : (S + m) * (S + g) * (S + f) ≤ S * S * (S + i - d))
    (hV : Q * E < (V + 1) * S) (hV2 : V * S ≤ Q * E) (hN : N * S ≤ Q * P) (hVd : 6 * S ≤ V * d) :
    N * (S + f) ≤ V * (S + i) := by
  have hSS : 0 < S * S := Int.mul_pos hS hS
  have b3 : P * (S * S) * (Q * (S + f)) ≤ E * ((S + m) * (S + g)) * (Q * (S + f)) :=
    Int.mul_le_mul_of_nonneg_right hP (Int.mul_nonneg (by omega) (by omega))
  have b4 : Q * E * ((S + m) * (S + g) * (S + f)) ≤ Q * E * (S * S * (S + i - d)) :=
    Int.mul_le_mul_of_nonneg_left hc (Int.mul_nonneg (by omega) (by omega))
  have b5 : Q * P * (S + f) ≤ Q * E * (S + i - d) := by
    refine Int.le_of_mul_le_mul_left ?_ hSS
    grind
  have c1 : N * S * (S + f) ≤ Q * P * (S + f) := Int.mul_le_mul_of_nonneg_right hN (by omega)
  have c2 : (Q * E - S) * (S + i) ≤ V * S * (S + i) :=
    Int.mul_le_mul_of_nonneg_right (by grind) (by omega)
  have d2 : V * S * d ≤ Q * E * d := Int.mul_le_mul_of_nonneg_right hV2 hd
  have d3 : 6 * S * S ≤ V * d * S := Int.mul_le_mul_of_nonneg_right hVd (by omega)
  have d4 : S * i ≤ S * S := Int.mul_le_mul_of_nonneg_left hi (by omega)
  refine Int.le_of_mul_le_mul_left ?_ hS
  grind

/-- Inverse, short. -/
theorem gap_inverse_short {S i m f g d Q E P V N : Int} (hS : 0 < S) (hi : i ≤ S)
    (hm : 0 ≤ m) (hg : 0 ≤ g)
    (hf0 : 0 ≤ f) (hf : f ≤ S) (hQ : 0 < Q) (hE0 : 0 < E) (hP0 : 0 < P) (hV0 : 0 ≤ V) (hd : 0 ≤ d)
    (hP : P * (S * S) ≤ E * ((S + m) * (S + g)))
    (hc : (S - i + d) * (S + m) * (S + g) ≤ S * S * (S - f))
    (hV : V * E ≤ Q * S) (hN : Q * S < (N + 1) * P) (hVd : 6 * S ≤ V * d) :
    V * (S - i) ≤ N * (S - f) := by
  have hSS : 0 < S * S := Int.mul_pos hS hS
  have hK : 0 ≤ (S + m) * (S + g) := Int.mul_nonneg (by omega) (by omega)
  have b1 : P * (S * S) * (V * (S - i)) ≤ E * ((S + m) * (S + g)) * (V * (S - i)) :=
    Int.mul_le_mul_of_nonneg_right hP (Int.mul_nonneg hV0 (by omega))
  have b2 : V * E * ((S - i) * ((S + m) * (S + g))) ≤ Q * S * ((S - i) * ((S + m) * (S + g))) :=
    Int.mul_le_mul_of_nonneg_right hV (Int.mul_nonneg (by omega) hK)
  have b3 : Q * S * ((S - i + d) * (S + m) * (S + g)) ≤ Q * S * (S * S * (S - f)) :=
    Int.mul_le_mul_of_nonneg_left hc (Int.mul_nonneg (by omega) (by omega))
  -- two units of the price are less than the slack
  have e1 : 6 * S * E ≤ V * d * E := Int.mul_le_mul_of_nonneg_right hVd (by omega)
  have e2 : V * E * d ≤ Q * S * d := Int.mul_le_mul_of_nonneg_right hV hd
  have e3 : 6 * E ≤ Q * d := by
    refine Int.le_of_mul_le_mul_left ?_ hS
    grind
  have c1 : (Q * S - P) * (S * S * (S - f)) ≤ N * P * (S * S * (S - f)) :=
    Int.mul_le_mul_of_nonneg_right (by grind) (Int.mul_nonneg (by omega) (by omega))
  have c2 : P * (S * S) * (S - f) ≤ E * ((S + m) * (S + g)) * (S - f) :=
    Int.mul_le_mul_of_nonneg_right hP (by omega)
  have c3 : E * ((S + m) * (S + g)) * (S - f) ≤ E * ((S + m) * (S + g)) * S :=
    Int.mul_le_mul_of_nonneg_left (by omega) (Int.mul_nonneg (by omega) hK)
  have c4 : E * (((S + m) * (S + g)) * S) ≤ Q * d * (((S + m) * (S + g)) * S) :=
    Int.mul_le_mul_of_nonneg_right (by omega) (Int.mul_nonneg hK (by omega))
  refine Int.le_of_mul_le_mul_left ?_ (Int.mul_pos hP0 hSS)
  grind

/-- Inverse, long. -/
theorem gap_inverse_long {S i m f g d Q E P V N : Int} (hS : 0 < S) (hi0 : 0 ≤ i) (hi : i ≤ S)
    (hm : 0 ≤ m) (hm1 : m ≤ S) (hg : 0 ≤ g) (hg1 : g ≤ S)
    (hf0 : 0 ≤ f) (hQ : 0 < Q) (hE0 : 0 < E) (hP0 : 0 < P) (hd : 0 ≤ d)
    (hP : E * ((S - m) * (S - g)) - S * S ≤ P * (S * S))
    (hc : S * S * (S + f + d) ≤ (S + i) * (S - m) * (S - g))
    (hV : V * E ≤ Q * S) (hV2 : Q * S < (V + 1) * E) (hN : N * P ≤ Q * S)
    (hE : 6 * S ≤ E * d) (hVd : 6 * S ≤ V * d) :
    N * (S + f) ≤ V * (S + i) := by
  have hSS : 0 < S * S := Int.mul_pos hS hS
  have e1 : 6 * S * E ≤ V * d * E := Int.mul_le_mul_of_nonneg_right hVd (by omega)
  have e2 : V * E * d ≤ Q * S * d := Int.mul_le_mul_of_nonneg_right hV hd
  have e3 : 6 * E ≤ Q * d := by
    refine Int.le_of_mul_le_mul_left ?_ hS
    grind
  -- the slack is a fraction
  have k1 : (S - m) * (S - g) ≤ S * S := by
    have h1 : (S - m) * (S - g) ≤ S * (S - g) := Int.mul_le_mul_of_nonneg_right (by omega) (by omega)
    have h2 : 0 ≤ S * g := Int.mul_nonneg (by omega) hg
    grind
  have k2 : (S + i) * ((S - m) * (S - g)) ≤ (S + i) * (S * S) :=
    Int.mul_le_mul_of_nonneg_left k1 (by omega)
  have k3 : f + d ≤ i := by
    have : S * S * (S + f + d) ≤ S * S * (S + i) := by grind
    have := Int.le_of_mul_le_mul_left this hSS
    omega
  -- E (S+f+d) - 2 S ≤ P (S+i)
  have p1 : (E * ((S - m) * (S - g)) - S * S) * (S + i) ≤ P * (S * S) * (S + i) :=
    Int.mul_le_mul_of_nonneg_right hP (by omega)
  have p2 : E * (S * S * (S + f + d)) ≤ E * ((S + i) * (S - m) * (S - g)) :=
    Int.mul_le_mul_of_nonneg_left hc (by omega)
  have p3 : E * (S + f + d) - (S + i) ≤ P * (S + i) := by
    refine Int.le_of_mul_le_mul_left ?_ hSS
    grind
  have q0 : 0 ≤ Q * S - E := by
    have h1 : Q * d ≤ Q * S := Int.mul_le_mul_of_nonneg_left (by omega) (by omega)
    omega
  have q1 : (Q * S - E) * (E * (S + f + d) - (S + i)) ≤ (Q * S - E) * (P * (S + i)) :=
    Int.mul_le_mul_of_nonneg_left p3 q0
  have q2 : (Q * S - E) * (P * (S + i)) ≤ V * E * (P * (S + i)) :=
    Int.mul_le_mul_of_nonneg_right (by grind) (Int.mul_nonneg (by omega) (by omega))
  have q3 : N * P * ((S + f) * E) ≤ Q * S * ((S + f) * E) :=
    Int.mul_le_mul_of_nonneg_right hN (Int.mul_nonneg (by omega) (by omega))
  -- what is left over
  have r1 : Q * S * (6 * S) ≤ Q * S * (E * d) :=
    Int.mul_le_mul_of_nonneg_left hE (Int.mul_nonneg (by omega) (by omega))
  have r2 : S * E * (6 * E) ≤ S * E * (Q * d) :=
    Int.mul_le_mul_of_nonneg_left e3 (Int.mul_nonneg (by omega) (by omega))
  have r3 : E * E * (S + f + d) ≤ E * E * (2 * S) :=
    Int.mul_le_mul_of_nonneg_left (by omega) (Int.mul_nonneg (by omega) (by omega))
  have r4 : Q * S * (S + i) ≤ Q * S * (2 * S) :=
    Int.mul_le_mul_of_nonneg_left (by omega) (Int.mul_nonneg (by omega) (by omega))
  have r5 : 0 ≤ E * (S + i) := Int.mul_nonneg (by omega) (by omega)
  have r6 : 0 < S * (E * E) := Int.mul_pos hS (Int.mul_pos hE0 hE0)
  have r7 : 0 < Q * S * S := Int.mul_pos (Int.mul_pos hQ hS) hS
  refine Int.le_of_mul_le_mul_left ?_ (Int.mul_pos hP0 hE0)
  grind

end Lfest
