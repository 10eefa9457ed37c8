import Verif.Props.Config
import Verif.Lemmas.Inv

/-!
# Lemmas about quantised amounts
-/

namespace Lfest

open Spec

theorem quantize_ok {x q r : Int} (h : quantizeRoundToZero x q = .ok r) :
    q ≠ 0 ∧ r = x.tdiv q * q := by
  unfold quantizeRoundToZero at h
  split at h
  · exact absurd h (by simp)
  · injection h with h; exact ⟨by assumption, h.symm⟩

theorem quantize_eq {x q : Int} (hq : q ≠ 0) : quantizeRoundToZero x q = .ok (x.tdiv q * q) := by
  unfold quantizeRoundToZero; rw [if_neg hq]

theorem tdiv_mul_eq (x q : Int) : x.tdiv q * q = x - x.tmod q := by
  have := Int.tdiv_mul_add_tmod x q
  omega

/-- Sign and size of the remainder. -/
theorem tmod_bounds (x : Int) {q : Int} (hq : q ≠ 0) :
    (0 ≤ x → 0 ≤ x.tmod q ∧ x.tmod q ≤ x ∧ x.tmod q < Spec.abs q) ∧
    (x ≤ 0 → x.tmod q ≤ 0 ∧ x ≤ x.tmod q ∧ -Spec.abs q < x.tmod q) := by
  have key : ∀ x : Int, 0 ≤ x → 0 ≤ x.tmod q ∧ x.tmod q ≤ x ∧ x.tmod q < Spec.abs q := by
    intro x hx
    rw [Int.tmod_eq_emod_of_nonneg hx]
    rcases Int.lt_or_gt_of_ne hq with h | h
    · rw [← Int.emod_neg]
      have h1 := Int.emod_nonneg x (b := -q) (by omega)
      have h2 := Int.emod_lt_of_pos x (b := -q) (by omega)
      have h3 := Int.emod_add_mul_ediv x (-q)
      have h4 := Int.mul_nonneg (a := -q) (b := x / -q) (by omega)
        (Int.ediv_nonneg hx (by omega))
      unfold Spec.abs
      rw [if_neg (by omega)]
      omega
    · have h1 := Int.emod_nonneg x hq
      have h2 := Int.emod_lt_of_pos x h
      have h3 := Int.emod_add_mul_ediv x q
      have h4 := Int.mul_nonneg (a := q) (b := x / q) (by omega) (Int.ediv_nonneg hx (by omega))
      unfold Spec.abs
      rw [if_pos (by omega)]
      omega
  refine ⟨key x, fun hx => ?_⟩
  have h := key (-x) (by omega)
  rw [Int.neg_tmod] at h
  omega

/-- Below a multiple of the quantum nothing is rounded past it. -/
theorem quantize_ge {x q m : Int} (hq : 0 < q) (hx : 0 ≤ x) (hm : q ∣ m) (h : m ≤ x) :
    m ≤ x.tdiv q * q := by
  obtain ⟨k, rfl⟩ := hm
  rw [Int.tdiv_eq_ediv_of_nonneg hx, Int.mul_comm q k]
  exact Int.mul_le_mul_of_nonneg_right (Int.le_ediv_of_mul_le hq (by rwa [Int.mul_comm])) (by omega)

theorem appendLimit_error {c : Cfg} {s s' : State} {o : Limit} {e : Error}
    (h : appendLimit c s o = .ok (s', .error e)) : e = .maxNumberOfActiveOrders := by
  simp only [appendLimit, bind_ok] at h
  obtain ⟨r1, hr1, h⟩ := h
  split at h
  · simp only [ok_inj, Prod.mk.injEq] at h
    obtain ⟨rfl, hh⟩ := h
    obtain ⟨rfl, _⟩ := omUpdate_err hr1
    simpa using hh.symm
  · split at h
    · next hi =>
      simp only [ok_inj, Prod.mk.injEq] at h
      obtain ⟨rfl, hh⟩ := h
      obtain ⟨rfl, _⟩ := insert_err hi
      simpa using hh.symm
    · simp only [bind_ok] at h
      obtain ⟨m, _, h⟩ := h
      split at h
      · simp only [bind_ok, ok_inj, Prod.mk.injEq] at h
        obtain ⟨a, ha, s3, hs, rfl, hh⟩ := h
        simp at hh
      · split at h
        · simp only [bind_ok, ok_inj, Prod.mk.injEq] at h
          obtain ⟨a, ha, s3, hs, rfl, hh⟩ := h
          simp at hh
        · simp only [ok_inj, Prod.mk.injEq] at h
          obtain ⟨rfl, hh⟩ := h
          simp at hh

/-- The quantity check reports a wrong step size only off the grid. -/
theorem quantity_step {f : QuantityFilter} {q : Int}
    (h : f.validate q = .ok (.error .invalidQuantityStepSize)) :
    ¬ onGrid f.minQuantity f.tickSize q := by
  simp only [QuantityFilter.validate, drem, bind, Except.bind] at h
  unfold onGrid
  rw [← tmod_dvd]
  grind

/-- The price check reports a wrong step size only off the grid. -/
theorem price_step {s : Int} {f : PriceFilter} {p m : Int}
    (h : f.validate s p m = .ok (.error .invalidOrderPriceStepSize)) :
    ¬ onGrid f.minPrice f.tickSize p := by
  simp only [PriceFilter.validate, drem, bind, Except.bind] at h
  unfold onGrid
  rw [← tmod_dvd]
  grind

theorem quantity_no_price {f : QuantityFilter} {q : Int} :
    f.validate q ≠ .ok (.error .invalidOrderPriceStepSize) := by
  simp only [QuantityFilter.validate, drem, bind, Except.bind]
  grind

theorem price_no_quantity {s : Int} {f : PriceFilter} {p m : Int} :
    f.validate s p m ≠ .ok (.error .invalidQuantityStepSize) := by
  simp only [PriceFilter.validate, drem, bind, Except.bind]
  grind

/-- A multiple of the tick size is on the grid when the minimum is. -/
theorem onGrid_of_dvd {lo : Option Int} {tick x : Int} (h : ∀ m, lo = some m → tick ∣ m)
    (hx : tick ∣ x) : onGrid lo tick x := by
  unfold onGrid
  cases lo with
  | none => simpa using hx
  | some m => exact Int.dvd_sub hx (h m rfl)

end Lfest
