import Verif.Lemmas.Monad
import Verif.Lemmas.Arith
import Verif.Spec

/-!
Filters and constructors.
-/

namespace Lfest

open Spec

theorem aboveMax_eq {mx : Option Int} {x : Int} :
    aboveMax mx x = true ↔ ¬ ∀ m, mx = some m → x ≤ m := by
  cases mx <;> simp [aboveMax]

theorem belowMin_eq {mn : Option Int} {x : Int} :
    belowMin mn x = true ↔ ¬ ∀ m, mn = some m → m ≤ x := by
  cases mn <;> simp [belowMin]

theorem tmod_dvd {a b : Int} : a.tmod b = 0 ↔ b ∣ a :=
  ⟨Int.dvd_of_tmod_eq_zero, Int.tmod_eq_zero_of_dvd⟩

theorem mid_eq (c : Cfg) (ms : MarketState) : ms.mid c.scale = mid ms := by
  unfold MarketState.mid midPrice mid
  exact Int.mul_tdiv_mul_of_pos_left _ _ (cscale_pos c)

theorem quantity_total {f : QuantityFilter} {q : Int} (ht : f.tickSize ≠ 0) :
    ∃ r, f.validate q = .ok r := by
  simp only [QuantityFilter.validate, drem, if_neg ht]
  simp only [bind, Except.bind]
  (repeat' split) <;> exact ⟨_, rfl⟩

theorem price_total {s : Int} {f : PriceFilter} {p m : Int} (ht : f.tickSize ≠ 0) :
    ∃ r, f.validate s p m = .ok r := by
  simp only [PriceFilter.validate, drem, if_neg ht]
  simp only [bind, Except.bind]
  (repeat' split) <;> exact ⟨_, rfl⟩

theorem quantity_ok {f : QuantityFilter} {q : Int} {r} (h : f.validate q = .ok r) :
    r = .ok () ↔ quantityOk f q := by
  unfold QuantityFilter.validate at h
  unfold quantityOk within onGrid
  split at h
  · simp only [ok_inj] at h; subst h; simp [*]
  · split at h
    · next h1 => simp only [ok_inj] at h; subst h; rw [aboveMax_eq] at h1
                 simp only [reduceCtorEq, false_iff]; rintro ⟨_, ⟨_, b⟩, _⟩; exact h1 b
    · next h1 =>
      rw [aboveMax_eq, Classical.not_not] at h1
      split at h
      · next h2 => simp only [ok_inj] at h; subst h; rw [belowMin_eq] at h2
                   simp only [reduceCtorEq, false_iff]; rintro ⟨_, ⟨b, _⟩, _⟩; exact h2 b
      · next h2 =>
        rw [belowMin_eq, Classical.not_not] at h2
        simp only [bind_ok, drem_ok] at h
        obtain ⟨x, ⟨_, rfl⟩, h⟩ := h
        split at h
        · next h3 =>
          simp only [ok_inj] at h; subst h; rw [Ne, tmod_dvd] at h3; simp_all
        · next h3 =>
          simp only [ok_inj] at h; subst h; rw [Ne, Classical.not_not, tmod_dvd] at h3; simp_all

theorem price_ok {e : Env} {f : PriceFilter} {p m : Int} {r}
    (h : f.validate e.scale p m = .ok r) : r = .ok () ↔ priceOk e f p m := by
  unfold PriceFilter.validate at h
  unfold priceOk within onGrid
  split at h
  · simp only [ok_inj] at h; subst h; simp only [reduceCtorEq, false_iff]; omega
  · split at h
    · next h1 => simp only [ok_inj] at h; subst h; rw [aboveMax_eq] at h1
                 simp only [reduceCtorEq, false_iff]; rintro ⟨_, ⟨_, b⟩, _⟩; exact h1 b
    · next h1 =>
      rw [aboveMax_eq, Classical.not_not] at h1
      split at h
      · next h2 => simp only [ok_inj] at h; subst h; rw [belowMin_eq] at h2
                   simp only [reduceCtorEq, false_iff]; rintro ⟨_, ⟨b, _⟩, _⟩; exact h2 b
      · next h2 =>
        rw [belowMin_eq, Classical.not_not] at h2
        simp only [bind_ok, drem_ok] at h
        obtain ⟨x, ⟨_, rfl⟩, h⟩ := h
        split at h
        · next h3 =>
          simp only [ok_inj] at h; subst h; rw [Ne, tmod_dvd] at h3; simp_all
        · next h3 =>
          rw [Ne, Classical.not_not, tmod_dvd] at h3
          split at h
          · next h4 =>
            simp only [ok_inj] at h; subst h
            simp only [reduceCtorEq, false_iff]
            rintro ⟨_, _, _, h5, _⟩
            have := h5 h4.2
            have h6 := h4.1
            simp only [dmul] at h6; unfold share at this; omega
          · next h4 =>
            split at h
            · next h5 =>
              simp only [ok_inj] at h; subst h
              simp only [reduceCtorEq, false_iff]
              rintro ⟨_, _, _, _, h6⟩
              have := h6 h5.2
              have h7 := h5.1
              simp only [dmul] at h7; unfold share at this; omega
            · next h5 =>
              simp only [ok_inj] at h; subst h
              simp only [true_iff]
              refine ⟨by omega, ⟨h2, h1⟩, h3, fun hu => ?_, fun hd => ?_⟩
              · have : ¬ p > dmul e.scale m f.multiplierUp := fun hh => h4 ⟨hh, hu⟩
                simp only [dmul] at this; unfold share; omega
              · have : ¬ p < dmul e.scale m f.multiplierDown := fun hh => h5 ⟨hh, hd⟩
                simp only [dmul] at this; unfold share; omega

theorem opposing_long {q : Int} (h : 0 < q) : opposing q .sell = q ∧ opposing q .buy = 0 := by
  simp only [opposing, larger]
  constructor
  · rw [if_neg (by omega)]
  · rw [if_pos (by omega)]

theorem opposing_short {q : Int} (h : 0 < q) : opposing (-q) .buy = q ∧ opposing (-q) .sell = 0 := by
  simp only [opposing, larger]
  constructor
  · rw [if_neg (by omega)]; omega
  · rw [if_pos (by omega)]

theorem opposing_neutral (side : Side) : opposing 0 side = 0 := by
  cases side <;> simp [opposing, larger]

end Lfest
