import Verif.SpecReasons
import Verif.Lemmas.Validate

/-! The checks of a market update, kind by kind. -/

namespace Lfest

open Spec

theorem checks_append (xs ys : List (Res (Except FilterError Unit))) :
    checks (xs ++ ys) = (do
      match ← checks xs with
      | .error err => .ok (.error err)
      | .ok () => checks ys) := by
  induction xs with
  | nil => rfl
  | cons x xs ih =>
    simp only [List.cons_append, checks, ih]
    cases x with
    | error p => rfl
    | ok r => cases r <;> rfl

theorem checks_low {f : PriceFilter} (ps : List Int) :
    (checks (ps.map (enforceMinPrice f.minPrice)) = .ok (.error .priceTooLow) ∧
      ∃ p ∈ ps, tooLow f p) ∨
    (checks (ps.map (enforceMinPrice f.minPrice)) = .ok (.ok ()) ∧ ∀ p ∈ ps, ¬ tooLow f p) := by
  induction ps with
  | nil => exact .inr ⟨rfl, by simp⟩
  | cons p ps ih =>
    simp only [List.map_cons, checks, List.mem_cons]
    by_cases h : tooLow f p
    · left
      refine ⟨?_, p, .inl rfl, h⟩
      obtain ⟨m, h1, h2, h3⟩ := h
      simp [enforceMinPrice, h1, h2, h3, bind, Except.bind]
    · have e : enforceMinPrice f.minPrice p = .ok (.ok ()) := by
        refine enforceMin_ok.mpr fun m hm => ?_
        by_cases hz : m = 0
        · exact .inl hz
        · exact .inr (Int.not_lt.mp fun hl => h ⟨m, hm, hz, hl⟩)
      rw [e]
      rcases ih with ⟨h1, q, hq, hl⟩ | ⟨h1, h2⟩
      · exact .inl ⟨h1, q, .inr hq, hl⟩
      · refine .inr ⟨h1, ?_⟩
        rintro q (rfl | hq)
        · exact h
        · exact h2 q hq

theorem checks_high {f : PriceFilter} (ps : List Int) :
    (checks (ps.map (enforceMaxPrice f.maxPrice)) = .ok (.error .priceTooHigh) ∧
      ∃ p ∈ ps, tooHigh f p) ∨
    (checks (ps.map (enforceMaxPrice f.maxPrice)) = .ok (.ok ()) ∧ ∀ p ∈ ps, ¬ tooHigh f p) := by
  induction ps with
  | nil => exact .inr ⟨rfl, by simp⟩
  | cons p ps ih =>
    simp only [List.map_cons, checks, List.mem_cons]
    by_cases h : tooHigh f p
    · left
      refine ⟨?_, p, .inl rfl, h⟩
      obtain ⟨m, h1, h2, h3⟩ := h
      simp [enforceMaxPrice, h1, h2, h3, bind, Except.bind]
    · have e : enforceMaxPrice f.maxPrice p = .ok (.ok ()) := by
        refine enforceMax_ok.mpr fun m hm => ?_
        by_cases hz : m = 0
        · exact .inl hz
        · exact .inr (Int.not_lt.mp fun hl => h ⟨m, hm, hz, hl⟩)
      rw [e]
      rcases ih with ⟨h1, q, hq, hl⟩ | ⟨h1, h2⟩
      · exact .inl ⟨h1, q, .inr hq, hl⟩
      · refine .inr ⟨h1, ?_⟩
        rintro q (rfl | hq)
        · exact h
        · exact h2 q hq

theorem checks_step {t : Int} (ht : t ≠ 0) (ps : List Int) :
    checks (ps.map (enforceStepSize t)) =
      match ps.find? (fun p => decide (¬ t ∣ p)) with
      | some p => .ok (.error (.priceStepSize p t))
      | none => .ok (.ok ()) := by
  induction ps with
  | nil => rfl
  | cons p ps ih =>
    simp only [List.map_cons, checks, List.find?_cons]
    by_cases h : t ∣ p
    · rw [(enforceStep_ok ht).mpr h]
      simpa [h, bind, Except.bind] using ih
    · have : p.tmod t ≠ 0 := fun hh => h (tmod_dvd.mp hh)
      simp [enforceStepSize, drem, ht, this, h, bind, Except.bind]

theorem checks_spread (xs : List (Int × Int)) :
    (checks (xs.map fun x => enforceBidAskSpread x.1 x.2) = .ok (.error .bidAskSpread) ∧
      ∃ x ∈ xs, x.2 ≤ x.1) ∨
    (checks (xs.map fun x => enforceBidAskSpread x.1 x.2) = .ok (.ok ()) ∧
      ∀ x ∈ xs, x.1 < x.2) := by
  induction xs with
  | nil => exact .inr ⟨rfl, by simp⟩
  | cons p ps ih =>
    simp only [List.map_cons, checks, List.mem_cons]
    by_cases h : p.1 < p.2
    · rw [spread_ok.mpr h]
      rcases ih with ⟨h1, q, hq, hl⟩ | ⟨h1, h2⟩
      · exact .inl ⟨h1, q, .inr hq, hl⟩
      · refine .inr ⟨h1, ?_⟩
        rintro q (rfl | hq)
        · exact h
        · exact h2 q hq
    · left
      have h' : p.2 ≤ p.1 := by omega
      refine ⟨?_, p, .inl rfl, h'⟩
      simp [enforceBidAskSpread, h', bind, Except.bind]

theorem validate_parts {f : PriceFilter} {u : Update} (hc : ∀ k, u ≠ .custom k) :
    u.validate f = checks ((((pricesOf u).map (enforceMinPrice f.minPrice) ++
      (pricesOf u).map (enforceMaxPrice f.maxPrice)) ++
      (pricesOf u).map (enforceStepSize f.tickSize)) ++
      (spreadsOf u).map fun x => enforceBidAskSpread x.1 x.2) := by
  cases u with
  | custom k => exact absurd rfl (hc k)
  | _ => rfl

end Lfest
