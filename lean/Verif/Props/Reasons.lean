import Verif.Lemmas.Reasons
import Verif.Examples

/-!
# The errors of the filters name the reason (C110)
-/

namespace Lfest

open Spec

/-- C110: `validate_market_update` of quotes, trades and candles answers with the first of these
reasons that applies: a price is below the minimum; a price is above the maximum; a price is not a
multiple of the tick size, and then the first such price and the tick size are reported; the bid is
not below the ask or the low not below the high. If none applies it answers `Ok`. -/
theorem C110_market_updates (f : PriceFilter) (u : Update) (ht : f.tickSize ≠ 0)
    (hc : ∀ k, u ≠ .custom k) :
    let low := ∃ p ∈ pricesOf u, tooLow f p
    let high := ∃ p ∈ pricesOf u, tooHigh f p
    let offGrid := (pricesOf u).find? (fun p => decide (¬ f.tickSize ∣ p))
    let crossed := ∃ x ∈ spreadsOf u, x.2 ≤ x.1
    (u.validate f = .ok (.error .priceTooLow) ↔ low) ∧
    (u.validate f = .ok (.error .priceTooHigh) ↔ ¬ low ∧ high) ∧
    (∀ p t, u.validate f = .ok (.error (.priceStepSize p t)) ↔
      ¬ low ∧ ¬ high ∧ offGrid = some p ∧ t = f.tickSize) ∧
    (u.validate f = .ok (.error .bidAskSpread) ↔ ¬ low ∧ ¬ high ∧ offGrid = none ∧ crossed) ∧
    (u.validate f = .ok (.ok ()) ↔ ¬ low ∧ ¬ high ∧ offGrid = none ∧ ¬ crossed) := by
  intro low high offGrid crossed
  have hv := validate_parts (f := f) hc
  rw [checks_append, checks_append, checks_append, checks_step ht] at hv
  rcases checks_low (f := f) (pricesOf u) with ⟨e1, h1⟩ | ⟨e1, h1⟩
  · have hl : low := h1
    rw [e1] at hv
    have e : u.validate f = .ok (.error .priceTooLow) := hv
    simp [e, hl]
  have hl : ¬ low := by rintro ⟨p, hp, h⟩; exact h1 p hp h
  rw [e1] at hv
  rcases checks_high (f := f) (pricesOf u) with ⟨e2, h2⟩ | ⟨e2, h2⟩
  · have hh : high := h2
    rw [e2] at hv
    have e : u.validate f = .ok (.error .priceTooHigh) := hv
    simp [e, hl, hh]
  have hh : ¬ high := by rintro ⟨p, hp, h⟩; exact h2 p hp h
  rw [e2] at hv
  cases ho : (pricesOf u).find? (fun p => decide (¬ f.tickSize ∣ p)) with
  | some p =>
    have ho' : offGrid = some p := ho
    rw [ho] at hv
    have e : u.validate f = .ok (.error (.priceStepSize p f.tickSize)) := hv
    simp only [e, hl, hh, ho']
    simp [eq_comm]
  | none =>
    have ho' : offGrid = none := ho
    rw [ho] at hv
    rcases checks_spread (spreadsOf u) with ⟨e3, h3⟩ | ⟨e3, h3⟩
    · have hx : crossed := h3
      rw [e3] at hv
      have e : u.validate f = .ok (.error .bidAskSpread) := hv
      simp [e, hl, hh, ho', hx]
    · have hx : ¬ crossed := by
        rintro ⟨x, hx, h⟩
        have := h3 x hx
        omega
      rw [e3] at hv
      have e : u.validate f = .ok (.ok ()) := hv
      simp [e, hl, hh, ho', hx]

/-- Each answer occurs. The candle has two prices off the grid: the first one, the ask, is
reported. -/
example : let f : PriceFilter := ⟨some 50, some 200, 5, 0, 0⟩
    ([.bba ⟨45, 105, 1⟩, .trade ⟨1, 205, 1, .buy⟩, .candle ⟨100, 103, 90, 111, 1⟩,
      .bba ⟨105, 100, 1⟩, .candle ⟨100, 105, 95, 90, 1⟩, .bba ⟨100, 105, 1⟩].map
        (fun u : Update => u.validate f)) =
      [.ok (.error .priceTooLow), .ok (.error .priceTooHigh), .ok (.error (.priceStepSize 103 5)),
       .ok (.error .bidAskSpread), .ok (.error .bidAskSpread), .ok (.ok ())] := by
  decide +kernel

/-- C110: the quantity filter answers with the first of these reasons that applies: the quantity is
zero; above the maximum; below the minimum; not a whole number of ticks away from the minimum. -/
theorem C110_quantities (f : QuantityFilter) (q : Int) (ht : f.tickSize ≠ 0) :
    let above := ∃ m, f.maxQuantity = some m ∧ m < q
    let below := ∃ m, f.minQuantity = some m ∧ q < m
    (f.validate q = .ok (.error .quantityTooLow) ↔ q = 0 ∨ (¬ above ∧ below)) ∧
    (f.validate q = .ok (.error .quantityTooHigh) ↔ q ≠ 0 ∧ above) ∧
    (f.validate q = .ok (.error .invalidQuantityStepSize) ↔
      q ≠ 0 ∧ ¬ above ∧ ¬ below ∧ ¬ onGrid f.minQuantity f.tickSize q) ∧
    (f.validate q = .ok (.ok ()) ↔
      q ≠ 0 ∧ ¬ above ∧ ¬ below ∧ onGrid f.minQuantity f.tickSize q) := by
  intro above below
  have ha : aboveMax f.maxQuantity q = true ↔ above := by
    unfold aboveMax; cases h : f.maxQuantity <;> simp [above, h]
  have hb : belowMin f.minQuantity q = true ↔ below := by
    unfold belowMin; cases h : f.minQuantity <;> simp [below, h]
  have hg : (q - f.minQuantity.getD 0).tmod f.tickSize = 0 ↔ onGrid f.minQuantity f.tickSize q :=
    tmod_dvd
  unfold QuantityFilter.validate
  simp only [ha, hb, drem, ht, if_false, bind, Except.bind]
  by_cases h0 : q = 0
  · simp [h0]
  by_cases h1 : above
  · simp [h0, h1]
  by_cases h2 : below
  · simp [h0, h1, h2]
  by_cases h3 : onGrid f.minQuantity f.tickSize q
  · simp [h0, h1, h2, h3, hg]
  · simp [h0, h1, h2, h3, hg]

/-- Each answer occurs. -/
example : let f : QuantityFilter := ⟨some 10, some 100, 4⟩
    [0, 9, 101, 13, 14].map f.validate =
      [.ok (.error .quantityTooLow), .ok (.error .quantityTooLow), .ok (.error .quantityTooHigh),
       .ok (.error .invalidQuantityStepSize), .ok (.ok ())] := by decide +kernel

/-- C110: the price filter answers with the first of these reasons that applies: the price is not
positive, reported as below the minimum; above the maximum; below the minimum; not a whole number of
ticks away from the minimum; too far above the mark price; too far below the mark price. -/
theorem C110_prices (e : Env) (f : PriceFilter) (p mark : Int) (ht : f.tickSize ≠ 0) :
    let above := ∃ m, f.maxPrice = some m ∧ m < p
    let below := ∃ m, f.minPrice = some m ∧ p < m
    let inBounds := 0 < p ∧ ¬ above ∧ ¬ below
    let grid := onGrid f.minPrice f.tickSize p
    let far := f.multiplierUp ≠ 0 ∧ share e mark f.multiplierUp < p
    let near := f.multiplierDown ≠ 0 ∧ p < share e mark f.multiplierDown
    (f.validate e.scale p mark = .ok (.error .limitPriceBelowMin) ↔ p ≤ 0 ∨ (¬ above ∧ below)) ∧
    (f.validate e.scale p mark = .ok (.error .limitPriceAboveMax) ↔ 0 < p ∧ above) ∧
    (f.validate e.scale p mark = .ok (.error .invalidOrderPriceStepSize) ↔ inBounds ∧ ¬ grid) ∧
    (f.validate e.scale p mark = .ok (.error .limitPriceAboveMultiple) ↔
      inBounds ∧ grid ∧ far) ∧
    (f.validate e.scale p mark = .ok (.error .limitPriceBelowMultiple) ↔
      inBounds ∧ grid ∧ ¬ far ∧ near) ∧
    (f.validate e.scale p mark = .ok (.ok ()) ↔ inBounds ∧ grid ∧ ¬ far ∧ ¬ near) := by
  intro above below inBounds grid far near
  have ha : aboveMax f.maxPrice p = true ↔ above := by
    unfold aboveMax; cases h : f.maxPrice <;> simp [above, h]
  have hb : belowMin f.minPrice p = true ↔ below := by
    unfold belowMin; cases h : f.minPrice <;> simp [below, h]
  have hg : (p - f.minPrice.getD 0).tmod f.tickSize = 0 ↔ grid := tmod_dvd
  have hf : (p > dmul e.scale mark f.multiplierUp ∧ f.multiplierUp ≠ 0) ↔ far := and_comm
  have hn : (p < dmul e.scale mark f.multiplierDown ∧ f.multiplierDown ≠ 0) ↔ near := and_comm
  unfold PriceFilter.validate
  simp only [ha, hb, drem, ht, if_false, bind, Except.bind, hf, hn]
  by_cases h0 : p ≤ 0
  · have : ¬ 0 < p := by omega
    have hi : ¬ inBounds := fun h => this h.1
    simp [h0, this, hi]
  have h0' : 0 < p := by omega
  by_cases h1 : above
  · have hi : ¬ inBounds := fun h => h.2.1 h1
    simp [h0, h0', h1, hi]
  by_cases h2 : below
  · have hi : ¬ inBounds := fun h => h.2.2 h2
    simp [h0, h0', h1, h2, hi]
  have hi : inBounds := ⟨h0', h1, h2⟩
  by_cases h3 : grid
  · by_cases h4 : far
    · simp [h0, h0', h1, h2, h3, h4, hg, hi]
    · by_cases h5 : near <;> simp [h0, h0', h1, h2, h3, h4, h5, hg, hi]
  · simp [h0, h0', h1, h2, h3, hg, hi]

/-- Each answer occurs, with a mark price of 100 and one decimal. -/
example : let f : PriceFilter := ⟨some 50, some 300, 5, 20, 7⟩
    [0, 45, 305, 52, 205, 65, 100].map (fun p => f.validate 10 p 100) =
      [.ok (.error .limitPriceBelowMin), .ok (.error .limitPriceBelowMin),
       .ok (.error .limitPriceAboveMax), .ok (.error .invalidOrderPriceStepSize),
       .ok (.error .limitPriceAboveMultiple), .ok (.error .limitPriceBelowMultiple),
       .ok (.ok ())] := by decide +kernel

end Lfest
