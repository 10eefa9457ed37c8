import Verif.Lemmas.Quantize
import Verif.Examples

/-!
# Constructed and quantised amounts: C81
-/

namespace Lfest

open Spec

/-- C81: `new(integer, scale)` is the number `integer / 10^scale`: as a fraction of `10^D`, the raw
amount is the same number. -/
theorem C81_new (D scale : Nat) (i : Int) (h : scale ≤ D) :
    amountNew D i scale * 10 ^ scale = i * 10 ^ D := by
  unfold amountNew
  obtain ⟨k, rfl⟩ := Nat.exists_eq_add_of_le h
  rw [Nat.add_sub_cancel_left, Int.pow_add, Int.natCast_pow, Int.mul_assoc, Int.mul_comm (10 ^ scale)]
  rfl

/-- 11.65 with five decimals. -/
example : amountNew 5 1165 2 = 1165000 := by decide

/-- C81: quantising gives the multiple of the quantum that lies nearest to the amount on the side
of zero: it has the sign of the amount, is not larger in size, and the next multiple is. It fails
exactly for a zero quantum. -/
theorem C81_quantize (x q : Int) :
    (∀ r, quantizeRoundToZero x q = .ok r →
      q ∣ r ∧ (0 ≤ x → 0 ≤ r ∧ r ≤ x ∧ x < r + Spec.abs q) ∧
        (x ≤ 0 → r ≤ 0 ∧ x ≤ r ∧ r - Spec.abs q < x)) ∧
    ((∃ p, quantizeRoundToZero x q = .error p) ↔ q = 0) := by
  constructor
  · intro r h
    obtain ⟨hq, rfl⟩ := quantize_ok h
    have hb := tmod_bounds x hq
    refine ⟨Int.dvd_mul_left _ _, fun hx => ?_, fun hx => ?_⟩ <;> rw [tdiv_mul_eq]
    · have := hb.1 hx; omega
    · have := hb.2 hx; omega
  · unfold quantizeRoundToZero
    split <;> simp [*]

/-- The example of the documentation, 11.65 with increments of 0.5; and a negative amount. -/
example : quantizeRoundToZero (amountNew 5 1165 2) (amountNew 5 5 1) = .ok (amountNew 5 115 1) ∧
    quantizeRoundToZero (-17) 5 = .ok (-15) ∧ quantizeRoundToZero 3 0 = .error .divByZero := by
  decide

/-- C81: an amount that is a multiple of the quantum already stays as it is. -/
theorem C81_idempotent (x q : Int) (hq : q ≠ 0) :
    quantizeRoundToZero x q = .ok x ↔ q ∣ x := by
  rw [quantize_eq hq, tdiv_mul_eq, ← tmod_dvd]
  simp only [Except.ok.injEq]
  omega

/-- C81: quantising preserves the order of amounts. -/
theorem C81_monotone (x y q a b : Int) (h : x ≤ y) (ha : quantizeRoundToZero x q = .ok a)
    (hb : quantizeRoundToZero y q = .ok b) : a ≤ b := by
  obtain ⟨hq, rfl⟩ := quantize_ok ha
  obtain ⟨_, rfl⟩ := quantize_ok hb
  have key : ∀ {x y : Int}, 0 ≤ x → x ≤ y → x.tdiv q * q ≤ y.tdiv q * q := by
    intro x y hx h
    rcases Int.lt_or_gt_of_ne hq with h' | h'
    · have := quantize_ge (q := -q) (x := y) (m := x.tdiv q * q) (by omega) (by omega)
        (by rw [Int.neg_dvd]; exact Int.dvd_mul_left _ _)
        (by rw [tdiv_mul_eq]; have := (tmod_bounds x hq).1 hx; omega)
      rw [Int.tdiv_neg] at this
      rwa [Int.neg_mul_neg] at this
    · exact quantize_ge (by omega) (by omega) (Int.dvd_mul_left _ _)
        (by rw [tdiv_mul_eq]; have := (tmod_bounds x hq).1 hx; omega)
  rcases Int.le_total 0 x with hx | hx
  · exact key hx h
  · rcases Int.le_total 0 y with hy | hy
    · rw [tdiv_mul_eq, tdiv_mul_eq]
      have h1 := (tmod_bounds x hq).2 hx
      have h2 := (tmod_bounds y hq).1 hy
      omega
    · have := key (x := -y) (y := -x) (by omega) (by omega)
      rw [Int.neg_tdiv, Int.neg_tdiv, Int.neg_mul, Int.neg_mul] at this
      omega

/-- C81: a quantity between the bounds of a quantity filter that is quantised to the filter's tick
size is accepted by the filter, for every filter made by its constructor. -/
theorem C81_quantity_accepted (mn mx : Option Int) (tick x r : Int) (f : QuantityFilter)
    (hf : QuantityFilter.new mn mx tick = .ok (.ok f)) (ht : 0 < tick)
    (hx : tick ≤ x) (hw : within mn mx x)
    (hr : quantizeRoundToZero x f.tickSize = .ok r) : f.validate r = .ok (.ok ()) := by
  have hnew := C46_quantity_filter_new mn mx tick
  obtain ⟨_, hdvd⟩ := hnew.1.1 ⟨f, hf⟩
  obtain rfl := hnew.2.1 f hf
  obtain ⟨_, rfl⟩ := quantize_ok hr
  refine (C45_quantity_filter _ _ (by simpa using (by omega : tick ≠ 0))).1 ⟨?_, ?_, ?_⟩
  · have := quantize_ge ht (by omega) (Int.dvd_refl tick) hx
    simp only
    omega
  · refine ⟨fun m hm => quantize_ge ht (by omega) (hdvd m hm) (hw.1 m hm), fun m hm => ?_⟩
    have h1 := hw.2 m hm
    have h2 := (tmod_bounds x (q := tick) (by omega)).1 (by omega)
    simp only [tdiv_mul_eq]
    omega
  · exact onGrid_of_dvd hdvd (Int.dvd_mul_left _ _)

/-- Quantities from 10 to 100 in steps of 5; 17 becomes 15. -/
example : QuantityFilter.new (some 10) (some 100) 5 = .ok (.ok ⟨some 10, some 100, 5⟩) ∧
    within (some 10) (some 100) 17 ∧ quantizeRoundToZero 17 5 = .ok 15 := by
  refine ⟨by decide, ?_, by decide⟩
  unfold within
  grind

/-- C81: the same for prices, which must also lie in the band around the mark price. -/
theorem C81_price_accepted (e : Env) (mn mx : Option Int) (tick up down mark x r : Int)
    (f : PriceFilter) (hf : PriceFilter.new e.scale mn mx tick up down = .ok (.ok f))
    (ht : 0 < tick) (hx : tick ≤ x) (hw : within mn mx x)
    (hup : x ≤ share e mark up) (hdown : share e mark down ≤ r)
    (hr : quantizeRoundToZero x f.tickSize = .ok r) :
    f.validate e.scale r mark = .ok (.ok ()) := by
  have hnew := C46_price_filter_new e.scale mn mx tick up down
  obtain ⟨_, hdvd, _, _⟩ := hnew.1.1 ⟨f, hf⟩
  obtain rfl := hnew.2.1 f hf
  obtain ⟨_, rfl⟩ := quantize_ok hr
  have h2 := (tmod_bounds x (q := tick) (by omega)).1 (by omega)
  have h3 := tdiv_mul_eq x tick
  refine (C44_price_filter e _ _ mark (by simpa using (by omega : tick ≠ 0))).1
    ⟨?_, ⟨?_, ?_⟩, ?_, ?_, ?_⟩
  · have := quantize_ge ht (by omega) (Int.dvd_refl tick) hx
    simp only
    omega
  · exact fun m hm => quantize_ge ht (by omega) (hdvd m hm) (hw.1 m hm)
  · intro m hm
    have h1 := hw.2 m hm
    simp only
    omega
  · exact onGrid_of_dvd hdvd (Int.dvd_mul_left _ _)
  · intro _
    simp only
    omega
  · exact fun _ => hdown

/-- Prices in steps of 5 and at most twice the mark price 100; 117 becomes 115. -/
example : PriceFilter.new Ex.lin.env.scale none none 5 (2 * Ex.lin.env.scale) 0
      = .ok (.ok ⟨none, none, 5, 2 * Ex.lin.env.scale, 0⟩) ∧
    117 ≤ share Ex.lin.env 100 (2 * Ex.lin.env.scale) ∧ share Ex.lin.env 100 0 ≤ 115 ∧
    quantizeRoundToZero 117 5 = .ok 115 := by
  decide +kernel

/-- C81: an order whose price and quantity are quantised to the tick sizes is never refused for its
step size, in any state. -/
theorem C81_order_on_grid (c : Cfg) (s s' : State) (side : Side) (x y price q : Int) (uid : Nat)
    (r : Resp) (hpf : ∃ mn mx tick up down,
      PriceFilter.new c.env.scale mn mx tick up down = .ok (.ok c.spec.priceFilter))
    (hqf : ∃ mn mx tick, QuantityFilter.new mn mx tick = .ok (.ok c.spec.quantityFilter))
    (hp : quantizeRoundToZero x c.spec.priceFilter.tickSize = .ok price)
    (hq : quantizeRoundToZero y c.spec.quantityFilter.tickSize = .ok q)
    (h : step c s (.limit side price q uid) = .ok (s', r)) :
    r ≠ .limit (.error (.order .invalidOrderPriceStepSize)) ∧
    r ≠ .limit (.error (.order .invalidQuantityStepSize)) := by
  obtain ⟨mn, mx, tick, up, down, hf⟩ := hpf
  obtain ⟨mn', mx', tick', hf'⟩ := hqf
  have hnp := C46_price_filter_new c.env.scale mn mx tick up down
  have hnq := C46_quantity_filter_new mn' mx' tick'
  have hd := (hnp.1.1 ⟨_, hf⟩).2.1
  have hd' := (hnq.1.1 ⟨_, hf'⟩).2
  have e1 := hnp.2.1 _ hf
  have e2 := hnq.2.1 _ hf'
  have g1 : onGrid c.spec.priceFilter.minPrice c.spec.priceFilter.tickSize price := by
    obtain ⟨_, rfl⟩ := quantize_ok hp
    rw [e1]
    exact onGrid_of_dvd hd (Int.dvd_mul_left _ _)
  have g2 : onGrid c.spec.quantityFilter.minQuantity c.spec.quantityFilter.tickSize q := by
    obtain ⟨_, rfl⟩ := quantize_ok hq
    rw [e2]
    exact onGrid_of_dvd hd' (Int.dvd_mul_left _ _)
  simp only [step] at h
  split at h
  · simp only [ok_inj, Prod.mk.injEq] at h
    obtain ⟨_, rfl⟩ := h
    simp
  · next o ho =>
    obtain ⟨_, _, rfl⟩ := newLimit_ok ho
    simp only [bind_ok, ok_inj, Prod.mk.injEq] at h
    obtain ⟨⟨s2, x⟩, h, rfl, rfl⟩ := h
    rcases submitLimit_cases h with ⟨err, hv, _, rfl⟩ | ⟨_, ⟨err, hv, _, rfl⟩ |
      ⟨_, ⟨err, _, _, rfl⟩ | ⟨_, ⟨_, _, rfl⟩ | ⟨_, ra, ha, ⟨err, rfl, rfl⟩ | ⟨_, rfl⟩⟩⟩⟩⟩
    · constructor <;> intro hh <;>
        simp only [Resp.limit.injEq, Except.error.injEq, Error.order.injEq] at hh <;> subst hh
      · exact quantity_no_price hv
      · exact quantity_step hv g2
    · constructor <;> intro hh <;>
        simp only [Resp.limit.injEq, Except.error.injEq, Error.order.injEq] at hh <;> subst hh
      · exact price_step hv g1
      · exact price_no_quantity hv
    · simp
    · simp
    · obtain rfl := appendLimit_error ha
      simp
    · simp

/-- The configuration used in the examples has such filters, and accepts a quantised order. -/
example : PriceFilter.new Ex.lin.env.scale none none Ex.lin.spec.priceFilter.tickSize
      Ex.lin.spec.priceFilter.multiplierUp Ex.lin.spec.priceFilter.multiplierDown
      = .ok (.ok Ex.lin.spec.priceFilter) ∧
    QuantityFilter.new none none Ex.lin.spec.quantityFilter.tickSize
      = .ok (.ok Ex.lin.spec.quantityFilter) ∧
    quantizeRoundToZero (Ex.d 95 + 1) Ex.lin.spec.priceFilter.tickSize ≠ .error .divByZero := by
  decide +kernel

/-- Without the constructor a minimum off the grid is possible, and every quantised quantity is
refused. -/
theorem C81_constructor_needed : ∃ f : QuantityFilter, ∀ x r,
    quantizeRoundToZero x f.tickSize = .ok r → f.validate r ≠ .ok (.ok ()) := by
  refine ⟨⟨some 3, none, 10⟩, fun x r h hv => ?_⟩
  obtain ⟨_, rfl⟩ := quantize_ok h
  have := (quantity_ok hv).1 rfl
  obtain ⟨_, _, k, hk⟩ := this
  simp only [Option.getD_some] at hk
  omega

end Lfest
