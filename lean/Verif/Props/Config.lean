import Verif.Lemmas.Config
import Verif.Lemmas.Inv
import Verif.Lemmas.Trace
import Verif.Lemmas.Ledger
import Verif.Examples

/-!
# Filters, constructors and margin rates (C44–C47)
-/

namespace Lfest

open Spec

/-! ## C44 -/

/-- C44: for a filter with a non-zero tick size, `validate_limit_price` returns `Ok` exactly
for the allowed prices, and an error otherwise. -/
theorem C44_price_filter (e : Env) (f : PriceFilter) (price mark : Int) (ht : f.tickSize ≠ 0) :
    (priceOk e f price mark → f.validate e.scale price mark = .ok (.ok ())) ∧
    (¬ priceOk e f price mark → ∃ err, f.validate e.scale price mark = .ok (.error err)) := by
  obtain ⟨r, hr⟩ := price_total (s := e.scale) (p := price) (m := mark) ht
  have := price_ok hr
  constructor
  · intro h; rw [hr, this.2 h]
  · intro h
    cases r with
    | ok _ => exact absurd (this.1 rfl) h
    | error err => exact ⟨err, hr⟩

/-- The same seen from the exchange: a limit order with an allowed quantity is turned down by
the price filter exactly if its price is not allowed at the current mid price. -/
theorem C44_limit_price_rule (c : Cfg) (s s' : State) (side : Side) (price q : Int) (uid : Nat)
    (r : Except Error Limit) (hr : Reachable c s)
    (h : step c s (.limit side price q uid) = .ok (s', .limit r))
    (hq : quantityOk c.spec.quantityFilter q) :
    (∃ err, r = .error (.order err) ∧ ∀ a b, err ≠ .goodTillCrossingRejected a b) ↔
      ¬ priceOk c.env c.spec.priceFilter price (mid s.ms) := by
  rcases step_cases h with ⟨_, _, _, he, _⟩ | ⟨_, _, he, _⟩ | ⟨err, _, he⟩ |
    ⟨_, _, _, _, he, _⟩ | ⟨_, _, _, _, x, he, hp, hq', h, hx⟩ | ⟨_, _, _, _, _, _, he, _⟩ | ⟨_, _, he, _⟩
  all_goals try (cases he)
  cases hx
  have hm := mid_eq c s.ms
  rcases submitLimit_cases h with ⟨err, h1, _, _⟩ | ⟨_, h⟩
  · exact absurd ((quantity_ok h1).2 hq) (by simp)
  rcases h with ⟨err, h1, _, rfl⟩ | ⟨h1, h⟩
  · rw [hm] at h1
    have := price_ok h1
    simp only [reduceCtorEq, false_iff] at this
    refine ⟨fun _ => this, fun _ => ⟨err, rfl, ?_⟩⟩
    rintro _ _ rfl
    unfold PriceFilter.validate at h1
    simp only [bind, Except.bind] at h1
    (repeat' split at h1) <;> simp at h1
  · rw [hm] at h1
    have := (price_ok h1).1 rfl
    refine ⟨?_, fun hn => absurd this hn⟩
    rintro ⟨err, rfl, hne⟩
    rcases h with ⟨err', _, _, he⟩ | ⟨_, h⟩
    · simp at he
    rcases h with ⟨_, _, he⟩ | ⟨_, ra, ha, h⟩
    · simp only [Except.error.injEq, Error.order.injEq] at he; exact absurd he (hne _ _)
    · rcases h with ⟨err', rfl, he⟩ | ⟨_, he⟩
      · simp only [Except.error.injEq] at he; subst he
        have hf : ∀ x ∈ s.active, x.id ≠ s.nextId :=
          fun x hx => Nat.ne_of_lt (hr.inv.orders x hx).fresh
        obtain ⟨_, ⟨h2, _⟩ | ⟨_, _, _, ⟨h2, _⟩ | ⟨h2, _⟩⟩⟩ := appendLimit_arenas hf ha <;> simp at h2
      · simp at he

/-- Prices on and off the grid, above the minimum, below the maximum, and the multipliers. -/
example : ([94, 95, 105, 100, 185, 195, 190, 205].map fun p =>
    decide ((⟨some 95, some 185, 10, 19, 5⟩ : PriceFilter).validate 10 p 100 = .ok (.ok ()))) =
    [false, true, true, false, true, false, false, false] := by decide +kernel

/-- An accepted limit order, and one at a price above twice the mid price. -/
example : Ex.last Ex.lin Ex.ops1 (.limit .sell (Ex.d 115) (Ex.d 1) 0)
      (fun _ _ r => Ex.isOk r) = true ∧
    Ex.last Ex.lin Ex.ops1 (.limit .sell (Ex.d 202) (Ex.d 1) 0)
      (fun _ _ r => decide (r = .limit (.error (.order .limitPriceAboveMultiple)))) = true := by
  decide +kernel

/-! ## C45 -/

/-- C45: for a filter with a non-zero tick size, `validate_order_quantity` returns `Ok` exactly
for the allowed quantities, and an error otherwise. -/
theorem C45_quantity_filter (f : QuantityFilter) (q : Int) (ht : f.tickSize ≠ 0) :
    (quantityOk f q → f.validate q = .ok (.ok ())) ∧
    (¬ quantityOk f q → ∃ err, f.validate q = .ok (.error err)) := by
  obtain ⟨r, hr⟩ := quantity_total (q := q) ht
  have := quantity_ok hr
  constructor
  · intro h; rw [hr, this.2 h]
  · intro h
    cases r with
    | ok _ => exact absurd (this.1 rfl) h
    | error err => exact ⟨err, hr⟩

/-- C45: the default filter accepts every whole number of contracts but zero. -/
theorem C45_default (e : Env) (q : Int) :
    (QuantityFilter.default e.scale).validate q = .ok (.ok ()) ↔ q ≠ 0 ∧ e.scale ∣ q := by
  have hs := scale_pos e
  have h := C45_quantity_filter (.default e.scale) q (by simp [QuantityFilter.default]; omega)
  have hq : quantityOk (.default e.scale) q ↔ q ≠ 0 ∧ e.scale ∣ q := by
    simp [quantityOk, QuantityFilter.default, within, onGrid]
  rw [← hq]
  refine ⟨fun hv => ?_, h.1⟩
  refine Classical.byContradiction fun hn => ?_
  obtain ⟨err, he⟩ := h.2 hn
  rw [hv] at he
  cases he

/-- C44: the default filter accepts every positive whole price up to twice the mark price. -/
theorem C44_default (e : Env) (price mark : Int) :
    (PriceFilter.default e.scale).validate e.scale price mark = .ok (.ok ()) ↔
      0 < price ∧ price ≤ 2 * mark ∧ e.scale ∣ price := by
  have hs := scale_pos e
  have h := C44_price_filter e (.default e.scale) price mark (by simp [PriceFilter.default]; omega)
  have hm : share e mark (2 * e.scale) = 2 * mark := by
    simp only [share]
    rw [← Int.mul_assoc, Int.mul_tdiv_cancel _ (by omega)]
    omega
  have hq : priceOk e (.default e.scale) price mark ↔
      0 < price ∧ price ≤ 2 * mark ∧ e.scale ∣ price := by
    have h2 : 2 * e.scale ≠ 0 := by omega
    simp only [priceOk, PriceFilter.default, hm]
    simp [within, onGrid, h2]
    intro _
    exact And.comm
  rw [← hq]
  refine ⟨fun hv => ?_, h.1⟩
  refine Classical.byContradiction fun hn => ?_
  obtain ⟨err, he⟩ := h.2 hn
  rw [hv] at he
  cases he

/-- Market orders are turned down with an order error exactly if their quantity is not
allowed; the tracker still sees the submission and nothing else changes. -/
theorem C45_market_quantity_rule (c : Cfg) (s s' : State) (side : Side) (q : Int) (uid : Nat)
    (r : Except Error FilledMarket) (h : step c s (.market side q uid) = .ok (s', .market r)) :
    ((∃ err, r = .error (.order err)) ↔ ¬ quantityOk c.spec.quantityFilter q) ∧
    (¬ quantityOk c.spec.quantityFilter q →
      s' = { s with log := .marketSubmit ⟨uid, side, q⟩ :: s.log }) := by
  rcases step_cases h with ⟨_, _, _, he, _⟩ | ⟨_, _, he, _⟩ | ⟨err, _, he⟩ |
    ⟨_, _, _, _, he, hp, h, hx⟩ | ⟨_, _, _, _, x, he, _⟩ | ⟨_, _, _, _, _, _, he, _⟩ | ⟨_, _, he, _⟩
  all_goals try (cases he)
  cases hx
  rcases submitMarket_cases h with ⟨err, h1, h2, rfl⟩ | ⟨h1, h⟩
  · have := quantity_ok h1
    simp only [reduceCtorEq, false_iff] at this
    exact ⟨⟨fun _ => this, fun _ => ⟨err, rfl⟩⟩, fun _ => h2⟩
  · have := (quantity_ok h1).1 rfl
    refine ⟨⟨?_, fun hn => absurd this hn⟩, fun hn => absurd this hn⟩
    rintro ⟨err, rfl⟩
    rcases h with ⟨_, _, _, he⟩ | ⟨_, _, _, _, _, _, _, he⟩ <;> simp at he

/-- Limit orders whose quantity is not allowed are turned down; the tracker still sees the
submission and nothing else changes. -/
theorem C45_limit_quantity_rule (c : Cfg) (s s' : State) (side : Side) (price q : Int)
    (uid : Nat) (r : Except Error Limit)
    (h : step c s (.limit side price q uid) = .ok (s', .limit r))
    (hq : ¬ quantityOk c.spec.quantityFilter q) :
    (∃ err, r = .error (.order err)) ∧
      s' = { s with log := .limitSubmit ⟨uid, side, price, q⟩ :: s.log } := by
  rcases step_cases h with ⟨_, _, _, he, _⟩ | ⟨_, _, he, _⟩ | ⟨err, _, he⟩ |
    ⟨_, _, _, _, he, _⟩ | ⟨_, _, _, _, x, he, hp, hq', h, hx⟩ | ⟨_, _, _, _, _, _, he, _⟩ | ⟨_, _, he, _⟩
  all_goals try (cases he)
  cases hx
  rcases submitLimit_cases h with ⟨err, h1, h2, rfl⟩ | ⟨h1, _⟩
  · exact ⟨⟨err, rfl⟩, h2⟩
  · exact absurd ((quantity_ok h1).1 rfl) hq

/-- Quantities on and off the grid and beyond the bounds. -/
example : ([0, 2, 5, 8, 9, 14, 17].map fun q =>
    decide ((⟨some 5, some 14, 3⟩ : QuantityFilter).validate q = .ok (.ok ()))) =
    [false, false, true, true, false, true, false] := by decide +kernel

/-- A market order that is off the quantity grid. -/
example : Ex.last Ex.lin Ex.ops1 (.market .buy 1500 0)
    (fun _ _ r => decide (r = .market (.error (.order .invalidQuantityStepSize)))) = true := by
  decide +kernel

/-! ## C46 -/

/-- C46, orders: both constructors accept exactly positive prices and quantities, and keep
them. -/
theorem C46_order_constructors (side : Side) (price q : Int) (uid : Nat) :
    ((∃ o, NewLimit.new side price q uid = .ok o) ↔ 0 < price ∧ 0 < q) ∧
    (∀ o, NewLimit.new side price q uid = .ok o → o = ⟨uid, side, price, q⟩) ∧
    ((∃ o, NewMarket.new side q uid = .ok o) ↔ 0 < q) ∧
    (∀ o, NewMarket.new side q uid = .ok o → o = ⟨uid, side, q⟩) := by
  unfold NewLimit.new NewMarket.new
  refine ⟨?_, ?_, ?_, ?_⟩
  · split
    · simp; omega
    · split
      · simp; omega
      · simp; omega
  · intro o; split
    · simp
    · split
      · simp
      · simp [eq_comm]
  · split
    · simp; omega
    · simp; omega
  · intro o; split
    · simp
    · simp [eq_comm]

/-- The exchange is not called at all when the constructor fails. -/
theorem C46_invalid_orders_never_submitted (c : Cfg) (s : State) (side : Side) (price q : Int)
    (uid id : Nat) :
    (¬ (0 < price ∧ 0 < q) → ∃ err, step c s (.limit side price q uid) = .ok (s, .invalidOrder err) ∧
      step c s (.amend id side price q uid) = .ok (s, .invalidOrder err)) ∧
    (¬ 0 < q → ∃ err, step c s (.market side q uid) = .ok (s, .invalidOrder err)) := by
  constructor
  · intro h
    simp only [step]
    cases hn : NewLimit.new side price q uid with
    | error err => exact ⟨err, rfl, rfl⟩
    | ok o => exact absurd ((C46_order_constructors side price q uid).1.1 ⟨o, hn⟩) h
  · intro h
    simp only [step]
    cases hn : NewMarket.new side q uid with
    | error err => exact ⟨err, rfl⟩
    | ok o => exact absurd ((C46_order_constructors side price q uid).2.2.1.1 ⟨o, hn⟩) h

/-- C46, price filter: `PriceFilter::new` accepts exactly the filters with a non-zero tick
size that divides the minimum, an upper multiplier above one and a lower multiplier below one.
It panics exactly for a zero tick size next to a minimum, and returns an error in all other
cases. -/
theorem C46_price_filter_new (s : Int) (mn mx : Option Int) (tick up down : Int) :
    ((∃ f, PriceFilter.new s mn mx tick up down = .ok (.ok f)) ↔
      tick ≠ 0 ∧ (∀ m, mn = some m → tick ∣ m) ∧ s < up ∧ down < s) ∧
    (∀ f, PriceFilter.new s mn mx tick up down = .ok (.ok f) → f = ⟨mn, mx, tick, up, down⟩) ∧
    ((∃ p, PriceFilter.new s mn mx tick up down = .error p) ↔ tick = 0 ∧ mn ≠ none) := by
  unfold PriceFilter.new minNotMultiple
  cases mn with
  | none =>
    simp only [bind, Except.bind, Bool.false_eq_true, if_false]
    by_cases ht : tick = 0
    · simp [ht]
    · by_cases hu : up ≤ s
      · simp only [ht, hu, if_true, if_false]; grind
      · by_cases hd : down ≥ s
        · simp only [ht, hu, hd, if_true, if_false]; grind
        · simp only [ht, hu, hd, if_false]; grind
  | some m =>
    by_cases ht : tick = 0
    · simp [ht, drem, bind, Except.bind]
    · simp only [drem, ht, if_false, bind, Except.bind]
      by_cases hm : m.tmod tick = 0
      · have hm' := tmod_dvd.1 hm
        simp only [hm, ne_eq, not_true, decide_false, Bool.false_eq_true, if_false]
        by_cases hu : up ≤ s
        · simp only [hu, if_true]; grind
        · by_cases hd : down ≥ s
          · simp only [hu, hd, if_true, if_false]; grind
          · simp only [hu, hd, if_false]; grind
      · have hm' : ¬ tick ∣ m := fun hh => hm (tmod_dvd.2 hh)
        simp [hm, hm']

/-- C46, quantity filter: as for the price filter. -/
theorem C46_quantity_filter_new (mn mx : Option Int) (tick : Int) :
    ((∃ f, QuantityFilter.new mn mx tick = .ok (.ok f)) ↔
      tick ≠ 0 ∧ (∀ m, mn = some m → tick ∣ m)) ∧
    (∀ f, QuantityFilter.new mn mx tick = .ok (.ok f) → f = ⟨mn, mx, tick⟩) ∧
    ((∃ p, QuantityFilter.new mn mx tick = .error p) ↔ tick = 0 ∧ mn ≠ none) := by
  unfold QuantityFilter.new minNotMultiple
  cases mn with
  | none =>
    simp only [bind, Except.bind, Bool.false_eq_true, if_false]
    by_cases ht : tick = 0
    · simp [ht]
    · simp only [ht, if_false]; grind
  | some m =>
    by_cases ht : tick = 0
    · simp [ht, drem, bind, Except.bind]
    · simp only [drem, ht, if_false, bind, Except.bind]
      by_cases hm : m.tmod tick = 0
      · have hm' := tmod_dvd.1 hm
        simp only [hm, ne_eq, not_true, decide_false, Bool.false_eq_true, if_false]; grind
      · have hm' : ¬ tick ∣ m := fun hh => hm (tmod_dvd.2 hh)
        simp [hm, hm']

/-- The panic: a minimum price together with a zero tick size. -/
theorem C46_zero_tick_panics : PriceFilter.new 100 (some 5) none 0 200 0 = .error .divByZero ∧
    QuantityFilter.new (some 5) none 0 = .error .divByZero ∧
    PriceFilter.new 100 none none 0 200 0 = .ok (.error .invalidTickSize) := by decide +kernel

/-- C46, leverage, contract specification and configuration. -/
theorem C46_config_constructors (env : Env) (v : Nat) (lev fraction : Int) (pf : PriceFilter)
    (qf : QuantityFilter) (maker taker start : Int) (maxOpen secs : Nat) (spec : ContractSpec) :
    ((∃ l, leverageNew env.scale v = .ok l) ↔ 1 ≤ v) ∧
    (∀ l, leverageNew env.scale v = .ok l → l = v * env.scale ∧ 0 < l) ∧
    (0 < lev → ∃ r, ContractSpec.new env.scale lev fraction pf qf maker taker = .ok r ∧
      ((∃ sp, r = .ok sp) ↔ 0 < fraction ∧ fraction ≤ env.scale) ∧
      ∀ sp, r = .ok sp → sp.priceFilter = pf ∧ sp.quantityFilter = qf ∧ sp.feeMaker = maker ∧
        sp.feeTaker = taker) ∧
    ((∃ c, Cfg.new env start maxOpen spec secs = .ok c) ↔ 0 < maxOpen ∧ 0 < start) ∧
    (∀ c, Cfg.new env start maxOpen spec secs = .ok c → c = ⟨env, start, maxOpen, spec, secs⟩) := by
  have hs := scale_pos env
  refine ⟨?_, ?_, ?_, ?_, ?_⟩
  · unfold leverageNew; split <;> simp <;> omega
  · intro l; unfold leverageNew; split
    · simp
    · next h =>
      intro hl
      simp only [Except.ok.injEq] at hl
      subst hl
      exact ⟨rfl, Int.mul_pos (by omega) hs⟩
  · intro hl
    unfold ContractSpec.new Lfest.initMarginReq ddiv
    split
    · exact ⟨_, rfl, by simp; omega, by simp⟩
    · rw [if_neg (by omega)]
      exact ⟨_, rfl, by grind, by grind⟩
  · unfold Cfg.new; split
    · simp; omega
    · split
      · simp; omega
      · simp; omega
  · intro c; unfold Cfg.new; split
    · simp
    · split
      · simp
      · simp [eq_comm]

/-- The configuration of the examples is built by the constructors. -/
example : Built Ex.lin 1 50000 :=
  ⟨100000, .default 100000, ⟨none, none, 1000⟩, 20, 60, by decide +kernel, by decide +kernel, by decide +kernel⟩

/-! ## C47 -/

/-- C47: for every configuration built by the constructors the margin rates are ordered, the
initial margin rate is 1/leverage up to rounding, and it is zero only if the leverage exceeds
`10^D`. -/
theorem C47_margin_rates (c : Cfg) (v : Nat) (fraction : Int) (h : Built c v fraction) :
    0 ≤ c.spec.maintenanceMargin ∧ c.spec.maintenanceMargin ≤ c.spec.initMarginReq ∧
    c.spec.initMarginReq ≤ c.env.scale ∧
    c.spec.initMarginReq * v ≤ c.env.scale ∧ c.env.scale < c.spec.initMarginReq * v + v ∧
    (c.spec.initMarginReq = 0 ↔ c.env.scale < v) := by
  obtain ⟨lev, pf, qf, maker, taker, h1, h2, h3⟩ := h
  have hs := scale_pos c.env
  obtain ⟨hl, hl0⟩ := (C46_config_constructors c.env v 0 0 pf qf 0 0 0 0 0 c.spec).2.1 lev h1
  subst hl
  have hv : (1 : Int) ≤ v := by
    have := (C46_config_constructors c.env v 0 0 pf qf 0 0 0 0 0 c.spec).1.1 ⟨_, h1⟩; omega
  unfold ContractSpec.new Lfest.initMarginReq at h2
  split at h2
  · simp at h2
  · next hf =>
    simp only [bind_ok, ddiv_ok, Except.ok.injEq] at h2
    obtain ⟨i, ⟨_, hi⟩, h2⟩ := h2
    have hmm : c.spec.maintenanceMargin = (c.spec.initMarginReq * fraction).tdiv c.env.scale := by
      rw [← h2]; rfl
    have himr : c.spec.initMarginReq = i := by rw [← h2]
    rw [himr] at hmm
    rw [hmm, himr]
    have hi' : i = c.env.scale.tdiv v := by
      rw [hi]; exact Int.mul_tdiv_mul_of_pos_left _ _ hs
    obtain ⟨b1, b2, b3⟩ := tdiv_bounds (Int.le_of_lt hs) (by omega : (0:Int) < v)
    rw [← hi'] at b1 b2 b3
    have hle : i * fraction ≤ i * c.env.scale := Int.mul_le_mul_of_nonneg_left (by omega) b3
    refine ⟨Int.tdiv_nonneg (Int.mul_nonneg b3 (by omega)) (by omega),
      tdiv_le hs (Int.mul_nonneg b3 (by omega)) hle, ?_, b1, b2, ?_⟩
    · have : i * 1 ≤ i * v := Int.mul_le_mul_of_nonneg_left hv b3
      omega
    · constructor
      · intro h0; rw [h0] at b2; omega
      · intro hlt
        rcases Int.lt_or_le i 1 with h | h
        · omega
        · have : 1 * (v : Int) ≤ i * v := Int.mul_le_mul_of_nonneg_right h (by omega)
          omega

/-- With an initial margin rate of zero no market order that opens or increases a position
ever returns: the exchange panics when it reserves the margin. -/
theorem C47_zero_margin_never_opens (c : Cfg) (s : State) (side : Side) (q : Int) (uid : Nat)
    (hr : Reachable c s) (h0 : c.spec.initMarginReq = 0) (hp : opposing s.pos.quantity side = 0) :
    ¬ ∃ s' f, step c s (.market side q uid) = .ok (s', .market (.ok f)) := by
  rintro ⟨s', f, h⟩
  have hw := hr.linv.wf
  rcases step_cases h with ⟨_, _, _, he, _⟩ | ⟨_, _, he, _⟩ | ⟨err, _, he⟩ |
    ⟨_, _, _, _, he, hq, h, hx⟩ | ⟨_, _, _, _, x, he, _⟩ | ⟨_, _, _, _, _, _, he, _⟩ | ⟨_, _, he, _⟩
  all_goals try (cases he)
  cases hx
  rcases submitMarket_cases h with ⟨_, _, _, he⟩ | ⟨_, ⟨_, _, _, he⟩ | ⟨_, _, _, pos', a', h, _⟩⟩
  · simp at he
  · simp at he
  · have hz : ∀ x, share c.env x c.spec.initMarginReq = 0 := by intro x; simp [share, h0]
    simp only [changePosition, bind_ok] at h
    obtain ⟨_, _, h⟩ := h
    have hcp : ∀ p : Inner, s.pos = .long p ∨ s.pos = .short p → 0 < p.qty := by
      intro p hp
      simp only [State.core] at hw
      rcases hp with hp | hp <;> rw [hp] at hw <;> exact hw
    cases hpos : s.pos with
    | neutral =>
      rw [hpos] at h
      simp only [bind_ok] at h
      obtain ⟨_, _, h⟩ := h
      cases side <;> simp only [bind_ok] at h <;> obtain ⟨x, hx, _⟩ := h <;>
        have := (Inner.new_ok hx).2.2.1 <;> rw [hz] at this <;> omega
    | long p =>
      rw [hpos] at h
      have hp0 := hcp p (.inl hpos)
      cases side with
      | buy =>
        simp only [bind_ok] at h
        obtain ⟨x, hx, _⟩ := h
        have := (Inner.increase_ok hx).2.2.1
        rw [hz] at this; omega
      | sell =>
        rw [hpos] at hp
        rw [Position.quantity, (opposing_long hp0).1] at hp; omega
    | short p =>
      rw [hpos] at h
      have hp0 := hcp p (.inr hpos)
      cases side with
      | sell =>
        simp only [bind_ok] at h
        obtain ⟨x, hx, _⟩ := h
        have := (Inner.increase_ok hx).2.2.1
        rw [hz] at this; omega
      | buy =>
        rw [hpos] at hp
        rw [Position.quantity, (opposing_short hp0).1] at hp; omega

/-- Leverage 3 with one decimal: 0.3, not a third. -/
example : leverageNew 10 3 = .ok 30 ∧
    ContractSpec.new 10 30 5 (.default 10) (.default 10) 0 0 =
      .ok (.ok ⟨3, 1, .default 10, .default 10, 0, 0⟩) := by decide +kernel

/-- Leverage 20 with one decimal: the margin rate truncates to zero, and a market order passes
all checks and panics. -/
example : Built { Ex.lin with env := ⟨.linear, 1, true⟩, spec := ⟨0, 0, .default 10, .default 10, 0, 0⟩ } 20 5 ∧
    Ex.panics { Ex.lin with env := ⟨.linear, 1, true⟩, spec := ⟨0, 0, .default 10, .default 10, 0, 0⟩ }
      [.update (.bba ⟨1000, 1010, 1⟩)] (.market .buy 10 0) .txnAmount = true :=
  ⟨⟨200, .default 10, .default 10, 0, 0, by decide +kernel, by decide +kernel, by decide +kernel⟩, by decide +kernel⟩

end Lfest
