import Verif.Lemmas.Safety
import Verif.Lemmas.Tracker

/-! Validation of market updates. -/

namespace Lfest

open Spec

theorem enforceMin_ok {mn : Option Int} {p : Int} :
    enforceMinPrice mn p = .ok (.ok ()) ↔ ∀ m, mn = some m → m = 0 ∨ m ≤ p := by
  cases mn with
  | none => simp [enforceMinPrice]
  | some m =>
    simp only [enforceMinPrice, Option.some.injEq, forall_eq']
    split <;> simp <;> omega

theorem enforceMax_ok {mx : Option Int} {p : Int} :
    enforceMaxPrice mx p = .ok (.ok ()) ↔ ∀ m, mx = some m → m = 0 ∨ p ≤ m := by
  cases mx with
  | none => simp [enforceMaxPrice]
  | some m =>
    simp only [enforceMaxPrice, Option.some.injEq, forall_eq']
    split <;> simp <;> omega

theorem enforceStep_ok {t p : Int} (ht : t ≠ 0) :
    enforceStepSize t p = .ok (.ok ()) ↔ t ∣ p := by
  simp only [enforceStepSize, drem, ht, if_false, bind, Except.bind, ← tmod_dvd]
  split <;> simp_all

theorem enforceStep_tick {t p : Int} {r} (h : enforceStepSize t p = .ok r) : t ≠ 0 := by
  intro ht
  simp [enforceStepSize, drem, ht, bind, Except.bind] at h

theorem enforceMin_total (mn : Option Int) (p : Int) : ∃ r, enforceMinPrice mn p = .ok r := by
  unfold enforceMinPrice; split
  · exact ⟨_, rfl⟩
  · split <;> exact ⟨_, rfl⟩

theorem enforceMax_total (mn : Option Int) (p : Int) : ∃ r, enforceMaxPrice mn p = .ok r := by
  unfold enforceMaxPrice; split
  · exact ⟨_, rfl⟩
  · split <;> exact ⟨_, rfl⟩

theorem enforceStep_total {t : Int} (p : Int) (ht : t ≠ 0) : ∃ r, enforceStepSize t p = .ok r := by
  simp only [enforceStepSize, drem, ht, if_false, bind, Except.bind]
  split <;> exact ⟨_, rfl⟩

theorem spread_total (b a : Int) : ∃ r, enforceBidAskSpread b a = .ok r := by
  unfold enforceBidAskSpread; split <;> exact ⟨_, rfl⟩

theorem checks_total {xs : List (Res (Except FilterError Unit))} (h : ∀ x ∈ xs, ∃ r, x = .ok r) :
    ∃ r, checks xs = .ok r := by
  induction xs with
  | nil => exact ⟨_, rfl⟩
  | cons x xs ih =>
    obtain ⟨r, hr⟩ := h x (by simp)
    obtain ⟨r', hr'⟩ := ih (fun y hy => h y (by simp [hy]))
    subst hr
    simp only [checks, bind, Except.bind]
    split
    · exact ⟨_, rfl⟩
    · exact ⟨r', hr'⟩

theorem bba_valid {f : PriceFilter} {b : Bba} (ht : f.tickSize ≠ 0) :
    b.validate f = .ok (.ok ()) ↔ updateQuotes f b.bid b.ask := by
  simp only [Bba.validate, checks_ok, List.mem_cons, List.not_mem_nil, or_false, forall_eq_or_imp,
    forall_eq, enforceMin_ok, enforceMax_ok, enforceStep_ok ht, spread_ok, updateQuotes, updatePrice]
  constructor
  · rintro ⟨a, b, c, d, e, f, g⟩; exact ⟨⟨a, c, e⟩, ⟨b, d, f⟩, g⟩
  · rintro ⟨⟨a, c, e⟩, ⟨b, d, f⟩, g⟩; exact ⟨a, b, c, d, e, f, g⟩

theorem trade_valid {f : PriceFilter} {t : Trade} (ht : f.tickSize ≠ 0) :
    t.validate f = .ok (.ok ()) ↔ updatePrice f t.price := by
  simp only [Trade.validate, checks_ok, List.mem_cons, List.not_mem_nil, or_false,
    forall_eq_or_imp, forall_eq, enforceMin_ok, enforceMax_ok, enforceStep_ok ht, updatePrice]

theorem candle_valid {f : PriceFilter} {k : Candle} (ht : f.tickSize ≠ 0) :
    k.validate f = .ok (.ok ()) ↔
      updateQuotes f k.bid k.ask ∧ updatePrice f k.low ∧ updatePrice f k.high ∧ k.low < k.high := by
  simp only [Candle.validate, checks_ok, List.mem_cons, List.not_mem_nil, or_false,
    forall_eq_or_imp, forall_eq, enforceMin_ok, enforceMax_ok, enforceStep_ok ht, spread_ok,
    updateQuotes, updatePrice]
  constructor
  · rintro ⟨a1, a2, a3, a4, b1, b2, b3, b4, c1, c2, c3, c4, d1, d2⟩
    exact ⟨⟨⟨a1, b1, c1⟩, ⟨a2, b2, c2⟩, d1⟩, ⟨a3, b3, c3⟩, ⟨a4, b4, c4⟩, d2⟩
  · rintro ⟨⟨⟨a1, b1, c1⟩, ⟨a2, b2, c2⟩, d1⟩, ⟨a3, b3, c3⟩, ⟨a4, b4, c4⟩, d2⟩
    exact ⟨a1, a2, a3, a4, b1, b2, b3, b4, c1, c2, c3, c4, d1, d2⟩

theorem bba_tick {f : PriceFilter} {b : Bba} (h : b.validate f = .ok (.ok ())) : f.tickSize ≠ 0 := by
  rw [Bba.validate, checks_ok] at h
  exact enforceStep_tick (h (enforceStepSize f.tickSize b.bid) (by simp))

theorem trade_tick {f : PriceFilter} {b : Trade} (h : b.validate f = .ok (.ok ())) :
    f.tickSize ≠ 0 := by
  rw [Trade.validate, checks_ok] at h
  exact enforceStep_tick (h (enforceStepSize f.tickSize b.price) (by simp))

theorem candle_tick {f : PriceFilter} {b : Candle} (h : b.validate f = .ok (.ok ())) :
    f.tickSize ≠ 0 := by
  rw [Candle.validate, checks_ok] at h
  exact enforceStep_tick (h (enforceStepSize f.tickSize b.bid) (by simp))

theorem bba_total {f : PriceFilter} {b : Bba} (ht : f.tickSize ≠ 0) : ∃ r, b.validate f = .ok r := by
  refine checks_total fun x hx => ?_
  simp only [List.mem_cons, List.not_mem_nil, or_false] at hx
  rcases hx with rfl | rfl | rfl | rfl | rfl | rfl | rfl <;>
    first | exact enforceMin_total _ _ | exact enforceMax_total _ _ |
      exact enforceStep_total _ ht | exact spread_total _ _

theorem trade_total {f : PriceFilter} {b : Trade} (ht : f.tickSize ≠ 0) :
    ∃ r, b.validate f = .ok r := by
  refine checks_total fun x hx => ?_
  simp only [List.mem_cons, List.not_mem_nil, or_false] at hx
  rcases hx with rfl | rfl | rfl <;>
    first | exact enforceMin_total _ _ | exact enforceMax_total _ _ |
      exact enforceStep_total _ ht | exact spread_total _ _

theorem candle_total {f : PriceFilter} {b : Candle} (ht : f.tickSize ≠ 0) :
    ∃ r, b.validate f = .ok r := by
  refine checks_total fun x hx => ?_
  simp only [List.mem_cons, List.not_mem_nil, or_false] at hx
  rcases hx with rfl | rfl | rfl | rfl | rfl | rfl | rfl | rfl | rfl | rfl | rfl | rfl | rfl | rfl <;>
    first | exact enforceMin_total _ _ | exact enforceMax_total _ _ |
      exact enforceStep_total _ ht | exact spread_total _ _

theorem anyTrade_ok {f : PriceFilter} {ts : List Trade} (ht : f.tickSize ≠ 0) :
    ∃ b, anyTradeValid f ts = .ok b ∧ (b = true ↔ ∃ t ∈ ts, updatePrice f t.price) := by
  induction ts with
  | nil => exact ⟨false, rfl, by simp⟩
  | cons t ts ih =>
    obtain ⟨r, hr⟩ := trade_total (f := f) (b := t) ht
    have hv := trade_valid (f := f) (t := t) ht
    simp only [anyTradeValid, hr, bind, Except.bind]
    rw [hr] at hv
    cases r with
    | ok u =>
      refine ⟨true, rfl, ?_⟩
      have := hv.mp rfl
      simp [this]
    | error e =>
      obtain ⟨b, hb, hi⟩ := ih
      refine ⟨b, hb, hi.trans ?_⟩
      have : ¬ updatePrice f t.price := fun h => by simpa using hv.mpr h
      simp [this]

theorem anyTrade_tick {f : PriceFilter} {ts : List Trade} (h : anyTradeValid f ts = .ok true) :
    f.tickSize ≠ 0 := by
  induction ts with
  | nil => simp [anyTradeValid] at h
  | cons t ts ih =>
    simp only [anyTradeValid, bind_ok] at h
    obtain ⟨r, hr, h⟩ := h
    split at h
    · exact trade_tick hr
    · exact ih h

theorem smart_valid {f : PriceFilter} {ts : List Trade} {b : Bba} (ht : f.tickSize ≠ 0) :
    (∃ sc, SmartCandle.new true ts b f = .ok sc) ↔
      updateQuotes f b.bid b.ask ∧ (∃ t ∈ ts, updatePrice f t.price) ∧ ∀ t ∈ ts, 0 < t.qty := by
  cases ts with
  | nil => simp [SmartCandle.new]
  | cons t0 rest =>
    obtain ⟨x, hx, hi⟩ := anyTrade_ok (f := f) (ts := t0 :: rest) ht
    obtain ⟨r, hr⟩ := bba_total (f := f) (b := b) ht
    have hv := bba_valid (f := f) (b := b) ht
    rw [← hv, ← hi]
    constructor
    · simp only [SmartCandle.new, debugAnyValid, if_true, hx, hr, bind_ok, ok_inj, assertP_ok]
      rintro ⟨sc, _, rfl, _, rfl, r', rfl, h⟩
      split at h
      · simp at h
      · simp only [bind_ok, debugP_ok, ok_inj] at h
        obtain ⟨_, h, _⟩ := h
        exact ⟨rfl, rfl, h trivial⟩
    · rintro ⟨hr', rfl, h⟩
      have hd : debugP true (∀ t ∈ t0 :: rest, t.qty > 0) .smartTradeQty = .ok () :=
        debugP_ok.mpr (fun _ => h)
      simp only [SmartCandle.new, debugAnyValid, if_true, hx, hr', hd, assertP, bind, Except.bind]
      exact ⟨_, rfl⟩

theorem smart_tick {debug : Bool} {f : PriceFilter} {ts : List Trade} {b : Bba} {sc : SmartCandle}
    (h : SmartCandle.new debug ts b f = .ok sc) : f.tickSize ≠ 0 := bba_tick (smart_bba h).2

/-- The checks of a debug build. -/
theorem debug_valid {f : PriceFilter} {a : UpdateArg} (ht : (filterOf f a).tickSize ≠ 0) :
    (∃ u, a.build true = .ok u ∧ u.validate f = .ok (.ok ())) ↔ updateOk f a := by
  cases a with
  | bba b =>
    simp only [UpdateArg.build, ok_inj]
    exact ⟨by rintro ⟨_, rfl, h⟩; exact (bba_valid ht).mp h, fun h => ⟨_, rfl, (bba_valid ht).mpr h⟩⟩
  | trade b =>
    simp only [UpdateArg.build, ok_inj]
    exact ⟨by rintro ⟨_, rfl, h⟩; exact (trade_valid ht).mp h,
      fun h => ⟨_, rfl, (trade_valid ht).mpr h⟩⟩
  | candle b =>
    simp only [UpdateArg.build, ok_inj]
    exact ⟨by rintro ⟨_, rfl, h⟩; exact (candle_valid ht).mp h,
      fun h => ⟨_, rfl, (candle_valid ht).mpr h⟩⟩
  | smart ts b f' =>
    simp only [UpdateArg.build, bind_ok, ok_inj]
    constructor
    · rintro ⟨_, ⟨sc, h, rfl⟩, _⟩; exact (smart_valid ht).mp ⟨sc, h⟩
    · intro h
      obtain ⟨sc, h⟩ := (smart_valid ht).mpr h
      exact ⟨_, ⟨sc, h, rfl⟩, rfl⟩
  | custom k => cases hk : k.valid <;> simp [UpdateArg.build, Update.validate, Custom.validate, updateOk, hk]

theorem valid_tick {f : PriceFilter} {a : UpdateArg} {u : Update} (hc : isCustom a = false)
    (hb : a.build true = .ok u) (hv : u.validate f = .ok (.ok ())) : (filterOf f a).tickSize ≠ 0 := by
  cases a with
  | bba b => simp only [UpdateArg.build, ok_inj] at hb; subst hb; exact bba_tick hv
  | trade b => simp only [UpdateArg.build, ok_inj] at hb; subst hb; exact trade_tick hv
  | candle b => simp only [UpdateArg.build, ok_inj] at hb; subst hb; exact candle_tick hv
  | smart ts b f' =>
    simp only [UpdateArg.build, bind_ok, ok_inj] at hb
    obtain ⟨sc, h, rfl⟩ := hb
    exact smart_tick h
  | custom k => simp [isCustom] at hc

theorem filled_debug {a : UpdateArg} {u : Update} {o : Limit} (hb : a.build true = .ok u)
    (hf : u.canFill = true) (ho : 0 < o.remaining) (hq : ∀ t, a = .trade t → 0 < t.qty) :
    ∃ x, u.filled true o = .ok x := by
  cases u with
  | bba b => simp [Update.canFill] at hf
  | trade t =>
    have hq : 0 < t.qty := by
      cases a with
      | trade t' => simp only [UpdateArg.build, ok_inj, Update.trade.injEq] at hb; subst hb; exact hq _ rfl
      | smart ts b f =>
        simp only [UpdateArg.build, bind_ok, ok_inj] at hb
        obtain ⟨_, _, hb⟩ := hb
        simp at hb
      | _ => simp [UpdateArg.build] at hb
    simp only [Update.filled, Trade.filled, debugP, assertP, gt_iff_lt, ho, hq, if_true, bind, Except.bind]
    cases o.side <;> simp only <;> split <;> exact ⟨_, rfl⟩
  | candle t =>
    simp only [Update.filled, Candle.filled, debugP, assertP, gt_iff_lt, ho, if_true, bind, Except.bind]
    cases o.side <;> simp only <;> split <;> exact ⟨_, rfl⟩
  | smart t => exact ⟨_, rfl⟩
  | custom k => exact ⟨_, rfl⟩

end Lfest
