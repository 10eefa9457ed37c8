import Verif.Lemmas.Loader
import Verif.Lemmas.Fill
import Verif.Lemmas.Risk
import Verif.Examples

/-!
# Loaded and exported trades: C55, C61
-/

namespace Lfest

open Spec

/-- C55, as far as it holds: one trade per row in file order, with the row's price, its time in
nanoseconds, the side given by the sign of the size, and the size as quantity up to its sign.
The quantity is positive exactly for buys; for sells the claim is false (`C55_sell_negative`). -/
theorem C55_load (rs : List CsvRow) (ts : List Trade) (h : loadRows rs = .ok ts) :
    ts.length = rs.length ∧
    ∀ i (hi : i < rs.length) (ht : i < ts.length),
      ts[i].price = rs[i].price ∧ ts[i].ts = rs[i].tsMs * 1000000 ∧
      (ts[i].side = .sell ↔ rs[i].size < 0) ∧ Spec.abs ts[i].qty = Spec.abs rs[i].size ∧
      (0 < ts[i].qty ↔ ts[i].side = .buy) := by
  obtain ⟨rfl, h0⟩ := loadRows_ok h
  refine ⟨by simp, fun i hi ht => ?_⟩
  have := h0 rs[i] (List.getElem_mem hi)
  simp only [List.getElem_map]
  refine ⟨trivial, trivial, ?_, trivial, ?_⟩
  · split <;> simp [*]
  · split <;> simp <;> omega

/-- C55: loading succeeds exactly if no size is zero. -/
theorem C55_loads_iff (rs : List CsvRow) :
    (∃ ts, loadRows rs = .ok ts) ↔ ∀ r ∈ rs, r.size ≠ 0 := by
  constructor
  · rintro ⟨ts, h⟩; exact (loadRows_ok h).2
  · intro h
    induction rs with
    | nil => exact ⟨[], rfl⟩
    | cons r rs ih =>
      obtain ⟨ts, hts⟩ := ih (fun x hx => h x (by simp [hx]))
      refine ⟨⟨r.tsMs * 1000000, r.price, r.size, if r.size < 0 then .sell else .buy⟩ :: ts, ?_⟩
      simp only [loadRows, bind_ok, loadRow, assertP_ok]
      exact ⟨_, ⟨(), h r (by simp), rfl⟩, ts, hts, rfl⟩

example : ∃ ts, loadRows [⟨1, 5, 3⟩, ⟨2, 6, -4⟩] = .ok ts ∧ ts.length = 2 := ⟨_, rfl, rfl⟩

/-- C55 is false: every sell row gives a trade with a negative quantity. -/
theorem C55_sell_negative (r : CsvRow) (hr : r.size < 0) :
    ∃ t, loadRow r = .ok t ∧ t.side = .sell ∧ t.qty < 0 := by
  refine ⟨⟨r.tsMs * 1000000, r.price, r.size, .sell⟩, ?_, rfl, hr⟩
  simp only [loadRow, bind_ok, assertP_ok]
  exact ⟨(), by omega, by rw [if_pos hr]⟩

/-- C55: such a trade is unusable. In every build and every reachable state, `update_state` panics
when the price of the trade is below the price of a resting buy order, unless the position is
liquidated first. -/
theorem C55_sell_panics (c : Cfg) (s : State) (r : CsvRow) (t : Trade) (o : Limit)
    (hr : Reachable c s) (h : loadRow r = .ok t) (hs : r.size < 0)
    (hl : ¬ breach c s.pos (s.ms.bid, s.ms.ask))
    (ho : o ∈ s.active) (hside : o.side = .buy) (hp : t.price < o.price) :
    ∃ p, step c s (.update (.trade t)) = .error p := by
  obtain ⟨_, rfl⟩ := loadRow_ok h
  cases hst : step c s (.update (.trade ⟨r.tsMs * 1000000, r.price, r.size,
      if r.size < 0 then .sell else .buy⟩)) with
  | error p => exact ⟨p, rfl⟩
  | ok x =>
    exfalso
    obtain ⟨s', rr⟩ := x
    have hst' := hst
    simp only [step, UpdateArg.build, bind_ok, ok_inj, Prod.mk.injEq] at hst
    obtain ⟨u, rfl, ⟨s2, r2⟩, hu, rfl, rfl⟩ := hst
    obtain ⟨s1, h1, ⟨hb, _, _⟩ | ⟨_, _, rfl⟩⟩ := updateState_cases hr.linv.wf hu
    · have hq := observe_quotes (a := .trade ⟨r.tsMs * 1000000, r.price, r.size,
        if r.size < 0 then .sell else .buy⟩) rfl h1
      rw [hq.1] at hb
      exact hl hb
    · have hfill := (update_spec hr.inv hst').2.2.2.2.1 o ho
      have := hfill (smaller r.size o.remaining) (by
        simp only [fillRule, hits, hside]
        simp only at hp
        simp [hs, hp])
      have hle : smaller r.size o.remaining ≤ r.size := by unfold smaller; split <;> omega
      omega

/-- With a long position and a resting buy at 95, a loaded sale at 90. -/
example : ∃ s t o, Reachable Ex.linR s ∧ loadRow ⟨2, Ex.d 90, -(Ex.d 1)⟩ = .ok t ∧
    ¬ breach Ex.linR s.pos (s.ms.bid, s.ms.ask) ∧ o ∈ s.active ∧ o.side = .buy ∧
    t.price < o.price := by
  have h : Ex.after Ex.linR Ex.ops1 (fun s => decide (
      ¬ breach Ex.linR s.pos (s.ms.bid, s.ms.ask) ∧
      ∃ o ∈ s.active, o.side = .buy ∧ Ex.d 90 < o.price)) = true := by decide +kernel
  obtain ⟨s, h1, h2⟩ := Ex.after_reach h
  simp only [decide_eq_true_eq] at h2
  obtain ⟨h2, o, h3, h4, h5⟩ := h2
  exact ⟨s, ⟨2000000, Ex.d 90, -(Ex.d 1), .sell⟩, o, h1, by decide, h2, h3, h4, h5⟩

/-- C61: the size exported for trade aggregation has the magnitude of the quantity, and for a trade
with a positive quantity it is positive for buys and negative for sells. For trades loaded from
csv the sign is lost, see `C61_loaded_sign_lost`. -/
theorem C61_taker_size (t : Trade) (hq : 0 < t.qty) :
    Spec.abs t.takerSize = t.qty ∧ (0 < t.takerSize ↔ t.side = .buy) ∧
    (t.takerSize < 0 ↔ t.side = .sell) ∧ Side.fromTakerQuantity t.takerSize = .ok t.side := by
  unfold Trade.takerSize Spec.abs
  cases hs : t.side
  · simp only
    refine ⟨by rw [if_pos (by omega)], by simp [hq], by simp; omega, ?_⟩
    simp only [Side.fromTakerQuantity, bind_ok, assertP_ok]
    exact ⟨(), by omega, by rw [if_neg (by omega)]⟩
  · simp only
    refine ⟨by rw [if_neg (by omega)]; omega, by simp; omega, by simp; omega, ?_⟩
    simp only [Side.fromTakerQuantity, bind_ok, assertP_ok]
    exact ⟨(), by omega, by rw [if_pos (by omega)]⟩

example : (⟨1, 5, 3, .sell⟩ : Trade).takerSize = -3 := rfl

/-- C61 is false for loaded trades: buys and sells are all exported with a positive size. -/
theorem C61_loaded_sign_lost (r : CsvRow) (t : Trade) (h : loadRow r = .ok t) :
    t.takerSize = Spec.abs r.size ∧ 0 < t.takerSize := by
  obtain ⟨h0, rfl⟩ := loadRow_ok h
  unfold Trade.takerSize Spec.abs
  by_cases hs : r.size < 0
  · simp only [if_pos hs]; rw [if_neg (by omega)]; omega
  · simp only [if_neg hs]; rw [if_pos (by omega)]; omega

end Lfest
