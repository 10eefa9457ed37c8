import Verif.Lemmas.Validate
import Verif.Examples

/-!
# Validation of market updates: C54 for debug builds, C62
-/

namespace Lfest

open Spec

/-! ## C62 -/

/-- C62: a debug build only gets past `update_state` with an update whose prices are allowed. -/
theorem C62_accepted_are_valid (c : Cfg) (s s' : State) (a : UpdateArg) (r : Resp)
    (hd : c.env.debug = true) (hst : step c s (.update a) = .ok (s', r)) :
    updateOk c.spec.priceFilter a := by
  simp only [step, bind_ok, hd] at hst
  obtain ⟨u, hb, ⟨s1, x⟩, h, _⟩ := hst
  simp only [updateState, observe, MarketState.update, bind_ok, debugValidate, hd, if_true] at h
  obtain ⟨_, ⟨_, ⟨v, hv, h⟩, _⟩, _⟩ := h
  split at h
  · simp at h
  · cases hc : isCustom a with
    | false => exact (debug_valid (valid_tick hc hb hv)).mp ⟨u, hb, hv⟩
    | true =>
      cases a with
      | custom k =>
        simp only [UpdateArg.build, ok_inj] at hb; subst hb
        simp only [Update.validate, Custom.validate, ok_inj] at hv
        split at hv
        · assumption
        · cases hv
      | _ => simp [isCustom] at hc

/-- C62: in a debug build quotes, trades and candles that are not allowed make `update_state`
panic before anything else happens, whatever the state of the exchange. -/
theorem C62_invalid_panics (c : Cfg) (s : State) (a : UpdateArg) (hd : c.env.debug = true)
    (ht : c.spec.priceFilter.tickSize ≠ 0) (hs : ∀ ts b f, a ≠ .smart ts b f)
    (hn : ¬ updateOk c.spec.priceFilter a) :
    step c s (.update a) = .error .invalidUpdate := by
  have key : ∀ u, a.build true = .ok u → (∃ r, u.validate c.spec.priceFilter = .ok r) →
      step c s (.update a) = .error .invalidUpdate := by
    intro u hb ⟨r, hr⟩
    have hr' : ∃ e, r = .error e := by
      cases r with
      | error e => exact ⟨e, rfl⟩
      | ok x =>
        refine absurd ((debug_valid ?_).mp ⟨u, hb, hr⟩) hn
        cases a with
        | smart ts b f => exact absurd rfl (hs ts b f)
        | _ => exact ht
    obtain ⟨e, rfl⟩ := hr'
    simp only [step, hd, hb, updateState, observe, MarketState.update, debugValidate, if_true, hr,
      bind, Except.bind]
  cases a with
  | bba b => exact key _ rfl (bba_total ht)
  | trade b => exact key _ rfl (trade_total ht)
  | candle b => exact key _ rfl (candle_total ht)
  | smart ts b f => exact absurd rfl (hs ts b f)
  | custom k => exact key _ rfl ⟨_, rfl⟩

/-- C62 and C54 for debug builds: an allowed update that does not liquidate and reaches no active
order returns `Ok` with no order updates and leaves balances, position and orders alone. The
order margin must be in line with the active orders, because the debug build checks that. -/
theorem C62_valid_accepted (c : Cfg) (s : State) (a : UpdateArg) (hr : Reachable c s)
    (hd : c.env.debug = true) (ht : (filterOf c.spec.priceFilter a).tickSize ≠ 0)
    (hm : c.maxOpen ≤ 10000) (hi : c.spec.initMarginReq ≤ c.env.scale)
    (ha : updateOk c.spec.priceFilter a) (hq : ∀ t, a = .trade t → 0 < t.qty)
    (hl : ¬ breach c s.pos (quotesAfter s.ms a)) (hf : ∀ o ∈ s.active, fillRule a o = none)
    (hline : inLine c s) (hw : 0 ≤ s.acct.balance .wallet) :
    ∃ s', step c s (.update a) = .ok (s', .update (.ok [])) ∧ s'.acct = s.acct ∧
      s'.pos = s.pos ∧ s'.active = s.active ∧ s'.nextId = s.nextId ∧
      (s'.ms.bid, s'.ms.ask) = quotesAfter s.ms a ∧ some s'.ms.ts = updateTime a ∧
      s'.ms.step = stepAfter s.ms a := by
  obtain ⟨u, hb, hv⟩ := (debug_valid ht).mpr ha
  have hb' : a.build c.env.debug = .ok u := by rw [hd]; exact hb
  obtain ⟨s1, h1⟩ : ∃ s1, observe c s u = .ok s1 := by
    simp only [observe, MarketState.update, debugValidate, hd, if_true, bind_ok]
    exact ⟨_, _, ⟨_, hv, rfl⟩, rfl⟩
  obtain ⟨e1, e2, e3⟩ := observe_fields h1
  have hqt := observe_quotes hb' h1
  have hmm : checkMaintenanceMargin c s1.ms s1.pos = .ok () := by
    have hwf : PosWF s1.pos := by rw [e2]; exact hr.linv.wf
    rcases checkMaintenance_ok (c := c) (ms := s1.ms) hwf with ⟨h, _⟩ | ⟨_, h⟩
    · exact h
    · rw [hqt.1, e2] at h; exact absurd h hl
  obtain ⟨e3, e4, e5, e6⟩ := e3
  have hsync := hr.inv.sync hm
  have hgood : GoodOrders s.active := fun o ho => by
    have := hr.inv.orders o ho
    exact ⟨this.price, Int.le_of_lt this.rem⟩
  have hom := orderMargin_total c hr.linv.wf hgood (fun _ => hi)
  have hca : ∃ s', checkActive c s1 u = .ok s' ∧ s'.acct = s.acct ∧ s'.pos = s.pos ∧
      s'.active = s.active ∧ s'.nextId = s.nextId ∧ s'.ms = s1.ms ∧ s'.updates = [] := by
    by_cases hcf : u.canFill = true
    · have hml : matchLoop c u s1.loop s1.active = .ok (s1.loop, s1.active) := by
        refine matchLoop_none fun o ho => ?_
        obtain ⟨x, hx⟩ := filled_debug (o := o) hb hcf (hr.inv.orders o (e3 ▸ ho)).rem hq
        have := filled_eq hb hx
        rw [hf o (e3 ▸ ho)] at this
        rw [hd, hx, this]
      refine ⟨{ s1 with updates := [] }, ?_, e1, e2, e3, e5, rfl, rfl⟩
      simp only [checkActive, hcf, Bool.true_eq_false, if_false, bind_ok, debugP_ok, assertP_ok,
        ok_inj, debugMarginEq, hd, if_true, forall_const]
      refine ⟨(), by rw [e3, e4, hsync], (s1.loop, s1.active), hml, s1.active, rfl,
        (), by simp [State.loop], (), by simp [State.loop, e3, e4, hsync], (), ?_, (), ?_, (), ?_, rfl⟩
      · intro he
        simp only [State.loop, e1]
        rw [hline, ← e3, he]
        simp [marginReq, sideValue, larger, share]
      · refine ⟨marginReq c s.active s.pos.quantity, ?_, ?_⟩
        · simp only [State.loop, e2, e4, hsync]; exact hom
        · simp only [State.loop, e1]; exact hline
      · simpa [State.loop, e1] using hw
    · refine ⟨{ s1 with updates := [] }, ?_, e1, e2, e3, e5, rfl, rfl⟩
      simp [checkActive, hcf]
  obtain ⟨s', hs', f1, f2, f3, f5, f6, f7⟩ := hca
  refine ⟨s', ?_, f1, f2, f3, f5, by rw [f6]; exact hqt.1, by rw [f6]; exact hqt.2.1,
    by rw [f6]; exact hqt.2.2⟩
  simp only [step, updateState, bind_ok]
  refine ⟨u, hb', (s', .ok []), ⟨s1, h1, ?_⟩, rfl⟩
  rw [hmm]
  simp only [bind_ok, f7.symm]
  exact ⟨s', hs', by rw [f7]⟩

/-- A trade at 105 passes between the resting orders at 95 and 110. -/
example : ∃ s, Reachable Ex.lin s ∧ s.active.length = 2 ∧ s.pos ≠ .neutral ∧
    updateOk Ex.lin.spec.priceFilter (.trade ⟨2, Ex.d 105, Ex.d 1, .buy⟩) ∧
    ¬ breach Ex.lin s.pos (quotesAfter s.ms (.trade ⟨2, Ex.d 105, Ex.d 1, .buy⟩)) ∧
    (∀ o ∈ s.active, fillRule (.trade ⟨2, Ex.d 105, Ex.d 1, .buy⟩) o = none) ∧ inLine Ex.lin s ∧
    0 ≤ s.acct.balance .wallet := by
  have h : Ex.after Ex.lin Ex.ops1 (fun s => decide (s.active.length = 2 ∧ s.pos ≠ .neutral ∧
      ¬ breach Ex.lin s.pos (quotesAfter s.ms (.trade ⟨2, Ex.d 105, Ex.d 1, .buy⟩)) ∧
      (∀ o ∈ s.active, fillRule (.trade ⟨2, Ex.d 105, Ex.d 1, .buy⟩) o = none) ∧
      s.acct.balance .orderMargin = marginReq Ex.lin s.active s.pos.quantity ∧
      0 ≤ s.acct.balance .wallet)) = true := by decide +kernel
  obtain ⟨s, h1, h2⟩ := Ex.after_reach h
  simp only [decide_eq_true_eq] at h2
  obtain ⟨a, b, d, e, f, g⟩ := h2
  refine ⟨s, h1, a, b, ?_, d, e, f, g⟩
  simp [updateOk, updatePrice, Ex.lin, PriceFilter.default, Ex.d]

/-- Crossed quotes, a price off the grid and an inverted candle are not allowed. -/
example : ¬ updateOk Ex.lin.spec.priceFilter (.bba ⟨Ex.d 101, Ex.d 100, 1⟩) ∧
    ¬ updateOk Ex.lin.spec.priceFilter (.trade ⟨1, 10000001, Ex.d 1, .buy⟩) ∧
    ¬ updateOk Ex.lin.spec.priceFilter (.candle ⟨Ex.d 100, Ex.d 101, Ex.d 101, Ex.d 99, 1⟩) := by
  simp [updateOk, updateQuotes, updatePrice, Ex.lin, PriceFilter.default, Ex.d]

/-- C62, release builds: nothing is checked. Crossed quotes are accepted and orders are taken at
them. -/
theorem C62_release_accepts_crossed :
    ¬ updateOk Ex.linR.spec.priceFilter (.bba ⟨Ex.d 105, Ex.d 100, 1⟩) ∧
    Ex.last Ex.linR [.update (.bba ⟨Ex.d 105, Ex.d 100, 1⟩)] (.limit .buy (Ex.d 99) (Ex.d 1) 0)
      (fun s _ r => decide (s.ms.ask < s.ms.bid) && Ex.isOk r) = true := by
  refine ⟨?_, by decide +kernel⟩
  simp [updateOk, updateQuotes, updatePrice, Ex.linR, Ex.lin, PriceFilter.default, Ex.d]

/-- C62, smart candles in a debug build: one trade with an allowed price is enough, here a second
one off the grid fills a resting order; and the filter of the exchange is not consulted at all. -/
theorem C62_smart_unchecked :
    ¬ updatePrice Ex.lin.spec.priceFilter 9400001 ∧
    Ex.last Ex.lin Ex.ops1 (.update (.smart [⟨2, Ex.d 105, Ex.d 1, .buy⟩, ⟨3, 9400001, Ex.d 1, .sell⟩]
        ⟨Ex.d 100, Ex.d 101, 3⟩ Ex.lin.spec.priceFilter))
      (fun _ s' _ => decide (s'.updates.length = 1)) = true ∧
    Ex.last Ex.lin Ex.ops1 (.update (.smart [⟨2, 9400001, Ex.d 1, .sell⟩]
        ⟨10000001, 10000002, 3⟩ Ex.fine.spec.priceFilter))
      (fun _ s' _ => decide (s'.ms.bid = 10000001)) = true := by
  refine ⟨?_, by decide +kernel, by decide +kernel⟩
  simp [updatePrice, Ex.lin, PriceFilter.default]

end Lfest
