import Verif.Lemmas.Config
import Verif.Lemmas.Line

/-!
Risk checks and liquidation.
-/

namespace Lfest

open Spec

theorem checkFunds_ok {c : Cfg} {q p funds : Int} {r} (h : checkFunds c q p funds = .ok r) :
    (r = .ok () ∧ needed c q p ≤ funds) ∨
    (r = .error .notEnoughAvailableBalance ∧ ¬ needed c q p ≤ funds) := by
  simp only [checkFunds, bind_ok] at h
  obtain ⟨v, hv, h⟩ := h
  have := convert_ok hv; subst this
  split at h
  · next hh =>
    simp only [ok_inj] at h; subst h
    refine .inr ⟨rfl, ?_⟩
    simp only [dmul, Cfg.scale] at hh
    unfold needed share; omega
  · next hh =>
    simp only [ok_inj] at h; subst h
    refine .inl ⟨rfl, ?_⟩
    simp only [dmul, Cfg.scale] at hh
    unfold needed share; omega

theorem checkMarket_ok {c : Cfg} {s : State} {side : Side} {q : Int} {r}
    (hw : PosWF s.pos)
    (h : checkMarketOrder c s.pos (s.acct.balance .positionMargin) side q (touchPrice s.ms side)
      (s.acct.balance .wallet) = .ok r) :
    (r = .ok () ∧ marketAllowed c s side q) ∨
    (r = .error .notEnoughAvailableBalance ∧ ¬ marketAllowed c s side q) := by
  unfold marketAllowed
  cases hp : s.pos with
  | neutral =>
    rw [hp] at h
    simp only [Position.quantity, opposing_neutral, if_true]
    cases side <;> simp only [checkMarketOrder, checkMarketBuy, checkMarketSell] at h <;>
      exact checkFunds_ok h
  | long p =>
    rw [hp] at h hw
    have h0 : 0 < p.qty := hw
    cases side with
    | buy =>
      simp only [Position.quantity, (opposing_long h0).2, if_true]
      simp only [checkMarketOrder, checkMarketBuy] at h
      exact checkFunds_ok h
    | sell =>
      simp only [checkMarketOrder, checkMarketSell] at h
      simp only [Position.quantity, (opposing_long h0).1]
      rw [if_neg (by omega)]
      split at h
      · next hle => rw [if_pos hle]; simp only [ok_inj] at h; exact .inl ⟨h.symm, trivial⟩
      · next hle => rw [if_neg hle]; exact checkFunds_ok h
  | short p =>
    rw [hp] at h hw
    have h0 : 0 < p.qty := hw
    cases side with
    | sell =>
      simp only [Position.quantity, (opposing_short h0).2, if_true]
      simp only [checkMarketOrder, checkMarketSell] at h
      exact checkFunds_ok h
    | buy =>
      simp only [checkMarketOrder, checkMarketBuy] at h
      simp only [Position.quantity, (opposing_short h0).1]
      rw [if_neg (by omega)]
      split at h
      · next hle => rw [if_pos hle]; simp only [ok_inj] at h; exact .inl ⟨h.symm, trivial⟩
      · next hle => rw [if_neg hle]; exact checkFunds_ok h

theorem checkLimit_ok {c : Cfg} {pos : Position} {o : Limit} {wallet : Int} {om : Book} {r}
    (hw : PosWF pos) (hg : ∀ x ∈ om ++ [o], 0 ≤ x.remaining)
    (h : checkLimitOrder c pos o wallet om = .ok r) :
    (r = .ok () ∧ marginReq c (om ++ [o]) pos.quantity ≤ wallet + marginReq c om pos.quantity) ∨
    (r = .error .notEnoughAvailableBalance ∧
      wallet + marginReq c om pos.quantity < marginReq c (om ++ [o]) pos.quantity) := by
  simp only [checkLimitOrder, bind_ok] at h
  obtain ⟨m, hm, m', hm', h⟩ := h
  have e1 := orderMargin_ok hw (fun x hx => hg x (by simp [hx])) hm
  have e2 : m' = marginReq c (om ++ [o]) pos.quantity :=
    orderMarginInternal_ok (new := some o) hw hg hm'
  subst e1
  rw [← e2]
  split at h
  · simp only [ok_inj] at h; exact .inr ⟨h.symm, by omega⟩
  · simp only [ok_inj] at h; exact .inl ⟨h.symm, by omega⟩

theorem observe_quotes {c : Cfg} {s s' : State} {a : UpdateArg} {u : Update}
    (hb : a.build c.env.debug = .ok u) (h : observe c s u = .ok s') :
    (s'.ms.bid, s'.ms.ask) = quotesAfter s.ms a ∧ some s'.ms.ts = updateTime a ∧
      s'.ms.step = stepAfter s.ms a := by
  have ht := build_ts hb
  simp only [observe, bind_ok, ok_inj] at h
  obtain ⟨ms', h, rfl⟩ := h
  simp only [MarketState.update, bind_ok] at h
  obtain ⟨r, _, h⟩ := h
  split at h
  · simp at h
  · simp only [ok_inj] at h
    subst h
    refine ⟨?_, by rw [ht], ?_⟩
    · cases a with
      | smart ts b pf =>
        simp only [UpdateArg.build, bind_ok, ok_inj] at hb
        obtain ⟨sc, hsc, rfl⟩ := hb
        have : sc.bba = b := by
          simp only [SmartCandle.new] at hsc
          split at hsc
          · simp at hsc
          · simp only [bind_ok] at hsc
            obtain ⟨_, _, _, _, _, _, hsc⟩ := hsc
            split at hsc
            · simp at hsc
            · simp only [bind_ok, ok_inj] at hsc
              obtain ⟨_, _, rfl⟩ := hsc
              rfl
        simp [Update.applyQuotes, quotesAfter, this]
      | custom k =>
        simp only [UpdateArg.build, ok_inj] at hb; subst hb
        cases hk : k.market <;> simp [Update.applyQuotes, quotesAfter, hk]
      | _ =>
        simp only [UpdateArg.build, ok_inj] at hb; subst hb
        simp [Update.applyQuotes, quotesAfter]
    · cases a with
      | smart ts b pf =>
        simp only [UpdateArg.build, bind_ok, ok_inj] at hb
        obtain ⟨sc, hsc, rfl⟩ := hb
        rfl
      | custom k =>
        simp only [UpdateArg.build, ok_inj] at hb; subst hb
        cases hk : k.market <;> simp [Update.applyQuotes, stepAfter, hk]
      | _ => simp only [UpdateArg.build, ok_inj] at hb; subst hb; rfl

theorem checkMaintenance_ok {c : Cfg} {ms : MarketState} {pos : Position} (hw : PosWF pos) :
    (checkMaintenanceMargin c ms pos = .ok () ∧ ¬ breach c pos (ms.bid, ms.ask)) ∨
    (checkMaintenanceMargin c ms pos = .error .liquidate ∧ breach c pos (ms.bid, ms.ask)) := by
  unfold checkMaintenanceMargin breach
  cases pos with
  | neutral => exact .inl ⟨rfl, by simp [Position.quantity]⟩
  | long p =>
    have h0 : 0 < p.qty := hw
    have e : liquidationPriceLong c.scale p.entry c.spec.maintenanceMargin = longLimit c p.entry := rfl
    simp only [Position.quantity, Position.entryPrice]
    split
    · exact .inr ⟨rfl, .inl ⟨h0, by omega⟩⟩
    · exact .inl ⟨rfl, by omega⟩
  | short p =>
    have h0 : 0 < p.qty := hw
    have e : liquidationPriceShort c.scale p.entry c.spec.maintenanceMargin = shortLimit c p.entry := rfl
    simp only [Position.quantity, Position.entryPrice]
    split
    · exact .inr ⟨rfl, .inr ⟨by omega, by omega⟩⟩
    · exact .inl ⟨rfl, by omega⟩

theorem updateState_cases {c : Cfg} {s s' : State} {u : Update} {r} (hw : PosWF s.pos)
    (h : updateState c s u = .ok (s', r)) :
    ∃ s1, observe c s u = .ok s1 ∧
      ((breach c s.pos (s1.ms.bid, s1.ms.ask) ∧ liquidate c s1 = .ok s' ∧
          r = .error (.risk .liquidate)) ∨
       (¬ breach c s.pos (s1.ms.bid, s1.ms.ask) ∧ checkActive c s1 u = .ok s' ∧
          r = .ok s'.updates)) := by
  simp only [updateState, bind_ok] at h
  obtain ⟨s1, h1, h⟩ := h
  refine ⟨s1, h1, ?_⟩
  have hp := (observe_fields h1).2.1
  rw [← hp] at hw
  have := checkMaintenance_ok (c := c) (ms := s1.ms) hw
  rw [hp] at this
  rcases this with ⟨e, hb⟩ | ⟨e, hb⟩
  · rw [hp, e] at h
    simp only [bind_ok, ok_inj, Prod.mk.injEq] at h
    obtain ⟨s2, h2, rfl, rfl⟩ := h
    exact .inr ⟨hb, h2, rfl⟩
  · rw [hp, e] at h
    simp only [bind_ok, ok_inj, Prod.mk.injEq] at h
    obtain ⟨s2, h2, rfl, rfl⟩ := h
    exact .inl ⟨hb, h2, rfl⟩

theorem quantity_zero {pos : Position} (hw : PosWF pos) (h : pos.quantity = 0) :
    pos = .neutral := by
  cases pos with
  | neutral => rfl
  | long p => have h0 : 0 < p.qty := hw; simp only [Position.quantity] at h; omega
  | short p => have h0 : 0 < p.qty := hw; simp only [Position.quantity] at h; omega

theorem liquidate_spec {c : Cfg} {s s' : State} (hw : PosWF s.pos)
    (h : liquidate c s = .ok s') :
    s.pos ≠ .neutral ∧ s'.pos = .neutral ∧
      fills s'.log = closingFill s.pos (s.ms.bid, s.ms.ask) :: fills s.log ∧
      s'.acct.balance .orderMargin = s.acct.balance .orderMargin ∧
      quantityOk c.spec.quantityFilter (Spec.abs s.pos.quantity) := by
  simp only [liquidate, bind_ok] at h
  obtain ⟨o, ho, r, hr, h⟩ := h
  split at h
  · simp at h
  · next s1 f =>
    simp only [ok_inj] at h; subst h
    have key : s.pos ≠ .neutral ∧ 0 < Spec.abs s.pos.quantity ∧
        o.qty = Spec.abs s.pos.quantity ∧
        (⟨false, o.side, touchPrice s.ms o.side, o.qty⟩ : Fill) =
          closingFill s.pos (s.ms.bid, s.ms.ask) ∧
        s.pos.quantity + Fill.signed ⟨false, o.side, touchPrice s.ms o.side, o.qty⟩ = 0 := by
      unfold liquidationOrder at ho
      cases hp : s.pos with
      | neutral => rw [hp] at ho; simp at ho
      | long p =>
        rw [hp] at ho hw
        have h0 : 0 < p.qty := hw
        simp only at ho
        split at ho
        · next hn =>
          obtain ⟨_, rfl⟩ := newMarket_ok hn
          simp only [ok_inj] at ho; subst ho
          simp [Position.quantity, abs_of_pos h0, closingFill, h0, touchPrice, Fill.signed]
          omega
        · simp at ho
      | short p =>
        rw [hp] at ho hw
        have h0 : 0 < p.qty := hw
        simp only at ho
        split at ho
        · next hn =>
          obtain ⟨_, rfl⟩ := newMarket_ok hn
          simp only [ok_inj] at ho; subst ho
          have : ¬ p.qty < 0 := by omega
          simp [Position.quantity, abs_neg_of_pos h0, closingFill, h0, touchPrice, Fill.signed, this]
          omega
        · simp at ho
    obtain ⟨k1, k2, k3, k4, k5⟩ := key
    rcases submitMarket_cases hr with ⟨_, _, _, he⟩ | ⟨hv, ⟨_, _, _, he⟩ | ⟨_, _, _, pos', a', h, he, _⟩⟩
    · simp at he
    · simp at he
    · subst he
      have hl := changePosition_ledger (f := ⟨false, o.side, touchPrice s.ms o.side, o.qty⟩) (k := 0) hw h
      have hq := (changePosition_qty (m := false) hw h).2.2.1
      refine ⟨k1, ?_, ?_, hl.2.2.2.1, ?_⟩
      · exact quantity_zero hl.2.1 (by
          simp only [Fill.signed] at k5; cases ho : o.side <;> simp only [ho, signed] at hq k5 ⊢ <;> omega)
      · simp only [fills, ← k4]
      · rw [← k3]; exact (quantity_ok hv).1 rfl

/-- The entry price is never negative. -/
theorem ledger_entry (c : Cfg) (fs : List Fill) (h : ∀ f ∈ fs, 0 < f.price ∧ 0 < f.qty) :
    0 ≤ (Spec.ledger c fs).entry := by
  induction fs with
  | nil => simp [Spec.ledger, Ledger.empty]
  | cons f fs ih =>
    have hf := h f (by simp)
    have ih := ih (fun g hg => h g (by simp [hg]))
    simp only [Spec.ledger, Ledger.fill]
    split
    · exact Int.le_of_lt hf.1
    · split
      · refine (weighted_bounds c.env ih (Int.le_of_lt hf.1) ?_ (Int.le_of_lt hf.2) ?_).1
        · unfold Spec.abs; split <;> omega
        · have : 0 ≤ Spec.abs (Spec.ledger c fs).qty := by unfold Spec.abs; split <;> omega
          omega
      · simp only
        (repeat' split) <;> omega

theorem Spec.Reachable.entry_nonneg {c : Cfg} {s : State} (h : Reachable c s) :
    0 ≤ s.pos.entryPrice := by
  have h1 := h.linv.ledger
  have : s.pos.entryPrice = (Spec.ledger c (fills s.log)).entry := by
    have := congrArg Ledger.entry h1; simpa [ledgerOf, State.core] using this
  rw [this]
  exact ledger_entry c _ h.fill_price

/-- The order a limit submission would create. -/
theorem submitLimit_check {c : Cfg} {s s' : State} {side : Side} {price q : Int} {uid : Nat} {r}
    (hr : Reachable c s) (hcap : c.maxOpen ≤ 10000) (hq : 0 < q)
    (h : submitLimit c s ⟨uid, side, price, q⟩ = .ok (s', r)) (o : Limit)
    (ho : o = ⟨uid, side, price, q, s.nextId, s.ms.ts, .unfilled⟩) :
    (¬ quantityOk c.spec.quantityFilter q ∧ ∃ err, r = .error (.order err)) ∨
    (quantityOk c.spec.quantityFilter q ∧
      ¬ priceOk c.env c.spec.priceFilter price (mid s.ms) ∧ ∃ err, r = .error (.order err)) ∨
    (quantityOk c.spec.quantityFilter q ∧ priceOk c.env c.spec.priceFilter price (mid s.ms) ∧
      s.acct.balance .wallet + marginReq c s.active s.pos.quantity <
        marginReq c (s.active ++ [o]) s.pos.quantity ∧
      r = .error (.risk .notEnoughAvailableBalance)) ∨
    (quantityOk c.spec.quantityFilter q ∧ priceOk c.env c.spec.priceFilter price (mid s.ms) ∧
      marginReq c (s.active ++ [o]) s.pos.quantity ≤
        s.acct.balance .wallet + marginReq c s.active s.pos.quantity ∧
      ((crosses s.ms side price ∧ 
          r = .error (.order (.goodTillCrossingRejected price (touchPrice s.ms side)))) ∨
       (¬ crosses s.ms side price ∧ c.maxOpen ≤ s.active.length ∧
          r = .error .maxNumberOfActiveOrders) ∨
       (¬ crosses s.ms side price ∧ s.active.length < c.maxOpen ∧ r = .ok o))) := by
  have hI := hr.inv
  have hw := hr.linv.wf
  have hsync := hI.sync hcap
  have hm := mid_eq c s.ms
  have hcr : marketable s.ms side price = true ↔ crosses s.ms side price := by
    cases side <;> simp [marketable, crosses]
  rcases submitLimit_cases h with ⟨err, h1, _, rfl⟩ | ⟨h1, h⟩
  · have := quantity_ok h1
    simp only [reduceCtorEq, false_iff] at this
    exact .inl ⟨this, err, rfl⟩
  have hqo := (quantity_ok h1).1 rfl
  rcases h with ⟨err, h2, _, rfl⟩ | ⟨h2, h⟩
  · rw [hm] at h2
    have := price_ok h2
    simp only [reduceCtorEq, false_iff] at this
    exact .inr (.inl ⟨hqo, this, err, rfl⟩)
  rw [hm] at h2
  have hpo := (price_ok h2).1 rfl
  have ho' : (NewLimit.intoPending ⟨uid, side, price, q⟩ s.nextId s.ms.ts) = o := by
    rw [ho]; rfl
  rw [ho'] at h
  have hg : ∀ x ∈ s.active ++ [o], 0 ≤ x.remaining := by
    intro x hx
    simp only [List.mem_append, List.mem_singleton] at hx
    rcases hx with hx | rfl
    · exact Int.le_of_lt (hI.orders x hx).rem
    · rw [ho]; exact Int.le_of_lt hq
  rcases h with ⟨err, h3, _, rfl⟩ | ⟨h3, h⟩
  · rw [hsync] at h3
    rcases checkLimit_ok hw hg h3 with ⟨he, _⟩ | ⟨he, hlt⟩
    · simp at he
    · simp only [Except.error.injEq] at he; subst he
      exact .inr (.inr (.inl ⟨hqo, hpo, hlt, rfl⟩))
  have hle : marginReq c (s.active ++ [o]) s.pos.quantity ≤
      s.acct.balance .wallet + marginReq c s.active s.pos.quantity := by
    rw [hsync] at h3
    rcases checkLimit_ok hw hg h3 with ⟨_, hle⟩ | ⟨he, _⟩
    · exact hle
    · simp at he
  refine .inr (.inr (.inr ⟨hqo, hpo, hle, ?_⟩))
  rcases h with ⟨h4, _, rfl⟩ | ⟨h4, ra, ha, h⟩
  · exact .inl ⟨hcr.1 h4, rfl⟩
  have hnc : ¬ crosses s.ms side price := fun hh => by
    have := hcr.2 hh; simp only at h4; rw [this] at h4; simp at h4
  have hf : ∀ x ∈ s.active, x.id ≠ o.id := by
    rw [ho]; exact fun x hx => Nat.ne_of_lt (hI.orders x hx).fresh
  right
  have h5 := (appendLimit_arenas (by exact hf) ha).2
  simp only at h5
  rcases h5 with ⟨rfl, _, hl, _⟩ | ⟨om', hu, _, h6⟩
  · rw [hsync] at hl
    rcases h with ⟨err, he, rfl⟩ | ⟨he, _⟩
    · simp only [Except.error.injEq] at he; subst he; exact .inl ⟨hnc, hl, rfl⟩
    · simp at he
  · have hlen : s.active.length < c.maxOpen := by
      rcases Nat.lt_or_ge s.active.length c.maxOpen with hlt | hge
      · exact hlt
      · exfalso
        rw [hsync] at hu
        have hn : s.active.getById o.id = none := by
          simp only [Book.getById, List.find?_eq_none, beq_iff_eq]
          exact hf
        have hins : Book.insert c.maxOpen s.active o = .error .maxNumberOfActiveOrders := by
          simp only [Book.insert, hn, if_pos hge]
        simp only [omUpdate, bind_ok, assertP_ok, hins] at hu
        obtain ⟨_, _, hu⟩ := hu
        simp at hu
    rcases h6 with ⟨rfl, _, hcap'⟩ | ⟨rfl, _⟩
    · simp only [activeCap] at hcap'; omega
    · rcases h with ⟨err, he, _⟩ | ⟨_, rfl⟩
      · simp at he
      · exact .inr ⟨hnc, hlen, rfl⟩

end Lfest
