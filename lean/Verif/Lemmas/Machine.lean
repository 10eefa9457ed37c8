import Verif.Model.Machine
import Verif.Lemmas.Monad

/-!
# The bounded program agrees with the unbounded one unless it overflows
-/

namespace Lfest.Mach

/-- The bounded computation overflows or does the same as the unbounded one. -/
def Agree {α} (m u : Res α) : Prop := m = .error .overflow ∨ m = u

theorem Agree.refl {α} (m : Res α) : Agree m m := .inr rfl

theorem Agree.bind {α β} {m u : Res α} {f g : α → Res β} (h : Agree m u)
    (k : ∀ x, u = .ok x → Agree (f x) (g x)) : Agree (m >>= f) (u >>= g) := by
  rcases h with h | h
  · left; rw [h]; rfl
  · rw [h]
    cases hu : u with
    | error e => right; rfl
    | ok x => exact k x hu

theorem agree_ok_bind {α β} {m : Res α} {x : α} {f : α → Res β} {u : Res β}
    (h : Agree m (.ok x)) (k : Agree (f x) u) : Agree (m >>= f) u := by
  rcases h with h | h
  · left; rw [h]; rfl
  · rw [h]; exact k

theorem Agree.assoc {α β γ} {m : Res α} {f : α → Res β} {g : β → Res γ} {u : Res γ}
    (h : Agree (m >>= fun x => f x >>= g) u) : Agree ((m >>= f) >>= g) u := by
  cases m with
  | error e => exact h
  | ok x => exact h

theorem agree_chk {w x : Int} : Agree (chk w x) (.ok x) := by
  unfold chk; split
  · exact .inr rfl
  · exact .inl rfl

theorem agree_chk_bind {β} {w x : Int} {f : Int → Res β} {u : Res β} (h : Agree (f x) u) :
    Agree (chk w x >>= f) u := by
  unfold chk; split
  · exact h
  · exact .inl rfl

theorem agree_dmul {w s a b : Int} : Agree (dmul w s a b) (.ok (Lfest.dmul s a b)) := agree_chk

theorem agree_dmul_bind {β} {w s a b : Int} {f : Int → Res β} {u : Res β}
    (h : Agree (f (Lfest.dmul s a b)) u) : Agree (dmul w s a b >>= f) u := agree_chk_bind h

theorem agree_balance_bind {β} {w : Int} {a : Accounts} {i : AccountId} {f : Int → Res β}
    {u : Res β} (h : Agree (f (a.balance i)) u) : Agree (balance w a i >>= f) u :=
  agree_chk_bind h

theorem bind_ok_right {α} (m : Res α) : (m >>= fun x => .ok x) = m := by
  cases m <;> rfl

theorem agree_ddiv {w s a b : Int} : Agree (ddiv w s a b) (Lfest.ddiv s a b) := by
  unfold ddiv
  have := Agree.bind (f := fun x => chk w x) (g := fun x => .ok x) (Agree.refl (Lfest.ddiv s a b))
    (fun x _ => agree_chk)
  rwa [bind_ok_right] at this

theorem agree_convert {w : Int} {e : Env} {q p : Int} :
    Agree (convert w e q p) (Lfest.convert e q p) := by
  unfold convert Lfest.convert
  cases e.kind
  · exact agree_dmul
  · exact agree_ddiv

theorem agree_pnl {w : Int} {e : Env} {x y q : Int} :
    Agree (pnl w e x y q) (Lfest.pnl e x y q) := by
  unfold pnl Lfest.pnl
  split
  · exact .refl _
  · cases e.kind
    · exact agree_convert.bind fun _ _ => agree_convert.bind fun _ _ => agree_chk
    · exact agree_convert.bind fun _ _ => agree_convert.bind fun _ _ => agree_chk

theorem agree_weighted {w s p0 w0 p1 w1 : Int} :
    Agree (newWeightedPrice w s p0 w0 p1 w1) (Lfest.newWeightedPrice s p0 w0 p1 w1) := by
  unfold newWeightedPrice Lfest.newWeightedPrice
  exact agree_chk_bind (agree_dmul_bind (agree_dmul_bind (agree_chk_bind agree_ddiv)))

theorem agree_total {w : Int} {o : Limit} : Agree (totalQuantity w o) o.totalQuantity := by
  unfold totalQuantity Limit.totalQuantity
  cases o.fq with
  | unfilled => exact .refl _
  | filled c a => exact agree_chk_bind (.refl _)

theorem agree_fill {w s : Int} {o : Limit} {q ts : Int} :
    Agree (fill w s o q ts) (o.fill s q ts) := by
  unfold fill Limit.fill
  refine (Agree.refl _).bind fun _ _ => (Agree.refl _).bind fun _ _ => agree_chk_bind ?_
  cases o.fq with
  | unfilled => exact .refl _
  | filled c a => exact agree_weighted.bind fun _ _ => agree_chk_bind (.refl _)

theorem agree_price {w s : Int} {f : PriceFilter} {p m : Int} :
    Agree (validatePrice w s f p m) (f.validate s p m) := by
  unfold validatePrice PriceFilter.validate
  split
  · exact .refl _
  split
  · exact .refl _
  split
  · exact .refl _
  refine agree_chk_bind ((Agree.refl _).bind fun _ _ => ?_)
  split
  · exact .refl _
  refine agree_dmul_bind ?_
  split
  · exact .refl _
  exact agree_dmul_bind (.refl _)

theorem agree_qty {w : Int} {f : QuantityFilter} {q : Int} :
    Agree (validateQty w f q) (f.validate q) := by
  unfold validateQty QuantityFilter.validate
  split
  · exact .refl _
  split
  · exact .refl _
  split
  · exact .refl _
  exact agree_chk_bind (.refl _)

theorem agree_sum {w : Int} : ∀ (xs : List Int) (acc : Int),
    Agree (sum w acc xs) (.ok (xs.foldl (· + ·) acc))
  | [], _ => .refl _
  | _ :: xs, _ => agree_chk_bind (agree_sum xs _)

theorem agree_equation {w : Int} {d : Bool} {a : Accounts} :
    Agree (debugEquation w d a) (debugP d (a.debitSum = a.creditSum) .accountingEquation) := by
  unfold debugEquation debugP
  split
  · refine agree_ok_bind (agree_sum _ _) (agree_ok_bind (agree_sum _ _) ?_)
    have h1 : ([a.wallet.debits, a.orderMargin.debits, a.positionMargin.debits,
      a.exchangeFee.debits, a.broker.debits, a.treasury.debits].foldl (· + ·) 0) = a.debitSum := by
      simp [Accounts.debitSum]
    have h2 : ([a.wallet.credits, a.orderMargin.credits, a.positionMargin.credits,
      a.exchangeFee.credits, a.broker.credits, a.treasury.credits].foldl (· + ·) 0) =
        a.creditSum := by
      simp [Accounts.creditSum]
    rw [h1, h2]
    exact .refl _
  · exact .refl _

theorem agree_transfer {w : Int} {e : Env} {a : Accounts} {d k : AccountId} {x : Int} :
    Agree (transfer w e a d k x) (Lfest.transfer e a d k x) := by
  unfold transfer Lfest.transfer
  refine (Agree.refl _).bind fun _ _ => (Agree.refl _).bind fun _ _ => ?_
  exact agree_chk_bind (agree_chk_bind (agree_equation.bind fun _ _ => .refl _))

theorem agree_new {w : Int} {e : Env} {imr : Int} {a : Accounts} {q p f : Int} :
    Agree (new w e imr a q p f) (Inner.new e imr a q p f) := by
  unfold new Inner.new
  refine (Agree.refl _).bind fun _ _ => (Agree.refl _).bind fun _ _ => ?_
  exact agree_convert.bind fun _ _ => agree_dmul_bind (agree_transfer.bind fun _ _ => .refl _)

theorem agree_increase {w : Int} {e : Env} {imr : Int} {a : Accounts} {i : Inner} {q p f : Int} :
    Agree (increase w e imr a i q p f) (i.increase e imr a q p f) := by
  unfold increase Inner.increase
  refine (Agree.refl _).bind fun _ _ => (Agree.refl _).bind fun _ _ => ?_
  exact agree_convert.bind fun _ _ => agree_weighted.bind fun _ _ => agree_dmul_bind
    (agree_transfer.bind fun _ _ => agree_chk_bind (agree_chk_bind (.refl _)))

theorem agree_settlePnl {w : Int} {e : Env} {a : Accounts} {v : Int} :
    Agree (settlePnl w e a v) (Lfest.settlePnl e a v) := by
  unfold settlePnl Lfest.settlePnl
  split
  · exact agree_transfer
  split
  · exact agree_transfer
  · exact .refl _

theorem agree_settleFees {w : Int} {e : Env} {a : Accounts} {v : Int} :
    Agree (settleFees w e a v) (Lfest.settleFees e a v) := by
  unfold settleFees Lfest.settleFees
  split
  · exact agree_transfer.bind fun _ _ => .refl _
  · exact .refl _

theorem agree_decrease {w : Int} {e : Env} {imr : Int} {a : Accounts} {i : Inner}
    {q p dir f : Int} :
    Agree (decrease w e imr a i q p dir f) (i.decrease e imr a q p dir f) := by
  unfold decrease Inner.decrease
  refine (Agree.refl _).bind fun _ _ => (Agree.refl _).bind fun _ _ => agree_chk_bind ?_
  refine (Agree.refl _).bind fun _ _ => agree_chk_bind ?_
  refine agree_pnl.bind fun _ _ => agree_settlePnl.bind fun _ _ => ?_
  refine agree_convert.bind fun _ _ => agree_dmul_bind ((Agree.refl _).bind fun _ _ => ?_)
  exact agree_transfer.bind fun _ _ => agree_settleFees.bind fun _ _ => .refl _

theorem agree_debugNoMargin {w : Int} {d : Bool} {a : Accounts} {p : Panic} :
    Agree (debugNoMargin w d a p) (debugP d (a.balance .positionMargin = 0) p) := by
  unfold debugNoMargin debugP
  split
  · exact agree_balance_bind (.refl _)
  · exact .refl _

theorem agree_changePosition {w : Int} {e : Env} {imr : Int} {a : Accounts} {pos : Position}
    {q p : Int} {side : Side} {f : Int} :
    Agree (changePosition w e imr a pos q p side f)
      (Lfest.changePosition e imr a pos q p side f) := by
  unfold changePosition Lfest.changePosition
  refine (Agree.refl _).bind fun _ _ => ?_
  cases pos with
  | neutral =>
    refine agree_debugNoMargin.bind fun _ _ => ?_
    cases side <;> exact agree_new.bind fun _ _ => .refl _
  | long i =>
    cases side with
    | buy => exact agree_increase.bind fun _ _ => .refl _
    | sell =>
      dsimp only
      split
      · exact agree_decrease.bind fun _ _ => .refl _
      split
      · exact agree_decrease.bind fun _ _ => agree_debugNoMargin.bind fun _ _ => .refl _
      · unfold flip
        refine .assoc (agree_chk_bind (.assoc (agree_decrease.bind fun x _ => ?_)))
        refine .assoc ((Agree.refl _).bind fun _ _ => .assoc (agree_balance_bind ?_))
        refine .assoc ((Agree.refl _).bind fun _ _ => ?_)
        exact agree_new.bind fun _ _ => .refl _
  | short i =>
    cases side with
    | sell => exact agree_increase.bind fun _ _ => .refl _
    | buy =>
      dsimp only
      split
      · exact agree_decrease.bind fun _ _ => .refl _
      split
      · exact agree_decrease.bind fun _ _ => agree_debugNoMargin.bind fun _ _ => .refl _
      · unfold flip
        refine .assoc (agree_chk_bind (.assoc (agree_decrease.bind fun x _ => ?_)))
        refine .assoc ((Agree.refl _).bind fun _ _ => .assoc (agree_balance_bind ?_))
        refine .assoc ((Agree.refl _).bind fun _ _ => ?_)
        exact agree_new.bind fun _ _ => .refl _

/-! ## Order margin and risk -/

theorem agree_offset {w : Int} : ∀ (l : List (Int × Int)) (pos : Int),
    Agree (offsetOrders w pos l) (.ok (Lfest.offsetOrders pos l))
  | [], _ => .refl _
  | (p, q) :: l, pos => by
    unfold offsetOrders Lfest.offsetOrders
    split
    · exact agree_chk_bind (agree_chk_bind (agree_ok_bind (agree_offset l _) (.refl _)))
    · exact .refl _

theorem agree_sumValue {w : Int} {e : Env} : ∀ (l : List (Int × Int)) (acc : Int),
    Agree (sumValue w e acc l) (Lfest.sumValue e acc l)
  | [], _ => .refl _
  | (_, _) :: l, _ =>
    agree_convert.bind fun _ _ => agree_chk_bind (agree_sumValue l _)

theorem agree_offsetBuys {w : Int} {pos : Position} {l : List (Int × Int)} :
    Agree (offsetBuys w pos l) (.ok (match pos with
      | .short p => Lfest.offsetOrders p.qty l
      | _ => l)) := by
  unfold offsetBuys
  cases pos with
  | short p => exact agree_offset l _
  | _ => exact .refl _

theorem agree_offsetSells {w : Int} {pos : Position} {l : List (Int × Int)} :
    Agree (offsetSells w pos l) (.ok (match pos with
      | .long p => Lfest.offsetOrders p.qty l
      | _ => l)) := by
  unfold offsetSells
  cases pos with
  | long p => exact agree_offset l _
  | _ => exact .refl _

theorem agree_orderMarginInternal {w : Int} {e : Env} {imr : Int} {b : Book} {pos : Position}
    {new : Option Limit} :
    Agree (orderMarginInternal w e imr b pos new) (Lfest.orderMarginInternal e imr b pos new) := by
  unfold orderMarginInternal Lfest.orderMarginInternal
  refine (Agree.refl _).bind fun _ _ => agree_ok_bind agree_offsetBuys ?_
  refine agree_ok_bind agree_offsetSells ?_
  exact (agree_sumValue _ _).bind fun _ _ => (agree_sumValue _ _).bind fun _ _ => agree_dmul

theorem agree_orderMargin {w : Int} {e : Env} {imr : Int} {b : Book} {pos : Position} :
    Agree (orderMargin w e imr b pos) (Lfest.orderMargin e imr b pos) := agree_orderMarginInternal

theorem agree_checkFunds {w : Int} {c : Cfg} {q p f : Int} :
    Agree (checkFunds w c q p f) (Lfest.checkFunds c q p f) := by
  unfold checkFunds Lfest.checkFunds
  exact agree_convert.bind fun _ _ => agree_dmul_bind (agree_dmul_bind (agree_chk_bind (.refl _)))

theorem agree_checkMarketOrder {w : Int} {c : Cfg} {pos : Position} {pm : Int} {side : Side}
    {q p wal : Int} :
    Agree (checkMarketOrder w c pos pm side q p wal)
      (Lfest.checkMarketOrder c pos pm side q p wal) := by
  unfold checkMarketOrder Lfest.checkMarketOrder
  cases side <;> cases pos <;> simp only [checkMarketBuy, checkMarketSell, checkFlip] <;>
    first
    | exact agree_checkFunds
    | (split
       · exact .refl _
       · exact agree_chk_bind (agree_chk_bind agree_checkFunds))

theorem agree_checkLimitOrder {w : Int} {c : Cfg} {pos : Position} {o : Limit} {wal : Int}
    {om : Book} :
    Agree (checkLimitOrder w c pos o wal om) (Lfest.checkLimitOrder c pos o wal om) := by
  unfold checkLimitOrder Lfest.checkLimitOrder
  exact agree_orderMargin.bind fun _ _ => agree_orderMarginInternal.bind fun _ _ =>
    agree_chk_bind (.refl _)

theorem agree_maintenance {w : Int} {c : Cfg} {ms : MarketState} {pos : Position} :
    Agree (checkMaintenanceMargin w c ms pos) (.ok (Lfest.checkMaintenanceMargin c ms pos)) := by
  unfold checkMaintenanceMargin Lfest.checkMaintenanceMargin
  cases pos with
  | neutral => exact .refl _
  | long p =>
    unfold liquidationPriceLong
    refine .assoc (agree_chk_bind (agree_dmul_bind ?_))
    change Agree (if ms.bid < Lfest.liquidationPriceLong c.scale p.entry c.spec.maintenanceMargin
      then .ok (Except.error RiskError.liquidate) else .ok (Except.ok ())) _
    by_cases h : ms.bid < Lfest.liquidationPriceLong c.scale p.entry c.spec.maintenanceMargin
    · simp only [if_pos h]; exact .refl _
    · simp only [if_neg h]; exact .refl _
  | short p =>
    unfold liquidationPriceShort
    refine .assoc (agree_chk_bind (agree_dmul_bind ?_))
    change Agree (if ms.ask > Lfest.liquidationPriceShort c.scale p.entry c.spec.maintenanceMargin
      then .ok (Except.error RiskError.liquidate) else .ok (Except.ok ())) _
    by_cases h : ms.ask > Lfest.liquidationPriceShort c.scale p.entry c.spec.maintenanceMargin
    · simp only [if_pos h]; exact .refl _
    · simp only [if_neg h]; exact .refl _

/-! ## Market updates -/

theorem agree_mid {w s : Int} {m : MarketState} : Agree (mid w s m) (.ok (m.mid s)) :=
  agree_chk_bind agree_chk

theorem agree_aggregateLoop {w : Int} : ∀ (l : List (Int × Int)) (last sum : Int),
    Agree (aggregateLoop w last sum l) (.ok (Lfest.aggregateLoop last sum l))
  | [], _, _ => .refl _
  | (p, q) :: l, last, sum => by
    unfold aggregateLoop Lfest.aggregateLoop
    refine agree_chk_bind ?_
    split
    · exact agree_ok_bind (agree_aggregateLoop l _ _) (.refl _)
    · exact agree_aggregateLoop l _ _

theorem agree_aggregate {w : Int} {l : List (Int × Int)} :
    Agree (aggregate w l) (.ok (Lfest.aggregate l)) := by
  cases l with
  | nil => exact .refl _
  | cons x l => exact agree_aggregateLoop _ _ _

theorem agree_smartNew {w : Int} {d : Bool} {ts : List Trade} {b : Bba} {pf : PriceFilter} :
    Agree (smartNew w d ts b pf) (SmartCandle.new d ts b pf) := by
  unfold smartNew SmartCandle.new
  cases ts with
  | nil => exact .refl _
  | cons t0 rest =>
    refine (Agree.refl _).bind fun _ _ => (Agree.refl _).bind fun _ _ => ?_
    refine (Agree.refl _).bind fun r _ => ?_
    cases r with
    | error _ => exact .refl _
    | ok _ =>
      refine (Agree.refl _).bind fun _ _ => ?_
      exact agree_ok_bind agree_aggregate (agree_ok_bind agree_aggregate (.refl _))

theorem agree_build {w : Int} {d : Bool} {u : UpdateArg} : Agree (build w d u) (u.build d) := by
  cases u with
  | smart ts b pf => exact agree_smartNew.bind fun _ _ => .refl _
  | _ => exact .refl _

/-! ## The exchange -/

theorem agree_settleMarket {w : Int} {c : Cfg} {s : State} {o : FilledMarket} :
    Agree (settleMarket w c s o) (Lfest.settleMarket c s o) := by
  unfold settleMarket Lfest.settleMarket
  refine (Agree.refl _).bind fun _ _ => (Agree.refl _).bind fun _ _ => ?_
  exact agree_convert.bind fun _ _ => agree_dmul_bind (agree_changePosition.bind fun _ _ => .refl _)

theorem agree_submitMarket {w : Int} {c : Cfg} {s : State} {o : NewMarket} :
    Agree (submitMarket w c s o) (Lfest.submitMarket c s o) := by
  unfold submitMarket Lfest.submitMarket
  refine agree_qty.bind fun r _ => ?_
  cases r with
  | error _ => exact .refl _
  | ok _ =>
    refine agree_balance_bind (agree_balance_bind (agree_checkMarketOrder.bind fun r _ => ?_))
    cases r with
    | error _ => exact .refl _
    | ok _ => exact agree_settleMarket.bind fun _ _ => .refl _

theorem agree_emptyCheck {w : Int} {b : Book} {a : Accounts} :
    Agree (emptyCheck w b a) (assertP (b = [] → a.balance .orderMargin = 0) .emptyButMargin) := by
  unfold emptyCheck
  split
  · next h =>
    refine agree_balance_bind ?_
    have : assertP (b = [] → a.balance .orderMargin = 0) .emptyButMargin =
      assertP (a.balance .orderMargin = 0) .emptyButMargin := by simp [assertP, h]
    rw [this]; exact .refl _
  · next h =>
    have : assertP (b = [] → a.balance .orderMargin = 0) .emptyButMargin = .ok () := by
      simp [assertP, h]
    rw [this]; exact .refl _

theorem agree_walletCheck {w : Int} {a : Accounts} :
    Agree (walletCheck w a) (assertP (a.balance .wallet ≥ 0) .walletNegative) :=
  agree_balance_bind (.refl _)

theorem agree_appendChecks {w : Int} {s : State} :
    Agree (appendChecks w s) (Lfest.appendChecks s) := by
  unfold appendChecks Lfest.appendChecks
  refine (Agree.refl _).bind fun _ _ => agree_emptyCheck.bind fun _ _ => ?_
  exact agree_walletCheck.bind fun _ _ => .refl _

theorem agree_appendLimit {w : Int} {c : Cfg} {s : State} {o : Limit} :
    Agree (appendLimit w c s o) (Lfest.appendLimit c s o) := by
  unfold appendLimit Lfest.appendLimit
  refine (Agree.refl _).bind fun r _ => ?_
  cases r with
  | error _ => exact .refl _
  | ok om' =>
    dsimp only
    cases Book.insert activeCap s.active o with
    | error _ => exact .refl _
    | ok r =>
      refine agree_orderMargin.bind fun _ _ => agree_balance_bind ?_
      split
      · refine agree_chk_bind (agree_transfer.bind fun _ _ => ?_)
        exact agree_appendChecks.bind fun _ _ => .refl _
      split
      · refine agree_chk_bind (agree_transfer.bind fun _ _ => ?_)
        exact agree_appendChecks.bind fun _ _ => .refl _
      · exact .refl _

theorem agree_submitLimit {w : Int} {c : Cfg} {s : State} {o : NewLimit} :
    Agree (submitLimit w c s o) (Lfest.submitLimit c s o) := by
  unfold submitLimit Lfest.submitLimit
  refine agree_qty.bind fun r _ => ?_
  cases r with
  | error _ => exact .refl _
  | ok _ =>
    refine agree_ok_bind agree_mid (agree_price.bind fun r _ => ?_)
    cases r with
    | error _ => exact .refl _
    | ok _ =>
      refine agree_balance_bind (agree_checkLimitOrder.bind fun r _ => ?_)
      cases r with
      | error _ => exact .refl _
      | ok _ =>
        dsimp only
        split
        · exact .refl _
        · exact agree_appendLimit.bind fun _ _ => .refl _

theorem agree_refund {w : Int} {e : Env} {a : Accounts} {m n : Int} :
    Agree (refund w e a m n) (Lfest.refund e a m n) := by
  unfold refund Lfest.refund
  split
  · exact agree_chk_bind agree_transfer
  · exact .refl _

theorem agree_cancelLimit {w : Int} {c : Cfg} {s : State} {k : CancelBy} :
    Agree (cancelLimit w c s k) (Lfest.cancelLimit c s k) := by
  unfold cancelLimit Lfest.cancelLimit
  refine agree_balance_bind (agree_orderMargin.bind fun _ _ => (Agree.refl _).bind fun _ _ => ?_)
  cases s.active.removeCancel k with
  | none => exact .refl _
  | some r =>
    refine (Agree.refl _).bind fun _ _ => agree_orderMargin.bind fun _ _ => ?_
    refine (Agree.refl _).bind fun _ _ => agree_refund.bind fun _ _ => ?_
    exact (Agree.refl _).bind fun _ _ => agree_emptyCheck.bind fun _ _ => .refl _

theorem agree_amendLimit {w : Int} {c : Cfg} {s : State} {id : Nat} {o : NewLimit} :
    Agree (amendLimit w c s id o) (Lfest.amendLimit c s id o) := by
  unfold amendLimit Lfest.amendLimit
  cases s.active.getById id with
  | none => exact .refl _
  | some old =>
    refine agree_total.bind fun _ _ => agree_chk_bind (agree_chk_bind ?_)
    dsimp only
    split
    · exact agree_cancelLimit.bind fun _ _ => .refl _
    · refine (Agree.refl _).bind fun _ _ => agree_cancelLimit.bind fun r _ => ?_
      obtain ⟨s', r⟩ := r
      cases r with
      | error _ => exact .refl _
      | ok _ => exact agree_submitLimit

theorem agree_debugMarginEq {w : Int} {c : Cfg} {a : Accounts} {om : Book} {pos : Position}
    {p : Panic} : Agree (debugMarginEq w c a om pos p) (Lfest.debugMarginEq c a om pos p) := by
  unfold debugMarginEq Lfest.debugMarginEq
  split
  · exact agree_orderMargin.bind fun _ _ => agree_balance_bind (.refl _)
  · exact .refl _

theorem agree_applyFill {w : Int} {c : Cfg} {ts : Int} {l : Loop} {o : Limit} {q : Int} :
    Agree (applyFill w c ts l o q) (Lfest.applyFill c ts l o q) := by
  unfold applyFill Lfest.applyFill
  exact agree_fill.bind fun _ _ => .refl _

theorem agree_settleLimit {w : Int} {c : Cfg} {l : Loop} {o : Limit} {q : Int} :
    Agree (settleLimit w c l o q) (Lfest.settleLimit c l o q) := by
  unfold settleLimit Lfest.settleLimit
  exact agree_convert.bind fun _ _ => agree_dmul_bind (agree_changePosition.bind fun _ _ => .refl _)

theorem agree_releaseMargin {w : Int} {c : Cfg} {l : Loop} {m : Int} :
    Agree (releaseMargin w c l m) (Lfest.releaseMargin c l m) := by
  unfold releaseMargin Lfest.releaseMargin
  refine agree_orderMargin.bind fun _ _ => (Agree.refl _).bind fun _ _ => ?_
  exact agree_refund.bind fun _ _ => .refl _

theorem agree_matchOrder {w : Int} {c : Cfg} {u : Update} {l : Loop} {o : Limit} :
    Agree (matchOrder w c u l o) (Lfest.matchOrder c u l o) := by
  unfold matchOrder Lfest.matchOrder
  refine (Agree.refl _).bind fun r _ => ?_
  cases r with
  | none => exact .refl _
  | some q =>
    refine (Agree.refl _).bind fun _ _ => agree_balance_bind (agree_debugMarginEq.bind fun _ _ => ?_)
    refine agree_applyFill.bind fun _ _ => agree_settleLimit.bind fun _ _ => ?_
    exact agree_releaseMargin.bind fun _ _ => .refl _

theorem agree_matchLoop {w : Int} {c : Cfg} {u : Update} : ∀ (os : List Limit) (l : Loop),
    Agree (matchLoop w c u l os) (Lfest.matchLoop c u l os)
  | [], _ => .refl _
  | _ :: os, _ =>
    agree_matchOrder.bind fun _ _ => (agree_matchLoop os _).bind fun _ _ => .refl _

theorem agree_debugEmpty {w : Int} {d : Bool} {b : Book} {a : Accounts} :
    Agree (debugEmpty w d b a) (debugP d (b = [] → a.balance .orderMargin = 0) .emptyButMargin) := by
  unfold debugEmpty debugP
  split
  · exact agree_emptyCheck
  · exact .refl _

theorem agree_checkActive {w : Int} {c : Cfg} {s : State} {u : Update} :
    Agree (checkActive w c s u) (Lfest.checkActive c s u) := by
  unfold checkActive Lfest.checkActive
  split
  · exact .refl _
  · refine (Agree.refl _).bind fun _ _ => (agree_matchLoop _ _).bind fun _ _ => ?_
    refine (Agree.refl _).bind fun _ _ => (Agree.refl _).bind fun _ _ => ?_
    refine (Agree.refl _).bind fun _ _ => agree_debugEmpty.bind fun _ _ => ?_
    exact agree_debugMarginEq.bind fun _ _ => agree_walletCheck.bind fun _ _ => .refl _

theorem agree_liquidate {w : Int} {c : Cfg} {s : State} :
    Agree (liquidate w c s) (Lfest.liquidate c s) := by
  unfold liquidate Lfest.liquidate
  exact (Agree.refl _).bind fun _ _ => agree_submitMarket.bind fun _ _ => .refl _

theorem agree_userBalances {w : Int} {a : Accounts} :
    Agree (userBalances w a) (.ok (Lfest.userBalances a)) :=
  agree_balance_bind (agree_balance_bind (agree_balance_bind (.refl _)))

theorem agree_observe {w : Int} {c : Cfg} {s : State} {u : Update} :
    Agree (observe w c s u) (Lfest.observe c s u) := by
  unfold observe Lfest.observe
  refine (Agree.refl _).bind fun ms' _ => ?_
  dsimp only [sampleLog]
  split
  · exact .assoc (agree_ok_bind agree_userBalances (.assoc (agree_ok_bind agree_mid (.refl _))))
  · exact .refl _

theorem agree_updateState {w : Int} {c : Cfg} {s : State} {u : Update} :
    Agree (updateState w c s u) (Lfest.updateState c s u) := by
  unfold updateState Lfest.updateState
  refine agree_observe.bind fun s1 _ => agree_ok_bind agree_maintenance ?_
  cases Lfest.checkMaintenanceMargin c s1.ms s1.pos with
  | error _ => exact agree_liquidate.bind fun _ _ => .refl _
  | ok _ => exact agree_checkActive.bind fun _ _ => .refl _

theorem agree_step {w : Int} {c : Cfg} {s : State} {op : Op} :
    Agree (step w c s op) (Lfest.step c s op) := by
  unfold step Lfest.step
  cases op with
  | update a => exact agree_build.bind fun _ _ => agree_updateState.bind fun _ _ => .refl _
  | checkActive a => exact agree_build.bind fun _ _ => agree_checkActive.bind fun _ _ => .refl _
  | market side q uid =>
    dsimp only
    cases NewMarket.new side q uid with
    | error _ => exact .refl _
    | ok o => exact agree_submitMarket.bind fun _ _ => .refl _
  | limit side p q uid =>
    dsimp only
    cases NewLimit.new side p q uid with
    | error _ => exact .refl _
    | ok o => exact agree_submitLimit.bind fun _ _ => .refl _
  | amend id side p q uid =>
    dsimp only
    cases NewLimit.new side p q uid with
    | error _ => exact .refl _
    | ok o => exact agree_amendLimit.bind fun _ _ => .refl _
  | cancel k => exact agree_cancelLimit.bind fun _ _ => .refl _

theorem agree_run {w : Int} {c : Cfg} : ∀ (ops : List Op) (s : State),
    Agree (run w c s ops) (Lfest.run c s ops)
  | [], _ => .refl _
  | _ :: ops, _ => agree_step.bind fun _ _ => agree_run ops _

end Lfest.Mach
