/-!
# Panics, errors and the result monad

Modelled code: every `assert!`, `expect`, `debug_assert!`, `unreachable!` and division by
zero in `/repo/src` that is reachable from the modelled functions, and the error enums in
`/repo/src/types/errors`.
-/

namespace Lfest

/-- The panic sites of the modelled code, one constructor per `assert`/`expect`/division.
Comments give file and line in `/repo/src`. `D` marks a `debug_assert`. -/
inductive Panic where
  /-- integer division or remainder by zero in `const_decimal` -/
  | divByZero
  /-- accounting/transaction.rs:64 amount > 0 -/
  | txnAmount
  /-- accounting/transaction.rs:68 debit account differs from credit account -/
  | txnAccounts
  /-- D accounting/utils.rs:14 accounting equation -/
  | accountingEquation
  /-- types/limit_order.rs:177 -/
  | setRemaining
  /-- types/limit_order.rs:199 -/
  | fillTooLarge
  /-- types/limit_order.rs:203 -/
  | fillNotPositive
  /-- types/limit_order.rs:286 -/
  | totalQuantity
  /-- position_inner.rs:85 -/
  | newQty
  /-- position_inner.rs:86 -/
  | newPrice
  /-- position_inner.rs:134 -/
  | increaseQty
  /-- position_inner.rs:135 -/
  | increasePrice
  /-- position_inner.rs:173 -/
  | decreaseQty
  /-- position_inner.rs:174 -/
  | decreaseTooMuch
  /-- D position_inner.rs:182 -/
  | decreaseNegative
  /-- D position_inner.rs:207 -/
  | marginToFree
  /-- D position.rs:96 -/
  | changeQty
  /-- D position.rs:102 -/
  | neutralMargin
  /-- D position.rs:160 and 216 -/
  | closedMargin
  /-- position.rs:177 and 233 -/
  | flipQty
  /-- position.rs:178 and 234 -/
  | flipMargin
  /-- order_margin.rs:45 -/
  | omRemaining
  /-- order_margin.rs:48 -/
  | omSame
  /-- order_margin.rs:52 (and 57, implied by it) -/
  | omNotSmaller
  /-- order_margin.rs:68 and 73 -/
  | omRemove
  /-- D order_margin.rs:96 -/
  | imrAboveOne
  /-- D market_state.rs:66 -/
  | invalidUpdate
  /-- D market_update/trade_update.rs:55 -/
  | tradeQty
  /-- D market_update/trade_update.rs:59, candle_update.rs:56 -/
  | orderRemaining
  /-- market_update/bba_update.rs:58 -/
  | bbaUnreachable
  /-- market_update/smart_candle.rs:45 -/
  | smartEmpty
  /-- D market_update/smart_candle.rs:47 -/
  | smartNoValidTrade
  /-- market_update/smart_candle.rs:51 -/
  | smartBba
  /-- D market_update/smart_candle.rs:61 -/
  | smartTradeQty
  /-- exchange.rs:217 and 220 -/
  | liquidateOrder
  /-- exchange.rs:222 -/
  | liquidateNeutral
  /-- exchange.rs:225 -/
  | liquidateSubmit
  /-- exchange.rs:284 -/
  | settleQty
  /-- exchange.rs:286 -/
  | settlePrice
  /-- exchange.rs:412 -/
  | amendCancel
  /-- exchange.rs:465, 535 and D 577, 668 -/
  | booksDiffer
  /-- exchange.rs:469, 539 and D 672 -/
  | emptyButMargin
  /-- utils.rs:54 -/
  | walletNegative
  /-- exchange.rs:493 -/
  | cancelMarginMismatch
  /-- exchange.rs:523 -/
  | cancelMarginIncrease
  /-- exchange.rs:560 -/
  | executedNotActive
  /-- D exchange.rs:591 -/
  | matchQty
  /-- D exchange.rs:600 -/
  | matchMarginMismatch
  /-- D exchange.rs:617 -/
  | matchRemaining
  /-- exchange.rs:623 -/
  | matchUpdate
  /-- D exchange.rs:644 -/
  | matchMarginIncrease
  /-- D exchange.rs:663 -/
  | idsCapacity
  /-- D exchange.rs:680 -/
  | finalMarginMismatch
  /-- account_tracker/full_track.rs:98 -/
  | trackerStart
  /-- account_tracker/full_track.rs:158 -/
  | trackerDays
  /-- account_tracker/full_track.rs:201-202 -/
  | trackerVolume
  /-- account_tracker/full_track.rs:362 -/
  | trackerTradeQty
  /-- load_trades_from_csv.rs:42 -/
  | csvZero
  /-- types/side.rs:26 -/
  | sideZero
  /-- a result that does not fit the integer type `I`, anywhere; raised only by Model/Machine.lean -/
  | overflow
  /-- the `expect`s on the answers of the accounting: exchange.rs:162, 446, 463, 472, 492, 530, 542,
  599, 655, 675, 683, 699, 703, 707, position.rs:105, 163, 181, 219, 237, position_inner.rs:94, 154,
  194, 201, 215, 225, utils.rs:53; raised only by Model/Bookkeeping.lean -/
  | accounting
  deriving DecidableEq, Repr

/-- types/errors/config.rs:4-31 -/
inductive ConfigError where
  | invalidLeverage | invalidStartingBalance | invalidMaxNumOpenOrders
  | invalidMinQuantity | invalidMinPrice | invalidTickSize
  | invalidUpMultiplier | invalidDownMultiplier | invalidMaintenanceMarginFraction
  deriving DecidableEq, Repr

/-- types/errors/filter.rs:4-16. The strings of `MarketUpdatePriceStepSize` are the printed amounts; the
model keeps the amounts. -/
inductive FilterError where
  | priceTooLow | priceTooHigh | priceStepSize (price stepSize : Int) | bidAskSpread
  deriving DecidableEq, Repr

/-- types/errors/order.rs:4-40. The strings of `GoodTillCrossingRejectedOrder` are the printed amounts;
the model keeps the amounts. -/
inductive OrderError where
  | limitPriceBelowMultiple | limitPriceBelowMin | limitPriceLTEZero
  | limitPriceAboveMultiple | limitPriceAboveMax
  | goodTillCrossingRejected (limitPrice awayMarketQuotationPrice : Int)
  | invalidOrderPriceStepSize | orderQuantityLTEZero
  | quantityTooLow | quantityTooHigh | invalidQuantityStepSize
  deriving DecidableEq, Repr

/-- types/errors/risk.rs:4-10 -/
inductive RiskError where
  | notEnoughAvailableBalance | liquidate
  deriving DecidableEq, Repr

/-- types/errors/main.rs:7-49. `AccountLookupFailure` can only be answered by an accounting of the
user's own, see Model/Bookkeeping.lean (in-memory accounts are an enum in the model); the two
conversion errors belong to unmodelled float code. -/
inductive Error where
  | order (e : OrderError)
  | risk (e : RiskError)
  | userOrderIdNotFound
  | orderIdNotFound (id : Nat)
  | orderNoLongerActive
  | amendQtyAlreadyFilled
  | maxNumberOfActiveOrders
  | accountLookupFailure
  deriving DecidableEq, Repr

/-- A computation that may panic. Models no line of its own: the result of any Rust function that
can reach a site listed in `Panic`. -/
abbrev Res := Except Panic

deriving instance DecidableEq for Except

/-- Rust `assert!`, e.g. accounting/transaction.rs:64-67. -/
def assertP (c : Prop) [Decidable c] (p : Panic) : Res Unit :=
  if c then .ok () else .error p

/-- Rust `debug_assert!`, e.g. accounting/utils.rs:14-25: evaluated only when `debug` is set. -/
def debugP (debug : Bool) (c : Prop) [Decidable c] (p : Panic) : Res Unit :=
  if debug = true then assertP c p else .ok ()

/-- Rust `Option::expect`, e.g. exchange.rs:558-560. -/
def expectSome {α} (o : Option α) (p : Panic) : Res α :=
  match o with
  | some a => .ok a
  | none => .error p

end Lfest
