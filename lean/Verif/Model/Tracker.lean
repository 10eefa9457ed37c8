import Verif.Model.MarketUpdate

/-!
# Account tracking

The exchange talks to a user supplied `AccountTracker` (account_tracker_trait.rs). The model
records each call; `FullAccountTracker` is a fold over the record.
-/

namespace Lfest

/-- types/mod.rs:34-46 `UserBalances` -/
structure UserBalances where
  wallet : Int
  positionMargin : Int
  orderMargin : Int
  deriving DecidableEq, Repr

/-- types/mod.rs:69-71 -/
def UserBalances.sum (b : UserBalances) : Int := b.wallet + b.positionMargin + b.orderMargin

/-- The calls of account_tracker_trait.rs:18-54 -/
inductive Event where
  | update (ms : MarketState)
  | sample (b : UserBalances) (mid : Int)
  | limitSubmit (o : NewLimit)
  | limitCancel
  | limitFill (full : Bool) (qty : Int)
  | marketSubmit (o : NewMarket)
  | marketFill
  | trade (side : Side) (price qty : Int)
  deriving DecidableEq, Repr

/-- sample_returns_trigger.rs:5-9 -/
structure Trigger where
  interval : Int
  last : Int
  init : Bool
  deriving DecidableEq, Repr

/-- sample_returns_trigger.rs:12-18 `new` -/
def Trigger.new (interval : Int) : Trigger := { interval, last := 0, init := true }

/-- sample_returns_trigger.rs:20-33 `should_trigger` -/
def Trigger.fire (t : Trigger) (ts : Int) : Trigger × Bool :=
  if t.init = true then ({ t with last := ts, init := false }, true)
  else if ts ≥ t.last + t.interval then ({ t with last := t.last + t.interval }, true)
  else (t, false)

/-- account_tracker/full_track.rs:23-86, integer part -/
structure FullTracker where
  walletStart : Int
  submittedLimit : Nat
  cancelledLimit : Nat
  filledLimitEvents : Nat
  fullyFilledLimit : Nat
  submittedMarket : Nat
  filledMarket : Nat
  buyVolume : Int
  sellVolume : Int
  priceFirst : Int
  priceLast : Int
  tsFirst : Int
  tsLast : Int
  lastBalanceSum : Int
  deriving DecidableEq, Repr

/-- account_tracker/full_track.rs:97-142 `new` -/
def FullTracker.new (start : Int) : Res FullTracker := do
  assertP (start > 0) .trackerStart
  .ok { walletStart := start, submittedLimit := 0, cancelledLimit := 0,
        filledLimitEvents := 0, fullyFilledLimit := 0, submittedMarket := 0,
        filledMarket := 0, buyVolume := 0, sellVolume := 0, priceFirst := 0,
        priceLast := 0, tsFirst := 0, tsLast := 0, lastBalanceSum := 0 }

/-- account_tracker/full_track.rs:280-377, the trait implementation -/
def FullTracker.handle (e : Env) (t : FullTracker) : Event → Res FullTracker
  | .update ms => .ok { t with
      tsFirst := if t.tsFirst = 0 then ms.ts else t.tsFirst
      tsLast := ms.ts
      priceFirst := if t.priceFirst = 0 then ms.mid e.scale else t.priceFirst
      priceLast := ms.mid e.scale }
  | .sample b _ => .ok { t with lastBalanceSum := b.sum }
  | .limitSubmit _ => .ok { t with submittedLimit := t.submittedLimit + 1 }
  | .limitCancel => .ok { t with cancelledLimit := t.cancelledLimit + 1 }
  | .limitFill full _ => .ok { t with
      filledLimitEvents := t.filledLimitEvents + 1
      fullyFilledLimit := if full = true then t.fullyFilledLimit + 1 else t.fullyFilledLimit }
  | .marketSubmit _ => .ok { t with submittedMarket := t.submittedMarket + 1 }
  | .marketFill => .ok { t with filledMarket := t.filledMarket + 1 }
  | .trade side price qty => do
    assertP (qty > 0) .trackerTradeQty
    let v ← convert e qty price
    match side with
    | .buy => .ok { t with buyVolume := t.buyVolume + v }
    | .sell => .ok { t with sellVolume := t.sellVolume + v }

/-- account_tracker/full_track.rs:97 `new`, then the tracker's methods in the order of the record
(newest first). -/
def FullTracker.replay (e : Env) (start : Int) : List Event → Res FullTracker
  | [] => FullTracker.new start
  | ev :: evs => do
    let t ← FullTracker.replay e start evs
    t.handle e ev

/-- account_tracker/full_track.rs:179-181 `turnover` -/
def FullTracker.turnover (t : FullTracker) : Int := t.buyVolume + t.sellVolume

/-- account_tracker/full_track.rs:195-197 `rpnl` -/
def FullTracker.rpnl (t : FullTracker) : Int := t.lastBalanceSum - t.walletStart

/-- account_tracker/full_track.rs:157-164 `num_trading_days` -/
def FullTracker.numTradingDays (t : FullTracker) : Res Int := do
  assertP (t.tsLast ≥ t.tsFirst) .trackerDays
  .ok ((t.tsLast - t.tsFirst).tdiv 86400000000000)

/-- account_tracker/full_track.rs:145-149 `buy_and_hold_return` -/
def FullTracker.buyAndHold (e : Env) (t : FullTracker) : Res Int := do
  let q ← convertBack e t.walletStart t.priceFirst
  pnl e t.priceFirst t.priceLast q

/-- account_tracker/full_track.rs:152-154 `sell_and_hold_return` -/
def FullTracker.sellAndHold (e : Env) (t : FullTracker) : Res Int := do
  let v ← t.buyAndHold e
  .ok (-v)

/-- account_tracker/full_track.rs:200-210 `buy_volume_ratio`, before the conversion to `f32` -/
def FullTracker.buyVolumeRatio (e : Env) (t : FullTracker) : Res (Option Int) := do
  assertP (t.buyVolume ≥ 0) .trackerVolume
  assertP (t.sellVolume ≥ 0) .trackerVolume
  let total := t.buyVolume + t.sellVolume
  if total = 0 then .ok none
  else do
    let r ← ddiv e.scale t.buyVolume total
    .ok (some r)

/-- account_tracker/full_track.rs:169, 175: quotient of two counters. The code divides `f32` values; the model divides exactly, and gives
`none` where the code gives NaN or infinity. -/
def countRatio (a b : Nat) : Option Rat := if b = 0 then none else some ((a : Rat) / (b : Rat))

/-- account_tracker/full_track.rs:168-170 `limit_order_fill_ratio` -/
def FullTracker.fillRatio (t : FullTracker) : Option Rat :=
  countRatio t.fullyFilledLimit t.submittedLimit

/-- account_tracker/full_track.rs:174-176 `limit_order_cancellation_ratio` -/
def FullTracker.cancelRatio (t : FullTracker) : Option Rat :=
  countRatio t.cancelledLimit t.submittedLimit

end Lfest
