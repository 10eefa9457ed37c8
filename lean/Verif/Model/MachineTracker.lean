import Verif.Model.Machine

/-!
# The account statistics on bounded integers

`FullAccountTracker` keeps amounts of the type `I` too. This file is its integer part on integers from
`-w` to `w`, in the style of `Model/Machine.lean`. Counters (`usize`) and timestamps stay unbounded.
-/

namespace Lfest.Mach

variable (w : Int)

/-- types/mod.rs:69-71 `UserBalances::sum`, from left to right -/
def balancesSum (b : UserBalances) : Res Int := do
  let x ← chk w (b.wallet + b.positionMargin)
  chk w (x + b.orderMargin)

/-- account_tracker/full_track.rs:280-377, the trait implementation -/
def trackerHandle (e : Env) (t : FullTracker) : Event → Res FullTracker
  | .update ms => do
    let m ← mid w e.scale ms
    .ok { t with
      tsFirst := if t.tsFirst = 0 then ms.ts else t.tsFirst
      tsLast := ms.ts
      priceFirst := if t.priceFirst = 0 then m else t.priceFirst
      priceLast := m }
  | .sample b _ => do
    let x ← balancesSum w b
    .ok { t with lastBalanceSum := x }
  | .limitSubmit _ => .ok { t with submittedLimit := t.submittedLimit + 1 }
  | .limitCancel => .ok { t with cancelledLimit := t.cancelledLimit + 1 }
  | .limitFill full _ => .ok { t with
      filledLimitEvents := t.filledLimitEvents + 1
      fullyFilledLimit := if full = true then t.fullyFilledLimit + 1 else t.fullyFilledLimit }
  | .marketSubmit _ => .ok { t with submittedMarket := t.submittedMarket + 1 }
  | .marketFill => .ok { t with filledMarket := t.filledMarket + 1 }
  | .trade side price qty => do
    assertP (qty > 0) .trackerTradeQty
    let v ← convert w e qty price
    match side with
    | .buy => do
      let x ← chk w (t.buyVolume + v)
      .ok { t with buyVolume := x }
    | .sell => do
      let x ← chk w (t.sellVolume + v)
      .ok { t with sellVolume := x }

/-- account_tracker/full_track.rs:97 `new`, then the tracker's methods in the order of the record
(newest first). -/
def trackerReplay (e : Env) (start : Int) : List Event → Res FullTracker
  | [] => FullTracker.new start
  | ev :: evs => do
    let t ← trackerReplay e start evs
    trackerHandle w e t ev

/-- account_tracker/full_track.rs:179-181 `turnover` -/
def turnover (t : FullTracker) : Res Int := chk w (t.buyVolume + t.sellVolume)

/-- account_tracker/full_track.rs:195-197 `rpnl` -/
def rpnl (t : FullTracker) : Res Int := chk w (t.lastBalanceSum - t.walletStart)

/-- account_tracker/full_track.rs:200-210 `buy_volume_ratio`, before the conversion to `f32` -/
def buyVolumeRatio (e : Env) (t : FullTracker) : Res (Option Int) := do
  assertP (t.buyVolume ≥ 0) .trackerVolume
  assertP (t.sellVolume ≥ 0) .trackerVolume
  let total ← chk w (t.buyVolume + t.sellVolume)
  if total = 0 then .ok none
  else do
    let r ← ddiv w e.scale t.buyVolume total
    .ok (some r)

/-- `convert_from` in the other direction: base_currency.rs:86-88 (linear contracts),
quote_currency.rs:102-104 (inverse ones); used by full_track.rs:146 -/
def convertBack (e : Env) (value price : Int) : Res Int :=
  match e.kind with
  | .linear => ddiv w e.scale value price
  | .inverse => dmul w e.scale value price

/-- account_tracker/full_track.rs:145-149 `buy_and_hold_return` -/
def buyAndHold (e : Env) (t : FullTracker) : Res Int := do
  let q ← convertBack w e t.walletStart t.priceFirst
  pnl w e t.priceFirst t.priceLast q

end Lfest.Mach
