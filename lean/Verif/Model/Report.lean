import Verif.Model.Tracker

/-!
# The printed summary of the account

`FullAccountTracker` implements `Display`: `println!("{tracker}")` evaluates the statistics one after
the other and panics if one of them does.
-/

namespace Lfest

/-- account_tracker/full_track.rs:386-401: the entries of the summary. `sharpe`, `sortino` and
`kelly_leverage` are left out: they are floating point numbers that come from an external crate
(`Model/Performance`, C77). -/
structure Report where
  rpnl : Int
  buyVolume : Int
  sellVolume : Int
  turnover : Int
  buyAndHold : Int
  tradingDays : Int
  fillRatio : Option Rat
  cancelRatio : Option Rat
  deriving DecidableEq, Repr

/-- account_tracker/full_track.rs:385-417 `fmt`: the arguments of `write!`, evaluated in order.
(Their rendering as text is not modelled.) -/
def FullTracker.report (e : Env) (t : FullTracker) : Res Report := do
  let hold ← t.buyAndHold e
  let days ← t.numTradingDays
  .ok { rpnl := t.rpnl, buyVolume := t.buyVolume, sellVolume := t.sellVolume,
        turnover := t.turnover, buyAndHold := hold, tradingDays := days,
        fillRatio := t.fillRatio, cancelRatio := t.cancelRatio }

end Lfest
