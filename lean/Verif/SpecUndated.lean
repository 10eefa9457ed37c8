import Verif.Spec

/-!
# The same without times

Specification for C141. The functions below strike out all times: those of the market updates in
calls, and those at which orders were received and executed in answers. Two sequences of calls
that agree without times are the same calls made at other times.
-/

namespace Lfest.Undated

open Spec

def limit (o : Limit) : Limit := { o with ts := 0 }

def filledLimit (o : FilledLimit) : FilledLimit := { o with ts := 0, tsExecuted := 0 }

def filledMarket (o : FilledMarket) : FilledMarket := { o with ts := 0, tsExecuted := 0 }

def limitUpdate : LimitUpdate → LimitUpdate
  | .partiallyFilled o => .partiallyFilled (limit o)
  | .fullyFilled o => .fullyFilled (filledLimit o)

def market (m : MarketState) : MarketState := { m with ts := 0 }

def trade (t : Trade) : Trade := { t with ts := 0 }

/-- A market update without times. -/
def arg : UpdateArg → UpdateArg
  | .bba b => .bba { b with ts := 0 }
  | .trade t => .trade (trade t)
  | .candle k => .candle { k with ts := 0 }
  | .smart ts b pf => .smart (ts.map trade) { b with ts := 0 } pf
  | .custom k => .custom { k with ts := 0 }

/-- A call without times. -/
def op : Op → Op
  | .update u => .update (arg u)
  | .checkActive u => .checkActive (arg u)
  | x => x

/-- An answer without times. -/
def resp : Resp → Resp
  | .update (.ok us) => .update (.ok (us.map limitUpdate))
  | .market (.ok o) => .market (.ok (filledMarket o))
  | .limit (.ok o) => .limit (.ok (limit o))
  | x => x

/-- A call of the account tracker without times. When samples are taken depends on the time. -/
def event : Event → Option Event
  | .update m => some (.update (market m))
  | .sample _ _ => none
  | ev => some ev

end Lfest.Undated
