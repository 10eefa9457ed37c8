import Verif.Spec

/-!
# Relabelling: other user order ids, another origin of time

Specification for C74. A relabelling replaces the user order ids of limit orders by `limitId`,
those of market orders by `marketId`, and adds `shift` to all timestamps.
-/

namespace Lfest

/-- New names for user order ids, and a distance in time. -/
structure Relabel where
  limitId : Nat → Nat
  marketId : Nat → Nat
  shift : Int

namespace Relabel

variable (l : Relabel)

def newLimit (o : NewLimit) : NewLimit := { o with uid := l.limitId o.uid }

def limit (o : Limit) : Limit := { o with uid := l.limitId o.uid, ts := o.ts + l.shift }

def filledLimit (o : FilledLimit) : FilledLimit :=
  { o with uid := l.limitId o.uid, ts := o.ts + l.shift, tsExecuted := o.tsExecuted + l.shift }

def limitUpdate : LimitUpdate → LimitUpdate
  | .partiallyFilled o => .partiallyFilled (l.limit o)
  | .fullyFilled o => .fullyFilled (l.filledLimit o)

def newMarket (o : NewMarket) : NewMarket := { o with uid := l.marketId o.uid }

def filledMarket (o : FilledMarket) : FilledMarket :=
  { o with uid := l.marketId o.uid, ts := o.ts + l.shift, tsExecuted := o.tsExecuted + l.shift }

def market (m : MarketState) : MarketState := { m with ts := m.ts + l.shift }

def cancelBy : CancelBy → CancelBy
  | .orderId id => .orderId id
  | .userOrderId uid => .userOrderId (l.limitId uid)

def bba (b : Bba) : Bba := { b with ts := b.ts + l.shift }

def trade (t : Trade) : Trade := { t with ts := t.ts + l.shift }

def candle (k : Candle) : Candle := { k with ts := k.ts + l.shift }

def arg : UpdateArg → UpdateArg
  | .bba b => .bba (l.bba b)
  | .trade t => .trade (l.trade t)
  | .candle k => .candle (l.candle k)
  | .smart ts b pf => .smart (ts.map l.trade) (l.bba b) pf
  | .custom k => .custom { k with ts := k.ts + l.shift }

/-- A call with other labels. -/
def op : Op → Op
  | .update u => .update (l.arg u)
  | .checkActive u => .checkActive (l.arg u)
  | .market side q uid => .market side q (l.marketId uid)
  | .limit side p q uid => .limit side p q (l.limitId uid)
  | .amend id side p q uid => .amend id side p q (l.limitId uid)
  | .cancel b => .cancel (l.cancelBy b)

/-- A call to the tracker with other labels. -/
def event : Event → Event
  | .update m => .update (l.market m)
  | .sample b p => .sample b p
  | .limitSubmit o => .limitSubmit (l.newLimit o)
  | .limitCancel => .limitCancel
  | .limitFill full q => .limitFill full q
  | .marketSubmit o => .marketSubmit (l.newMarket o)
  | .marketFill => .marketFill
  | .trade side p q => .trade side p q

/-- A response with other labels. Errors carry none. -/
def resp : Resp → Resp
  | .update (.ok us) => .update (.ok (us.map l.limitUpdate))
  | .update (.error err) => .update (.error err)
  | .unit => .unit
  | .market (.ok o) => .market (.ok (l.filledMarket o))
  | .market (.error err) => .market (.error err)
  | .limit (.ok o) => .limit (.ok (l.limit o))
  | .limit (.error err) => .limit (.error err)
  | .invalidOrder err => .invalidOrder err

/-- The time of the last sample moves with the others once there is one. -/
def trigger (t : Trigger) : Trigger :=
  if t.init = true then t else { t with last := t.last + l.shift }

/-- The exchange with other labels: balances, position, prices and quantities are the same. -/
def state (s : State) : State :=
  { s with
    ms := l.market s.ms
    log := s.log.map l.event
    active := s.active.map l.limit
    om := s.om.map l.limit
    trigger := l.trigger s.trigger
    updates := s.updates.map l.limitUpdate }

end Relabel

/-- The responses to a sequence of calls and the state after it, or the panic that ended it. -/
def trace (c : Cfg) (s : State) : List Op → Res (List Resp × State)
  | [] => .ok ([], s)
  | op :: ops => do
    let r ← step c s op
    let t ← trace c r.1 ops
    .ok (r.2 :: t.1, t.2)

end Lfest
