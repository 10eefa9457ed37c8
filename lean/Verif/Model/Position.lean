import Verif.Model.Accounting

/-!
# Positions
-/

namespace Lfest

/-- position_inner.rs:19-35 -/
structure Inner where
  qty : Int
  entry : Int
  fees : Int
  deriving DecidableEq, Repr

/-- position.rs:14-26 -/
inductive Position where
  | neutral
  | long (p : Inner)
  | short (p : Inner)
  deriving DecidableEq, Repr

/-- position.rs:48-54 -/
def Position.quantity : Position → Int
  | .neutral => 0
  | .long p => p.qty
  | .short p => -p.qty

/-- position.rs:57-63 -/
def Position.outstandingFees : Position → Int
  | .neutral => 0
  | .long p => p.fees
  | .short p => p.fees

/-- position.rs:66-72 -/
def Position.entryPrice : Position → Int
  | .neutral => 0
  | .long p => p.entry
  | .short p => p.entry

/-- position_inner.rs:105-107 -/
def Inner.totalCost (e : Env) (p : Inner) : Res Int := convert e p.qty p.entry

/-- position.rs:75-81 -/
def Position.totalCost (e : Env) : Position → Res Int
  | .neutral => .ok 0
  | .long p => p.totalCost e
  | .short p => p.totalCost e

/-- position_inner.rs:112-117 -/
def Inner.unrealizedPnl (e : Env) (p : Inner) (price : Int) : Res Int :=
  pnl e p.entry price p.qty

/-- position.rs:35-45 -/
def Position.unrealizedPnl (e : Env) (bid ask : Int) : Position → Res Int
  | .neutral => .ok 0
  | .long p => p.unrealizedPnl e bid
  | .short p => do
    let v ← p.unrealizedPnl e ask
    .ok (-v)

/-- position_inner.rs:74-101 `PositionInner::new` -/
def Inner.new (e : Env) (imr : Int) (a : Accounts) (qty price fees : Int) :
    Res (Inner × Accounts) := do
  assertP (qty > 0) .newQty
  assertP (price > 0) .newPrice
  let v ← convert e qty price
  let margin := dmul e.scale v imr
  let a' ← transfer e a .positionMargin .wallet margin
  .ok ({ qty, entry := price, fees }, a')

/-- position_inner.rs:120-155 `increase_contracts` -/
def Inner.increase (e : Env) (imr : Int) (a : Accounts) (p : Inner) (qty price fees : Int) :
    Res (Inner × Accounts) := do
  assertP (qty > 0) .increaseQty
  assertP (price > 0) .increasePrice
  let v ← convert e qty price
  let entry ← newWeightedPrice e.scale p.entry p.qty price qty
  let margin := dmul e.scale v imr
  let a' ← transfer e a .positionMargin .wallet margin
  .ok ({ qty := p.qty + qty, entry, fees := p.fees + fees }, a')

/-- position_inner.rs:189-204: book realised profit or loss against the treasury -/
def settlePnl (e : Env) (a : Accounts) (v : Int) : Res Accounts :=
  if v > 0 then transfer e a .wallet .treasury v
  else if v < 0 then transfer e a .treasury .wallet (-v)
  else .ok a

/-- position_inner.rs:217-227: pay outstanding fees if they are positive -/
def settleFees (e : Env) (a : Accounts) (fees : Int) : Res (Int × Accounts) :=
  if fees > 0 then do
    let a' ← transfer e a .exchangeFee .wallet fees
    .ok (0, a')
  else .ok (fees, a)

/-- position_inner.rs:158-228 `decrease_contracts`. `dir` is the direction multiplier (1 for
long, -1 for short); the debug assertion that it is one of these always holds. -/
def Inner.decrease (e : Env) (imr : Int) (a : Accounts) (p : Inner) (qty price : Int)
    (dir : Int) (fees : Int) : Res (Inner × Accounts) := do
  assertP (qty > 0) .decreaseQty
  assertP (qty ≤ p.qty) .decreaseTooMuch
  debugP e.debug (p.qty - qty ≥ 0) .decreaseNegative
  let v ← pnl e p.entry price (if dir = 1 then qty else -qty)
  let a1 ← settlePnl e a v
  let c ← convert e qty p.entry
  let free := dmul e.scale c imr
  debugP e.debug (free > 0) .marginToFree
  let a2 ← transfer e a1 .wallet .positionMargin free
  let (fees', a3) ← settleFees e a2 (p.fees + fees)
  .ok ({ qty := p.qty - qty, entry := p.entry, fees := fees' }, a3)

/-- position.rs:85-260 `change_position` -/
def changePosition (e : Env) (imr : Int) (a : Accounts) (pos : Position)
    (qty price : Int) (side : Side) (fees : Int) : Res (Position × Accounts) := do
  debugP e.debug (qty > 0) .changeQty
  match pos with
  | .neutral => do
    debugP e.debug (a.balance .positionMargin = 0) .neutralMargin
    match side with
    | .buy => do
      let (p, a') ← Inner.new e imr a qty price fees
      .ok (.long p, a')
    | .sell => do
      let (p, a') ← Inner.new e imr a qty price fees
      .ok (.short p, a')
  | .long p =>
    match side with
    | .buy => do
      let (p', a') ← p.increase e imr a qty price fees
      .ok (.long p', a')
    | .sell =>
      if qty < p.qty then do
        let (p', a') ← p.decrease e imr a qty price 1 fees
        .ok (.long p', a')
      else if qty = p.qty then do
        let (_, a') ← p.decrease e imr a qty price 1 fees
        debugP e.debug (a'.balance .positionMargin = 0) .closedMargin
        .ok (.neutral, a')
      else do
        let newQty := qty - p.qty
        let (p', a') ← p.decrease e imr a p.qty price 1 fees
        assertP (p'.qty = 0) .flipQty
        assertP (a'.balance .positionMargin = 0) .flipMargin
        let (q, a'') ← Inner.new e imr a' newQty price 0
        .ok (.short q, a'')
  | .short p =>
    match side with
    | .buy =>
      if qty < p.qty then do
        let (p', a') ← p.decrease e imr a qty price (-1) fees
        .ok (.short p', a')
      else if qty = p.qty then do
        let (_, a') ← p.decrease e imr a qty price (-1) fees
        debugP e.debug (a'.balance .positionMargin = 0) .closedMargin
        .ok (.neutral, a')
      else do
        let newQty := qty - p.qty
        let (p', a') ← p.decrease e imr a p.qty price (-1) fees
        assertP (p'.qty = 0) .flipQty
        assertP (a'.balance .positionMargin = 0) .flipMargin
        let (q, a'') ← Inner.new e imr a' newQty price 0
        .ok (.long q, a'')
    | .sell => do
      let (p', a') ← p.increase e imr a qty price fees
      .ok (.short p', a')

end Lfest
