import Verif.Spec

/-!
# How long a limit order waits (C103)
-/

namespace Lfest.Spec

/-- No negative volumes. -/
def atLeast0 (x : Int) : Option Int := some (if x < 0 then 0 else x)

/-- The volume by which a market update trades through the price of a resting order, `none` when it
is not limited: a candle does not say how much was traded at which price. An update of the user's own
type says by how much it fills an order. -/
def through (u : UpdateArg) (o : Limit) : Option Int :=
  match u with
  | .bba _ => atLeast0 0
  | .trade t => atLeast0 (if hits t o.side o.price = true then t.qty else 0)
  | .candle k =>
    match o.side with
    | .buy => if k.low < o.price then none else atLeast0 0
    | .sell => if o.price < k.high then none else atLeast0 0
  | .smart ts _ _ => atLeast0 (tradeSum (ts.filter (fun t => hits t o.side o.price)))
  | .custom k => atLeast0 (if k.canFill = true then (k.fills.lookup o.id).getD 0 else 0)

/-- The volume a call brings. An update that liquidates the position fills no orders. -/
def brings (o : Limit) : Op × Resp → Option Int
  | (.update u, .update (.ok _)) => through u o
  | (.checkActive u, .unit) => through u o
  | _ => atLeast0 0

/-- Sum of volumes. -/
def plus : Option Int → Option Int → Option Int
  | some a, some b => some (a + b)
  | _, _ => none

/-- The volume a history brings. -/
def passed (o : Limit) : List (Op × Resp) → Option Int
  | [] => some 0
  | x :: tr => plus (brings o x) (passed o tr)

/-- What a volume leaves of a quantity. -/
def left (rem : Int) : Option Int → Int
  | none => 0
  | some v => if v < rem then rem - v else 0

/-- Does the call withdraw the order with this id: cancel it, or amend it while it is open? -/
def withdraws (id : Nat) : Op × Resp → Bool
  | (.cancel _, .limit (.ok o)) => o.id == id
  | (.amend i _ _ _ _, .limit r) =>
    i == id && match r with
      | .error .orderNoLongerActive => false
      | _ => true
  | _ => false

end Lfest.Spec
