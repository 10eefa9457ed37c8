import Verif.Spec

/-!
# Which fills took place, not in what order
-/

namespace Lfest.Spec

/-- The sum of the quantities of the fills -/
def boughtAndSold : List Fill → Int
  | [] => 0
  | f :: fs => abs f.qty + boughtAndSold fs

/-- What the account has gained before fees if the position is closed at `p` without further
rounding, in units of `10^(-2D)`, for linear contracts -/
def gainAt (c : Cfg) (s : State) (p : Int) : Int :=
  (equity s - c.start + s.feesPaid) * c.scale + s.pos.quantity * (p - s.pos.entryPrice)

/-- Allowance for rounding that does not depend on the order of the fills, in units of `10^(-2D)` -/
def anyOrderRounding (c : Cfg) (fs : List Fill) : Int :=
  fs.length * (2 * c.scale + boughtAndSold fs)

/-- An order without the id the exchange gave it -/
def anonymous (o : Limit) : Limit := { o with id := 0 }

/-- A report without the id the exchange gave to the order -/
def anonymousReport : LimitUpdate → LimitUpdate
  | .partiallyFilled o => .partiallyFilled (anonymous o)
  | .fullyFilled o => .fullyFilled { o with id := 0 }

/-- An update of one of the four kinds that come with the crate. These do not look at ids. -/
def BuiltIn : UpdateArg → Prop
  | .custom _ => False
  | _ => True

end Lfest.Spec
