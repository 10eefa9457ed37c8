import Verif.Spec

/-!
# Specification: how much is traded, left open and asked for

Everything here is read off the calls, the answers, the reported fills and the open orders.
-/

namespace Lfest.Spec

/-- Contracts traded on one side of the market. -/
def tradedOn (side : Side) : List Fill → Int
  | [] => 0
  | f :: fs => (if f.side = side then f.qty else 0) + tradedOn side fs

/-- Contracts still open in resting orders on one side of the market. -/
def openOn (side : Side) : List Limit → Int
  | [] => 0
  | o :: os => (if o.side = side then o.remaining else 0) + openOn side os

/-- Contracts a call was granted on one side: an accepted market or limit order counts with the
quantity asked for, an accepted amendment with what the order it returns leaves open, and a call
that is turned down counts nothing. -/
def grantedOn (side : Side) : Op × Resp → Int
  | (.market sd qty _, .market (.ok _)) => if sd = side then qty else 0
  | (.limit sd _ qty _, .limit (.ok _)) => if sd = side then qty else 0
  | (.amend _ sd _ _ _, .limit (.ok o)) => if sd = side then o.remaining else 0
  | _ => 0

/-- Everything granted on one side over a history. -/
def grantedBy (side : Side) (tr : List (Op × Resp)) : Int := (tr.map (grantedOn side)).sum

/-- Was the account liquidated by this call? -/
def liquidated : Op × Resp → Bool
  | (_, .update (.error _)) => true
  | _ => false

end Lfest.Spec
