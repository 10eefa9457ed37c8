import Verif.Model.Tracker
import Mathlib.Algebra.Order.Field.Rat

/-!
# Drawdowns (account_tracker/full_track.rs)

Simplification: the code computes with `f32`, the model with rational numbers. `Drawdown` comes from
the crate `sliding_features`, whose source is not part of the repository: here the values that were
handed to it are kept, and its answer is an arbitrary function `D` of them.
-/

namespace Lfest

/-- full_track.rs:67-68: the values handed to the two drawdowns, oldest first -/
structure Drawdowns where
  user : List Rat
  market : List Rat
  deriving DecidableEq

/-- full_track.rs:122-123 -/
def Drawdowns.empty : Drawdowns := ⟨[], []⟩

/-- full_track.rs:280-293 `update` and 295-304 `sample_user_balances`, the parts on drawdowns -/
def Drawdowns.handle (e : Env) (x : Drawdowns) : Event → Drawdowns
  | .update ms => { x with market := x.market ++ [((ms.mid e.scale : Int) : Rat) / e.scale] }
  | .sample b _ => { x with user := x.user ++ [((b.sum : Int) : Rat) / e.scale] }
  | _ => x

/-- full_track.rs:97 `new`, then the tracker's methods in the order of the record (newest first) -/
def Drawdowns.replay (e : Env) : List Event → Drawdowns
  | [] => .empty
  | ev :: evs => (Drawdowns.replay e evs).handle e ev

/-- full_track.rs:184-186 `drawdown_user_balances` -/
def Drawdowns.ofUser (D : List Rat → Option Rat) (x : Drawdowns) : Rat := (D x.user).getD 0

/-- full_track.rs:189-191 `drawdown_market` -/
def Drawdowns.ofMarket (D : List Rat → Option Rat) (x : Drawdowns) : Rat := (D x.market).getD 0

end Lfest
