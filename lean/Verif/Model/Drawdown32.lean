import Verif.Model.Stats32

/-!
# Drawdowns in `f32` arithmetic (account_tracker/full_track.rs)

The values are rounded to `f32` before they are handed to the drawdowns. `Drawdown` comes from the
crate `sliding_features`, whose source is not part of the repository: here the values that were
handed to it are kept, and its answer is an arbitrary function `D` of them.
-/

namespace Lfest

/-- full_track.rs:67-68: the values handed to the two drawdowns, oldest first -/
structure Drawdowns32 where
  user : List F32
  market : List F32

/-- full_track.rs:122-123 -/
def Drawdowns32.empty : Drawdowns32 := ⟨[], []⟩

/-- full_track.rs:291-292 in `update` and 303-304 in `sample_user_balances`. `Into::<f64>` of a
`Decimal` belongs to an external crate: `toF64` takes the raw integer to the value of the `f64`. -/
def Drawdowns32.handle (e : Env) (toF64 : Int → ℚ) (x : Drawdowns32) : Event → Drawdowns32
  | .update ms => { x with market := x.market ++ [.of (toF64 (ms.mid e.scale))] }
  | .sample b _ => { x with user := x.user ++ [.of (toF64 b.sum)] }
  | _ => x

/-- full_track.rs:97 `new`, then the tracker's methods in the order of the record (newest first) -/
def Drawdowns32.replay (e : Env) (toF64 : Int → ℚ) : List Event → Drawdowns32
  | [] => .empty
  | ev :: evs => (Drawdowns32.replay e toF64 evs).handle e toF64 ev

/-- full_track.rs:184-186 `drawdown_user_balances` -/
def Drawdowns32.ofUser (D : List F32 → Option F32) (x : Drawdowns32) : F32 :=
  (D x.user).getD (.finite 0)

/-- full_track.rs:189-191 `drawdown_market` -/
def Drawdowns32.ofMarket (D : List F32 → Option F32) (x : Drawdowns32) : F32 :=
  (D x.market).getD (.finite 0)

end Lfest
