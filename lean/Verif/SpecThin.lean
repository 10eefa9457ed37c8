import Verif.Spec

/-!
# Thinning market data

Specification for C115.
-/

namespace Lfest

open Spec

/-- Does the update say what the quotes are now? Trades do not. -/
def bringsQuotes : UpdateArg → Bool
  | .trade _ => false
  | .custom k => k.market.isSome
  | _ => true

/-- An answered call that can be skipped: a market update that filled nothing and liquidated nothing,
if the next call is a market update, too, and nothing is seen of the quotes in between - the first
one left them alone or the second one brings its own. -/
def skippable : Op × Resp → Op → Bool
  | (.update u, .update (.ok [])), .update v => !bringsQuotes u || bringsQuotes v
  | _, _ => false

/-- A history without the calls that can be skipped. -/
def thin : List (Op × Resp) → List (Op × Resp)
  | x :: y :: rest => if skippable x y.1 = true then thin (y :: rest) else x :: thin (y :: rest)
  | rest => rest

/-- Calls of the tracker that are about the account and not about the market. -/
def ofAccount : Event → Bool
  | .update _ => false
  | .sample _ _ => false
  | _ => true

end Lfest
