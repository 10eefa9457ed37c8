import Verif.Spec

/-!
# What a trade earns

A trade is a position that one fill opens and one fill closes. Its result is stated from the two
fills alone, without the ledger of `Spec`.
-/

namespace Lfest.Spec

/-- What a trade adds to the account: the profit from the price of the first fill to the price of
the second, less the fees of both (rebates only offset fees). -/
def tradeResult (c : Cfg) (opening closing : Fill) : Int :=
  pnl c.env opening.price closing.price opening.signed -
    larger (opening.fee c + closing.fee c) 0

/-- The results of all trades in a list of fills, newest first. -/
def tradeResults (c : Cfg) : List Fill → Int
  | closing :: opening :: earlier => tradeResult c opening closing + tradeResults c earlier
  | _ => 0

end Lfest.Spec
