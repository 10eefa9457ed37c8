import Verif.Model.MarketUpdate

/-!
# Trades from csv files and for trade aggregation
-/

namespace Lfest

/-- load_trades_from_csv.rs:33-41: the parsed columns of a csv row. Opening the file, the header
check (27-30) and the parsing of numbers are not modelled. -/
structure CsvRow where
  tsMs : Int
  price : Int
  size : Int
  deriving DecidableEq, Repr

/-- load_trades_from_csv.rs:42-56, the body of the loop. `assert_ne!` (42) holds in every
build. -/
def loadRow (r : CsvRow) : Res Trade := do
  assertP (r.size ≠ 0) .csvZero
  let side := if r.size < 0 then Side.sell else Side.buy
  .ok { price := r.price, qty := r.size, side, ts := r.tsMs * 1000000 }

/-- load_trades_from_csv.rs:17-60 `load_trades_from_csv`, on parsed rows -/
def loadRows : List CsvRow → Res (List Trade)
  | [] => .ok []
  | r :: rs => do
    let t ← loadRow r
    let ts ← loadRows rs
    .ok (t :: ts)

/-- trade_aggregation.rs:20-25 `TakerTrade::size`, before the conversion to `f64` -/
def Trade.takerSize (t : Trade) : Int :=
  match t.side with
  | .buy => t.qty
  | .sell => -t.qty

end Lfest
