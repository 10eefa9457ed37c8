import Verif.Model.Types

/-!
# Currency conversion, profit and loss, liquidation prices
-/

namespace Lfest

/-- `BaseOrQuote::PairedCurrency::convert_from(units, price)`: the value of `units` at
`price`, in margin currency. Linear: quote_currency.rs:102-104. Inverse:
base_currency.rs:86-88. -/
def convert (e : Env) (units price : Int) : Res Int :=
  match e.kind with
  | .linear => .ok (dmul e.scale units price)
  | .inverse => ddiv e.scale units price

/-- `PairedCurrency::convert_from` in the other direction: contract units that `value` of
margin currency buys at `price`. Linear: base_currency.rs:86 (division). Inverse:
quote_currency.rs:102 (multiplication). Used by full_track.rs:146. -/
def convertBack (e : Env) (value price : Int) : Res Int :=
  match e.kind with
  | .linear => ddiv e.scale value price
  | .inverse => .ok (dmul e.scale value price)

/-- `MarginCurrency::pnl`. Linear: quote_currency.rs:117-127. Inverse: base_currency.rs:100-110. -/
def pnl (e : Env) (entry exit qty : Int) : Res Int :=
  if qty = 0 then .ok 0
  else match e.kind with
    | .linear => do
      let a ← convert e qty exit
      let b ← convert e qty entry
      .ok (a - b)
    | .inverse => do
      let a ← convert e qty entry
      let b ← convert e qty exit
      .ok (a - b)

/-- `MarginCurrency::price_paid_for_qty`. Linear: quote_currency.rs:129-135. Inverse:
base_currency.rs:112-117. -/
def pricePaidForQty (e : Env) (totalCost qty : Int) : Res Int :=
  match e.kind with
  | .linear => if qty = 0 then .ok 0 else ddiv e.scale totalCost qty
  | .inverse => if totalCost = 0 then .ok 0 else ddiv e.scale qty totalCost

/-- quote_currency.rs:51-53 -/
def liquidationPriceLong (s entry mm : Int) : Int := dmul s entry (s - mm)

/-- quote_currency.rs:56-58 -/
def liquidationPriceShort (s entry mm : Int) : Int := dmul s entry (s + mm)

/-- `BaseCurrency::new(integer, scale)` and `QuoteCurrency::new`, base_currency.rs:45-50 and
quote_currency.rs:45-47, for a `scale` of at most `D` places: the raw integer of the amount. What
`Decimal::try_from_scaled` does with more places than `D` is not modelled. -/
def amountNew (decimals : Nat) (integer : Int) (scale : Nat) : Int :=
  integer * ((10 ^ (decimals - scale) : Nat) : Int)

/-- `quantize_round_to_zero`, base_currency.rs:71-73 and quote_currency.rs:88-90: divides by the
quantum, drops the fraction and multiplies again. Panics on a zero quantum. -/
def quantizeRoundToZero (x quantum : Int) : Res Int :=
  if quantum = 0 then .error .divByZero else .ok (x.tdiv quantum * quantum)

end Lfest
