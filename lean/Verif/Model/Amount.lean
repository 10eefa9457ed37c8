import Verif.Model.Currency

/-!
# Signs of amounts and their arithmetic

Amounts of one currency are added and subtracted as raw integers (derived, base_currency.rs:24-27 and
quote_currency.rs:24-27).
-/

namespace Lfest

/-- `Signed::signum` of a currency, base_currency.rs:184-191 and quote_currency.rs:202-209: one, zero
or minus one as an amount, `s` being the raw value of one. -/
def amountSignum (s x : Int) : Int := if x < 0 then -s else if x = 0 then 0 else s

/-- `Signed::abs`, base_currency.rs:174-176 and quote_currency.rs:192-194. `Decimal::abs` is that of the
crate const_decimal. -/
def amountAbs (x : Int) : Int := if x < 0 then -x else x

/-- `Signed::is_positive`, base_currency.rs:194-196 and quote_currency.rs:212-214. -/
def amountIsPositive (x : Int) : Bool := decide (x > 0)

/-- `Signed::is_negative`, base_currency.rs:199-201 and quote_currency.rs:217-219. -/
def amountIsNegative (x : Int) : Bool := decide (x < 0)

/-- `One::one`, base_currency.rs:140-142 and quote_currency.rs:158-160. -/
def amountOne (s : Int) : Int := s

/-- `One::is_one`, base_currency.rs:150-155 and quote_currency.rs:168-173. -/
def amountIsOne (s x : Int) : Bool := decide (x = amountOne s)

/-- Product of two amounts (derived with `mul(forward)`, base_currency.rs:28,34 and
quote_currency.rs:28,34) or of an amount and a number, base_currency.rs:211-213 and
quote_currency.rs:229-231. -/
def amountMul (s a b : Int) : Int := dmul s a b

/-- Quotient of two amounts (derived with `div(forward)`, base_currency.rs:29,35 and
quote_currency.rs:29,35) or of an amount and a number, base_currency.rs:223-225 and
quote_currency.rs:241-243. -/
def amountDiv (s a b : Int) : Res Int := ddiv s a b

/-- `Rem::rem`, base_currency.rs:235-237 and quote_currency.rs:253-255. -/
def amountRem (a b : Int) : Res Int := drem a b

/-- `Signed::abs_sub`, base_currency.rs:179-181 and quote_currency.rs:197-199. The operation of
`Decimal` is that of the crate const_decimal, assumed to be what num-traits documents: the difference
if it is positive, zero otherwise. -/
def amountAbsSub (a b : Int) : Int := if a ≤ b then 0 else a - b

end Lfest
