import Verif.Model.Basic

/-!
# Decimal arithmetic

`const_decimal::Decimal<I, D>` is a raw integer scaled by `10^D` (external crate, see
DESIGN.md). Amounts, prices, quantities, fees and rates are raw `Int`s in this model;
`s` is the scale `10^D`. Overflow of the integer type `I` is not modelled.
-/

namespace Lfest

/-- `Decimal` multiplication: `a * b / 10^D` on a widened integer, truncating toward zero. From the
crate const_decimal, used e.g. in types/smol_currency/base_currency.rs:211. -/
def dmul (s a b : Int) : Int := (a * b).tdiv s

/-- `Decimal` division: `a * 10^D / b`, truncating toward zero; panics when `b` is zero. From the
crate const_decimal, used e.g. in types/smol_currency/base_currency.rs:223. -/
def ddiv (s a b : Int) : Res Int :=
  if b = 0 then .error .divByZero else .ok ((a * s).tdiv b)

/-- `Decimal` remainder on raw integers, sign of the dividend; panics when `b` is zero. From the
crate const_decimal, used e.g. in order_filters/price_filter.rs:93. -/
def drem (a b : Int) : Res Int :=
  if b = 0 then .error .divByZero else .ok (a.tmod b)

/-- utils.rs:18-27 -/
def umin (v0 v1 : Int) : Int := if v0 < v1 then v0 else v1

/-- utils.rs:31-40 -/
def umax (v0 v1 : Int) : Int := if v0 > v1 then v0 else v1

/-- Which currency is the margin currency: `QuoteCurrency` (linear futures, quantities in
base) or `BaseCurrency` (inverse futures, quantities in quote).
types/smol_currency/quote_currency.rs:107-112, base_currency.rs:91-96 -/
inductive Kind where
  | linear | inverse
  deriving DecidableEq, Repr

/-- Type parameters of exchange.rs:64 `Exchange` and the build profile: contract kind, the const generic `D`, and whether
`debug_assertions` are enabled. -/
structure Env where
  kind : Kind
  decimals : Nat
  debug : Bool
  deriving DecidableEq, Repr

/-- The scale `10^D`; also the raw value of `Decimal::one()`
(types/smol_currency/base_currency.rs:141). -/
def Env.scale (e : Env) : Int := ((10 ^ e.decimals : Nat) : Int)

end Lfest
