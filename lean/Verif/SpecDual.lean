import Verif.SpecLever

/-!
# The other side of a contract

Specification for C142. An inverse contract on the price `p` of a currency is a linear contract on the price
`1/p`, seen from the other currency: who buys here sells there. Prices are raw decimals, so `p` and `p'` are
reciprocal if `p * p' = S * S` with the scale `S`.
-/

namespace Lfest.Dual

open Spec

/-- `p'` is exactly `1/p`. -/
def price (S p p' : Int) : Prop := 0 < p ∧ p * p' = S * S

instance (S p p' : Int) : Decidable (price S p p') := by unfold price; infer_instance

/-- The lists have the same length, and the relation holds between their elements in turn. -/
def along {α β : Type} (R : α → β → Prop) : List α → List β → Prop
  | [], [] => True
  | a :: l, b :: l' => R a b ∧ along R l l'
  | _, _ => False

instance decAlong {α β : Type} (R : α → β → Prop) [∀ a b, Decidable (R a b)] :
    (l : List α) → (l' : List β) → Decidable (along R l l')
  | [], [] => inferInstanceAs (Decidable True)
  | [], _ :: _ => inferInstanceAs (Decidable False)
  | _ :: _, [] => inferInstanceAs (Decidable False)
  | a :: l, b :: l' =>
    have := decAlong R l l'
    inferInstanceAs (Decidable (R a b ∧ along R l l'))

def trade (S : Int) (t t' : Trade) : Prop :=
  t'.side = opposite t.side ∧ price S t.price t'.price ∧ t'.qty = t.qty ∧ t'.ts = t.ts

instance (S : Int) (t t' : Trade) : Decidable (trade S t t') := by unfold trade; infer_instance

/-- Bid and ask, seen from the other side. -/
def quotes (S b a b' a' : Int) : Prop := price S b a' ∧ price S a b'

instance (S b a b' a' : Int) : Decidable (quotes S b a b' a') := by unfold quotes; infer_instance

/-- A market update, seen from the other side. -/
def arg (S : Int) : UpdateArg → UpdateArg → Prop
  | .bba b, .bba b' => quotes S b.bid b.ask b'.bid b'.ask ∧ b'.ts = b.ts
  | .trade t, .trade t' => trade S t t'
  | .candle k, .candle k' =>
    quotes S k.bid k.ask k'.bid k'.ask ∧ quotes S k.low k.high k'.low k'.high ∧ k'.ts = k.ts
  | .smart ts b _, .smart ts' b' _ => along (trade S) ts ts' ∧ quotes S b.bid b.ask b'.bid b'.ask
  | _, _ => False

instance (S : Int) (u u' : UpdateArg) : Decidable (arg S u u') := by
  unfold arg; split <;> infer_instance

/-- A call, seen from the other side. -/
def op (S : Int) : Op → Op → Prop
  | .update u, .update u' => arg S u u'
  | .checkActive u, .checkActive u' => arg S u u'
  | .market side q uid, .market side' q' uid' => side' = opposite side ∧ q' = q ∧ uid' = uid
  | .limit side p q uid, .limit side' p' q' uid' =>
    side' = opposite side ∧ price S p p' ∧ q' = q ∧ uid' = uid
  | .amend id side p q uid, .amend id' side' p' q' uid' =>
    id' = id ∧ side' = opposite side ∧ price S p p' ∧ q' = q ∧ uid' = uid
  | .cancel b, .cancel b' => b' = b
  | _, _ => False

instance (S : Int) (o o' : Op) : Decidable (op S o o') := by
  unfold op; split <;> infer_instance

/-- A resting order, seen from the other side. -/
def limit (S : Int) (o o' : Limit) : Prop :=
  o'.side = opposite o.side ∧ price S o.price o'.price ∧ o'.remaining = o.remaining ∧
  o'.filledQuantity = o.filledQuantity ∧ o'.id = o.id ∧ o'.uid = o.uid ∧ o'.ts = o.ts

def filledLimit (S : Int) (o o' : FilledLimit) : Prop :=
  o'.side = opposite o.side ∧ price S o.price o'.price ∧ price S o.avgFillPrice o'.avgFillPrice ∧
  o'.remaining = o.remaining ∧ o'.filledQty = o.filledQty ∧ o'.id = o.id ∧ o'.uid = o.uid ∧
  o'.ts = o.ts ∧ o'.tsExecuted = o.tsExecuted

def filledMarket (S : Int) (o o' : FilledMarket) : Prop :=
  o'.side = opposite o.side ∧ price S o.avgFillPrice o'.avgFillPrice ∧ o'.qty = o.qty ∧
  o'.filledQty = o.filledQty ∧ o'.id = o.id ∧ o'.uid = o.uid ∧ o'.ts = o.ts ∧ o'.tsExecuted = o.tsExecuted

def limitUpdate (S : Int) : LimitUpdate → LimitUpdate → Prop
  | .partiallyFilled o, .partiallyFilled o' => limit S o o'
  | .fullyFilled o, .fullyFilled o' => filledLimit S o o'
  | _, _ => False

/-- The same error, but for the prices in it. -/
def error (S : Int) : Error → Error → Prop
  | .order (.goodTillCrossingRejected p t), .order (.goodTillCrossingRejected p' t') =>
    price S p p' ∧ price S t t'
  | e, e' => e' = e

/-- An answer, seen from the other side. -/
def resp (S : Int) : Resp → Resp → Prop
  | .update (.ok us), .update (.ok us') => along (limitUpdate S) us us'
  | .unit, .unit => True
  | .market (.ok o), .market (.ok o') => filledMarket S o o'
  | .market (.error e), .market (.error e') => e' = e
  | .limit (.ok o), .limit (.ok o') => limit S o o'
  | .limit (.error e), .limit (.error e') => error S e e'
  | .invalidOrder e, .invalidOrder e' => e' = e
  | _, _ => False

/-- The inverse and the linear contract have the same decimals, margin and fees, and their exchanges the same
starting balance, quantity filter and places for orders. -/
structure Terms (c c' : Cfg) : Prop where
  inverse : c.env.kind = .inverse
  linear : c'.env.kind = .linear
  decimals : c'.env.decimals = c.env.decimals
  start : c'.start = c.start
  places : c'.maxOpen = c.maxOpen
  margin : c'.spec.initMarginReq = c.spec.initMarginReq
  quantities : c'.spec.quantityFilter = c.spec.quantityFilter
  maker : c'.spec.feeMaker = c.spec.feeMaker
  taker : c'.spec.feeTaker = c.spec.feeTaker

/-- Was a limit order turned down for its price, other than for crossing the book? -/
def priceRefused : Resp → Bool
  | .limit (.error (.order e)) =>
    match e with
    | .limitPriceBelowMultiple | .limitPriceBelowMin | .limitPriceAboveMultiple | .limitPriceAboveMax
    | .invalidOrderPriceStepSize => true
    | _ => false
  | _ => false

/-- Does the update bring quotes? -/
def setsQuotes : UpdateArg → Bool
  | .trade _ => false
  | .custom _ => false
  | _ => true

/-- No fill of the list, newest first, adds to a position: each opens one or goes against it. -/
def neverAdds : List Fill → Prop
  | [] => True
  | f :: fs => (netBought fs = 0 ∨ 0 < opposing (netBought fs) f.side) ∧ neverAdds fs

instance decNeverAdds : (fs : List Fill) → Decidable (neverAdds fs)
  | [] => inferInstanceAs (Decidable True)
  | _ :: fs =>
    have := decNeverAdds fs
    inferInstanceAs (Decidable (_ ∧ neverAdds fs))

end Lfest.Dual
