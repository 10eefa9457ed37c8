import Verif.SpecWait
import Verif.SpecLever
import Verif.SpecPriority

/-!
# What market updates trade, for C139
-/

namespace Lfest.Spec

/-- The volume by which market updates trade through the price of a resting order. -/
def flow (o : Limit) : List UpdateArg → Option Int
  | [] => some 0
  | u :: us => plus (through u o) (flow o us)

/-- A resting order, but for the average price of its fills. -/
structure Rest where
  id : Nat
  uid : Nat
  ts : Int
  side : Side
  price : Int
  filled : Int
  open_ : Int
  deriving DecidableEq, Repr

/-- What is to be seen of a resting order. -/
def rest (o : Limit) : Rest := ⟨o.id, o.uid, o.ts, o.side, o.price, o.filledQuantity, o.remaining⟩

/-- What a volume leaves of a resting order. -/
def remains (v : Option Int) (o : Limit) : Option Rest :=
  let n := left o.remaining v
  if n = 0 then none
  else some ⟨o.id, o.uid, o.ts, o.side, o.price, o.filledQuantity + (o.remaining - n), n⟩

/-- The signed quantity by which a volume fills a resting order. -/
def gives (v : Option Int) (o : Limit) : Int :=
  match o.side with
  | .buy => o.remaining - left o.remaining v
  | .sell => left o.remaining v - o.remaining

/-- All fees charged so far. -/
def feesCharged (s : State) : Int := s.feesPaid + s.pos.outstandingFees

/-- The same tape of trades, written down in another way: in another order, with trades on the same side and at
the same price merged, packed into smart candles, with or without quotes. -/
inductive SameTape : List UpdateArg → List UpdateArg → Prop
  | refl (us) : SameTape us us
  | symm {us vs} : SameTape us vs → SameTape vs us
  | trans {us vs ws} : SameTape us vs → SameTape vs ws → SameTape us ws
  | swap (as bs u v) : SameTape (as ++ u :: v :: bs) (as ++ v :: u :: bs)
  | merge (as bs) (t t' : Trade) : t.side = t'.side → t.price = t'.price → 0 ≤ t.qty → 0 ≤ t'.qty →
      SameTape (as ++ .trade t :: .trade t' :: bs) (as ++ .trade { t' with qty := t.qty + t'.qty } :: bs)
  | pack (as bs) (ts : List Trade) (q pf) : (∀ t ∈ ts, 0 ≤ t.qty) →
      SameTape (as ++ (ts.map .trade ++ bs)) (as ++ .smart ts q pf :: bs)
  | quote (as bs q) : SameTape (as ++ .bba q :: bs) (as ++ bs)

end Lfest.Spec
