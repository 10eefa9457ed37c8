import Verif.SpecSolvent

/-!
# Markets without large gaps, for C125
-/

namespace Lfest.Spec

/-- A position that was within its maintenance margin, rate `m`, at the last quotes is covered by its
initial margin, rate `i`, and pays the fee, rate `f`, after a further adverse move of `g`, with
`slack` to spare. All are fractions of the scale. A position in linear contracts is worth its size
times the price, one in inverse contracts its size divided by the price. -/
def cushion (c : Cfg) (g slack : Int) (long : Bool) : Prop :=
  let one := c.env.scale
  let i := c.spec.initMarginReq
  let m := c.spec.maintenanceMargin
  let f := c.spec.feeTaker
  match c.env.kind, long with
  | .linear, true => one * one * (one - i + slack) ≤ (one - m) * (one - g) * (one - f)
  | .linear, false => (one + m) * (one + g) * (one + f) ≤ one * one * (one + i - slack)
  | .inverse, true => one * one * (one + f + slack) ≤ (one + i) * (one - m) * (one - g)
  | .inverse, false => (one - i + slack) * (one + m) * (one + g) ≤ one * one * (one - f)

instance (c : Cfg) (g slack : Int) (long : Bool) : Decidable (cushion c g slack long) := by
  unfold cushion; simp only; split <;> infer_instance

/-- The bid falls and the ask rises by no more than the fraction `g`. -/
def noGap (e : Env) (g : Int) (before after : Int × Int) : Prop :=
  before.1 * (e.scale - g) ≤ after.1 * e.scale ∧ after.2 * e.scale ≤ before.2 * (e.scale + g)

instance (e : Env) (g : Int) (before after : Int × Int) : Decidable (noGap e g before after) := by
  unfold noGap; infer_instance

/-- An order may open a position at this price, with these quotes: there is a cushion, the spread
alone does not call for a liquidation, and price and value are more than a few units. -/
def mayOpen (c : Cfg) (g slack : Int) (quotes : Int × Int) (side : Side) (price q : Int) : Prop :=
  cushion c g slack (decide (side = .buy)) ∧
  (match side with
    | .buy => longLimit c price ≤ quotes.1
    | .sell => quotes.2 ≤ shortLimit c price) ∧
  6 * c.env.scale ≤ price * slack ∧
  6 * c.env.scale ≤ value c.env q price * slack

instance (c : Cfg) (g slack : Int) (quotes : Int × Int) (side : Side) (price q : Int) :
    Decidable (mayOpen c g slack quotes side price q) := by
  unfold mayOpen; cases side <;> infer_instance

/-- Without a position, the update fills at most one order. That order may open a position, its fee
is in the wallet, and no order at rest would close the position beyond its liquidation price. -/
def opensCalmly (c : Cfg) (g slack : Int) (s : State) (quotes : Int × Int) (a : UpdateArg) : Prop :=
  s.pos = .neutral → (makerFills a s.active).length ≤ 1 ∧
    ∀ o ∈ s.active, fillRule a o ≠ none →
      mayOpen c g slack quotes o.side o.price o.remaining ∧
      share c.env (value c.env o.remaining o.price) c.spec.feeMaker ≤ s.acct.balance .wallet ∧
      ∀ x ∈ s.active, match o.side with
        | .buy => longLimit c o.price ≤ x.price
        | .sell => x.price ≤ shortLimit c o.price

instance (c : Cfg) (s : State) (o : Limit) : Decidable (∀ x ∈ s.active, match o.side with
    | .buy => longLimit c o.price ≤ x.price
    | .sell => x.price ≤ shortLimit c o.price) := by
  cases o.side <;> infer_instance

instance (c : Cfg) (g slack : Int) (s : State) (quotes : Int × Int) (a : UpdateArg) :
    Decidable (opensCalmly c g slack s quotes a) := by
  unfold opensCalmly; infer_instance

/-- Orders that open a position or close it, in a market that does not jump while there is one. -/
def calm (c : Cfg) (g slack : Int) (s : State) : Op → Prop
  | .update a => (s.pos ≠ .neutral → noGap c.env g (s.ms.bid, s.ms.ask) (quotesAfter s.ms a)) ∧
      opensCalmly c g slack s (quotesAfter s.ms a) a
  | .checkActive a => opensCalmly c g slack s (s.ms.bid, s.ms.ask) a
  | .market side q _ =>
    if s.pos = .neutral then
      mayOpen c g slack (s.ms.bid, s.ms.ask) side (touchPrice s.ms side) q
    else q = abs s.pos.quantity
  | _ => True

instance (c : Cfg) (g slack : Int) (s : State) (op : Op) : Decidable (calm c g slack s op) := by
  cases op <;> simp only [calm] <;> infer_instance

end Lfest.Spec
