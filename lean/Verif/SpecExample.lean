import Verif.Spec
import Verif.Model.Example

/-!
# The example program (C136)

`examples/basic.rs` feeds prices to an exchange. At every hundredth price it submits a market order over
a tenth of its wallet, on a random side. It ends early if the position is liquidated (`rekt`), if the
order it wants to submit has no size (`unwrap`), or if the exchange panics (`exchange`).
-/

namespace Lfest.Spec

/-- Its configuration: an inverse contract with four decimals, leverage 1, tick sizes 0.1 and 1, fees of
0.02% and 0.06%, and a balance of 10. -/
def exampleCfg (debug : Bool) : Cfg where
  env := ⟨.inverse, 4, debug⟩
  start := 100000
  maxOpen := 200
  spec := { initMarginReq := 10000, maintenanceMargin := 5000, priceFilter := ⟨none, none, 1000, 20000, 0⟩,
            quantityFilter := ⟨none, none, 10000⟩, feeMaker := 2, feeTaker := 6 }
  sampleSecs := 3600

/-- Prices the program can be given: positive, and multiples of 0.1 in debug builds. -/
def quotable (debug : Bool) (p : Int) : Prop := 0 < p ∧ (debug = true → 1000 ∣ p)

/-- The side that a random bit stands for. -/
def coinSide (sell : Bool) : Side := if sell then .sell else .buy

/-- The number of contracts a tenth of the wallet is worth at price `p`. -/
def tenthOf (wallet p : Int) : Int := (wallet.tdiv 10 * p).tdiv 10000

/-- The account `s` when the bid is `p` and the ask is 0.1 higher. -/
def quotedAt (s : State) (p : Int) : State := { s with ms := ⟨p, p + 1000, s.ms.ts, s.ms.step⟩ }

/-- Nothing has happened to the account. -/
def sameAccount (s s' : State) : Prop :=
  s'.acct = s.acct ∧ s'.pos = s.pos ∧ fills s'.log = fills s.log

/-- What the program does with a price `p`, the `i`-th, on the account `s`. -/
inductive Turn (debug sell : Bool) (i : Nat) (p : Int) (s : State) : Except Stop State → Prop where
  /-- The position is liquidated: the program ends. -/
  | liquidated (e : Stop) : breach (exampleCfg debug) s.pos (p, p + 1000) → e ≠ .unwrap →
      Turn debug sell i p s (.error e)
  /-- It only looks at the price. -/
  | looks (s' : State) : ¬ breach (exampleCfg debug) s.pos (p, p + 1000) → i % 100 ≠ 0 →
      sameAccount s s' → Turn debug sell i p s (.ok s')
  /-- The order has no size: the program ends. -/
  | noSize : ¬ breach (exampleCfg debug) s.pos (p, p + 1000) → i % 100 = 0 →
      tenthOf (s.acct.balance .wallet) p ≤ 0 → Turn debug sell i p s (.error .unwrap)
  /-- The size is not a whole number of contracts: the order is turned down. -/
  | notWhole (s' : State) : ¬ breach (exampleCfg debug) s.pos (p, p + 1000) → i % 100 = 0 →
      0 < tenthOf (s.acct.balance .wallet) p → ¬ 10000 ∣ tenthOf (s.acct.balance .wallet) p →
      sameAccount s s' → Turn debug sell i p s (.ok s')
  /-- An order that would reverse the position is not affordable and turned down. -/
  | tooDear (s' : State) : ¬ breach (exampleCfg debug) s.pos (p, p + 1000) → i % 100 = 0 →
      s.acct.balance .positionMargin < 0 →
      0 < opposing s.pos.quantity (coinSide sell) →
      opposing s.pos.quantity (coinSide sell) < tenthOf (s.acct.balance .wallet) p →
      10000 ∣ tenthOf (s.acct.balance .wallet) p → sameAccount s s' → Turn debug sell i p s (.ok s')
  /-- The order is filled. -/
  | trades (s' : State) : ¬ breach (exampleCfg debug) s.pos (p, p + 1000) → i % 100 = 0 →
      0 < tenthOf (s.acct.balance .wallet) p → 10000 ∣ tenthOf (s.acct.balance .wallet) p →
      marginsWorkOut (exampleCfg debug) (quotedAt s p) (coinSide sell) (tenthOf (s.acct.balance .wallet) p) →
      fills s'.log = ⟨false, coinSide sell, if sell then p else p + 1000,
        tenthOf (s.acct.balance .wallet) p⟩ :: fills s.log → Turn debug sell i p s (.ok s')
  /-- The exchange panics because the margins do not work out: the program crashes. -/
  | crashes (e : Panic) : ¬ breach (exampleCfg debug) s.pos (p, p + 1000) → i % 100 = 0 →
      0 < tenthOf (s.acct.balance .wallet) p → 10000 ∣ tenthOf (s.acct.balance .wallet) p →
      ¬ marginsWorkOut (exampleCfg debug) (quotedAt s p) (coinSide sell) (tenthOf (s.acct.balance .wallet) p) →
      Turn debug sell i p s (.error (.exchange e))

end Lfest.Spec
