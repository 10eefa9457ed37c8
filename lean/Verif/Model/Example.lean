import Verif.Model.Exchange
import Verif.Model.Report

/-!
# The example program

`examples/basic.rs` feeds a list of prices to an exchange and submits a market order on a random side
every hundredth price.
-/

namespace Lfest

/-- examples/basic.rs:18-35: the configuration, by the constructors of the library. Four decimals, an
inverse contract: margin in `BaseCurrency`. -/
def Program.config (debug : Bool) : Res (Except ConfigError Cfg) := do
  let e : Env := ⟨.inverse, 4, debug⟩
  match leverageNew e.scale 1 with
  | .error err => .ok (.error err)
  | .ok lev =>
    match ← PriceFilter.new e.scale none none 1000 20000 0 with
    | .error err => .ok (.error err)
    | .ok pf =>
      match ← ContractSpec.new e.scale lev 5000 pf (.default e.scale) 2 6 with
      | .error err => .ok (.error err)
      | .ok spec => .ok (Cfg.new e 100000 200 spec 3600)

/-- How the program can end before its time. -/
inductive Stop where
  /-- examples/basic.rs:65 `expect("Got REKT. Try again next time :D")` -/
  | rekt
  /-- examples/basic.rs:77, 80 `unwrap` of `MarketOrder::new` -/
  | unwrap
  /-- a panic inside of the exchange -/
  | exchange (p : Panic)
  deriving DecidableEq, Repr

/-- examples/basic.rs:72-75: a tenth of the available wallet balance, in contracts at the bid -/
def Program.orderSize (c : Cfg) (s : State) : Int :=
  dmul c.scale (dmul c.scale (userBalances s.acct).wallet 1000) s.ms.bid

/-- examples/basic.rs:70-87: the order. `sell` is the random bit; an error is only logged. -/
def Program.order (c : Cfg) (sell : Bool) (s : State) : Except Stop State :=
  match NewMarket.new (if sell then .sell else .buy) (Program.orderSize c s) 0 with
  | .error _ => .error .unwrap
  | .ok o =>
    match submitMarket c s o with
    | .error p => .error (.exchange p)
    | .ok (s', _) => .ok s'

/-- examples/basic.rs:55-88: the body of the loop for the `i`-th price. (What it prints is left
out.) -/
def Program.turn (c : Cfg) (sell : Bool) (i : Nat) (price : Int) (s : State) : Except Stop State :=
  match updateState c s (.bba ⟨price, price + 1000, i⟩) with
  | .error p => .error (.exchange p)
  | .ok (_, .error _) => .error .rekt
  | .ok (s', .ok _) => if i % 100 = 0 then Program.order c sell s' else .ok s'

/-- examples/basic.rs:55-89: the loop, from the `i`-th price on; `coin` are the random bits -/
def Program.loop (c : Cfg) (coin : Nat → Bool) (s : State) (i : Nat) : List Int → Except Stop State
  | [] => .ok s
  | p :: ps =>
    match Program.turn c (coin i) i p s with
    | .error e => .error e
    | .ok s' => Program.loop c coin s' (i + 1) ps

/-- examples/basic.rs:17-95: the program, up to the summary that it prints in the end
(`Model/Report`). The prices are those of the file; random bits are arbitrary. -/
def Program.run (c : Cfg) (coin : Nat → Bool) (prices : List Int) : Except Stop State :=
  Program.loop c coin (State.init c) 0 prices

end Lfest
