import Verif.Model.Exchange

/-!
# The sampling clock on 64 bit integers

`SampleReturnsTrigger` computes with `i64` (types/timestamp_ns.rs:13). In a debug build a sum or
product that does not fit panics, in a release build it wraps around.
-/

namespace Lfest

/-- types/timestamp_ns.rs:13: the values of an `i64` -/
def fits64 (x : Int) : Prop := -9223372036854775808 ≤ x ∧ x ≤ 9223372036854775807

instance (x : Int) : Decidable (fits64 x) := by unfold fits64; infer_instance

/-- exchange.rs:128: `as i64` keeps the low 64 bits. -/
def wrap64 (x : Int) : Int := x.bmod 18446744073709551616

/-- exchange.rs:128, sample_returns_trigger.rs:27-28: a result of `i64` arithmetic -/
def arith64 (debug : Bool) (x : Int) : Res Int :=
  if fits64 x then .ok x else if debug = true then .error .overflow else .ok (wrap64 x)

/-- exchange.rs:127-129 with sample_returns_trigger.rs:12-18 `new`; `secs` is a `u64`
(config.rs:40). -/
def Clock.new (debug : Bool) (secs : Nat) : Res Trigger := do
  let i ← arith64 debug (wrap64 secs * 1000000000)
  .ok (Trigger.new i)

/-- sample_returns_trigger.rs:20-33 `should_trigger` -/
def Clock.fire (debug : Bool) (t : Trigger) (ts : Int) : Res (Trigger × Bool) :=
  if t.init = true then .ok ({ t with last := ts, init := false }, true)
  else do
    let due ← arith64 debug (t.last + t.interval)
    if ts ≥ due then do
      let last ← arith64 debug (t.last + t.interval)
      .ok ({ t with last }, true)
    else .ok (t, false)

/-- exchange.rs:187: the answers of the clock to a sequence of updates -/
def Clock.ticks (debug : Bool) (t : Trigger) : List Int → Res (List Bool)
  | [] => .ok []
  | ts :: rest => do
    let (t', b) ← Clock.fire debug t ts
    let bs ← Clock.ticks debug t' rest
    .ok (b :: bs)

/-- exchange.rs:122, 187: the answers of the clock of a new exchange -/
def Clock.samples (debug : Bool) (secs : Nat) (times : List Int) : Res (List Bool) := do
  let t ← Clock.new debug secs
  Clock.ticks debug t times

end Lfest
