import Verif.Spec

/-!
# Concrete configurations and histories

Used by the property files to show that the hypotheses of the theorems are met by
non-trivial states. All are evaluated by the kernel (`decide +kernel`).
-/

namespace Lfest.Ex

/-- Linear contract, five decimals, leverage 1, maintenance margin 0.5, maker fee 0.02%,
taker fee 0.06%, 1000 starting balance, debug build. -/
def lin : Cfg :=
  ⟨⟨.linear, 5, true⟩, 100000000, 10,
    ⟨100000, 50000, .default 100000, ⟨none, none, 1000⟩, 20, 60⟩, 3600⟩

/-- The same as a release build. -/
def linR : Cfg := { lin with env := { lin.env with debug := false } }

/-- Inverse contract with the same numbers. -/
def inv : Cfg := { lin with env := { lin.env with kind := .inverse } }

/-- Maker rebate of 0.02%. -/
def rebate : Cfg := { lin with spec := { lin.spec with feeMaker := -20 } }

/-- Price and quantity steps of one unit in the last place. -/
def fine : Cfg :=
  { lin with spec := { lin.spec with priceFilter := ⟨none, none, 1, 200000, 0⟩, quantityFilter := ⟨none, none, 1⟩ } }

/-- `x` with five decimals. -/
def d (x : Int) : Int := x * 100000

/-- Quotes 100 / 101, buy 5 at market, rest a sell of 3 at 110 and a buy of 2 at 95. -/
def ops1 : List Op :=
  [.update (.bba ⟨d 100, d 101, 1⟩), .market .buy (d 5) 0, .limit .sell (d 110) (d 3) 1,
   .limit .buy (d 95) (d 2) 2]

/-- … then a trade that fills 2 of the resting sell. -/
def ops2 : List Op := ops1 ++ [.update (.trade ⟨2, d 111, d 2, .buy⟩)]

/-- … then a candle that fills the resting buy, and a market order that flips the
position. -/
def ops3 : List Op :=
  ops2 ++ [.update (.candle ⟨d 96, d 97, d 90, d 99, 3⟩), .cancel (.orderId 1),
    .market .sell (d 7) 0]

/-- Rest a buy of 9 at 100, under user id 7. -/
def place : Op := .limit .buy (d 100) (d 9) 7

/-- Quotes 100 / 101, then `n` times: rest that order and cancel it. -/
def rounds : Nat → List Op
  | 0 => [.update (.bba ⟨d 100, d 101, 1⟩)]
  | n + 1 => rounds n ++ [place, .cancel (.userOrderId 7)]

/-- Evaluate a Boolean property of the state a history leads to. -/
def after (c : Cfg) (ops : List Op) (p : State → Bool) : Bool :=
  match run c (State.init c) ops with
  | .ok s => p s
  | .error _ => false

/-- Evaluate a Boolean property of the last call of a history: state before, state after and
response. -/
def last (c : Cfg) (ops : List Op) (op : Op) (p : State → State → Resp → Bool) : Bool :=
  match run c (State.init c) ops with
  | .ok s => match step c s op with
    | .ok (s', r) => p s s' r
    | .error _ => false
  | .error _ => false

/-- Does the last call of a history panic at the given site? -/
def panics (c : Cfg) (ops : List Op) (op : Op) (p : Panic) : Bool :=
  match run c (State.init c) ops with
  | .ok s => match step c s op with
    | .ok _ => false
    | .error q => decide (q = p)
  | .error _ => false

/-- Does the last call of a history panic at the given site, from a state with the given
property? -/
def crash (c : Cfg) (ops : List Op) (op : Op) (p : Panic) (f : State → Bool) : Bool :=
  match run c (State.init c) ops with
  | .ok s => f s && match step c s op with
    | .ok _ => false
    | .error q => decide (q = p)
  | .error _ => false

/-- Did the call return `Ok`? -/
def isOk : Resp → Bool
  | .update (.ok _) => true
  | .unit => true
  | .market (.ok _) => true
  | .limit (.ok _) => true
  | _ => false

theorem after_reach {c : Cfg} {ops : List Op} {p : State → Bool} (h : after c ops p = true) :
    ∃ s, Spec.Reachable c s ∧ p s = true := by
  unfold after at h
  split at h
  · next s hs => exact ⟨s, ⟨ops, hs⟩, h⟩
  · simp at h

theorem last_reach {c : Cfg} {ops : List Op} {op : Op} {p : State → State → Resp → Bool}
    (h : last c ops op p = true) :
    ∃ s s' r, Spec.Reachable c s ∧ step c s op = .ok (s', r) ∧ p s s' r = true := by
  unfold last at h
  split at h
  · next s hs =>
    split at h
    · next s' r hr => exact ⟨s, s', r, ⟨ops, hs⟩, hr, h⟩
    · simp at h
  · simp at h

theorem panics_reach {c : Cfg} {ops : List Op} {op : Op} {p : Panic}
    (h : panics c ops op p = true) : ∃ s, Spec.Reachable c s ∧ step c s op = .error p := by
  unfold panics at h
  split at h
  · next s hs =>
    split at h
    · simp at h
    · next q hq => exact ⟨s, ⟨ops, hs⟩, by simp at h; rw [hq, h]⟩
  · simp at h

theorem crash_reach {c : Cfg} {ops : List Op} {op : Op} {p : Panic} {f : State → Bool}
    (h : crash c ops op p f = true) :
    ∃ s, Spec.Reachable c s ∧ f s = true ∧ step c s op = .error p := by
  unfold crash at h
  split at h
  · next s hs =>
    simp only [Bool.and_eq_true] at h
    obtain ⟨h1, h⟩ := h
    split at h
    · simp at h
    · next q hq => exact ⟨s, ⟨ops, hs⟩, h1, by simp at h; rw [hq, h]⟩
  · simp at h

/-- Evaluate a property of state, responses and tracker at the end of a history. -/
def tracked (c : Cfg) (ops : List Op)
    (p : State → List (Op × Resp) → FullTracker → Bool) : Bool :=
  match Spec.history c (State.init c) ops with
  | .ok (s, tr) => match FullTracker.replay c.env c.start s.log with
    | .ok t => p s tr t
    | .error _ => false
  | .error _ => false

/-- Quotes 100 / 101 at the given second. -/
def quoteAt (secs : Int) : Op := .update (.bba ⟨d 100, d 101, secs * 1000000000⟩)

end Lfest.Ex
