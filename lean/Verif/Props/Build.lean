import Verif.Lemmas.Build
import Verif.Examples

/-!
# Debug and release builds: C56
-/

namespace Lfest

open Spec

/-- C56: a history that runs without a panic in a debug build gives the same responses and
ends in the same state in a release build. -/
theorem C56_release_agrees (c : Cfg) (ops : List Op) (s : State) (tr : List (Op × Resp))
    (h : history c (State.init c) ops = .ok (s, tr)) :
    let release := { c with env := { c.env with debug := false } }
    history release (State.init release) ops = .ok (s, tr) :=
  (history_rel c ops (State.init c)).ok _ h

/-- C56: a call that panics in a release build panics in a debug build, from every state. -/
theorem C56_release_panics_less (c : Cfg) (s : State) (op : Op) (p : Panic) :
    step { c with env := { c.env with debug := false } } s op = .error p →
    ∃ q, step c s op = .error q := by
  intro h
  cases hs : step c s op with
  | error q => exact ⟨q, rfl⟩
  | ok x =>
    have : step { c with env := { c.env with debug := false } } s op = .ok x :=
      (step_rel c s op).ok x hs
    rw [this] at h
    cases h

/-- The debug build runs `Ex.ops3`: two fills, a cancellation and a flip of the position. -/
example : Ex.after Ex.lin Ex.ops3 (fun s => decide (s.pos.quantity = -(Ex.d 2))) = true := by
  decide +kernel

/-- The builds differ on crossed quotes, which only the debug build refuses. -/
theorem C56_debug_stricter :
    (∃ p, step Ex.lin (State.init Ex.lin) (.update (.bba ⟨Ex.d 101, Ex.d 100, 1⟩)) = .error p) ∧
    (∃ x, step Ex.linR (State.init Ex.linR) (.update (.bba ⟨Ex.d 101, Ex.d 100, 1⟩)) = .ok x) := by
  constructor
  · refine ⟨.invalidUpdate, ?_⟩; decide +kernel
  · have : (match step Ex.linR (State.init Ex.linR) (.update (.bba ⟨Ex.d 101, Ex.d 100, 1⟩)) with
        | .ok _ => true | .error _ => false) = true := by decide +kernel
    split at this
    · next x hx => exact ⟨x, hx⟩
    · simp at this

/-- Both builds panic on a market order before the first quotes. -/
example : ∃ p, step Ex.linR (State.init Ex.linR) (.market .buy (Ex.d 1) 0) = .error p := by
  refine ⟨.settlePrice, ?_⟩; decide +kernel

end Lfest
