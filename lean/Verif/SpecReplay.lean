import Verif.Spec

/-!
# Sessions of a user who reacts

Specification for C155: the calls of a user are decided one by one, by everything that was answered before.
-/

namespace Lfest.Replay

open Spec

/-- What to do next after the calls and answers so far, if anything -/
abbrev User := List (Op × Resp) → Option Op

/-- At most `n` further calls of a user. The result is the exchange and the record of all calls and
answers. -/
def session (c : Cfg) (user : User) : Nat → State → List (Op × Resp) → Res (State × List (Op × Resp))
  | 0, s, seen => .ok (s, seen)
  | n + 1, s, seen =>
    match user seen with
    | none => .ok (s, seen)
    | some op => do
      let r ← step c s op
      session c user n r.1 (seen ++ [(op, r.2)])

end Lfest.Replay
