import Verif.Spec

/-!
# Specification for repeated amendments
-/

namespace Lfest.Spec

/-- The terms an order is amended to. -/
structure Wish where
  side : Side
  price : Int
  /-- the total quantity asked for, as documented: what has been filled already counts -/
  qty : Int
  uid : Nat
  deriving DecidableEq, Repr

/-- The call that amends order `id` to the terms `w`. -/
def Wish.call (id : Nat) (w : Wish) : Op := .amend id w.side w.price w.qty w.uid

/-- Order `id` is amended again and again, each time naming the order that the last amendment gave,
and every amendment is accepted; `o` is the order in the end. -/
inductive Amended (c : Cfg) (s : State) (id : Nat) : List Wish → State → Limit → Prop
  | once {w s' o} (h : step c s (w.call id) = .ok (s', .limit (.ok o))) : Amended c s id [w] s' o
  | again {ws w s1 o1 s' o} (h1 : Amended c s id ws s1 o1)
      (h : step c s1 (w.call o1.id) = .ok (s', .limit (.ok o))) : Amended c s id (ws ++ [w]) s' o

end Lfest.Spec
