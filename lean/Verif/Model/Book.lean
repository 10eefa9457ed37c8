import Verif.Model.Types

/-!
# `ActiveLimitOrders`: the arena of active limit orders

The arena is a list in `Vec` order; the capacity is passed separately.
-/

namespace Lfest

/-- active_limit_orders.rs:14-22 -/
abbrev Book := List Limit

/-- active_limit_orders.rs:126, 143: `Vec::swap_remove(i)` for `i < len`: the last element takes the place of the removed
one. -/
def swapRemove {α} (l : List α) (i : Nat) : List α :=
  match l.getLast? with
  | none => []
  | some z => (l.set i z).dropLast

/-- active_limit_orders.rs:122, 139: index of the first element satisfying `p`
(`Iterator::position`) -/
def position {α} (p : α → Bool) : List α → Option Nat
  | [] => none
  | x :: xs => if p x = true then some 0 else (position p xs).map (· + 1)

/-- active_limit_orders.rs:109: replace the first element satisfying `p` (`iter_mut().find` plus
assignment) -/
def replaceFirst {α} (p : α → Bool) (y : α) : List α → List α
  | [] => []
  | x :: xs => if p x = true then y :: xs else x :: replaceFirst p y xs

/-- active_limit_orders.rs:95-100 `get_by_id` -/
def Book.getById (b : Book) (id : Nat) : Option Limit := b.find? (fun o => o.id == id)

/-- active_limit_orders.rs:71-90 `insert`: the new book and the replaced order, if any. On
`Err` the book is unchanged. -/
def Book.insert (cap : Nat) (b : Book) (o : Limit) : Except Error (Book × Option Limit) :=
  match b.getById o.id with
  | some old => .ok (replaceFirst (fun x => x.id == o.id) o b, some old)
  | none =>
    if b.length ≥ cap then .error .maxNumberOfActiveOrders
    else .ok (b ++ [o], none)

/-- active_limit_orders.rs:115-127, 132-144: removal of the first order satisfying `p` with
`swap_remove` -/
def Book.removeBy (p : Limit → Bool) (b : Book) : Option (Limit × Book) :=
  match position p b with
  | none => none
  | some i => match b[i]? with
    | none => none
    | some o => some (o, swapRemove b i)

/-- active_limit_orders.rs:115-127 `remove_by_order_id` -/
def Book.removeById (b : Book) (id : Nat) : Option (Limit × Book) :=
  Book.removeBy (fun o => o.id == id) b

/-- active_limit_orders.rs:132-144 `remove_by_user_order_id` -/
def Book.removeByUid (b : Book) (uid : Nat) : Option (Limit × Book) :=
  Book.removeBy (fun o => o.uid == uid) b

/-- exchange.rs:32-35 -/
inductive CancelBy where
  | orderId (id : Nat)
  | userOrderId (uid : Nat)
  deriving DecidableEq, Repr

end Lfest
