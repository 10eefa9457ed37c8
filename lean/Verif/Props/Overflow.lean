import Verif.Lemmas.NoOverflowStep
import Verif.Lemmas.Rounds
import Verif.Lemmas.InRange

/-!
# Bounded integers (C79)

The other files use unbounded integers for raw amounts. Here the same exchange computes with integers
from `-w` to `w` and stops with `overflow` as soon as a result does not fit (`Lfest.Mach`).
-/

namespace Lfest

open Spec

/-- **C79**: whatever the width of the integers, a call that does not stop with an overflow does
exactly what it does on unbounded integers. -/
theorem C79_exact_unless_overflow (w : Int) (c : Cfg) (s : State) (op : Op) :
    Mach.step w c s op = .error .overflow ∨ Mach.step w c s op = step c s op :=
  Mach.agree_step

/-- **C79**: so does a whole history. -/
theorem C79_history_exact_unless_overflow (w : Int) (c : Cfg) (s : State) (ops : List Op) :
    Mach.run w c s ops = .error .overflow ∨ Mach.run w c s ops = run c s ops :=
  Mach.agree_run ops s

/-- **C79**: within the limits `Fits` no history overflows, so bounded integers and unbounded ones
give the same result. -/
theorem C79_no_overflow {w P : Int} {c : Cfg} {ops : List Op}
    (hfit : Fits c w P (ops.map asked).sum (ops.map submissions).sum)
    (hops : ∀ op ∈ ops, Within w P op) :
    Mach.run w c (State.init c) ops = run c (State.init c) ops := by
  have hQ := Mach.sum_map_nonneg Mach.asked_nonneg ops
  have hn := Mach.sum_map_nonneg Mach.submissions_nonneg ops
  have hl := Mach.limits_of_fits hfit hQ hn
  have := hl.run ops (State.init c) 0 0 (.init hfit.price hfit.start) (by omega) (by omega) hops
  exact (Mach.agree_run ops (State.init c)).resolve_left this

/-- **C79**: and every call of such a history returns the same response. -/
theorem C79_same_responses {w P : Int} {c : Cfg} {ops : List Op} {op : Op} {s : State}
    (hfit : Fits c w P ((ops ++ [op]).map asked).sum ((ops ++ [op]).map submissions).sum)
    (hops : ∀ o ∈ ops ++ [op], Within w P o) (hs : run c (State.init c) ops = .ok s) :
    Mach.step w c s op = step c s op := by
  have hQ := Mach.sum_map_nonneg Mach.asked_nonneg (ops ++ [op])
  have hn := Mach.sum_map_nonneg Mach.submissions_nonneg (ops ++ [op])
  have hl := Mach.limits_of_fits hfit hQ hn
  have ha := Mach.asked_nonneg op
  rw [List.map_append, List.sum_append] at hl
  rw [List.map_append, List.sum_append] at hl
  simp only [List.map_cons, List.map_nil, List.sum_cons, List.sum_nil, Int.add_zero] at hl
  have hh := hl.heldRun ops (State.init c) s 0 0 (.init hfit.price hfit.start) (by omega)
    (fun o ho => hops o (by simp [ho])) hs
  have := hl.step hh (by omega) (by omega) (hops op (by simp))
  exact Mach.agree_step.resolve_left this

/-- Non-vacuity: eighteen decimal digits suffice for `ops3`, which fills, flips and cancels, at prices
up to 200. -/
example : Fits Ex.lin (10 ^ 18) (Ex.d 200) (Ex.ops3.map asked).sum (Ex.ops3.map submissions).sum ∧
    (∀ op ∈ Ex.ops3, Within (10 ^ 18) (Ex.d 200) op) ∧
    Ex.after Ex.lin Ex.ops3 (fun s => decide (s.acct.positionMargin.debits > 0)) = true :=
  ⟨by constructor <;> decide +kernel, by decide +kernel, by decide +kernel⟩

/-- Non-vacuity: 64 bits suffice for a million submissions that ask for fifty thousand contracts in
total, at prices up to 100. -/
example : Fits Ex.lin (2 ^ 63 - 1) (Ex.d 100) (Ex.d 50000) 1000000 := by
  constructor <;> decide +kernel

/-- Non-vacuity: the limits also allow inverse contracts. -/
example : Fits Ex.inv (2 ^ 127 - 1) (Ex.d 100000) (Ex.d 1000000) 1000000 := by
  constructor <;> decide +kernel

/-- **C79**: the limits must bound the number of submissions. On integers of any width, placing and
cancelling the same order often enough overflows, although nothing ever trades and every round ends
with the starting balance. -/
theorem C79_every_width_overflows (w : Int) :
    (∃ n, Mach.run w Ex.lin (State.init Ex.lin) (Ex.rounds n) = .error .overflow) ∧
      ∀ n, ∃ s, run Ex.lin (State.init Ex.lin) (Ex.rounds n) = .ok s ∧
        s.acct.balance .wallet = Ex.lin.start ∧ s.acct.balance .orderMargin = 0 ∧
        s.acct.balance .positionMargin = 0 ∧ s.active = [] ∧ s.pos = .neutral := by
  constructor
  · refine ⟨w.toNat + 1, ?_⟩
    obtain ⟨s, h1, h2⟩ := Idle.rounds w.toNat
    rw [Ex.rounds, Mach.run_append]
    rcases Mach.agree_run (w := w) (Ex.rounds w.toNat) (State.init Ex.lin) with h | h
    · rw [h]; rfl
    · rw [h, h1]
      simp only [bind, Except.bind, Mach.run, place_overflow (w := w) h2 (by omega)]
  · intro n
    obtain ⟨s, h1, h2⟩ := Idle.rounds n
    refine ⟨s, h1, ?_, ?_, ?_, h2.active, h2.pos⟩ <;> rw [h2.acct] <;>
      simp [Accounts.balance, Accounts.get, TAccount.net, churned, Ex.lin]

/-- 32 bits hold the balances many times over, and overflow within 24 rounds. -/
example : Mach.run (2 ^ 31 - 1) Ex.lin (State.init Ex.lin) (Ex.rounds 24) = .error .overflow ∧
    Mach.run (2 ^ 31 - 1) Ex.lin (State.init Ex.lin) (Ex.rounds 10) =
      run Ex.lin (State.init Ex.lin) (Ex.rounds 10) := by
  decide +kernel

/-- **C79**: the bounded exchange stores nothing that does not fit: as long as it does not stop, every
total of the accounts, the position, the orders and the quotes lie between `-w` and `w`, if what the
calls bring in does. -/
theorem C79_stored_amounts_fit {w : Int} {c : Cfg} {ops : List Op} {s : State}
    (hstart : 0 ≤ c.start) (hw : c.start ≤ w) (hin : ∀ op ∈ ops, ∀ x ∈ inputs op, -w ≤ x ∧ x ≤ w)
    (hs : Mach.run w c (State.init c) ops = .ok s) : ∀ x ∈ amounts s, -w ≤ x ∧ x ≤ w := by
  have h0 : 0 ≤ w := by omega
  refine (Mach.stateIn_iff h0).1 (Mach.run_in ((Mach.stateIn_iff h0).2 ?_) hin hs)
  intro x hx
  simp [amounts, State.init, MarketState.init, Position.quantity, Position.entryPrice,
    Position.outstandingFees, accountAmounts, Accounts.new] at hx
  omega

/-- Non-vacuity: `ops3` on 64 bits. -/
example : (∀ op ∈ Ex.ops3, ∀ x ∈ inputs op, -(2 ^ 63 - 1) ≤ x ∧ x ≤ 2 ^ 63 - 1) ∧
    (Mach.run (2 ^ 63 - 1) Ex.lin (State.init Ex.lin) Ex.ops3).isOk = true := by
  decide +kernel

end Lfest
