import Verif.Lemmas.ReturnsLoop
import Verif.Props.Reference

/-!
# Exactly which calls panic: C88
-/

namespace Lfest

open Spec

/-- C88, call by call: in every reachable state a call returns exactly when the reference says so.
Otherwise it panics. -/
theorem C88_returns (c : Cfg) (s : State) (op : Op) (hc : soundConfig c) (hr : Reachable c s) :
    (∃ s' r, step c s op = .ok (s', r)) ↔ (Ref.view c s).returns c op := by
  rw [← step_returns hc hr]
  exact ⟨fun ⟨s', r, h⟩ => ⟨(s', r), h⟩, fun ⟨⟨s', r⟩, h⟩ => ⟨s', r, h⟩⟩

/-- Both happen. Five bought, orders resting: the position can be closed by a market order, and the
resting sell can be cancelled, but a trade without a quantity or crossed quotes panic … -/
example : Ex.after Ex.lin Ex.ops1 (fun s => decide ((Ref.view Ex.lin s).returns Ex.lin
    (.market .sell (Ex.d 5) 0) ∧ (Ref.view Ex.lin s).returns Ex.lin (.cancel (.orderId 1)) ∧
    ¬ (Ref.view Ex.lin s).returns Ex.lin (.update (.trade ⟨2, Ex.d 111, 0, .buy⟩)) ∧
    ¬ (Ref.view Ex.lin s).returns Ex.lin (.update (.bba ⟨Ex.d 101, Ex.d 100, 2⟩)))) = true := by
  decide +kernel

/-- … but after the position is closed, the reference foresees that the resting sell can no longer be
cancelled: the margin reserved is not the margin now required. -/
example : Ex.after Ex.lin (Ex.ops1 ++ [.market .sell (Ex.d 5) 0])
    (fun s => decide (¬ (Ref.view Ex.lin s).returns Ex.lin (.cancel (.orderId 1)))) = true ∧
    Ex.panics Ex.lin (Ex.ops1 ++ [.market .sell (Ex.d 5) 0]) (.cancel (.orderId 1))
      .cancelMarginMismatch = true := by decide +kernel

/-- C88: a call of an admissible configuration panics exactly when the reference says it does not
return. -/
theorem C88_panics (c : Cfg) (s : State) (op : Op) (hc : soundConfig c) (hr : Reachable c s) :
    (∃ p, step c s op = .error p) ↔ ¬ (Ref.view c s).returns c op := by
  rw [← C88_returns c s op hc hr]
  cases h : step c s op with
  | ok x => obtain ⟨s', r⟩ := x; simp
  | error p => simp

/-- The panics shown for C67, foreseen by the reference: no quotes yet, a margin that rounds to
zero, an entry price that rounds, missing funds for an order, missing margin for a fill. -/
example : (¬ Ref.Exchange.new.returns Ex.lin (.market .buy (Ex.d 1) 0)) ∧
    (¬ Ref.Exchange.new.returns Ex.inv (.market .buy (Ex.d 1) 0)) ∧
    (Ex.after Ex.fine [.update (.bba ⟨1, 2, 1⟩)] fun s =>
      decide (¬ (Ref.view Ex.fine s).returns Ex.fine (.market .buy 1 0))) = true ∧
    (Ex.after Ex.inv [.update (.bba ⟨Ex.d 100, Ex.d 101, 1⟩), .market .buy (Ex.d 1010) 1,
        .update (.bba ⟨Ex.d 200, Ex.d 202, 2⟩), .market .buy (Ex.d 1010) 2] fun s =>
      decide (¬ (Ref.view Ex.inv s).returns Ex.inv (.market .sell (Ex.d 2020) 0) ∧
        (Ref.view Ex.inv s).returns Ex.inv (.market .sell (Ex.d 2010) 0))) = true ∧
    (Ex.after Ex.lin [.update (.bba ⟨Ex.d 100, Ex.d 101, 1⟩), .market .buy (Ex.d 5) 0,
        .limit .sell (Ex.d 110) (Ex.d 5) 1, .market .sell (Ex.d 5) 0] fun s =>
      decide (¬ (Ref.view Ex.lin s).returns Ex.lin (.limit .sell (Ex.d 110) (Ex.d 7) 2))) = true ∧
    (Ex.after Ex.linR [.update (.bba ⟨Ex.d 100, Ex.d 101, 1⟩), .limit .sell (Ex.d 110) (Ex.d 9) 1,
        .update (.bba ⟨Ex.d 120, Ex.d 121, 2⟩), .limit .buy (Ex.d 119) (Ex.d 2) 2] fun s =>
      decide (¬ (Ref.view Ex.linR s).returns Ex.linR
        (.update (.trade ⟨3, Ex.d 118, Ex.d 5, .sell⟩)))) = true := by
  decide +kernel

theorem history_returns {c : Cfg} (hc : soundConfig c) (ops : List Op) :
    ∀ {s : State}, Reachable c s →
      ((∃ s' tr, history c s ops = .ok (s', tr)) ↔ (Ref.view c s).allReturn c ops) := by
  induction ops with
  | nil => intro s _; simp [history, Ref.Exchange.allReturn]
  | cons op ops ih =>
    intro s hr
    simp only [Ref.Exchange.allReturn, ← C88_returns c s op hc hr, history]
    constructor
    · rintro ⟨s', tr, h⟩
      simp only [bind_ok, ok_inj, Prod.mk.injEq] at h
      obtain ⟨⟨s1, x⟩, h1, ⟨s2, tr2⟩, h2, rfl, rfl⟩ := h
      refine ⟨⟨s1, x, h1⟩, ?_⟩
      rw [C65_every_call c s s1 op x hc.2.2.2.2 hr h1]
      exact (ih (hr.step h1)).1 ⟨_, _, h2⟩
    · rintro ⟨⟨s1, x, h1⟩, h2⟩
      rw [C65_every_call c s s1 op x hc.2.2.2.2 hr h1] at h2
      obtain ⟨s2, tr2, h2⟩ := (ih (hr.step h1)).2 h2
      exact ⟨s2, (op, x) :: tr2, by
        simp only [bind_ok, ok_inj]
        exact ⟨_, h1, _, h2, rfl⟩⟩

/-- C88, whole histories: a sequence of calls runs to its end on a fresh exchange exactly when the
reference says that all of them return, and then the responses and the final state are those the
reference computes. -/
theorem C88_history (c : Cfg) (ops : List Op) (hc : soundConfig c) :
    (Ref.Exchange.new.allReturn c ops → ∃ s tr, history c (State.init c) ops = .ok (s, tr) ∧
      Ref.Exchange.new.calls c ops = (Ref.view c s, tr)) ∧
    (¬ Ref.Exchange.new.allReturn c ops → ∃ p, history c (State.init c) ops = .error p) := by
  have h0 : Ref.view c (State.init c) = Ref.Exchange.new := by
    simp [Ref.view, State.init, Ref.Exchange.new, Accounts.new, Accounts.balance, Accounts.get,
      TAccount.net, State.feesPaid, MarketState.init, Position.quantity, Position.entryPrice,
      Position.outstandingFees, Ledger.empty]
  have h := history_returns hc ops (s := State.init c) ⟨[], rfl⟩
  rw [h0] at h
  constructor
  · intro ha
    obtain ⟨s, tr, hh⟩ := h.2 ha
    exact ⟨s, tr, hh, C65_history c ops s tr hc.2.2.2.2 hh⟩
  · intro ha
    cases hh : history c (State.init c) ops with
    | ok x => exact absurd (h.1 ⟨x.1, x.2, hh⟩) ha
    | error p => exact ⟨p, rfl⟩

/-- The eight calls of C65 return. With one more cancellation of the closed position's order they
do not. -/
example : Ref.Exchange.new.allReturn Ex.lin Ex.ops3 ∧
    ¬ Ref.Exchange.new.allReturn Ex.lin
      (Ex.ops1 ++ [.market .sell (Ex.d 5) 0, .cancel (.orderId 1)]) := by decide +kernel

/-- C88: panics have no hidden cause. From two reachable states that look the same, the same calls
return. -/
theorem C88_no_hidden_panics (c : Cfg) (s t : State) (ops : List Op) (hc : soundConfig c)
    (hs : Reachable c s) (ht : Reachable c t) (he : Ref.view c s = Ref.view c t) :
    (∃ s' tr, history c s ops = .ok (s', tr)) ↔ (∃ t' tr, history c t ops = .ok (t', tr)) := by
  rw [history_returns hc ops hs, history_returns hc ops ht, he]

end Lfest
