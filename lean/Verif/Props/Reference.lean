import Verif.Lemmas.Reference
import Verif.Examples

/-!
# The exchange is the reference exchange: C65
-/

namespace Lfest

open Spec

/-- C65, call by call: in every reachable state, a call that does not panic returns what the
reference exchange returns, with the same error if it fails, and leaves the same orders, quotes,
position, fees, profit and margins behind. -/
theorem C65_every_call (c : Cfg) (s s' : State) (op : Op) (r : Resp)
    (hcap : c.maxOpen ≤ 10000) (hr : Reachable c s) (hst : step c s op = .ok (s', r)) :
    (Ref.view c s).call c op = (Ref.view c s', r) :=
  step_ref hr.linv hr.inv hcap hst

theorem history_ref {c : Cfg} (hcap : c.maxOpen ≤ 10000) (ops : List Op) :
    ∀ {s s' : State} {tr}, Reachable c s → history c s ops = .ok (s', tr) →
      (Ref.view c s).calls c ops = (Ref.view c s', tr) := by
  induction ops with
  | nil =>
    intro s s' tr _ h
    simp only [history, ok_inj, Prod.mk.injEq] at h
    obtain ⟨rfl, rfl⟩ := h; rfl
  | cons op ops ih =>
    intro s s' tr hr h
    simp only [history, bind_ok, ok_inj, Prod.mk.injEq] at h
    obtain ⟨⟨s1, x⟩, h1, ⟨s2, tr2⟩, h2, rfl, rfl⟩ := h
    simp only [Ref.Exchange.calls, C65_every_call c s s1 op x hcap hr h1, ih (hr.step h1) h2]

/-- C65, whole histories: the responses to a sequence of calls and the final state are those of
the reference exchange, starting from a fresh one. -/
theorem C65_history (c : Cfg) (ops : List Op) (s : State) (tr : List (Op × Resp))
    (hcap : c.maxOpen ≤ 10000) (h : history c (State.init c) ops = .ok (s, tr)) :
    Ref.Exchange.new.calls c ops = (Ref.view c s, tr) := by
  have := history_ref hcap ops ⟨[], rfl⟩ h
  rw [← this]
  congr 1
  simp [Ref.view, State.init, Ref.Exchange.new, Accounts.new, Accounts.balance, Accounts.get,
    TAccount.net, State.feesPaid, MarketState.init, Position.quantity, Position.entryPrice,
    Position.outstandingFees, Ledger.empty]

/-- Eight calls: quotes, a market buy, two resting orders, a partial fill by a trade, a full fill
by a candle, a cancellation, and a market sell of 7 that flips a position of 5. -/
example : (Ref.Exchange.new.calls Ex.lin Ex.ops3).1 =
    ⟨⟨Ex.d 96, Ex.d 97, 3, 3⟩, [], 4, ⟨-(Ex.d 2), Ex.d 96, 0, 78820, Ex.d 5⟩, 0, Ex.d 192⟩ := by
  decide +kernel

/-- … and the model agrees. -/
example : (match history Ex.lin (State.init Ex.lin) Ex.ops3 with
    | .ok (s, tr) => decide (Ref.Exchange.new.calls Ex.lin Ex.ops3 = (Ref.view Ex.lin s, tr))
    | .error _ => false) = true := by decide +kernel

/-- A liquidation: 5 bought at 101 are sold at 40, the resting orders stay. -/
example : (match history Ex.lin (State.init Ex.lin)
      (Ex.ops1 ++ [.update (.bba ⟨Ex.d 40, Ex.d 41, 2⟩)]) with
    | .ok (s, tr) => decide ((Ref.view Ex.lin s).book.realised = -(Ex.d 305) ∧
        (Ref.view Ex.lin s).orders.length = 2 ∧
        tr.getLast?.map Prod.snd = some (.update (.error (.risk .liquidate))))
    | .error _ => false) = true := by decide +kernel

/-- C65: nothing else matters. From two reachable states that look the same, the same calls get
the same responses and lead to states that look the same. -/
theorem C65_no_hidden_state (c : Cfg) (s t s' t' : State) (ops : List Op)
    (tr tr' : List (Op × Resp)) (hcap : c.maxOpen ≤ 10000) (hs : Reachable c s)
    (ht : Reachable c t) (he : Ref.view c s = Ref.view c t)
    (h1 : history c s ops = .ok (s', tr)) (h2 : history c t ops = .ok (t', tr')) :
    tr = tr' ∧ Ref.view c s' = Ref.view c t' := by
  have e1 := history_ref hcap ops hs h1
  have e2 := history_ref hcap ops ht h2
  rw [he, e2] at e1
  simp only [Prod.mk.injEq] at e1
  exact ⟨e1.2.symm, e1.1.symm⟩

/-- Two different histories with the same visible result: an accepted order that is cancelled and
an order that is turned down. -/
example : (match run Ex.lin (State.init Ex.lin) [Ex.quoteAt 1, .limit .buy (Ex.d 95) (Ex.d 1) 0, .cancel (.orderId 0)],
      run Ex.lin (State.init Ex.lin) [Ex.quoteAt 1, .limit .buy (Ex.d 101) (Ex.d 1) 0] with
    | .ok s, .ok t => decide (Ref.view Ex.lin s = Ref.view Ex.lin t ∧ s ≠ t)
    | _, _ => false) = true := by decide +kernel

/-- C65: the wallet is what the reference exchange computes, starting balance plus realised profit
minus fees paid and margins. -/
theorem C65_wallet (c : Cfg) (s : State) (hr : Reachable c s) :
    s.acct.balance .wallet = (Ref.view c s).wallet c :=
  (view_wallet hr.linv).symm

end Lfest
