import Verif.Lemmas.Clean
import Verif.Props.Returns

/-!
# C99: calls that are turned down leave no trace
-/

namespace Lfest

open Spec

/-- What the reference knows of a state determines position and balances. -/
theorem view_same {c : Cfg} {s t : State} (hs : Reachable c s) (ht : Reachable c t)
    (h : (Ref.view c s).book = (Ref.view c t).book)
    (hr : (Ref.view c s).reserved = (Ref.view c t).reserved)
    (hl : (Ref.view c s).locked = (Ref.view c t).locked) :
    s.pos = t.pos ∧ ∀ a, s.acct.balance a = t.acct.balance a := by
  have w1 := C65_wallet c s hs
  have w2 := C65_wallet c t ht
  have p1 : PosWF s.pos := hs.linv.wf
  have p2 : PosWF t.pos := ht.linv.wf
  have b1 := hs.linv.broker
  have b2 := ht.linv.broker
  simp only [State.core] at b1 b2
  have hw : (Ref.view c s).wallet c = (Ref.view c t).wallet c := by
    simp only [Ref.Exchange.wallet, h, hr, hl]
  simp only [Ref.view, Ledger.mk.injEq, State.feesPaid] at h hr hl
  refine ⟨?_, fun a => ?_⟩
  · obtain ⟨h1, h2, h3, _⟩ := h
    revert h1 h2 h3 p1 p2
    cases s.pos with
    | neutral =>
      cases t.pos <;> simp only [PosWF, Position.quantity, Position.entryPrice,
        Position.outstandingFees] <;> intros <;> first | rfl | omega
    | long p =>
      cases t.pos <;> simp only [PosWF, Position.quantity, Position.entryPrice,
        Position.outstandingFees] <;> intros
      · omega
      · next q _ _ a b d => cases p; cases q; simp_all
      · omega
    | short p =>
      cases t.pos <;> simp only [PosWF, Position.quantity, Position.entryPrice,
        Position.outstandingFees] <;> intros
      · omega
      · omega
      · next q _ _ a b d => cases p; cases q; simp_all
  · cases a with
    | wallet => rw [w1, w2, hw]
    | treasury => have := h.2.2.2.2; omega
    | orderMargin => exact hr
    | positionMargin => exact hl
    | exchangeFee => exact h.2.2.2.1
    | broker => simp only [Accounts.balance, Accounts.get, b1, b2]

/-- C99: leave out every call that was turned down, give the calls that name orders the ids these
orders have in the shorter history, and every remaining call gets the same answer, up to these
ids; quotes, position, all balances and the active orders are the same in the end. In particular no
call that is turned down can make another one panic or succeed. -/
theorem C99_no_trace (c : Cfg) (ops : List Op) (s : State) (tr : List (Op × Resp))
    (hc : soundConfig c) (hu : ∀ op ∈ ops, namesNone op)
    (h : history c (State.init c) ops = .ok (s, tr)) :
    ∃ (f : Nat → Nat) (s' : State),
      history c (State.init c) ((tr.filter effective).map (fun t => Rename.op f t.1)) =
        .ok (s', (tr.filter effective).map (fun t => (Rename.op f t.1, Rename.resp f t.2))) ∧
      s'.ms = s.ms ∧ s'.pos = s.pos ∧ (∀ a, s'.acct.balance a = s.acct.balance a) ∧
      s'.active = s.active.map (Rename.limit f) := by
  have h1 := C65_history c ops s tr hc.2.2.2.2 h
  have ha : Ref.Exchange.new.allReturn c ops := by
    apply Decidable.byContradiction
    intro hn
    obtain ⟨p, hp⟩ := (C88_history c ops hc).2 hn
    rw [h] at hp; cases hp
  obtain ⟨f, m, _, h2, h3⟩ := clean_calls c ops Ref.Exchange.new id 0
    ⟨by simp [Ref.Exchange.new], by simp [Ref.Exchange.new], fun o ho => by simp [Ref.Exchange.new] at ho⟩
    hu
  rw [h1] at h2 h3
  have e0 : ren id 0 Ref.Exchange.new = Ref.Exchange.new := rfl
  rw [e0] at h2 h3
  obtain ⟨s', tr', h4, h5⟩ := (C88_history c _ hc).1 (h3 ha)
  rw [h2] at h5
  simp only [Prod.mk.injEq] at h5
  obtain ⟨h5, rfl⟩ := h5
  have hs : Reachable c s := ⟨ops, history_run h⟩
  have hs' : Reachable c s' := ⟨_, history_run h4⟩
  have hv := view_same hs' hs (by rw [← h5]; rfl) (by rw [← h5]; rfl) (by rw [← h5]; rfl)
  refine ⟨f, s', h4, ?_, hv.1, hv.2, ?_⟩
  · have := congrArg Ref.Exchange.market h5; exact this.symm
  · have := congrArg Ref.Exchange.orders h5; exact this.symm

/-- A bid for more than the wallet holds, an order that rests, a cancellation of an id that was
never given out, an amendment of the resting order, a sell limit that would cross, and the
cancellation of the amended order. -/
def Ex.noise : List Op :=
  [.update (.bba ⟨Ex.d 100, Ex.d 101, 1⟩), .limit .buy (Ex.d 95) (Ex.d 2000) 1,
   .limit .buy (Ex.d 95) (Ex.d 2) 2, .cancel (.orderId 17),
   .amend 1 .buy (Ex.d 96) (Ex.d 3) 3, .limit .sell (Ex.d 99) (Ex.d 1) 4, .market .buy (Ex.d 1000) 5,
   .limit .buy (Ex.d 94) (Ex.d 1) 6, .cancel (.orderId 2)]

/-- The hypotheses are met. Four of the nine calls are turned down; without them the orders have
the ids 0, 1 and 2 instead of 1, 2 and 5. -/
example : soundConfig Ex.lin ∧ (∀ op ∈ Ex.noise, namesNone op) ∧
    (match history Ex.lin (State.init Ex.lin) Ex.noise,
        history Ex.lin (State.init Ex.lin)
          [.update (.bba ⟨Ex.d 100, Ex.d 101, 1⟩), .limit .buy (Ex.d 95) (Ex.d 2) 2,
           .amend 0 .buy (Ex.d 96) (Ex.d 3) 3, .limit .buy (Ex.d 94) (Ex.d 1) 6,
           .cancel (.orderId 1)] with
     | .ok (s, tr), .ok (s', tr') =>
        decide (tr.map effective = [true, false, true, false, true, false, false, true, true] ∧
        s.active.map Limit.id = [5] ∧ s'.active = s.active.map (fun o => { o with id := 2 }) ∧
        tr'.length = 5 ∧ s'.acct.balance .wallet = s.acct.balance .wallet)
     | _, _ => false) = true := by
  refine ⟨by unfold soundConfig; decide, by simp [Ex.noise, namesNone, isCustom, mayFill], ?_⟩
  decide +kernel

/-- C99: an amendment that fails is not such a call. Leaving it out, the order it was meant to
change is still active. -/
theorem C99_failed_amendments_count : ∃ (c : Cfg) (ops : List Op) (op : Op) (s s' : State) (tr : _)
    (err : Error), soundConfig c ∧ history c (State.init c) ops = .ok (s, tr) ∧
    step c s op = .ok (s', .limit (.error err)) ∧ s.active.length = 1 ∧ s'.active = [] := by
  let ops : List Op := [.update (.bba ⟨Ex.d 100, Ex.d 101, 1⟩), .limit .buy (Ex.d 95) (Ex.d 2) 2]
  let op : Op := .amend 0 .buy (Ex.d 95) (Ex.d 2000) 2
  refine ⟨Ex.lin, ops, op, _, _, _, .risk .notEnoughAvailableBalance, by unfold soundConfig; decide,
    rfl, rfl, by decide +kernel, by decide +kernel⟩

end Lfest
