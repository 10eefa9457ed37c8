import Verif.Lemmas.Terms
import Verif.Props.Ledger

/-!
# Better terms: C93
-/

namespace Lfest

open Spec

theorem better_history {c c' : Cfg} (hc : soundConfig c) (hc' : soundConfig c')
    (hb : BetterTerms c c') (ops : List Op) : ∀ {s t s1 : State} {tr}, Reachable c s →
      Reachable c' t → OnBetter c c' (Ref.view c s) (Ref.view c' t) →
      history c s ops = .ok (s1, tr) → (∀ x ∈ tr, turnedDown x.2 = false) →
      ∃ t1, history c' t ops = .ok (t1, tr) ∧ OnBetter c c' (Ref.view c s1) (Ref.view c' t1) := by
  induction ops with
  | nil =>
    intro s t s1 tr _ _ h hh _
    simp only [history, ok_inj, Prod.mk.injEq] at hh
    obtain ⟨rfl, rfl⟩ := hh
    exact ⟨t, rfl, h⟩
  | cons op ops ih =>
    intro s t s1 tr hr ht h hh hd
    simp only [history, bind_ok, ok_inj, Prod.mk.injEq] at hh
    obtain ⟨⟨s2, x⟩, h1, ⟨s3, tr2⟩, h2, rfl, rfl⟩ := hh
    have e1 := C65_every_call c s s2 op x hc.2.2.2.2 hr h1
    have hp : ∀ o ∈ (Ref.view c s).orders, 0 < o.price := fun o ho => (hr.inv.orders o ho).price
    obtain ⟨k1, k2, k3⟩ := h.call hb hp ((C88_returns c s op hc hr).1 ⟨_, _, h1⟩)
      (by rw [e1]; exact hd (op, x) (by simp))
    obtain ⟨t2, y, h1'⟩ := (C88_returns c' t op hc' ht).2 k3
    have e2 := C65_every_call c' t t2 op y hc'.2.2.2.2 ht h1'
    rw [e1, e2] at k1 k2
    simp only at k1 k2
    subst k2
    obtain ⟨t3, h3, h4⟩ := ih (hr.step h1) (ht.step h1') k1 h2 (fun z hz => hd z (by simp [hz]))
    refine ⟨t3, ?_, h4⟩
    simp only [history, h1', bind, Except.bind, h3]

/-- C93: a history in which no order was turned down by the filters, for lack of funds or for lack of
a place goes the same way on better terms: same responses, so same orders and fills, same position and
realised profit, same margins. Fees paid are no higher, and the wallet is higher by the additional
starting money and the fees saved. With the same fees everything but the wallet is the same. -/
theorem C93_better_terms (c c' : Cfg) (ops : List Op) (s : State) (tr : List (Op × Resp))
    (hc : soundConfig c) (hc' : soundConfig c') (hb : BetterTerms c c')
    (h : history c (State.init c) ops = .ok (s, tr)) (hd : ∀ x ∈ tr, turnedDown x.2 = false) :
    ∃ s', history c' (State.init c') ops = .ok (s', tr) ∧
      s'.ms = s.ms ∧ s'.active = s.active ∧ s'.nextId = s.nextId ∧
      s'.pos.quantity = s.pos.quantity ∧ s'.pos.entryPrice = s.pos.entryPrice ∧
      s'.acct.balance .orderMargin = s.acct.balance .orderMargin ∧
      s'.acct.balance .positionMargin = s.acct.balance .positionMargin ∧
      s'.feesPaid ≤ s.feesPaid ∧
      s'.acct.balance .wallet =
        s.acct.balance .wallet + (c'.start - c.start) + (s.feesPaid - s'.feesPaid) ∧
      (c'.spec.feeMaker = c.spec.feeMaker → c'.spec.feeTaker = c.spec.feeTaker →
        s'.feesPaid = s.feesPaid ∧ s'.pos.outstandingFees = s.pos.outstandingFees) := by
  have h0 : OnBetter c c' (Ref.view c (State.init c)) (Ref.view c' (State.init c')) := by
    have : Ref.view c' (State.init c') = Ref.view c (State.init c) := by
      simp only [Ref.view, State.init, Accounts.new, Accounts.balance, Accounts.get, TAccount.net]
      congr 2
      omega
    rw [this]
    exact OnBetter.refl _ _ _
  obtain ⟨s', h', hv⟩ := better_history hc hc' hb ops ⟨[], rfl⟩ ⟨[], rfl⟩ h0 h hd
  refine ⟨s', h', hv.market, hv.orders, hv.next, hv.qty, hv.entry, hv.reserved, hv.locked, hv.paid,
    ?_, ?_⟩
  · have hr : Reachable c s := ⟨ops, history_run h⟩
    have hr' : Reachable c' s' := ⟨ops, history_run h'⟩
    have := hv.wallet
    rw [view_wallet hr.linv, view_wallet hr'.linv] at this
    exact this
  · intro a b
    have := hv.same a b
    exact ⟨congrArg (fun x => x.book.paid) this, congrArg (fun x => x.book.owed) this⟩

/-- Better terms for `Ex.lin`: twice the money, more places, a rebate for makers, a lower taker fee,
half the step for quantities, another sampling interval. -/
def Ex.generous : Cfg :=
  { Ex.lin with start := 2 * Ex.lin.start, maxOpen := 20, sampleSecs := 60
                spec := { Ex.lin.spec with feeMaker := -10, feeTaker := 30
                                           quantityFilter := ⟨none, none, 500⟩ } }

theorem Ex.generous_better : BetterTerms Ex.lin Ex.generous where
  env := rfl
  money := by decide
  places := by decide
  initial := rfl
  maintenance := rfl
  maker := by decide
  taker := by decide
  quantities q h := by
    obtain ⟨h1, h2, h3⟩ := h
    refine ⟨h1, ⟨by simp [Ex.generous], by simp [Ex.generous]⟩, ?_⟩
    simp only [onGrid, Ex.generous, Ex.lin] at h3 ⊢
    exact Int.dvd_trans (by decide) h3
  prices _ _ h := h
  updates _ h := h

/-- The hypotheses are met by a history with fills of limit and market orders, a rejection that is no
matter of terms (a limit order that crosses) and a liquidation. -/
example : (match history Ex.lin (State.init Ex.lin) (Ex.ops3 ++ [.limit .buy (Ex.d 120) (Ex.d 1) 0,
      .update (.bba ⟨Ex.d 180, Ex.d 181, 9⟩)]) with
    | .ok (s, tr) => tr.all (fun x => !turnedDown x.2) && tr.any (fun x => !Ex.isOk x.2) &&
        decide (s.pos.quantity = 0 ∧ 0 < s.feesPaid)
    | .error _ => false) = true ∧ soundConfig Ex.lin ∧ soundConfig Ex.generous := by
  refine ⟨by decide +kernel, ?_, ?_⟩ <;> unfold soundConfig <;> decide

/-- Rest a sell of 3 at 110, buy 2 at market, cancel. -/
def Ex.refused : List Op :=
  [.update (.bba ⟨Ex.d 100, Ex.d 101, 1⟩), .limit .sell (Ex.d 110) (Ex.d 3) 0,
   .market .buy (Ex.d 2) 0, .cancel (.orderId 0)]

/-- C93 does not hold without the condition: more money can make a history panic. An order that
the poorer account is refused rests on the richer one; a market order then leaves its margin out of
line (C24), and the cancellation panics. -/
theorem C93_more_money_can_panic : ∃ c c' ops, soundConfig c ∧ soundConfig c' ∧ BetterTerms c c' ∧
    (∃ s tr, history c (State.init c) ops = .ok (s, tr)) ∧
    ∃ p, history c' (State.init c') ops = .error p := by
  have h1 : (match history { Ex.lin with start := Ex.d 300 }
      (State.init { Ex.lin with start := Ex.d 300 }) Ex.refused with
    | .ok _ => true
    | .error _ => false) = true := by decide +kernel
  have h2 : (match history Ex.lin (State.init Ex.lin) Ex.refused with
    | .ok _ => false
    | .error _ => true) = true := by decide +kernel
  refine ⟨{ Ex.lin with start := Ex.d 300 }, Ex.lin, Ex.refused, ?_, ?_, ?_, ?_, ?_⟩
  · unfold soundConfig; decide
  · unfold soundConfig; decide
  · exact ⟨rfl, by decide, Nat.le_refl _, rfl, rfl, Int.le_refl _, Int.le_refl _, fun _ h => h,
      fun _ _ h => h, fun _ h => h⟩
  · split at h1
    · next x hx => exact ⟨x.1, x.2, hx⟩
    · cases h1
  · split at h2
    · cases h2
    · next p hp => exact ⟨p, hp⟩

end Lfest
