import Verif.Lemmas.NoPanic
import Verif.Props.Margin
import Verif.Props.Validate
import Verif.Examples

/-!
# Calls that cannot panic: C66

Every panic of the code is an outcome `.error` of the model, so "the call returns" is
`∃ s' r, step c s op = .ok (s', r)`.
-/

namespace Lfest

open Spec

/-- C66: submitting a limit order never panics when the order margin is in line, whatever price
and quantity. -/
theorem C66_submit (c : Cfg) (s : State) (side : Side) (price qty : Int) (uid : Nat)
    (hc : soundConfig c) (hr : Reachable c s) (hline : inLine c s) :
    ∃ s' r, step c s (.limit side price qty uid) = .ok (s', r) := by
  obtain ⟨h1, h2, h3, h4, h5⟩ := hc
  simp only [step]
  cases hn : NewLimit.new side price qty uid with
  | error e => exact ⟨_, _, rfl⟩
  | ok o =>
    obtain ⟨hp, hq, rfl⟩ := newLimit_ok hn
    obtain ⟨s', r, h⟩ := submitLimit_total hr.inv hr.linv h5 h3 (fun _ => h4) h1 h2
      (o := ⟨uid, side, price, qty⟩) hp hq hline
    exact ⟨s', .limit r, by simp only [h]; rfl⟩

/-- C66: cancelling never panics when the order margin is in line and the orders that would reduce
the position have distinct prices. -/
theorem C66_cancel (c : Cfg) (s : State) (b : CancelBy) (hc : soundConfig c) (hr : Reachable c s)
    (hline : inLine c s)
    (hd : distinctPrices (s.active.filter (fun o => decide (0 < opposing s.pos.quantity o.side)))) :
    ∃ s' r, step c s (.cancel b) = .ok (s', r) := by
  obtain ⟨h1, h2, h3, h4, h5⟩ := hc
  by_cases hex : ∃ o ∈ s.active, named b o
  · obtain ⟨s', o, h⟩ := C27_cancel_succeeds c s b hr h5 ⟨h3, h4⟩ hline hd hex
    exact ⟨_, _, h⟩
  · have hg : GoodOrders s.active := fun x hx => by
      have := hr.inv.orders x hx; exact ⟨this.price, Int.le_of_lt this.rem⟩
    have hrm : s.active.removeCancel b = none := by
      rw [removeCancel_eq]
      refine removeBy_none.2 fun o ho => ?_
      cases hx : Ref.names b o with
      | false => rfl
      | true =>
        refine absurd ⟨o, ho, ?_⟩ hex
        cases b <;> simpa [Ref.names, named] using hx
    unfold inLine at hline
    refine ⟨s, .limit (.error (cancelError s b)), ?_⟩
    have : cancelLimit c s b = .ok (s, .error (cancelError s b)) := by
      have hm := orderMargin_total c (pos := s.pos) hr.linv.wf hg (fun _ => h4)
      simp only [cancelLimit, hr.inv.sync h5, hm, bind, Except.bind, assertP, hline, if_true, hrm]
    simp only [step, this]; rfl

/-- C66: amending never panics under the same conditions. -/
theorem C66_amend (c : Cfg) (s : State) (id : Nat) (side : Side) (price qty : Int) (uid : Nat)
    (hc : soundConfig c) (hr : Reachable c s) (hline : inLine c s)
    (hd : distinctPrices (s.active.filter (fun o => decide (0 < opposing s.pos.quantity o.side)))) :
    ∃ s' r, step c s (.amend id side price qty uid) = .ok (s', r) := by
  have hc' := hc
  obtain ⟨h1, h2, h3, h4, h5⟩ := hc
  simp only [step]
  cases hn : NewLimit.new side price qty uid with
  | error e => exact ⟨_, _, rfl⟩
  | ok o =>
    obtain ⟨hp, hq, rfl⟩ := newLimit_ok hn
    simp only [amendLimit]
    cases hg : s.active.getById id with
    | none => exact ⟨_, _, rfl⟩
    | some old =>
      obtain ⟨hmem, hid⟩ := getById_some hg
      have hwf := hr.inv.orders old hmem
      have ht : ∃ t, old.totalQuantity = .ok t := by
        have hrem := hwf.rem
        have hcum := hwf.cum
        simp only [Limit.filledQuantity] at hcum
        simp only [Limit.totalQuantity, assertP, bind, Except.bind]
        cases hf : old.fq with
        | unfilled => simp only; rw [if_pos hrem]; exact ⟨_, rfl⟩
        | filled cum avg =>
          simp only [hf] at hcum ⊢
          rw [if_pos (by omega)]; exact ⟨_, rfl⟩
      obtain ⟨t, ht⟩ := ht
      obtain ⟨s1, x, hcan⟩ := C27_cancel_succeeds c s (.orderId id) hr h5 ⟨h3, h4⟩ hline hd
        ⟨old, hmem, hid⟩
      have hcan' : cancelLimit c s (.orderId id) = .ok (s1, .ok x) := by
        simp only [step, bind_ok, ok_inj, Prod.mk.injEq] at hcan
        obtain ⟨⟨s2, r⟩, h, rfl, h'⟩ := hcan
        simp only [Resp.limit.injEq] at h'; subst h'; exact h
      simp only [ht, hcan', bind, Except.bind]
      by_cases hle : old.remaining + ((⟨uid, side, price, qty⟩ : NewLimit).totalQuantity - t) ≤ 0
      · rw [if_pos hle]; exact ⟨_, _, rfl⟩
      · rw [if_neg hle]
        have hr1 := hr.step hcan
        have hl1 : inLine c s1 := by
          rcases cancelLimit_margin hr.inv hr.linv.wf hcan' with ⟨_, he, _⟩ | ⟨_, _, hm⟩
          · simp at he
          · exact hm
        obtain ⟨s', r, h⟩ := submitLimit_total hr1.inv hr1.linv h5 h3 (fun _ => h4) h1 h2
          (o := ⟨uid, side, price, old.remaining + ((⟨uid, side, price, qty⟩ : NewLimit).totalQuantity - t)⟩)
          hp (by simp only; omega) hl1
        refine ⟨s', .limit r, ?_⟩
        simp only [NewLimit.setRemaining, assertP, bind, Except.bind]
        rw [if_pos (by omega)]
        simp only [h]

theorem quotes_step {c : Cfg} {s : State} {b : Bba} (hd : c.env.debug = true →
    c.spec.priceFilter.tickSize ≠ 0 ∧ updateOk c.spec.priceFilter (.bba b))
    (hn : s.pos = .neutral) : ∃ s' x, step c s (.update (.bba b)) = .ok (s', .update (.ok x)) := by
  have hobs : ∃ s1, observe c s (.bba b) = .ok s1 := by
    simp only [observe, MarketState.update, debugValidate]
    cases hdb : c.env.debug with
    | false => exact ⟨_, rfl⟩
    | true =>
      obtain ⟨u, hb, hv⟩ := (debug_valid (f := c.spec.priceFilter) (a := .bba b) (hd hdb).1).2 (hd hdb).2
      simp only [UpdateArg.build, ok_inj] at hb; subst hb
      simp only [hv, if_true, bind, Except.bind]
      exact ⟨_, rfl⟩
  obtain ⟨s1, h1⟩ := hobs
  obtain ⟨_, e2, _⟩ := observe_fields h1
  simp only [step, UpdateArg.build, updateState, h1, bind, Except.bind, e2, hn, checkMaintenanceMargin]
  simp only [checkActive, Update.canFill, if_true]
  exact ⟨_, _, rfl⟩

/-- C66, whole histories: an exchange that only sees limit orders, cancellations, amendments and
quotes never panics, whatever their arguments. (Debug builds insist on valid quotes.) -/
theorem C66_quoting_never_panics (c : Cfg) (ops : List Op) (hc : soundConfig c)
    (hq : ∀ op ∈ ops, quoting op)
    (hd : c.env.debug = true → ∀ b, .update (.bba b) ∈ ops → updateOk c.spec.priceFilter (.bba b)) :
    ∃ s, run c (State.init c) ops = .ok s := by
  have hc' := hc
  obtain ⟨h1, h2, h3, h4, h5⟩ := hc'
  suffices h : ∀ (ops : List Op) (s : State), Reachable c s → inLine c s → s.pos = .neutral →
      (∀ op ∈ ops, quoting op) →
      (c.env.debug = true → ∀ b, .update (.bba b) ∈ ops → updateOk c.spec.priceFilter (.bba b)) →
      ∃ s', run c s ops = .ok s' by
    refine h ops _ ⟨[], rfl⟩ ?_ rfl hq hd
    simp [inLine, State.init, Accounts.new, Accounts.balance, Accounts.get, TAccount.net, marginReq,
      sideValue, larger, share]
  intro ops
  induction ops with
  | nil => intro s _ _ _ _ _; exact ⟨s, rfl⟩
  | cons op ops ih =>
    intro s hr hl hn hq hd
    have hdist : distinctPrices (s.active.filter (fun o => decide (0 < opposing s.pos.quantity o.side))) := by
      have : s.active.filter (fun o => decide (0 < opposing s.pos.quantity o.side)) = [] := by
        rw [List.filter_eq_nil_iff]
        intro o _
        rw [hn]
        cases o.side <;> simp [opposing, Position.quantity, larger]
      rw [this]; exact List.Pairwise.nil
    have hop := hq op (by simp)
    have hstep : ∃ s' r, step c s op = .ok (s', r) ∧ quiet op r ∧ ¬ taker op r := by
      cases op with
      | limit side p q uid =>
        obtain ⟨s', r, h⟩ := C66_submit c s side p q uid hc hr hl
        exact ⟨s', r, h, by simp [quiet], by simp [taker]⟩
      | cancel b =>
        obtain ⟨s', r, h⟩ := C66_cancel c s b hc hr hl hdist
        exact ⟨s', r, h, by simp [quiet], by simp [taker]⟩
      | amend id side p q uid =>
        obtain ⟨s', r, h⟩ := C66_amend c s id side p q uid hc hr hl hdist
        exact ⟨s', r, h, by simp [quiet], by simp [taker]⟩
      | update u =>
        cases u with
        | bba b =>
          obtain ⟨s', x, h⟩ := quotes_step (s := s) (fun h => ⟨h2, hd h b (by simp)⟩) hn
          exact ⟨s', _, h, by simp [quiet], by simp [taker]⟩
        | _ => simp [quoting] at hop
      | _ => simp [quoting] at hop
    obtain ⟨s', r, hst, hqr, htk⟩ := hstep
    have hno : ∀ u, op = .update u ∨ op = .checkActive u → ∀ o ∈ s.active, fillRule u o = none := by
      rintro u (rfl | rfl) o _
      · cases u <;> simp [quoting] at hop
        rfl
      · simp [quoting] at hop
    have hpos := (C03_only_fills_change_equity c s s' _ _ hst (C03_quiet_calls c s s' _ _ hst hqr)).2.2.1
    have hl' : inLine c s' := by
      refine C24_order_margin_in_line c s s' op r hr h5 h3 hl htk (.inr ?_) hst
      cases op with
      | update u => exact .inl (hno u (.inl rfl))
      | checkActive u => exact .inl (hno u (.inr rfl))
      | _ => trivial
    obtain ⟨s2, hs2⟩ := ih s' (hr.step hst) hl' (hpos.trans hn) (fun x hx => hq x (by simp [hx]))
      (fun h b hb => hd h b (by simp [hb]))
    exact ⟨s2, by simp only [run, hst, bind, Except.bind, hs2]⟩

/-- The configurations used in the examples are sound, and after `Ex.ops2` (a long position, a
partly filled sell and a buy) the order margin is in line and the reducing orders have distinct
prices. -/
example : soundConfig Ex.lin ∧ soundConfig Ex.linR ∧ soundConfig Ex.inv ∧ soundConfig Ex.fine := by
  unfold soundConfig; decide

example : Ex.after Ex.lin Ex.ops2 (fun s => decide (s.active.length = 2 ∧ s.pos.quantity ≠ 0 ∧
    s.acct.balance .orderMargin = marginReq Ex.lin s.active s.pos.quantity ∧
    distinctPrices (s.active.filter (fun o => decide (0 < opposing s.pos.quantity o.side))))) = true := by
  decide +kernel

/-- A history of quoting calls with valid quotes: orders are placed, rejected, amended and cancelled. -/
example : (∀ op ∈ [Op.update (.bba ⟨Ex.d 100, Ex.d 101, 1⟩), .limit .buy (Ex.d 95) (Ex.d 2) 0,
      .limit .buy (Ex.d 105) (Ex.d 2) 0, .amend 1 .buy (Ex.d 96) (Ex.d 3) 0,
      .update (.bba ⟨Ex.d 90, Ex.d 91, 2⟩), .limit .sell (Ex.d 92) (Ex.d 1) 4, .cancel (.userOrderId 4)],
      quoting op) ∧
    updateOk Ex.lin.spec.priceFilter (.bba ⟨Ex.d 100, Ex.d 101, 1⟩) ∧
    updateOk Ex.lin.spec.priceFilter (.bba ⟨Ex.d 90, Ex.d 91, 2⟩) := by
  refine ⟨by simp [quoting], ?_, ?_⟩ <;>
    simp [updateOk, updateQuotes, updatePrice, Ex.lin, PriceFilter.default, Ex.d] <;> omega

/-- Outside the hypotheses the calls do panic: after a market order the order margin account is not
in line, and the next cancellation fails an assertion. -/
theorem C66_market_order_then_cancel_panics :
    ∃ s p, Reachable Ex.lin s ∧ step Ex.lin s (.cancel (.orderId 1)) = .error p := by
  obtain ⟨s, hr, hs⟩ := Ex.panics_reach (c := Ex.lin)
    (ops := [.update (.bba ⟨Ex.d 100, Ex.d 101, 1⟩), .limit .sell (Ex.d 110) (Ex.d 3) 1,
      .market .buy (Ex.d 3) 0]) (op := .cancel (.orderId 1)) (p := .cancelMarginMismatch) (by decide +kernel)
  exact ⟨s, _, hr, hs⟩

end Lfest
