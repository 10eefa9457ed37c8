import Verif.Lemmas.Rounding
import Verif.Props.Margin

/-!
# C27 with equal prices: how far rounding can raise the requirement
-/

namespace Lfest

open Spec

/-- C27, any prices: removing an order, in whatever way the remaining orders are rearranged, raises
the margin requirement by at most one unit in the last place per remaining order. -/
theorem C27_rounding_bound (c : Cfg) (xs ys os' : List Limit) (o : Limit) (pos : Int)
    (hi : 0 ≤ c.spec.initMarginReq) (h1 : c.spec.initMarginReq ≤ c.scale)
    (hg : ∀ x ∈ xs ++ o :: ys, 0 < x.price ∧ 0 ≤ x.remaining) (hp : os'.Perm (xs ++ ys)) :
    marginReq c os' pos ≤ marginReq c (xs ++ o :: ys) pos + os'.length :=
  marginReq_remove_rounding hi h1 hg hp

/-- C27 for the API, any prices: when the order margin balance is in line, a cancellation that
names an active order succeeds, or it panics on the assertion that the margin does not rise. In
the second case the remaining orders need more than is held, but by at most one unit in the last
place per remaining order. -/
theorem C27_cancel_outcome (c : Cfg) (s : State) (b : CancelBy) (hr : Reachable c s)
    (hcap : c.maxOpen ≤ 10000) (hi : 0 ≤ c.spec.initMarginReq ∧ c.spec.initMarginReq ≤ c.scale)
    (hline : inLine c s) (hex : ∃ o ∈ s.active, named b o) :
    (∃ s' o, step c s (.cancel b) = .ok (s', .limit (.ok o))) ∨
    (step c s (.cancel b) = .error .cancelMarginIncrease ∧
      ∃ xs o ys os', s.active = xs ++ o :: ys ∧ named b o ∧ os'.Perm (xs ++ ys) ∧
        marginReq c s.active s.pos.quantity < marginReq c os' s.pos.quantity ∧
        marginReq c os' s.pos.quantity ≤ marginReq c s.active s.pos.quantity + os'.length) := by
  have hI := hr.inv
  have hg : GoodOrders s.active := fun x hx => by
    have := hI.orders x hx; exact ⟨this.price, Int.le_of_lt this.rem⟩
  have hw := hr.linv.wf
  have hrem : ∃ o b', s.active.removeCancel b = some (o, b') := by
    obtain ⟨o, ho, hn⟩ := hex
    cases hx : s.active.removeCancel b with
    | some r => exact ⟨r.1, r.2, rfl⟩
    | none =>
      exfalso
      cases b with
      | orderId id =>
        have := removeBy_none.1 (hx : Book.removeBy _ _ = none) o ho
        simp [named] at hn; simp [hn] at this
      | userOrderId id =>
        have := removeBy_none.1 (hx : Book.removeBy _ _ = none) o ho
        simp [named] at hn; simp [hn] at this
  obtain ⟨o, b', hb'⟩ := hrem
  obtain ⟨xs, ys, hxy, hp⟩ := removeCancel_some hb'
  have hn : named b o := by
    cases b with
    | orderId id =>
      obtain ⟨_, _, _, h2, _⟩ := removeBy_some (hb' : Book.removeBy _ _ = _)
      simpa [named] using h2
    | userOrderId id =>
      obtain ⟨_, _, _, h2, _⟩ := removeBy_some (hb' : Book.removeBy _ _ = _)
      simpa [named] using h2
  have hgb : GoodOrders b' := by
    refine GoodOrders.perm (fun x hx => hg x ?_) hp.symm
    rw [hxy]
    simp only [List.mem_append, List.mem_cons] at hx ⊢
    rcases hx with h | h <;> simp [h]
  have hbd : marginReq c b' s.pos.quantity ≤ marginReq c s.active s.pos.quantity + b'.length := by
    rw [hxy] at hg ⊢
    exact marginReq_remove_rounding hi.1 hi.2 hg hp
  have hsums : s.acct.debitSum = s.acct.creditSum := hr.linv.sums
  have hsync := hI.sync hcap
  unfold inLine at hline
  by_cases hle : marginReq c b' s.pos.quantity ≤ marginReq c s.active s.pos.quantity
  · left
    have href : ∃ a, refund c.env s.acct (s.acct.balance .orderMargin)
        (marginReq c b' s.pos.quantity) = .ok a ∧
        a.balance .orderMargin = marginReq c b' s.pos.quantity := by
      unfold refund
      split
      · next hlt =>
        obtain ⟨a, ha⟩ := transfer_total (e := c.env) (d := .wallet) (c := .orderMargin) hsums
          (x := s.acct.balance .orderMargin - marginReq c b' s.pos.quantity) (by omega) (by simp)
        refine ⟨a, ha, ?_⟩
        rw [transfer_balance ha]; simp; omega
      · exact ⟨_, rfl, by omega⟩
    obtain ⟨a, ha, hab⟩ := href
    refine ⟨{ s with active := b', om := b', acct := a, log := .limitCancel :: s.log }, o, ?_⟩
    have : cancelLimit c s b =
        .ok ({ s with active := b', om := b', acct := a, log := .limitCancel :: s.log }, .ok o) := by
      simp only [cancelLimit, bind_ok, assertP_ok]
      refine ⟨_, by rw [hsync]; exact orderMargin_total c hw hg (fun _ => hi.2), (), hline, ?_⟩
      simp only [hb', bind_ok, assertP_ok]
      refine ⟨b', ?_, _, orderMargin_total c hw hgb (fun _ => hi.2), (), by omega, a, ha, (), rfl,
        (), ?_, rfl⟩
      · simp only [omRemove, bind_ok, expectSome_ok, hsync, ok_inj]
        exact ⟨_, hb', rfl⟩
      · rintro rfl
        rw [hab]
        simp [marginReq, sideValue, larger, share]
    simp only [step, this]
    rfl
  · right
    refine ⟨?_, xs, o, ys, b', hxy, hn, hp, by omega, hbd⟩
    have hm1 : orderMargin c.env c.spec.initMarginReq s.om s.pos =
        .ok (marginReq c s.active s.pos.quantity) := by
      rw [hsync]; exact orderMargin_total c hw hg (fun _ => hi.2)
    have hm2 : orderMargin c.env c.spec.initMarginReq b' s.pos =
        .ok (marginReq c b' s.pos.quantity) := orderMargin_total c hw hgb (fun _ => hi.2)
    have hrm : omRemove s.om b = .ok b' := by
      simp only [omRemove, bind_ok, expectSome_ok, hsync, ok_inj]
      exact ⟨_, hb', rfl⟩
    have hno : ¬ marginReq c b' s.pos.quantity ≤ s.acct.balance .orderMargin := by omega
    have : cancelLimit c s b = .error .cancelMarginIncrease := by
      unfold cancelLimit
      simp only [hm1, hline, hb', hrm]
      simp only [assertP, bind, Except.bind, if_true, hm2, hle, if_false]
    simp only [step, this]
    rfl

/-- The panicking cancellation of `C27_cancel_raises` is of the second kind: the two remaining
orders need 0.3 instead of 0.2. -/
example : Ex.after Ex.tick Ex.tickOps (fun s =>
    decide (s.acct.balance .orderMargin = marginReq Ex.tick s.active s.pos.quantity ∧
      marginReq Ex.tick s.active s.pos.quantity = 2 ∧ s.active.length = 3 ∧
      marginReq Ex.tick ((s.active.drop 2).take 1 ++ (s.active.drop 1).take 1) s.pos.quantity = 3 ∧
      ∃ o ∈ s.active, o.id = 1)) = true := by
  decide +kernel

end Lfest
