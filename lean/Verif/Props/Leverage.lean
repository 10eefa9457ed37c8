import Verif.Lemmas.Leverage

/-!
# Margin in use and leverage (C76)
-/

namespace Lfest

open Spec

/-- The linear example contract with leverage 10. -/
def Ex.lev10 : Cfg := { Ex.lin with spec := { Ex.lin.spec with initMarginReq := 10000 } }

/-- C76: the order margin balance is never negative. -/
theorem C76_order_margin_nonneg (c : Cfg) (s : State) (hcap : c.maxOpen ≤ 10000)
    (hi : 0 ≤ c.spec.initMarginReq) (hr : Reachable c s) : 0 ≤ s.acct.balance .orderMargin :=
  (hr.reserved hcap hi).2

/-- C76: while the wallet is not negative, the margin in use for position and orders is covered by
the starting balance plus realised profit minus fees paid. -/
theorem C76_margin_in_use (c : Cfg) (s : State) (hr : Reachable c s)
    (hw : 0 ≤ s.acct.balance .wallet) :
    s.acct.balance .positionMargin + s.acct.balance .orderMargin ≤
      c.start + (ledger c (fills s.log)).realised - (ledger c (fills s.log)).paid := by
  obtain ⟨ops, h⟩ := hr
  obtain ⟨h1, h2⟩ := C02_equity c ops s h
  unfold equity at h1
  omega

/-- C76: in a linear contract the leverage of an account with a non-negative wallet is limited:
quantity times entry price times the initial margin rate is at most the starting balance plus
realised profit minus fees paid minus the margin reserved for orders, up to the rounding of each
fill. -/
theorem C76_leverage (c : Cfg) (s : State) (hk : c.env.kind = .linear)
    (hi : 0 ≤ c.spec.initMarginReq) (hr : Reachable c s) (hw : 0 ≤ s.acct.balance .wallet) :
    Spec.abs s.pos.quantity * s.pos.entryPrice * c.spec.initMarginReq ≤
      (c.start + (ledger c (fills s.log)).realised - (ledger c (fills s.log)).paid -
        s.acct.balance .orderMargin) * c.scale * c.scale + Ref.rounding c (fills s.log) := by
  have h1 := C76_margin_in_use c s hr hw
  have h2 := C11_margin_of_position c s hk hi hr
  have hs : 0 ≤ c.scale := Int.le_of_lt (scale_pos c.env)
  have h3 := Int.mul_le_mul_of_nonneg_right (Int.mul_le_mul_of_nonneg_right
    (show s.acct.balance .positionMargin ≤ c.start + (ledger c (fills s.log)).realised -
      (ledger c (fills s.log)).paid - s.acct.balance .orderMargin by omega) hs) hs
  generalize Spec.abs s.pos.quantity * s.pos.entryPrice * c.spec.initMarginReq = y at *
  unfold Spec.abs at h2
  split at h2 <;> omega

/-- An open position, resting orders and little rounding. -/
example : Ex.after Ex.lin Ex.ops2 (fun s => decide (0 ≤ s.acct.balance .wallet ∧
    s.pos.quantity ≠ 0 ∧ 0 < s.acct.balance .orderMargin ∧
    0 < s.acct.balance .positionMargin ∧
    Ref.rounding Ex.lin (fills s.log) ≤ 60 * Ex.lin.scale * Ex.lin.scale)) = true := by
  decide +kernel

/-- The wallet has to be non-negative: after a losing partial sale (C23) position margin remains
although the account has lost everything. -/
theorem C76_needs_wallet : ∃ s, Reachable Ex.lev10 s ∧ s.acct.balance .wallet < 0 ∧
    Ex.lev10.start + (ledger Ex.lev10 (fills s.log)).realised - (ledger Ex.lev10 (fills s.log)).paid <
      s.acct.balance .positionMargin := by
  have h : Ex.after Ex.lev10 [.update (.bba ⟨Ex.d 99, Ex.d 100, 1⟩), .market .buy (Ex.d 90) 0,
      .update (.bba ⟨Ex.d 60, Ex.d 61, 2⟩), .market .sell (Ex.d 80) 0]
      (fun s => decide (s.acct.balance .wallet < 0 ∧
        Ex.lev10.start + (ledger Ex.lev10 (fills s.log)).realised - (ledger Ex.lev10 (fills s.log)).paid <
          s.acct.balance .positionMargin)) = true := by
    decide +kernel
  obtain ⟨s, h1, h2⟩ := Ex.after_reach h
  exact ⟨s, h1, by simpa using h2⟩

end Lfest
