import Verif.Lemmas.Dust
import Verif.Props.Safety
import Verif.Props.Panics

/-!
# C11 in release builds: how much position margin a flat account can hold
-/

namespace Lfest

open Spec

/-- C11: the position margin balance is determined by the fills alone: it starts at zero, a fill that
enlarges the position adds the initial margin of the fill at the fill price, a fill that reduces it
releases the initial margin of the fill at the entry price, a fill that flips it leaves the initial
margin of the new position. -/
theorem C11_position_margin (c : Cfg) (s : State) (hr : Reachable c s) :
    s.acct.balance .positionMargin = Ref.locked c (fills s.log) := hr.locked

/-- C11 for linear contracts, in every build and every history: the position margin is quantity
times entry price times the initial margin requirement, up to the rounding of each fill. -/
theorem C11_margin_of_position (c : Cfg) (s : State) (hk : c.env.kind = .linear)
    (hi : 0 ≤ c.spec.initMarginReq) (hr : Reachable c s) :
    Spec.abs (s.acct.balance .positionMargin * c.scale * c.scale -
      Spec.abs s.pos.quantity * s.pos.entryPrice * c.spec.initMarginReq) ≤
      Ref.rounding c (fills s.log) := by
  obtain ⟨_, h1, h2⟩ := locked_bounds hk hi (fills s.log) hr.fill_price
  have hl := hr.linv.ledger
  have e1 : s.pos.quantity = (ledger c (fills s.log)).qty := by
    have := congrArg Ledger.qty hl; simpa [ledgerOf, State.core] using this
  have e2 : s.pos.entryPrice = (ledger c (fills s.log)).entry := by
    have := congrArg Ledger.entry hl; simpa [ledgerOf, State.core] using this
  rw [hr.locked, e1, e2]
  generalize Ref.locked c (fills s.log) * c.scale * c.scale = x at *
  generalize Spec.abs (ledger c (fills s.log)).qty * (ledger c (fills s.log)).entry *
    c.spec.initMarginReq = y at *
  unfold Spec.abs
  split <;> omega

/-- C11 for linear contracts: the position margin a flat account holds is rounding of the fills,
nothing else. -/
theorem C11_flat_dust (c : Cfg) (s : State) (hk : c.env.kind = .linear)
    (hi : 0 ≤ c.spec.initMarginReq) (hr : Reachable c s) (hf : s.pos = .neutral) :
    Spec.abs (s.acct.balance .positionMargin) * c.scale * c.scale ≤
      Ref.rounding c (fills s.log) := by
  have h := C11_margin_of_position c s hk hi hr
  have hs : 0 < c.scale := scale_pos c.env
  rw [hf] at h
  simp only [Position.quantity, show Spec.abs 0 = 0 from rfl, Int.zero_mul, Int.sub_zero] at h
  have hp : ∀ m : Int, Spec.abs (m * c.scale * c.scale) = Spec.abs m * c.scale * c.scale := by
    intro m
    unfold Spec.abs
    by_cases h0 : 0 ≤ m
    · rw [if_pos h0, if_pos (Int.mul_nonneg (Int.mul_nonneg h0 (by omega)) (by omega))]
    · have h1 : m * c.scale < 0 := Int.mul_neg_of_neg_of_pos (by omega) hs
      have h2 : m * c.scale * c.scale < 0 := Int.mul_neg_of_neg_of_pos h1 hs
      rw [if_neg h0, if_neg (by omega), Int.neg_mul, Int.neg_mul]
  rw [hp] at h
  exact h

/-- The history of `C11_dust`: flat with a margin of 1 unit; three fills of 3, 1 and 4 contracts
allow for at most 24 units. -/
example : Ex.after { Ex.fine with env := { Ex.fine.env with debug := false } }
      (Ex.dust ++ [.market .sell (Ex.d 4) 0])
      (fun s => decide (s.pos = .neutral ∧ s.acct.balance .positionMargin = 1 ∧
        Ref.rounding Ex.fine (fills s.log) ≤ 24 * Ex.fine.scale * Ex.fine.scale)) = true := by
  decide +kernel

/-- In an inverse contract the margin left behind is not a matter of rounding: bought at 101 and at
202 and sold again, a flat account holds 1.66667 of margin, for good. -/
theorem C11_inverse_stuck : ∃ s, Reachable Ex.invR s ∧ s.pos = .neutral ∧
    s.acct.balance .positionMargin = 166667 := by
  have h : Ex.after Ex.invR [Ex.q 100 101 1, .market .buy (Ex.d 1010) 1, Ex.q 200 202 2,
      .market .buy (Ex.d 1010) 2, .market .sell (Ex.d 2020) 0]
      (fun s => decide (s.pos = .neutral ∧ s.acct.balance .positionMargin = 166667)) = true := by
    decide +kernel
  obtain ⟨s, h1, h2⟩ := Ex.after_reach h
  exact ⟨s, h1, by simpa using h2⟩

end Lfest
