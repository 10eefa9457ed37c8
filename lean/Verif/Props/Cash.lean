import Verif.Lemmas.Cash
import Verif.Props.Ledger
import Verif.Props.Panics
import Verif.Props.Margin

/-!
# Profit and cash flow (C68, C69)
-/

namespace Lfest

open Spec

/-! ## C68 -/

/-- C68, linear contracts: what the account has gained before fees is the proceeds of everything
sold minus the cost of everything bought plus the cost of the open position, up to the rounding of
each fill. -/
theorem C68_cash_flow (c : Cfg) (ops : List Op) (s : State) (hk : c.env.kind = .linear)
    (h : run c (State.init c) ops = .ok s) :
    Spec.abs ((equity s - c.start + s.feesPaid) * c.scale -
      (s.pos.quantity * s.pos.entryPrice - spent (fills s.log))) ≤
      profitRounding c (fills s.log) := by
  have hr : Reachable c s := ⟨ops, h⟩
  obtain ⟨_, h1, h2⟩ := cash_bounds hk (fills s.log) hr.fill_price
  have hl := hr.linv.ledger
  have e1 : s.pos.quantity = (ledger c (fills s.log)).qty := by
    have := congrArg Ledger.qty hl; simpa [ledgerOf, State.core] using this
  have e2 : s.pos.entryPrice = (ledger c (fills s.log)).entry := by
    have := congrArg Ledger.entry hl; simpa [ledgerOf, State.core] using this
  have e3 : equity s - c.start + s.feesPaid = (ledger c (fills s.log)).realised := by
    have := (C02_equity c ops s h).1; omega
  rw [e1, e2, e3]
  generalize (ledger c (fills s.log)).qty * (ledger c (fills s.log)).entry = x at *
  generalize (ledger c (fills s.log)).realised * c.scale = y at *
  unfold Spec.abs
  split <;> omega

/-- C68: a flat account has gained the proceeds of everything sold minus the cost of everything
bought minus fees, up to rounding. -/
theorem C68_flat (c : Cfg) (ops : List Op) (s : State) (hk : c.env.kind = .linear)
    (h : run c (State.init c) ops = .ok s) (hf : s.pos = .neutral) :
    Spec.abs ((equity s - c.start + s.feesPaid) * c.scale + spent (fills s.log)) ≤
      profitRounding c (fills s.log) := by
  have := C68_cash_flow c ops s hk h
  rw [hf] at this
  simp only [Position.quantity, Int.zero_mul] at this
  rw [show ∀ a b : Int, a - (0 - b) = a + b by intros; omega] at this
  exact this

/-- C68, marked to market: at any price, equity before fees plus the profit of the open position is
the sum, over all fills, of what each fill has gained at that price. How the fills were combined
into positions does not matter. -/
theorem C68_marked (c : Cfg) (ops : List Op) (s : State) (p : Int) (hk : c.env.kind = .linear)
    (h : run c (State.init c) ops = .ok s) :
    Spec.abs ((equity s - c.start + s.feesPaid) * c.scale +
      s.pos.quantity * (p - s.pos.entryPrice) -
      ((fills s.log).map (fun f => f.signed * (p - f.price))).sum) ≤
      profitRounding c (fills s.log) := by
  have h1 := C68_cash_flow c ops s hk h
  rw [← spent_at, ← (C06_position_quantity c ops s h).1]
  have : (equity s - c.start + s.feesPaid) * c.scale + s.pos.quantity * (p - s.pos.entryPrice) -
      (s.pos.quantity * p - spent (fills s.log)) = (equity s - c.start + s.feesPaid) * c.scale -
      (s.pos.quantity * s.pos.entryPrice - spent (fills s.log)) := by grind
  rw [this]
  exact h1

/-- Longs, shorts, a flip and a close at different prices. -/
def Ex.cash : List Op :=
  [Ex.q 100 101 1, .market .buy (Ex.d 3) 0, Ex.q 103 104 2, .market .buy (Ex.d 1) 0,
   Ex.q 106 107 3, .market .sell (Ex.d 2) 0, .market .sell (Ex.d 5) 0, Ex.q 99 100 4,
   .market .buy (Ex.d 3) 0]

/-- Buying 3 at 101, 1 at 104 and 3 at 100 and selling 7 at 106 gains 35 before fees, and the
account shows it. -/
example : Ex.after Ex.linR Ex.cash (fun s => decide (s.pos = .neutral ∧
      (fills s.log).length = 5 ∧ spent (fills s.log) = -(Ex.d 35) * Ex.linR.scale ∧
      equity s - Ex.linR.start + s.feesPaid = Ex.d 35)) = true := by decide +kernel

/-- C68 is false for inverse contracts, where a fill is worth quantity over price: selling 1000 at
200 and 1000 at 100 and buying 2000 back at 101 earns 19.80198 - 5 - 10 = 4.80198, and the account
is credited with 6.46865. -/
theorem C68_inverse_mismatch : ∃ s, Reachable Ex.invR s ∧ s.pos = .neutral ∧
    fills s.log = [⟨false, .buy, Ex.d 101, Ex.d 2000⟩, ⟨false, .sell, Ex.d 100, Ex.d 1000⟩,
      ⟨false, .sell, Ex.d 200, Ex.d 1000⟩] ∧
    value Ex.invR.env (Ex.d 2000) (Ex.d 101) - value Ex.invR.env (Ex.d 1000) (Ex.d 100) -
      value Ex.invR.env (Ex.d 1000) (Ex.d 200) = 480198 ∧
    equity s - Ex.invR.start + s.feesPaid = 646865 := by
  have h : Ex.after Ex.invR [Ex.q 200 202 1, .market .sell (Ex.d 1000) 1, Ex.q 100 101 2,
      .market .sell (Ex.d 1000) 2, .market .buy (Ex.d 2000) 0]
      (fun s => decide (s.pos = .neutral ∧
        fills s.log = [⟨false, .buy, Ex.d 101, Ex.d 2000⟩, ⟨false, .sell, Ex.d 100, Ex.d 1000⟩,
          ⟨false, .sell, Ex.d 200, Ex.d 1000⟩] ∧
        equity s - Ex.invR.start + s.feesPaid = 646865)) = true := by
    decide +kernel
  obtain ⟨s, h1, h2⟩ := Ex.after_reach h
  simp only [decide_eq_true_eq] at h2
  exact ⟨s, h1, h2.1, h2.2.1, by decide, h2.2.2⟩

/-! ## C69 -/

/-- C69, linear contracts: an account that never bought below a price and never sold above it (as
when quotes stand still) has not gained anything by the time it is flat, up to the rounding of each
fill. -/
theorem C69_no_free_profit (c : Cfg) (ops : List Op) (s : State) (p : Int)
    (hk : c.env.kind = .linear) (h : run c (State.init c) ops = .ok s) (hf : s.pos = .neutral)
    (hp : ∀ f ∈ fills s.log, (f.side = .buy → p ≤ f.price) ∧ (f.side = .sell → f.price ≤ p)) :
    (equity s - c.start + s.feesPaid) * c.scale ≤ profitRounding c (fills s.log) := by
  have hr : Reachable c s := ⟨ops, h⟩
  have h1 := C68_flat c ops s hk h hf
  have h2 := spent_lower (fun f hf => (hr.fill_price f hf).2) hp
  have h3 := (C06_position_quantity c ops s h).1
  rw [← h3, hf] at h2
  simp only [Position.quantity, Int.zero_mul] at h2
  unfold Spec.abs at h1
  split at h1 <;> omega

/-- Five orders at standing quotes, flat at the end: the spread of 8 contracts is lost. -/
example : Ex.after Ex.linR ([Ex.q 100 101 1] ++ List.replicate 4 (.market .buy (Ex.d 2) 0) ++
      [.market .sell (Ex.d 8) 0])
      (fun s => decide (s.pos = .neutral ∧ (fills s.log).length = 5 ∧
        (∀ f ∈ fills s.log, (f.side = .buy → Ex.d 101 ≤ f.price) ∧
          (f.side = .sell → f.price ≤ Ex.d 101)) ∧
        equity s - Ex.linR.start + s.feesPaid = -(Ex.d 8))) = true := by decide +kernel

/-- C69: the allowance for rounding is not an artefact. One decimal place, quotes 1.1 and 1.2: buying
0.4 ten times at 1.2 and selling 4 at 1.1 costs 0.4; the account gains 0.4. -/
theorem C69_rounding_pump : ∃ s, Reachable { Ex.tick with env := { Ex.tick.env with debug := false } } s ∧
    s.pos = .neutral ∧ equity s = Ex.tick.start + 4 ∧
    (∀ f ∈ fills s.log, (f.side = .buy → f.price = 12) ∧ (f.side = .sell → f.price = 11)) := by
  have h : Ex.after { Ex.tick with env := { Ex.tick.env with debug := false } }
      ([.update (.bba ⟨11, 12, 1⟩)] ++ List.replicate 10 (.market .buy 4 0) ++ [.market .sell 40 0])
      (fun s => decide (s.pos = .neutral ∧ equity s = Ex.tick.start + 4 ∧
        (∀ f ∈ fills s.log, (f.side = .buy → f.price = 12) ∧ (f.side = .sell → f.price = 11)))) =
      true := by decide +kernel
  obtain ⟨s, h1, h2⟩ := Ex.after_reach h
  exact ⟨s, h1, by simpa using h2⟩

end Lfest
