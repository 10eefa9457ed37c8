import Verif.SpecTrips
import Verif.Lemmas.Split
import Verif.Lemmas.Prices
import Verif.Props.Ledger
import Verif.Props.Orders
import Verif.Props.Risk
import Verif.Props.Panics
import Verif.Lemmas.Safety
import Verif.Examples

/-!
# What a trade earns: C113
-/

namespace Lfest

open Spec

theorem ledger_trip {c : Cfg} {fs : List Fill} {f g : Fill} (h0 : (ledger c fs).qty = 0)
    (hq : 0 < f.qty) (hs : g.side = opposite f.side) (he : g.qty = f.qty) :
    (ledger c (g :: f :: fs)).qty = 0 ∧
    (ledger c (g :: f :: fs)).realised - (ledger c (g :: f :: fs)).paid =
      (ledger c fs).realised - (ledger c fs).paid + tradeResult c f g := by
  simp only [ledger]
  rw [fill_flat h0]
  unfold Ledger.fill tradeResult larger
  cases hf : f.side <;> rw [hf] at hs <;> simp only [opposite] at hs <;>
    simp only [Fill.signed, hf, hs, he, Spec.abs] <;> grind

theorem ledger_trips {c : Cfg} : ∀ (fs : List Fill), (∀ f ∈ fs, 0 < f.qty) → roundTrips fs →
    (ledger c fs).qty = 0 ∧ (ledger c fs).realised - (ledger c fs).paid = tradeResults c fs
  | [], _, _ => by simp [ledger, Ledger.empty, tradeResults]
  | [_], _, h => by simp [roundTrips] at h
  | g :: f :: fs, hp, h => by
    obtain ⟨h1, h2⟩ := ledger_trips fs (fun x hx => hp x (by simp [hx])) h.2.2
    obtain ⟨h3, h4⟩ := ledger_trip h1 (hp f (by simp)) h.1 h.2.1
    exact ⟨h3, by rw [h4, h2, tradeResults]; omega⟩

/-- C113: an account that opens every position with one fill and closes it with one fill is worth
exactly its starting balance plus the results of its trades, whatever else happened in between and
whatever rests in the book. -/
theorem C113_sum_of_trades (c : Cfg) (ops : List Op) (s : State)
    (h : run c (State.init c) ops = .ok s) (ht : roundTrips (fills s.log)) :
    s.acct.balance .wallet + s.acct.balance .orderMargin =
      c.start + tradeResults c (fills s.log) ∧ s.acct.balance .positionMargin = 0 := by
  have hr : Reachable c s := ⟨ops, h⟩
  obtain ⟨_, h0⟩ := hr.trips.flat ht
  obtain ⟨h1, h2⟩ := C02_equity c ops s h
  obtain ⟨_, h3⟩ := ledger_trips (c := c) _ (fun f hf => (hr.fill_price f hf).2) ht
  have h0' : s.acct.balance .positionMargin = 0 := h0
  unfold equity at h1
  exact ⟨by omega, h0'⟩

/-- C113, one trade: whatever happened before, if an account without a position gets one fill, then
one opposite fill of the same size, and no other in between, it has no position afterwards and its
balances have changed by exactly the result of that trade. -/
theorem C113_one_trade (c : Cfg) (ops : List Op) (s s' : State) (f g : Fill) (hr : Reachable c s)
    (hn : s.pos = .neutral) (h : run c s ops = .ok s')
    (hf : fills s'.log = g :: f :: fills s.log) (hs : g.side = opposite f.side)
    (hq : g.qty = f.qty) :
    s'.pos = .neutral ∧ equity s' = equity s + tradeResult c f g := by
  obtain ⟨ops0, h0⟩ := hr
  have h' : run c (State.init c) (ops0 ++ ops) = .ok s' := by
    rw [run_append h0]; exact h
  have hr' : Reachable c s' := ⟨_, h'⟩
  obtain ⟨a1, a2⟩ := C02_equity c _ s h0
  obtain ⟨b1, b2⟩ := C02_equity c _ s' h'
  have hz : (ledger c (fills s.log)).qty = 0 := by
    have := (run_linv h0).ledger
    have e := congrArg Ledger.qty this
    simp only [ledgerOf] at e
    rw [show (State.core s).log = s.log from rfl] at e
    rw [← e]
    show s.pos.quantity = 0
    rw [hn]; rfl
  have hfq := (hr'.fill_price f (by rw [hf]; simp)).2
  obtain ⟨e1, e2⟩ := ledger_trip (c := c) (fs := fills s.log) hz hfq hs hq
  rw [hf] at b1 b2
  refine ⟨?_, by omega⟩
  have h6 := C06_position_quantity c _ s' h'
  have h6' := C06_position_quantity c _ s h0
  refine h6.2.2.2.1 ?_
  have := h6'.2.2.2.2 hn
  rw [hf]
  simp only [netBought, this]
  cases hfs : f.side <;> rw [hfs] at hs <;> simp only [opposite] at hs <;>
    simp only [Fill.signed, hfs, hs] <;> omega

/-- C113, in and out: a market order from an account without a position, taken back by the opposite
order at the same quotes, is always answered with a fill if it returns. It costs exactly the spread
and the two fees. -/
theorem C113_spread (c : Cfg) (s s1 s2 : State) (side : Side) (q : Int) (uid uid' : Nat)
    (f : FilledMarket) (r : Resp) (hr : Reachable c s) (hn : s.pos = .neutral)
    (h1 : step c s (.market side q uid) = .ok (s1, .market (.ok f)))
    (h2 : step c s1 (.market (opposite side) q uid') = .ok (s2, r)) :
    (∃ g, r = .market (.ok g)) ∧ s2.pos = .neutral ∧
    equity s2 = equity s + tradeResult c ⟨false, side, touchPrice s.ms side, q⟩
      ⟨false, opposite side, touchPrice s.ms (opposite side), q⟩ := by
  obtain ⟨_, e1, e2, _, _, e3, _, _⟩ := C21_market_order c s s1 hr side q uid f h1
  have hr1 := hr.step h1
  have hd := (C60_market_order_decision c s s1 side q uid _ hr h1).1 ⟨f, rfl⟩
  have hq0 : s.pos.quantity = 0 := by rw [hn]; rfl
  have hok : ∃ g, r = .market (.ok g) := by
    refine (C60_market_order_decision c s1 s2 (opposite side) q uid' r hr1 h2).2
      ⟨hd.1, hd.2.1, ?_⟩
    have hop : opposing s1.pos.quantity (opposite side) = q := by
      rw [e2, hq0]
      have := hd.1
      cases side <;> simp only [opposite, opposing, larger] <;> split <;> omega
    unfold marketAllowed
    simp only [hop]
    have := hd.1
    rw [if_neg (by omega), if_pos (Int.le_refl _)]
    trivial
  obtain ⟨g, rfl⟩ := hok
  obtain ⟨_, e4, _⟩ := C21_market_order c s1 s2 hr1 (opposite side) q uid' g h2
  rw [e1, e3] at e4
  have hrun : run c s [.market side q uid, .market (opposite side) q uid'] = .ok s2 := by
    simp only [run, h1, h2, bind, Except.bind]
  exact ⟨⟨g, rfl⟩, C113_one_trade c _ s s2 _ _ hr hn hrun e4 rfl rfl⟩

/-- C113: so with quotes that are not crossed and fees that are not negative, going in and out never
gains, and loses at least the fees. -/
theorem C113_spread_never_gains (c : Cfg) (s s1 s2 : State) (side : Side) (q : Int)
    (uid uid' : Nat) (f : FilledMarket) (r : Resp) (hr : Reachable c s) (hn : s.pos = .neutral)
    (hb : 0 < s.ms.bid) (hba : s.ms.bid ≤ s.ms.ask) (hfee : 0 ≤ c.spec.feeTaker)
    (h1 : step c s (.market side q uid) = .ok (s1, .market (.ok f)))
    (h2 : step c s1 (.market (opposite side) q uid') = .ok (s2, r)) :
    equity s2 ≤ equity s - share c.env (value c.env q s.ms.bid) c.spec.feeTaker -
      share c.env (value c.env q s.ms.ask) c.spec.feeTaker := by
  obtain ⟨_, _, e⟩ := C113_spread c s s1 s2 side q uid uid' f r hr hn h1 h2
  have hq := ((C60_market_order_decision c s s1 side q uid _ hr h1).1 ⟨f, rfl⟩).1
  rw [e]
  have ha : 0 < s.ms.ask := by omega
  have k1 := share_nonneg c.env (value_nonneg c.env (Int.le_of_lt hq) (Int.le_of_lt hb)) hfee
  have k2 := share_nonneg c.env (value_nonneg c.env (Int.le_of_lt hq) (Int.le_of_lt ha)) hfee
  have z : ∀ a, Spec.pnl c.env a a q = 0 := fun a => by unfold Spec.pnl; split <;> omega
  have m1 := pnl_mono (e := c.env) (entry := s.ms.ask) (Int.le_of_lt hq) hb hba
  have m2 := pnl_mono (e := c.env) (entry := s.ms.bid) (Int.le_of_lt hq) hb hba
  rw [z] at m1 m2
  unfold tradeResult larger
  cases side <;> simp only [Fill.fee, Fill.signed, opposite, touchPrice, Bool.false_eq_true,
    if_false, pnl_neg] <;> split <;> omega

/-- Two trades, one long and one short, one opened by a market order and one by a limit order, with
an order resting in the end: profits of 9 and 18, less 0.5342 of fees. -/
def Ex.trades : List Op :=
  [Ex.q 100 101 1, .market .buy (Ex.d 3) 0, Ex.q 104 105 2, .market .sell (Ex.d 3) 0,
   .limit .sell (Ex.d 110) (Ex.d 2) 1, .update (.trade ⟨3, Ex.d 111, Ex.d 2, .buy⟩),
   Ex.q 100 101 4, .market .buy (Ex.d 2) 0, .limit .buy (Ex.d 90) (Ex.d 1) 2]

example : Ex.after Ex.lin Ex.trades (fun s => decide (roundTrips (fills s.log) ∧
    (fills s.log).length = 4 ∧ s.acct.balance .orderMargin ≠ 0 ∧
    tradeResults Ex.lin (fills s.log) = 2646580)) = true := by decide +kernel

/-- A position built up and closed in several parts, then a trade in an inverse contract, in and out
at standing quotes of 100 and 101: 0.1 of the 10 bought is lost to the spread. -/
def Ex.parts : List Op :=
  [Ex.q 100 101 1, .market .buy (Ex.d 1010) 0, .market .buy (Ex.d 1010) 0,
   .market .sell (Ex.d 1000) 0, .market .sell (Ex.d 1020) 0]

example : Ex.after Ex.invR Ex.parts (fun s => decide (s.pos = .neutral ∧ (fills s.log).length = 4)) =
    true := by decide +kernel

example : Ex.last Ex.invR (Ex.parts ++ [.market .buy (Ex.d 1010) 0]) (.market .sell (Ex.d 1010) 0)
    (fun s s' r => Ex.isOk r && decide (s.pos ≠ .neutral ∧ s'.pos = .neutral ∧ s'.ms.bid = Ex.d 100 ∧
      tradeResult Ex.invR ⟨false, .buy, Ex.d 101, Ex.d 1010⟩ ⟨false, .sell, Ex.d 100, Ex.d 1010⟩ =
        -11206)) = true := by decide +kernel

end Lfest
