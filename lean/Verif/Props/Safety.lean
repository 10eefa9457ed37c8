import Verif.Lemmas.Safety
import Verif.Lemmas.Fill
import Verif.Examples

/-!
# Flat accounts, the wallet and freedom from panics: C11, C23, C54, C58
-/

namespace Lfest

open Spec

/-! ## C11 -/

/-- C11 for debug builds, in every history: a flat account holds no position margin. (The debug
build panics instead, see `C11_debug_panics`.) -/
theorem C11_debug (c : Cfg) (s : State) (hd : c.env.debug = true) (hr : Reachable c s)
    (h : s.pos = .neutral) : s.acct.balance .positionMargin = 0 :=
  hr.flat hd h

example : ∃ s, Reachable Ex.lin s ∧ s.pos = .neutral ∧ fills s.log ≠ [] := by
  have h : Ex.after Ex.lin (Ex.ops1 ++ [.market .sell (Ex.d 5) 0])
      (fun s => decide (s.pos = .neutral ∧ fills s.log ≠ [])) = true := by decide +kernel
  obtain ⟨s, h1, h2⟩ := Ex.after_reach h
  exact ⟨s, h1, by simpa using h2⟩

/-- C11 for every build: if every position was opened by one fill and closed by one fill, the
account is flat and holds no position margin. For positions built or reduced in several fills see
`C11_flat_dust` and `C11_dust`. -/
theorem C11_round_trips (c : Cfg) (s : State) (hr : Reachable c s)
    (h : roundTrips (fills s.log)) :
    s.pos = .neutral ∧ s.acct.balance .positionMargin = 0 :=
  hr.trips.flat h

/-- Two round trips at different prices, one opened by a market order, one by a limit order. -/
def Ex.trips : List Op :=
  [.update (.bba ⟨Ex.d 100, Ex.d 101, 1⟩), .market .buy (Ex.d 3) 0,
   .update (.bba ⟨Ex.d 104, Ex.d 105, 2⟩), .market .sell (Ex.d 3) 0,
   .limit .sell (Ex.d 110) (Ex.d 2) 1, .update (.trade ⟨3, Ex.d 111, Ex.d 2, .buy⟩),
   .market .buy (Ex.d 2) 0]

example : ∃ s, Reachable Ex.linR s ∧ roundTrips (fills s.log) ∧ (fills s.log).length = 4 := by
  have h : Ex.after Ex.linR Ex.trips
      (fun s => decide (roundTrips (fills s.log) ∧ (fills s.log).length = 4)) = true := by
    decide +kernel
  obtain ⟨s, h1, h2⟩ := Ex.after_reach h
  exact ⟨s, h1, by simpa using h2⟩

/-- Buy 3 at 1.00000 and 1 at 1.00001; the average entry price is rounded down to 1.00000. -/
def Ex.dust : List Op :=
  [.update (.bba ⟨99999, 100000, 1⟩), .market .buy (Ex.d 3) 0,
   .update (.bba ⟨100000, 100001, 2⟩), .market .buy (Ex.d 1) 0]

/-- The balance is not always zero in release builds: after two buys and one sale the account is flat, but the
position margin balance is 1 unit in the last place. -/
theorem C11_dust :
    ∃ s, Reachable { Ex.fine with env := { Ex.fine.env with debug := false } } s ∧
      s.pos = .neutral ∧ s.acct.balance .positionMargin = 1 := by
  have h : Ex.after { Ex.fine with env := { Ex.fine.env with debug := false } }
      (Ex.dust ++ [.market .sell (Ex.d 4) 0])
      (fun s => decide (s.pos = .neutral ∧ s.acct.balance .positionMargin = 1)) = true := by
    decide +kernel
  obtain ⟨s, h1, h2⟩ := Ex.after_reach h
  exact ⟨s, h1, by simpa using h2⟩

/-- The debug build panics at the sale. -/
theorem C11_debug_panics :
    ∃ s, Reachable Ex.fine s ∧ step Ex.fine s (.market .sell (Ex.d 4) 0) = .error .closedMargin :=
  Ex.panics_reach (ops := Ex.dust) (by decide +kernel)

/-- A release build then refuses, with a panic, to flip such a position. -/
theorem C11_flip_panics :
    ∃ s, Reachable { Ex.fine with env := { Ex.fine.env with debug := false } } s ∧
      step { Ex.fine with env := { Ex.fine.env with debug := false } } s (.market .sell (Ex.d 5) 0)
        = .error .flipMargin :=
  Ex.panics_reach (ops := Ex.dust) (by decide +kernel)

/-! ## C23 -/

/-- C23, as far as it holds: with a non-negative taker fee, a call takes a non-negative wallet
below zero only if it is a market order against the position or an update that liquidates. -/
theorem C23_wallet (c : Cfg) (s s' : State) (op : Op) (r : Resp) (hr : Reachable c s)
    (hfee : 0 ≤ c.spec.feeTaker) (hw : 0 ≤ s.acct.balance .wallet)
    (hst : step c s op = .ok (s', r))
    (hm : ∀ side q uid, op = .market side q uid → enlarges s.pos side)
    (hu : ∀ e, r ≠ .update (.error e)) :
    0 ≤ s'.acct.balance .wallet := by
  have hwf : PosWF s.pos := hr.linv.wf
  rcases step_cases hst with ⟨a, u, x, rfl, hb, h, rfl⟩ | ⟨a, u, rfl, hb, h, rfl⟩ | ⟨err, rfl, rfl⟩ |
    ⟨side, q, uid, x, rfl, _, h, rfl⟩ | ⟨_, _, _, _, x, rfl, hp, hq, h, rfl⟩ |
    ⟨_, _, _, _, _, x, rfl, _, _, h, rfl⟩ | ⟨_, x, rfl, h, rfl⟩
  · obtain ⟨s1, h1, ⟨_, _, rfl⟩ | ⟨_, h2, _⟩⟩ := updateState_cases hwf h
    · exact absurd rfl (hu _)
    · by_cases hf : u.canFill = true
      · obtain ⟨l, _, _, _, _, _, hl, rfl⟩ := checkActive_ok h2 hf
        exact hl
      · have e1 := (observe_fields h1).1
        simp only [checkActive, hf, if_true, ok_inj] at h2
        subst h2
        simp only [e1]; exact hw
  · by_cases hf : u.canFill = true
    · obtain ⟨l, _, _, _, _, _, hl, rfl⟩ := checkActive_ok h hf
      exact hl
    · simp only [checkActive, hf, if_true, ok_inj] at h
      subst h; exact hw
  · exact hw
  · exact submitMarket_wallet (o := ⟨uid, side, q⟩) hwf hw hfee (hm _ _ _ rfl) h
  · exact submitLimit_wallet hw h
  · exact amendLimit_wallet hw h
  · have := cancelLimit_wallet h; omega

/-- `Ex.lin` has a positive taker fee; a limit fill of its history `Ex.ops2` meets the hypotheses,
as does the market order that opens the position. -/
example : ∃ s s' r, Reachable Ex.lin s ∧ 0 ≤ Ex.lin.spec.feeTaker ∧ 0 ≤ s.acct.balance .wallet ∧
    step Ex.lin s (.update (.trade ⟨2, Ex.d 111, Ex.d 2, .buy⟩)) = .ok (s', r) ∧
    (∀ e, r ≠ .update (.error e)) ∧ fills s'.log ≠ fills s.log := by
  have h : Ex.last Ex.lin Ex.ops1 (.update (.trade ⟨2, Ex.d 111, Ex.d 2, .buy⟩)) (fun s s' r =>
      decide (0 ≤ s.acct.balance .wallet ∧ Ex.isOk r = true ∧ fills s'.log ≠ fills s.log)) = true := by
    decide +kernel
  obtain ⟨s, s', r, h1, h2, h3⟩ := Ex.last_reach h
  simp only [decide_eq_true_eq] at h3
  refine ⟨s, s', r, h1, by decide, h3.1, h2, ?_, h3.2.2⟩
  rintro e rfl
  simp [Ex.isOk] at h3

/-- C23 is false for a losing sale, here at leverage 10: the loss exceeds wallet and margin. -/
theorem C23_negative_sale :
    ∃ s s' r, Reachable { Ex.lin with spec := { Ex.lin.spec with initMarginReq := 10000 } } s ∧
      0 ≤ s.acct.balance .wallet ∧
      step { Ex.lin with spec := { Ex.lin.spec with initMarginReq := 10000 } } s
        (.market .sell (Ex.d 90) 0) = .ok (s', r) ∧ s'.acct.balance .wallet < 0 := by
  have h : Ex.last { Ex.lin with spec := { Ex.lin.spec with initMarginReq := 10000 } }
      [.update (.bba ⟨Ex.d 99, Ex.d 100, 1⟩), .market .buy (Ex.d 90) 0,
       .update (.bba ⟨Ex.d 60, Ex.d 61, 2⟩)] (.market .sell (Ex.d 90) 0) (fun s s' _ =>
      decide (0 ≤ s.acct.balance .wallet ∧ s'.acct.balance .wallet < 0)) = true := by
    decide +kernel
  obtain ⟨s, s', r, h1, h2, h3⟩ := Ex.last_reach h
  simp only [decide_eq_true_eq] at h3
  exact ⟨s, s', r, h1, h3.1, h2, h3.2⟩

/-- C23 is false for liquidations: a gap through the liquidation price takes the wallet below
zero. -/
theorem C23_negative_liquidation :
    ∃ s s' r, Reachable { Ex.lin with spec := { Ex.lin.spec with initMarginReq := 10000 } } s ∧
      0 ≤ s.acct.balance .wallet ∧
      step { Ex.lin with spec := { Ex.lin.spec with initMarginReq := 10000 } } s
        (.update (.bba ⟨Ex.d 10, Ex.d 11, 2⟩)) = .ok (s', r) ∧ s'.acct.balance .wallet < 0 := by
  have h : Ex.last { Ex.lin with spec := { Ex.lin.spec with initMarginReq := 10000 } }
      [.update (.bba ⟨Ex.d 99, Ex.d 100, 1⟩), .market .buy (Ex.d 90) 0]
      (.update (.bba ⟨Ex.d 10, Ex.d 11, 2⟩)) (fun s s' _ =>
      decide (0 ≤ s.acct.balance .wallet ∧ s'.acct.balance .wallet < 0)) = true := by
    decide +kernel
  obtain ⟨s, s', r, h1, h2, h3⟩ := Ex.last_reach h
  simp only [decide_eq_true_eq] at h3
  exact ⟨s, s', r, h1, h3.1, h2, h3.2⟩

/-! ## C54 -/

/-- C54: in a release build, an update that can be built, does not liquidate and reaches no
active order returns `Ok` with no order updates, and leaves balances, position and orders alone,
provided the wallet is not negative. -/
theorem C54_quiet_update (c : Cfg) (s : State) (a : UpdateArg) (u : Update) (hr : Reachable c s)
    (hd : c.env.debug = false) (hb : a.build false = .ok u)
    (hl : ¬ breach c s.pos (quotesAfter s.ms a)) (hf : ∀ o ∈ s.active, fillRule a o = none)
    (hw : 0 ≤ s.acct.balance .wallet) :
    ∃ s', step c s (.update a) = .ok (s', .update (.ok [])) ∧ s'.acct = s.acct ∧
      s'.pos = s.pos ∧ s'.active = s.active ∧ s'.om = s.om ∧ s'.nextId = s.nextId ∧
      (s'.ms.bid, s'.ms.ask) = quotesAfter s.ms a ∧ some s'.ms.ts = updateTime a ∧
      s'.ms.step = stepAfter s.ms a := by
  have hb' : a.build c.env.debug = .ok u := by rw [hd]; exact hb
  obtain ⟨s1, h1⟩ : ∃ s1, observe c s u = .ok s1 := by
    simp only [observe, MarketState.update, debugValidate, hd, bind_ok]
    exact ⟨_, _, ⟨_, rfl, rfl⟩, rfl⟩
  obtain ⟨e1, e2, e3⟩ := observe_fields h1
  have hq := observe_quotes hb' h1
  have hmm : checkMaintenanceMargin c s1.ms s1.pos = .ok () := by
    have hwf : PosWF s1.pos := by rw [e2]; exact hr.linv.wf
    rcases checkMaintenance_ok (c := c) (ms := s1.ms) hwf with ⟨h, _⟩ | ⟨_, h⟩
    · exact h
    · rw [hq.1, e2] at h; exact absurd h hl
  obtain ⟨e3, e4, e5, e6⟩ := e3
  have hca : ∃ s', checkActive c s1 u = .ok s' ∧ s'.acct = s.acct ∧ s'.pos = s.pos ∧
      s'.active = s.active ∧ s'.om = s.om ∧ s'.nextId = s.nextId ∧ s'.ms = s1.ms ∧
      s'.updates = [] := by
    by_cases hcf : u.canFill = true
    · have hm : matchLoop c u s1.loop s1.active = .ok (s1.loop, s1.active) := by
        refine matchLoop_none fun o ho => ?_
        obtain ⟨x, hx⟩ := filled_release (o := o) hcf
        have := filled_eq hb hx
        rw [hf o (e3 ▸ ho)] at this
        rw [hd, hx, this]
      refine ⟨{ s1 with updates := [] }, ?_, e1, e2, e3, e4, e5, rfl, rfl⟩
      simp only [checkActive, hcf, Bool.true_eq_false, if_false, bind_ok, debugP_ok, assertP_ok,
        ok_inj, hd, debugMarginEq, Bool.false_eq_true, false_implies, true_and]
      refine ⟨(), (s1.loop, s1.active), hm, s1.active, rfl, (), (), (), (), (), ?_, rfl⟩
      simpa [State.loop, e1] using hw
    · refine ⟨{ s1 with updates := [] }, ?_, e1, e2, e3, e4, e5, rfl, rfl⟩
      simp [checkActive, hcf]
  obtain ⟨s', hs', f1, f2, f3, f4, f5, f6, f7⟩ := hca
  refine ⟨s', ?_, f1, f2, f3, f4, f5, by rw [f6]; exact hq.1, by rw [f6]; exact hq.2.1,
    by rw [f6]; exact hq.2.2⟩
  simp only [step, updateState, bind_ok]
  refine ⟨u, hb', (s', .ok []), ⟨s1, h1, ?_⟩, rfl⟩
  rw [hmm]
  simp only [bind_ok, f7.symm]
  exact ⟨s', hs', by rw [f7]⟩

/-- With a long position and two resting orders, a trade between their prices. -/
example : ∃ s, Reachable Ex.linR s ∧
    ¬ breach Ex.linR s.pos (quotesAfter s.ms (.trade ⟨2, Ex.d 100, Ex.d 2, .buy⟩)) ∧
    (∀ o ∈ s.active, fillRule (.trade ⟨2, Ex.d 100, Ex.d 2, .buy⟩) o = none) ∧
    0 ≤ s.acct.balance .wallet ∧ s.active.length = 2 ∧ s.pos ≠ .neutral := by
  have h : Ex.after Ex.linR Ex.ops1 (fun s => decide (
    ¬ breach Ex.linR s.pos (quotesAfter s.ms (.trade ⟨2, Ex.d 100, Ex.d 2, .buy⟩)) ∧
    (∀ o ∈ s.active, fillRule (.trade ⟨2, Ex.d 100, Ex.d 2, .buy⟩) o = none) ∧
    0 ≤ s.acct.balance .wallet ∧ s.active.length = 2 ∧ s.pos ≠ .neutral)) = true := by
    decide +kernel
  obtain ⟨s, h1, h2⟩ := Ex.after_reach h
  exact ⟨s, h1, by simpa using h2⟩

/-- The bound on the wallet is needed: with a negative wallet the same kind of update panics. -/
theorem C54_negative_wallet_panics :
    ∃ s, Reachable { Ex.linR with spec := { Ex.lin.spec with initMarginReq := 10000 } } s ∧
      s.acct.balance .wallet < 0 ∧ s.active = [] ∧
      step { Ex.linR with spec := { Ex.lin.spec with initMarginReq := 10000 } } s
        (.update (.trade ⟨3, Ex.d 60, Ex.d 1, .buy⟩)) = .error .walletNegative := by
  have h : Ex.crash { Ex.linR with spec := { Ex.lin.spec with initMarginReq := 10000 } }
      [.update (.bba ⟨Ex.d 99, Ex.d 100, 1⟩), .market .buy (Ex.d 90) 0,
       .update (.bba ⟨Ex.d 60, Ex.d 61, 2⟩), .market .sell (Ex.d 90) 0]
      (.update (.trade ⟨3, Ex.d 60, Ex.d 1, .buy⟩)) .walletNegative
      (fun s => decide (s.acct.balance .wallet < 0 ∧ s.active = [])) = true := by decide +kernel
  obtain ⟨s, h1, h2, h3⟩ := Ex.crash_reach h
  simp only [decide_eq_true_eq] at h2
  exact ⟨s, h1, h2.1, h2.2, h3⟩

/-! ## C58 -/

/-- C58: a market order that opens or increases a position, satisfies the quantity filter and is
covered by the wallet is executed without a panic, in every build, when its margin is at least
one unit in the last place. (In debug builds a flat account holds no position margin by
`C11_debug`.) -/
theorem C58_open (c : Cfg) (s : State) (side : Side) (q : Int) (uid : Nat) (hr : Reachable c s)
    (ht : c.spec.quantityFilter.tickSize ≠ 0) (hq : 0 < q)
    (hok : quantityOk c.spec.quantityFilter q) (hp : 0 < touchPrice s.ms side)
    (hen : enlarges s.pos side) (hal : marketAllowed c s side q)
    (hm : 0 < share c.env (value c.env q (touchPrice s.ms side)) c.spec.initMarginReq) :
    ∃ s' f, step c s (.market side q uid) = .ok (s', .market (.ok f)) := by
  have h0 : opposing s.pos.quantity side = 0 := hen
  obtain ⟨⟨pos', a'⟩, hc⟩ := changePosition_total (e := c.env) (imr := c.spec.initMarginReq)
    (f := Fill.fee c ⟨false, side, touchPrice s.ms side, q⟩) (side := side)
    hr.linv.wf hr.linv.sums hr.entry_nonneg hq hp (fun hd hn => hr.flat hd hn)
    (fun _ => by simpa [State.core, h0] using hm) (fun h => by simp [State.core, h0] at h)
    (fun h => by simp [State.core, h0] at h)
  obtain ⟨s', f, h, _⟩ := submitMarket_accept (o := ⟨uid, side, q⟩) (quantity_valid ht hok)
    (checkMarket_allowed hr.linv.wf hp hal) hq hp hc
  refine ⟨s', f, ?_⟩
  have hn : NewMarket.new side q uid = .ok ⟨uid, side, q⟩ := by
    simp only [NewMarket.new]; rw [if_neg (by omega)]
  simp only [step, hn, bind_ok]
  exact ⟨_, h, rfl⟩

/-- C58 for reducing, closing and flipping: the margin freed and the margin of the part that opens
a position in the other direction must be at least one unit in the last place, and when the
whole position is closed (flip, or debug build) the position margin must be the margin of
the position at its entry price. -/
theorem C58_against (c : Cfg) (s : State) (side : Side) (q : Int) (uid : Nat) (hr : Reachable c s)
    (ht : c.spec.quantityFilter.tickSize ≠ 0) (hq : 0 < q)
    (hok : quantityOk c.spec.quantityFilter q) (hp : 0 < touchPrice s.ms side)
    (hal : marketAllowed c s side q)
    (hfree : 0 < share c.env (value c.env (smaller q (opposing s.pos.quantity side))
      s.pos.entryPrice) c.spec.initMarginReq)
    (hopen : opposing s.pos.quantity side < q → 0 < share c.env (value c.env
      (q - opposing s.pos.quantity side) (touchPrice s.ms side)) c.spec.initMarginReq)
    (hex : opposing s.pos.quantity side < q ∨
        (opposing s.pos.quantity side = q ∧ c.env.debug = true) →
      s.acct.balance .positionMargin = share c.env (value c.env (opposing s.pos.quantity side)
        s.pos.entryPrice) c.spec.initMarginReq) :
    ∃ s' f, step c s (.market side q uid) = .ok (s', .market (.ok f)) := by
  obtain ⟨⟨pos', a'⟩, hc⟩ := changePosition_total (e := c.env) (imr := c.spec.initMarginReq)
    (f := Fill.fee c ⟨false, side, touchPrice s.ms side, q⟩) (side := side)
    hr.linv.wf hr.linv.sums hr.entry_nonneg hq hp (fun hd hn => hr.flat hd hn)
    hopen (fun _ => hfree) (fun _ => hex)
  obtain ⟨s', f, h, _⟩ := submitMarket_accept (o := ⟨uid, side, q⟩) (quantity_valid ht hok)
    (checkMarket_allowed hr.linv.wf hp hal) hq hp hc
  refine ⟨s', f, ?_⟩
  have hn : NewMarket.new side q uid = .ok ⟨uid, side, q⟩ := by
    simp only [NewMarket.new]; rw [if_neg (by omega)]
  simp only [step, hn, bind_ok]
  exact ⟨_, h, rfl⟩

/-- C58 exactly: with a positive price, a market order panics if and only if it passes the checks
and the margins it moves do not work out. -/
theorem C58_exact (c : Cfg) (s : State) (side : Side) (q : Int) (uid : Nat) (hr : Reachable c s)
    (ht : c.spec.quantityFilter.tickSize ≠ 0) (hp : 0 < touchPrice s.ms side) :
    (∃ p, step c s (.market side q uid) = .error p) ↔
      0 < q ∧ quantityOk c.spec.quantityFilter q ∧ marketAllowed c s side q ∧
        ¬ marginsWorkOut c s side q := by
  by_cases hq : q ≤ 0
  · simp only [step, NewMarket.new, hq, if_true, reduceCtorEq, exists_false, false_iff]
    omega
  · have hn : NewMarket.new side q uid = .ok ⟨uid, side, q⟩ := by
      simp only [NewMarket.new]; rw [if_neg hq]
    have : (∃ p, step c s (.market side q uid) = .error p) ↔
        ∃ p, submitMarket c s ⟨uid, side, q⟩ = .error p := by
      simp only [step, hn]
      cases submitMarket c s ⟨uid, side, q⟩ <;> simp [bind, Except.bind]
    rw [this, submitMarket_exact (o := ⟨uid, side, q⟩) ht hr.linv.wf hr.linv.sums hr.entry_nonneg
      (fun hd hn => hr.flat hd hn) (show 0 < q by omega) hp]
    exact ⟨fun h => ⟨by omega, h⟩, fun h => h.2⟩

/-- A reachable state where the condition of `C58_exact` holds because position margin does not
cancel: an inverse position bought at two prices cannot be flipped. -/
example : ∃ s, Reachable Ex.inv s ∧ 0 < touchPrice s.ms .sell ∧
    opposing s.pos.quantity .sell < Ex.d 2030 ∧
    step Ex.inv s (.market .sell (Ex.d 2030) 0) = .error .flipMargin := by
  have h : Ex.crash Ex.inv [.update (.bba ⟨Ex.d 100, Ex.d 101, 1⟩), .market .buy (Ex.d 1010) 1,
      .update (.bba ⟨Ex.d 200, Ex.d 202, 2⟩),
      .market .buy (Ex.d 1010) 2] (.market .sell (Ex.d 2030) 0) .flipMargin
      (fun s => decide (0 < touchPrice s.ms .sell ∧
        opposing s.pos.quantity .sell < Ex.d 2030)) = true := by decide +kernel
  obtain ⟨s, h1, h2, h3⟩ := Ex.crash_reach h
  simp only [decide_eq_true_eq] at h2
  exact ⟨s, h1, h2.1, h2.2, h3⟩

/-- Increasing the long position of `Ex.ops1` by 1. -/
example : ∃ s, Reachable Ex.lin s ∧ Ex.lin.spec.quantityFilter.tickSize ≠ 0 ∧
    quantityOk Ex.lin.spec.quantityFilter (Ex.d 1) ∧ 0 < touchPrice s.ms .buy ∧
    enlarges s.pos .buy ∧ marketAllowed Ex.lin s .buy (Ex.d 1) ∧ s.pos ≠ .neutral ∧
    0 < share Ex.lin.env (value Ex.lin.env (Ex.d 1) (touchPrice s.ms .buy))
      Ex.lin.spec.initMarginReq := by
  have h : Ex.after Ex.lin Ex.ops1 (fun s => decide (
      Ex.lin.spec.quantityFilter.tickSize ≠ 0 ∧ 0 < touchPrice s.ms .buy ∧ enlarges s.pos .buy ∧
      opposing s.pos.quantity .buy = 0 ∧
      needed Ex.lin (Ex.d 1) (touchPrice s.ms .buy) ≤ s.acct.balance .wallet ∧ s.pos ≠ .neutral ∧
      0 < share Ex.lin.env (value Ex.lin.env (Ex.d 1) (touchPrice s.ms .buy))
        Ex.lin.spec.initMarginReq)) = true := by decide +kernel
  obtain ⟨s, h1, h2⟩ := Ex.after_reach h
  simp only [decide_eq_true_eq] at h2
  obtain ⟨a1, a2, a3, a4, a5, a6, a7⟩ := h2
  refine ⟨s, h1, a1, ?_, a2, a3, ?_, a6, a7⟩
  · simp [quantityOk, within, onGrid, Ex.lin, Ex.d]
  · simp only [marketAllowed, a4, if_true]; exact a5

/-- Flipping the long position of 5 in `Ex.ops1` by a sale of 7. -/
example : ∃ s, Reachable Ex.lin s ∧ quantityOk Ex.lin.spec.quantityFilter (Ex.d 7) ∧
    0 < touchPrice s.ms .sell ∧ marketAllowed Ex.lin s .sell (Ex.d 7) ∧
    opposing s.pos.quantity .sell = Ex.d 5 ∧
    0 < share Ex.lin.env (value Ex.lin.env (smaller (Ex.d 7) (opposing s.pos.quantity .sell))
      s.pos.entryPrice) Ex.lin.spec.initMarginReq ∧
    0 < share Ex.lin.env (value Ex.lin.env (Ex.d 7 - opposing s.pos.quantity .sell)
      (touchPrice s.ms .sell)) Ex.lin.spec.initMarginReq ∧
    s.acct.balance .positionMargin = share Ex.lin.env (value Ex.lin.env
      (opposing s.pos.quantity .sell) s.pos.entryPrice) Ex.lin.spec.initMarginReq := by
  have h : Ex.after Ex.lin Ex.ops1 (fun s => decide (
    0 < touchPrice s.ms .sell ∧
    opposing s.pos.quantity .sell = Ex.d 5 ∧
    needed Ex.lin (Ex.d 2) (touchPrice s.ms .sell) ≤
      s.acct.balance .wallet + s.acct.balance .positionMargin ∧
    0 < share Ex.lin.env (value Ex.lin.env (smaller (Ex.d 7) (opposing s.pos.quantity .sell))
      s.pos.entryPrice) Ex.lin.spec.initMarginReq ∧
    0 < share Ex.lin.env (value Ex.lin.env (Ex.d 7 - opposing s.pos.quantity .sell)
      (touchPrice s.ms .sell)) Ex.lin.spec.initMarginReq ∧
    s.acct.balance .positionMargin = share Ex.lin.env (value Ex.lin.env
      (opposing s.pos.quantity .sell) s.pos.entryPrice) Ex.lin.spec.initMarginReq)) = true := by
    decide +kernel
  obtain ⟨s, h1, h2⟩ := Ex.after_reach h
  simp only [decide_eq_true_eq] at h2
  obtain ⟨a1, a2, a3, a4, a5, a6⟩ := h2
  refine ⟨s, h1, ?_, a1, ?_, a2, a4, a5, a6⟩
  · simp [quantityOk, within, onGrid, Ex.lin, Ex.d]
  · simp only [marketAllowed, a2]
    rw [if_neg (by decide), if_neg (by decide)]; exact a3

/-- The margin bound is needed: an order whose margin rounds to zero passes every check and then
panics. -/
theorem C58_tiny_panics :
    ∃ s, Reachable Ex.fine s ∧ quantityOk Ex.fine.spec.quantityFilter 1 ∧
      marketAllowed Ex.fine s .buy 1 ∧ step Ex.fine s (.market .buy 1 0) = .error .txnAmount := by
  have h : Ex.crash Ex.fine [.update (.bba ⟨99998, 99999, 1⟩)] (.market .buy 1 0)
      .txnAmount (fun s => decide (opposing s.pos.quantity .buy = 0 ∧
        needed Ex.fine 1 (touchPrice s.ms .buy) ≤ s.acct.balance .wallet)) = true := by
    decide +kernel
  obtain ⟨s, h1, h2, h3⟩ := Ex.crash_reach h
  simp only [decide_eq_true_eq] at h2
  refine ⟨s, h1, ?_, ?_, h3⟩
  · simp [quantityOk, within, onGrid, Ex.fine]
  · simp only [marketAllowed, h2.1, if_true]; exact h2.2

end Lfest
