import Verif.Lemmas.Ledger
import Verif.Examples

/-!
# Accounting, fees and position (C01–C07, C10)
-/

namespace Lfest

open Spec

/-! ## C01 -/

/-- C01: debits equal credits, the six balances sum to zero, the broker account is never
touched. -/
theorem C01_double_entry (c : Cfg) (ops : List Op) (s : State)
    (h : run c (State.init c) ops = .ok s) :
    s.acct.debitSum = s.acct.creditSum ∧
    s.acct.balance .wallet + s.acct.balance .orderMargin + s.acct.balance .positionMargin +
      s.acct.balance .exchangeFee + s.acct.balance .broker + s.acct.balance .treasury = 0 ∧
    s.acct.broker = ⟨0, 0⟩ := by
  have i := run_linv h
  have h1 := i.sums
  refine ⟨h1, ?_, i.broker⟩
  simp only [State.core, Accounts.debitSum, Accounts.creditSum] at h1
  simp only [Accounts.balance, Accounts.get, TAccount.net]
  omega

/-- Non-vacuity: a history with a market order, two limit orders, fills, a cancellation and a
flip ends in a state with money in several accounts. -/
example : Ex.after Ex.lin Ex.ops3 (fun s => decide (s.acct.balance .positionMargin = 19200000 ∧
    s.acct.balance .exchangeFee > 0 ∧ s.acct.balance .treasury ≠ -100000000)) = true := by
  decide +kernel

/-! ## C02 -/

/-- C02: the user's balances are the starting balance plus the profit and loss realised by
the reported fills, minus the fees paid; the fees paid are those of the ledger. -/
theorem C02_equity (c : Cfg) (ops : List Op) (s : State)
    (h : run c (State.init c) ops = .ok s) :
    equity s = c.start + (ledger c (fills s.log)).realised - s.feesPaid ∧
    s.feesPaid = (ledger c (fills s.log)).paid := by
  have i := run_linv h
  have h1 := (C01_double_entry c ops s h).2.1
  have hb : s.acct.balance .broker = 0 := by
    simp [Accounts.balance, Accounts.get, (C01_double_entry c ops s h).2.2, TAccount.net]
  have h2 := i.ledger
  have h3 : -c.start - s.acct.balance .treasury = (ledger c (fills s.log)).realised := by
    have := congrArg Ledger.realised h2; simpa [ledgerOf, State.core] using this
  have h4 : s.acct.balance .exchangeFee = (ledger c (fills s.log)).paid := by
    have := congrArg Ledger.paid h2; simpa [ledgerOf, State.core] using this
  refine ⟨?_, h4⟩
  simp only [equity, State.feesPaid]
  omega

example : Ex.after Ex.lin Ex.ops3 (fun s => decide ((fills s.log).length = 4 ∧
    (ledger Ex.lin (fills s.log)).realised = 500000 ∧ s.feesPaid = 78820 ∧
    equity s = 100421180)) = true := by decide +kernel

/-- An inverse contract: two fills, a loss realised. -/
example : Ex.after Ex.inv Ex.ops2 (fun s => decide ((fills s.log).length = 2 ∧
    (ledger Ex.inv (fills s.log)).realised ≠ 0 ∧ s.feesPaid > 0)) = true := by decide +kernel

/-! ## C03 -/

/-- C03: a call that reports no fill leaves position, fees, position margin, treasury and the
sum of the user balances as they were. Holds in every state, reachable or not. -/
theorem C03_only_fills_change_equity (c : Cfg) (s s' : State) (op : Op) (r : Resp)
    (h : step c s op = .ok (s', r)) (hf : fills s'.log = fills s.log) :
    equity s' = equity s ∧ s'.feesPaid = s.feesPaid ∧ s'.pos = s.pos ∧
    s'.acct.balance .positionMargin = s.acct.balance .positionMargin ∧
    s'.acct.balance .treasury = s.acct.balance .treasury := by
  have k := step_core (st := false) (by simp) h
  obtain ⟨h1, h2, _⟩ := k.no_fill (by simp [State.core, hf])
  obtain ⟨e1, e2, e3, e4⟩ := h1.bal
  simp only [State.core] at *
  refine ⟨?_, e2, h2, e1, e3⟩
  simp only [equity]; omega

/-- C03, second half: submissions, amendments and cancellations of limit orders, rejected
market orders and quote updates that do not liquidate report no fill. -/
theorem C03_quiet_calls (c : Cfg) (s s' : State) (op : Op) (r : Resp)
    (hst : step c s op = .ok (s', r)) (hq : quiet op r) : fills s'.log = fills s.log := by
  rcases step_cases hst with ⟨a, u, x, rfl, hb, h, rfl⟩ | ⟨a, u, rfl, hb, h, rfl⟩ |
    ⟨err, rfl, rfl⟩ | ⟨side, qty, uid, x, rfl, _, h, rfl⟩ | ⟨_, _, _, _, _, rfl, _, _, h, rfl⟩ |
    ⟨_, _, _, _, _, _, rfl, _, _, h, rfl⟩ | ⟨_, _, rfl, h, rfl⟩
  · cases a with
    | bba b =>
      simp only [UpdateArg.build, ok_inj] at hb; subst hb
      cases x with
      | error err => simp [quiet] at hq
      | ok l =>
        simp only [updateState, bind_ok] at h
        obtain ⟨s1, h1, h⟩ := h
        split at h
        · simp only [bind_ok, ok_inj, Prod.mk.injEq] at h
          obtain ⟨s2, h2, rfl, hh⟩ := h
          simp at hh
        · simp only [bind_ok, ok_inj, Prod.mk.injEq] at h
          obtain ⟨s2, h2, rfl, _⟩ := h
          rw [checkActive_bba h2 rfl, ← fills_observe h1]
    | _ => simp [quiet] at hq
  · cases a with
    | bba b =>
      simp only [UpdateArg.build, ok_inj] at hb; subst hb
      rw [checkActive_bba h rfl]
    | _ => simp [quiet] at hq
  · rfl
  · cases x with
    | ok f => simp [quiet] at hq
    | error err =>
      simp only [submitMarket, bind_ok] at h
      obtain ⟨r1, _, h⟩ := h
      split at h
      · simp only [ok_inj, Prod.mk.injEq] at h; obtain ⟨rfl, _⟩ := h
        simp [fills]
      · simp only [bind_ok] at h
        obtain ⟨r2, _, h⟩ := h
        split at h
        · simp only [ok_inj, Prod.mk.injEq] at h; obtain ⟨rfl, _⟩ := h
          simp [fills]
        · simp only [bind_ok, ok_inj, Prod.mk.injEq] at h
          obtain ⟨s3, hs, rfl, hh⟩ := h
          simp at hh
  · exact fills_submitLimit h
  · exact fills_amendLimit h
  · exact fills_cancelLimit h

/-- A limit order is accepted: no fill, yet wallet and order margin change. -/
example : Ex.last Ex.lin Ex.ops2 (.limit .buy (Ex.d 90) (Ex.d 1) 7) (fun s s' r =>
    decide (fills s'.log = fills s.log ∧ s'.acct.balance .wallet ≠ s.acct.balance .wallet ∧
      s.pos ≠ .neutral ∧ r ≠ .limit (.error .userOrderIdNotFound))) = true := by decide +kernel

/-! ## C04 -/

/-- C04: for non-negative rates, fees paid plus fees outstanding are the fees of all fills
under the schedule. -/
theorem C04_fee_schedule (c : Cfg) (ops : List Op) (s : State)
    (h : run c (State.init c) ops = .ok s)
    (hm : 0 ≤ c.spec.feeMaker) (ht : 0 ≤ c.spec.feeTaker) :
    s.feesPaid + s.pos.outstandingFees = feeSum c (fills s.log) := by
  have i := run_linv h
  have h2 := i.ledger
  have h4 : s.acct.balance .exchangeFee = (ledger c (fills s.log)).paid := by
    have := congrArg Ledger.paid h2; simpa [ledgerOf, State.core] using this
  have h5 : s.pos.outstandingFees = (ledger c (fills s.log)).owed := by
    have := congrArg Ledger.owed h2; simpa [ledgerOf, State.core] using this
  have hf := Reachable.fill_price ⟨ops, h⟩
  rw [State.feesPaid, h4, h5]
  exact (ledger_fees c _ (fun f hf' => ⟨fee_nonneg hm ht (hf f hf').2 (hf f hf').1, (hf f hf').2⟩)).1

/-- Maker and taker fills, fees paid and fees outstanding. -/
example : Ex.after Ex.lin (Ex.ops2 ++ [.update (.candle ⟨Ex.d 96, Ex.d 97, Ex.d 90, Ex.d 99, 3⟩)])
    (fun s => decide (s.feesPaid = 34700 ∧ s.pos.outstandingFees = 3800 ∧
    feeSum Ex.lin (fills s.log) = 38500)) = true := by decide +kernel

/-- C04 for all rates: what is paid and outstanding exceeds the fees of the schedule by exactly the
rebates that were outstanding when a position was closed. They are never paid out. -/
theorem C04_all_rates (c : Cfg) (ops : List Op) (s : State)
    (h : run c (State.init c) ops = .ok s) :
    s.feesPaid + s.pos.outstandingFees = feeSum c (fills s.log) + forfeited c (fills s.log) ∧
      0 ≤ forfeited c (fills s.log) := by
  have h2 := (run_linv h).ledger
  have h4 : s.acct.balance .exchangeFee = (ledger c (fills s.log)).paid := by
    have := congrArg Ledger.paid h2; simpa [ledgerOf, State.core] using this
  have h5 : s.pos.outstandingFees = (ledger c (fills s.log)).owed := by
    have := congrArg Ledger.owed h2; simpa [ledgerOf, State.core] using this
  have hf := Reachable.fill_price ⟨ops, h⟩
  rw [State.feesPaid, h4, h5]
  exact ⟨(ledger_forfeited c _ (fun f hf' => (hf f hf').2)).1, forfeited_nonneg c _⟩

/-- Two maker fills with rebates of 0.02 and 0.022, both forfeited. -/
example : Ex.after Ex.rebate
    [.update (.bba ⟨Ex.d 100, Ex.d 101, 1⟩), .limit .buy (Ex.d 100) (Ex.d 1) 0,
     .update (.trade ⟨2, Ex.d 99, Ex.d 1, .sell⟩), .limit .sell (Ex.d 110) (Ex.d 1) 0,
     .update (.trade ⟨3, Ex.d 111, Ex.d 1, .buy⟩)]
    (fun s => decide (s.feesPaid + s.pos.outstandingFees = 0 ∧
      feeSum Ex.rebate (fills s.log) = -4200 ∧ forfeited Ex.rebate (fills s.log) = 4200))
      = true := by decide +kernel

/-- The first statement is false for maker rebates: a rebate is never credited and is dropped when the
position is closed. -/
theorem C04_rebate_lost : ¬ ∀ (c : Cfg) (ops : List Op) (s : State),
    run c (State.init c) ops = .ok s →
      s.feesPaid + s.pos.outstandingFees = feeSum c (fills s.log) := by
  intro h
  have w : Ex.after Ex.rebate
      [.update (.bba ⟨Ex.d 100, Ex.d 101, 1⟩), .limit .buy (Ex.d 100) (Ex.d 1) 0,
       .update (.trade ⟨2, Ex.d 99, Ex.d 1, .sell⟩), .limit .sell (Ex.d 110) (Ex.d 1) 0,
       .update (.trade ⟨3, Ex.d 111, Ex.d 1, .buy⟩)]
      (fun s => decide (s.feesPaid + s.pos.outstandingFees ≠ feeSum Ex.rebate (fills s.log)))
        = true := by decide +kernel
  obtain ⟨s, ⟨ops, hs⟩, hw⟩ := Ex.after_reach w
  simp only [ne_eq, decide_not, Bool.not_eq_eq_eq_not, Bool.not_true, decide_eq_false_iff_not] at hw
  exact hw (h _ _ _ hs)

/-! ## C05 -/

/-- C05: fees paid never decrease, whatever the fee rates are. -/
theorem C05_fees_monotone (c : Cfg) (s s' : State) (op : Op) (r : Resp)
    (hs : Reachable c s) (h : step c s op = .ok (s', r)) : s.feesPaid ≤ s'.feesPaid := by
  have key : ∀ x y : Core, LInv c x ∧ s.feesPaid ≤ x.acct.balance .exchangeFee →
      CoreStep c true x y → LInv c y ∧ s.feesPaid ≤ y.acct.balance .exchangeFee := by
    intro x y ⟨hx, hle⟩ k
    refine ⟨hx.step k, ?_⟩
    rcases k.shift_or_fill with ⟨h1, _, _⟩ | ⟨f, _, hc, _⟩
    · rw [h1.bal.2.1]; exact hle
    · obtain ⟨_, _, h3, _⟩ := changePosition_ledger (k := 0) hx.wf hc
      have e := congrArg Ledger.paid h3
      have l := ledger_paid_le c (ledgerOf x.pos (x.acct.balance .exchangeFee)
        (0 - x.acct.balance .treasury)) f
      rw [← e] at l
      simp only [ledgerOf] at l
      omega
  have := (hs.core h).inv (P := fun x => LInv c x ∧ s.feesPaid ≤ x.acct.balance .exchangeFee)
    key ⟨hs.linv, Int.le_refl _⟩
  exact this.2

/-- A call that pays fees. -/
example : Ex.last Ex.lin Ex.ops1 (.update (.trade ⟨2, Ex.d 111, Ex.d 2, .buy⟩)) (fun s s' _ =>
    decide (s.feesPaid = 0 ∧ s'.feesPaid = 34700)) = true := by decide +kernel

/-- Also with a rebate. -/
example : Ex.last Ex.rebate Ex.ops1 (.update (.trade ⟨2, Ex.d 111, Ex.d 2, .buy⟩)) (fun s s' _ =>
    decide (s.feesPaid = 0 ∧ s'.feesPaid > 0)) = true := by decide +kernel

/-! ## C06 -/

/-- C06: the position is the signed sum of all fills, and its variant is the sign of that
sum. -/
theorem C06_position_quantity (c : Cfg) (ops : List Op) (s : State)
    (h : run c (State.init c) ops = .ok s) :
    s.pos.quantity = netBought (fills s.log) ∧
    (0 < netBought (fills s.log) ↔ ∃ p, s.pos = .long p) ∧
    (netBought (fills s.log) < 0 ↔ ∃ p, s.pos = .short p) ∧
    (netBought (fills s.log) = 0 ↔ s.pos = .neutral) := by
  have i := run_linv h
  have e : s.pos.quantity = netBought (fills s.log) := by
    have := congrArg Ledger.qty i.ledger
    rw [ledger_qty] at this
    simpa [ledgerOf, State.core] using this
  have hw : PosWF s.pos := i.wf
  rw [← e]
  refine ⟨rfl, ?_⟩
  cases hp : s.pos with
  | neutral => simp [Position.quantity]
  | long p =>
    rw [hp] at hw; simp only [PosWF] at hw
    simp [Position.quantity]; omega
  | short p =>
    rw [hp] at hw; simp only [PosWF] at hw
    simp [Position.quantity]; omega

example : Ex.after Ex.lin Ex.ops2 (fun s => decide (netBought (fills s.log) = Ex.d 3)) = true ∧
    Ex.after Ex.lin Ex.ops3 (fun s => decide (netBought (fills s.log) = Ex.d (-2))) = true := by
  decide +kernel

/-! ## C07 -/

/-- C07, refinement form: the position is at all times the one the ledger computes from the
fills. -/
theorem C07_position_is_ledger (c : Cfg) (ops : List Op) (s : State)
    (h : run c (State.init c) ops = .ok s) :
    s.pos.quantity = (ledger c (fills s.log)).qty ∧
    s.pos.entryPrice = (ledger c (fills s.log)).entry ∧
    s.pos.outstandingFees = (ledger c (fills s.log)).owed := by
  have i := (run_linv h).ledger
  have e1 := congrArg Ledger.qty i
  have e2 := congrArg Ledger.entry i
  have e3 := congrArg Ledger.owed i
  exact ⟨e1, e2, e3⟩

/-- C07: entry price after a single fill `f`. -/
theorem C07_entry_price (c : Cfg) (s s' : State) (op : Op) (r : Resp) (f : Fill)
    (hs : Reachable c s) (h : step c s op = .ok (s', r))
    (hf : fills s'.log = f :: fills s.log) :
    -- opening
    (s.pos.quantity = 0 → s'.pos.entryPrice = f.price) ∧
    -- increasing
    (0 < s.pos.quantity ∧ f.side = .buy ∨ s.pos.quantity < 0 ∧ f.side = .sell →
      s'.pos.entryPrice = weighted c.env s.pos.entryPrice (abs s.pos.quantity) f.price f.qty) ∧
    (0 < s.pos.quantity ∧ f.side = .sell ∨ s.pos.quantity < 0 ∧ f.side = .buy →
      -- reducing
      (f.qty < abs s.pos.quantity → s'.pos.entryPrice = s.pos.entryPrice) ∧
      -- closing
      (f.qty = abs s.pos.quantity → s'.pos = .neutral) ∧
      -- flipping
      (abs s.pos.quantity < f.qty → s'.pos.entryPrice = f.price)) := by
  obtain ⟨ops, hs⟩ := hs
  have hs' := Reachable.step ⟨ops, hs⟩ h
  obtain ⟨ops', hs'⟩ := hs'
  obtain ⟨e1, e2, e3⟩ := C07_position_is_ledger c ops s hs
  obtain ⟨g1, g2, g3⟩ := C07_position_is_ledger c ops' s' hs'
  have hn := (C06_position_quantity c ops' s' hs')
  rw [← hn.1] at hn
  rw [hf] at g1 g2
  simp only [ledger, Ledger.fill] at g1 g2
  rw [← e1] at g1 g2
  rw [← e2] at g2
  have hpos : 0 < f.qty := (run_linv hs').pos f (by simp [State.core, hf])
  have hsg : f.signed = f.qty ∧ f.side = .buy ∨ f.signed = -f.qty ∧ f.side = .sell := by
    unfold Fill.signed; cases f.side <;> simp
  refine ⟨fun hz => ?_, fun hd => ?_, fun hd => ⟨fun hlt => ?_, fun heq => ?_, fun hgt => ?_⟩⟩
  · simpa [hz] using g2
  · have : s.pos.quantity ≠ 0 := by rcases hd with hd | hd <;> omega
    simpa [this, hd] using g2
  all_goals
    have hne : s.pos.quantity ≠ 0 := by rcases hd with hd | hd <;> omega
    have hnd : ¬ (0 < s.pos.quantity ∧ f.side = .buy ∨ s.pos.quantity < 0 ∧ f.side = .sell) := by
      rcases hd with ⟨h1, h2⟩ | ⟨h1, h2⟩ <;> simp [h2] <;> omega
  · simpa [hne, hnd, hlt] using g2
  · rw [← hn.2.2.2]
    simp only [hne, hnd, if_false] at g1
    rw [g1]
    rcases hd with ⟨h1, h2⟩ | ⟨h1, h2⟩ <;> simp [h2] at hsg
    · rw [abs_of_pos h1] at heq; omega
    · rw [abs_of_neg h1] at heq; omega
  · have h1 : ¬ f.qty < Spec.abs s.pos.quantity := by omega
    have h2 : ¬ f.qty = Spec.abs s.pos.quantity := by omega
    simpa [hne, hnd, h1, h2] using g2

/-- Reducing (entry price kept), increasing (weighted) and flipping. -/
example : Ex.last Ex.lin Ex.ops1 (.update (.trade ⟨2, Ex.d 111, Ex.d 2, .buy⟩)) (fun s s' _ =>
    decide (fills s'.log = ⟨true, .sell, Ex.d 110, Ex.d 2⟩ :: fills s.log ∧
      s'.pos.entryPrice = Ex.d 101)) = true ∧
  Ex.last Ex.lin Ex.ops2 (.update (.candle ⟨Ex.d 96, Ex.d 97, Ex.d 90, Ex.d 99, 3⟩)) (fun s s' _ =>
    decide (fills s'.log = ⟨true, .buy, Ex.d 95, Ex.d 2⟩ :: fills s.log ∧
      s'.pos.entryPrice = 9860000)) = true ∧
  Ex.after Ex.lin Ex.ops3 (fun s => decide (s.pos.entryPrice = Ex.d 96)) = true := by
  decide +kernel

/-! ## C10 -/

/-- C10: a single fill that reduces or closes the position settles exactly: the money
available to the user (wallet plus order margin) grows by the realised profit plus the
released position margin minus all fees due; the treasury takes the other side of the profit,
the fee account receives the fees due. -/
theorem C10_reduce_settles (c : Cfg) (s s' : State) (op : Op) (r : Resp) (f : Fill)
    (hs : Reachable c s) (h : step c s op = .ok (s', r))
    (hf : fills s'.log = f :: fills s.log)
    (hd : 0 < s.pos.quantity ∧ f.side = .sell ∨ s.pos.quantity < 0 ∧ f.side = .buy)
    (hq : f.qty ≤ abs s.pos.quantity) :
    let profit := Spec.pnl c.env s.pos.entryPrice f.price
      (if 0 < s.pos.quantity then f.qty else -f.qty)
    let released := share c.env (value c.env f.qty s.pos.entryPrice) c.spec.initMarginReq
    let due := s.pos.outstandingFees + f.fee c
    let paid := if 0 < due then due else 0
    s'.acct.balance .wallet + s'.acct.balance .orderMargin =
      s.acct.balance .wallet + s.acct.balance .orderMargin + profit + released - paid ∧
    s'.acct.balance .positionMargin = s.acct.balance .positionMargin - released ∧
    s'.acct.balance .treasury = s.acct.balance .treasury - profit ∧
    s'.feesPaid = s.feesPaid + paid := by
  intro profit released due paid
  have hcore := hs.core h
  obtain ⟨g, a, a', hg, _, hsh1, hc, hsh2⟩ := hcore.one_fill (by simp [State.core, hf])
  have : g = f := by
    have := hg.symm.trans hf
    simp [State.core] at this; exact this
  subst this
  have hw : PosWF s.pos := hs.linv.wf
  obtain ⟨b1, b2, b3, b4⟩ := hsh1.bal
  obtain ⟨d1, d2, d3, d4⟩ := hsh2.bal
  simp only [State.core] at *
  simp only [changePosition, bind_ok, debugP_ok] at hc
  obtain ⟨_, _, hc⟩ := hc
  have fin : ∀ p : Inner, ∀ dir, ∀ rr, p.decrease c.env c.spec.initMarginReq a g.qty g.price dir
      (g.fee c) = .ok rr → rr.2 = a' → p.entry = s.pos.entryPrice → p.fees = s.pos.outstandingFees →
      (dir = 1 ↔ 0 < s.pos.quantity) →
      s'.acct.balance .wallet + s'.acct.balance .orderMargin =
        s.acct.balance .wallet + s.acct.balance .orderMargin + profit + released - paid ∧
      s'.acct.balance .positionMargin = s.acct.balance .positionMargin - released ∧
      s'.acct.balance .treasury = s.acct.balance .treasury - profit ∧
      s'.feesPaid = s.feesPaid + paid := by
    intro p dir rr hr e1 e2 e3 e4
    obtain ⟨_, _, _, _, m⟩ := Inner.decrease_ok hr
    rw [e1, e2, e3] at m
    have ep : Spec.pnl c.env s.pos.entryPrice g.price (if dir = 1 then g.qty else -g.qty) = profit := by
      simp only [profit]
      by_cases hdir : dir = 1
      · simp [hdir, e4.1 hdir]
      · simp [hdir, (not_congr e4).1 hdir]
    rw [ep] at m
    have m1 := m.bal .wallet
    have m2 := m.bal .orderMargin
    have m3 := m.bal .positionMargin
    have m4 := m.bal .treasury
    have m5 := m.bal .exchangeFee
    simp only [reduceDelta] at m1 m2 m3 m4 m5
    simp only [State.feesPaid]
    change _ = _ + (profit + released - paid) at m1
    change _ = _ + -released at m3
    change _ = _ + paid at m5
    refine ⟨by omega, by omega, by omega, by omega⟩
  cases hp : s.pos with
  | neutral => rw [hp] at hd; simp [Position.quantity] at hd
  | long p =>
    rw [hp] at hw; simp only [PosWF] at hw
    have hside : g.side = .sell := by
      rw [hp] at hd; simp only [Position.quantity] at hd
      rcases hd with hd | hd
      · exact hd.2
      · omega
    have hle : g.qty ≤ p.qty := by
      rw [hp] at hq; simpa only [Position.quantity, abs_of_pos hw] using hq
    simp only [hp, hside] at hc
    have hfin := fun rr hr e => fin p 1 rr hr e (by rw [hp]; rfl) (by rw [hp]; rfl)
      (by rw [hp]; simp [Position.quantity, hw])
    split at hc
    · simp only [bind_ok, ok_inj, Prod.mk.injEq] at hc
      obtain ⟨rr, hr, _, e⟩ := hc
      exact hfin rr hr e
    · split at hc
      · simp only [bind_ok, ok_inj, Prod.mk.injEq] at hc
        obtain ⟨rr, hr, _, _, _, e⟩ := hc
        exact hfin rr hr e
      · omega
  | short p =>
    rw [hp] at hw; simp only [PosWF] at hw
    have hside : g.side = .buy := by
      rw [hp] at hd; simp only [Position.quantity] at hd
      rcases hd with hd | hd
      · omega
      · exact hd.2
    have hle : g.qty ≤ p.qty := by
      rw [hp] at hq; simpa only [Position.quantity, abs_neg_of_pos hw] using hq
    simp only [hp, hside] at hc
    have hfin := fun rr hr e => fin p (-1) rr hr e (by rw [hp]; rfl) (by rw [hp]; rfl)
      (by rw [hp]; simp [Position.quantity]; omega)
    split at hc
    · simp only [bind_ok, ok_inj, Prod.mk.injEq] at hc
      obtain ⟨rr, hr, _, e⟩ := hc
      exact hfin rr hr e
    · split at hc
      · simp only [bind_ok, ok_inj, Prod.mk.injEq] at hc
        obtain ⟨rr, hr, _, _, _, e⟩ := hc
        exact hfin rr hr e
      · omega

example : Ex.last Ex.lin Ex.ops1 (.update (.trade ⟨2, Ex.d 111, Ex.d 2, .buy⟩)) (fun s s' _ =>
    decide (fills s'.log = ⟨true, .sell, Ex.d 110, Ex.d 2⟩ :: fills s.log ∧
      s.pos.quantity = Ex.d 5)) = true := by decide +kernel

end Lfest
