import Verif.Lemmas.Inv

/-! The ledger invariant and chains with few fills. -/

namespace Lfest

open Spec

theorem fills_plain {ev : Event} (h : plainEvent ev) (l : List Event) :
    fills (ev :: l) = fills l := by
  cases ev <;> simp [plainEvent] at h <;> simp [fills]

theorem fills_sample (b : UserBalances) (m : Int) (l : List Event) :
    fills (.sample b m :: l) = fills l := by simp [fills]

theorem fills_report (f : Fill) (full : Bool) (l : List Event) :
    fills (fillReport f full ++ l) = f :: fills l := by
  obtain ⟨maker, side, price, qty⟩ := f
  cases maker <;> simp [fillReport, fills]

/-- Accounts, position and fills agree with the ledger. -/
structure LInv (c : Cfg) (x : Core) : Prop where
  sums : x.acct.debitSum = x.acct.creditSum
  broker : x.acct.broker = ⟨0, 0⟩
  wf : PosWF x.pos
  ledger : ledgerOf x.pos (x.acct.balance .exchangeFee) (-c.start - x.acct.balance .treasury)
    = Spec.ledger c (fills x.log)
  pos : ∀ f ∈ fills x.log, 0 < f.qty

theorem LInv.init (c : Cfg) : LInv c (State.init c).core := by
  refine ⟨?_, rfl, trivial, ?_, by simp [State.core, State.init, fills]⟩
  · simp [State.core, State.init, Accounts.new, Accounts.debitSum, Accounts.creditSum]
  · simp [ledgerOf, State.core, State.init, Accounts.new, fills, Spec.ledger, Ledger.empty,
      Position.quantity, Position.entryPrice, Position.outstandingFees, Accounts.balance,
      Accounts.get, TAccount.net]

theorem LInv.step {c : Cfg} {st : Bool} {x y : Core} (h : LInv c x) (k : CoreStep c st x y) :
    LInv c y := by
  cases k with
  | event ev hev =>
    exact ⟨h.sums, h.broker, h.wf, by simpa [fills_plain hev] using h.ledger,
      by simpa [fills_plain hev] using h.pos⟩
  | sample mid =>
    exact ⟨h.sums, h.broker, h.wf, by simpa [fills_sample] using h.ledger,
      by simpa [fills_sample] using h.pos⟩
  | reserve v ht =>
    have m := transfer_moves (by simp) (by simp) ht
    have e1 := m.bal .exchangeFee
    have e2 := m.bal .treasury
    simp [mv] at e1 e2
    refine ⟨by have := m.sums; have := h.sums; simp at *; omega, m.broker.trans h.broker, h.wf, ?_, h.pos⟩
    have := h.ledger
    simpa [e1, e2] using this
  | release v ht =>
    have m := transfer_moves (by simp) (by simp) ht
    have e1 := m.bal .exchangeFee
    have e2 := m.bal .treasury
    simp [mv] at e1 e2
    refine ⟨by have := m.sums; have := h.sums; simp at *; omega, m.broker.trans h.broker, h.wf, ?_, h.pos⟩
    have := h.ledger
    simpa [e1, e2] using this
  | fill f full _ hc =>
    obtain ⟨h1, h2, h3, h4, h5, h6⟩ := changePosition_ledger (k := -c.start) h.wf hc
    refine ⟨by have := h.sums; simp at *; omega, h6.trans h.broker, h2, ?_, ?_⟩
    · rw [fills_report]
      simp only [Spec.ledger]
      rw [← h.ledger]
      exact h3
    · rw [fills_report]
      intro g hg
      simp only [List.mem_cons] at hg
      rcases hg with rfl | hg
      · exact h1
      · exact h.pos g hg

theorem run_linv {c : Cfg} {ops : List Op} {s : State}
    (h : run c (State.init c) ops = .ok s) : LInv c s.core :=
  (run_core (st := false) h).inv (fun _ _ => LInv.step) (LInv.init c)

theorem Spec.Reachable.linv {c : Cfg} {s : State} (h : Reachable c s) : LInv c s.core := by
  obtain ⟨ops, h⟩ := h; exact run_linv h

theorem Spec.Reachable.inv {c : Cfg} {s : State} (h : Reachable c s) : Inv c s := by
  obtain ⟨ops, h⟩ := h; exact run_inv h

theorem run_append {c : Cfg} {s s' : State} {xs ys : List Op}
    (h : run c s xs = .ok s') : run c s (xs ++ ys) = run c s' ys := by
  induction xs generalizing s with
  | nil => simp only [run, ok_inj] at h; subst h; rfl
  | cons x xs ih =>
    simp only [run, bind_ok] at h
    obtain ⟨r, h1, h2⟩ := h
    simp only [List.cons_append, run, h1, bind, Except.bind]
    exact ih h2

theorem Spec.Reachable.step {c : Cfg} {s s' : State} {op : Op} {r} (h : Reachable c s)
    (k : step c s op = .ok (s', r)) : Reachable c s' := by
  obtain ⟨ops, h⟩ := h
  refine ⟨ops ++ [op], ?_⟩
  rw [run_append h]
  simp [run, k, bind, Except.bind]

theorem Spec.Reachable.core {c : Cfg} {s s' : State} {op : Op} {r} (h : Reachable c s)
    (k : Lfest.step c s op = .ok (s', r)) : CoreStar c true s.core s'.core :=
  step_core (fun _ o ho => (h.inv.orders o ho).price) k

/-- Induction principle for reachable states. -/
theorem Spec.Reachable.induct {c : Cfg} {P : State → Prop} (h0 : P (State.init c))
    (hs : ∀ s s' op r, Reachable c s → P s → Lfest.step c s op = .ok (s', r) → P s')
    {s : State} (h : Reachable c s) : P s := by
  obtain ⟨ops, h⟩ := h
  have := run_induct (c := c) (P := fun s => Reachable c s ∧ P s)
    (fun s s' op r hp h => ⟨hp.1.step h, hs s s' op r hp.1 hp.2 h⟩) ops _ _
    ⟨⟨[], rfl⟩, h0⟩ h
  exact this.2

/-! ### Chains with no fill or one fill -/

/-- Money moved between wallet and order margin only. -/
def Shift (a a' : Accounts) : Prop := ∃ x, Moves a a' (mv .wallet .orderMargin x)

theorem Shift.refl (a : Accounts) : Shift a a :=
  ⟨0, (Moves.refl a).congr (fun i => by simp [mv])⟩

theorem Shift.trans {a b c : Accounts} (h : Shift a b) (k : Shift b c) : Shift a c := by
  obtain ⟨x, h⟩ := h; obtain ⟨y, k⟩ := k
  exact ⟨x + y, (h.trans k).congr (fun i => by cases i <;> simp [mv] <;> omega)⟩

theorem Shift.bal {a a' : Accounts} (h : Shift a a') :
    a'.balance .positionMargin = a.balance .positionMargin ∧
    a'.balance .exchangeFee = a.balance .exchangeFee ∧
    a'.balance .treasury = a.balance .treasury ∧
    a'.balance .wallet + a'.balance .orderMargin = a.balance .wallet + a.balance .orderMargin := by
  obtain ⟨x, h⟩ := h
  have h1 := h.bal .positionMargin
  have h2 := h.bal .exchangeFee
  have h3 := h.bal .treasury
  have h4 := h.bal .wallet
  have h5 := h.bal .orderMargin
  simp [mv] at *
  exact ⟨h1, h2, h3, by omega⟩

theorem CoreStep.shift_or_fill {c : Cfg} {st : Bool} {x y : Core} (k : CoreStep c st x y) :
    (Shift x.acct y.acct ∧ y.pos = x.pos ∧ fills y.log = fills x.log) ∨
    (∃ f, (st = true → 0 < f.price) ∧
      changePosition c.env c.spec.initMarginReq x.acct x.pos f.qty f.price f.side (f.fee c)
        = .ok (y.pos, y.acct) ∧ fills y.log = f :: fills x.log) := by
  cases k with
  | event ev hev => exact .inl ⟨Shift.refl _, rfl, fills_plain hev _⟩
  | sample mid => exact .inl ⟨Shift.refl _, rfl, fills_sample _ _ _⟩
  | reserve v ht =>
    refine .inl ⟨⟨-v, (transfer_moves (by simp) (by simp) ht).congr (fun i => ?_)⟩, rfl, rfl⟩
    cases i <;> simp [mv]
  | release v ht =>
    exact .inl ⟨⟨v, transfer_moves (by simp) (by simp) ht⟩, rfl, rfl⟩
  | fill f full hp hc => exact .inr ⟨f, hp, hc, fills_report f full _⟩

theorem CoreStar.length_le {c : Cfg} {st : Bool} {x y : Core} (h : CoreStar c st x y) :
    (fills x.log).length ≤ (fills y.log).length := by
  induction h with
  | refl => exact Nat.le_refl _
  | tail _ k ih =>
    rcases k.shift_or_fill with ⟨_, _, e⟩ | ⟨f, _, _, e⟩ <;> rw [e]
    · exact ih
    · simp; omega

/-- A chain without fills only shifts money between wallet and order margin. -/
theorem CoreStar.no_fill {c : Cfg} {st : Bool} {x y : Core} (h : CoreStar c st x y)
    (hn : (fills y.log).length = (fills x.log).length) :
    Shift x.acct y.acct ∧ y.pos = x.pos ∧ fills y.log = fills x.log := by
  induction h with
  | refl => exact ⟨Shift.refl _, rfl, rfl⟩
  | tail h k ih =>
    have := h.length_le
    rcases k.shift_or_fill with ⟨h1, h2, h3⟩ | ⟨f, _, _, e⟩
    · rw [h3] at hn
      obtain ⟨g1, g2, g3⟩ := ih hn
      exact ⟨g1.trans h1, h2.trans g2, h3.trans g3⟩
    · rw [e] at hn; simp at hn; omega

/-- A chain with one fill. -/
theorem CoreStar.one_fill {c : Cfg} {st : Bool} {x y : Core} (h : CoreStar c st x y)
    (hn : (fills y.log).length = (fills x.log).length + 1) :
    ∃ f a a', fills y.log = f :: fills x.log ∧ (st = true → 0 < f.price) ∧ Shift x.acct a ∧
      changePosition c.env c.spec.initMarginReq a x.pos f.qty f.price f.side (f.fee c)
        = .ok (y.pos, a') ∧ Shift a' y.acct := by
  induction h with
  | refl => omega
  | tail h k ih =>
    rcases k.shift_or_fill with ⟨h1, h2, h3⟩ | ⟨f, hp, hc, e⟩
    · rw [h3] at hn
      obtain ⟨f, a, a', g1, gp, g2, g3, g4⟩ := ih hn
      exact ⟨f, a, a', h3.trans g1, gp, g2, h2 ▸ g3, g4.trans h1⟩
    · rw [e] at hn
      simp only [List.length_cons, Nat.add_right_cancel_iff] at hn
      obtain ⟨g1, g2, g3⟩ := h.no_fill hn
      exact ⟨f, _, _, by rw [e, g3], hp, g1, g2 ▸ hc, Shift.refl _⟩

/-- The number of fills of a chain, and the fills before it are kept. -/
theorem CoreStar.suffix {c : Cfg} {st : Bool} {x y : Core} (h : CoreStar c st x y) :
    ∃ new, fills y.log = new ++ fills x.log ∧ (st = true → ∀ f ∈ new, 0 < f.price) := by
  induction h with
  | refl => exact ⟨[], rfl, by simp⟩
  | tail h k ih =>
    obtain ⟨new, e, hp⟩ := ih
    rcases k.shift_or_fill with ⟨_, _, h3⟩ | ⟨f, hf, _, h3⟩
    · exact ⟨new, h3.trans e, hp⟩
    · refine ⟨f :: new, by rw [h3, e]; rfl, fun hst g hg => ?_⟩
      simp only [List.mem_cons] at hg
      rcases hg with rfl | hg
      · exact hf hst
      · exact hp hst g hg

theorem Spec.Reachable.fill_price {c : Cfg} {s : State} (h : Reachable c s) :
    ∀ f ∈ fills s.log, 0 < f.price ∧ 0 < f.qty := by
  obtain ⟨ops, h⟩ := h
  intro f hf
  obtain ⟨new, e, hp⟩ := (run_core (st := true) h).suffix
  have hq := (run_linv h).pos f hf
  have : fills (State.init c).core.log = [] := by simp [State.core, State.init, fills]
  rw [this, List.append_nil] at e
  exact ⟨hp rfl f (e ▸ hf), hq⟩

/-! ### Calls without fills -/

theorem fills_submitLimit {c : Cfg} {s s' : State} {o : NewLimit} {r}
    (h : submitLimit c s o = .ok (s', r)) : fills s'.log = fills s.log := by
  have : s'.log = .limitSubmit o :: s.log := by
    rcases submitLimit_cases h with ⟨err, _, rfl, rfl⟩ | ⟨_, h⟩
    · rfl
    rcases h with ⟨err, _, rfl, rfl⟩ | ⟨_, h⟩
    · rfl
    rcases h with ⟨err, _, rfl, rfl⟩ | ⟨_, h⟩
    · rfl
    rcases h with ⟨_, rfl, rfl⟩ | ⟨_, ra, ha, hr⟩
    · rfl
    simp only [appendLimit, bind_ok] at ha
    obtain ⟨r1, hr1, ha⟩ := ha
    split at ha
    · simp only [ok_inj, Prod.mk.injEq] at ha; rw [← ha.1]
    · split at ha
      · simp only [ok_inj, Prod.mk.injEq] at ha; rw [← ha.1]
      · simp only [bind_ok] at ha
        obtain ⟨m, _, ha⟩ := ha
        split at ha
        · simp only [bind_ok, ok_inj, Prod.mk.injEq] at ha
          obtain ⟨a, _, s3, hs, rfl, _⟩ := ha
          obtain ⟨rfl, _⟩ := appendChecks_ok hs
          rfl
        · split at ha
          · simp only [bind_ok, ok_inj, Prod.mk.injEq] at ha
            obtain ⟨a, _, s3, hs, rfl, _⟩ := ha
            obtain ⟨rfl, _⟩ := appendChecks_ok hs
            rfl
          · simp only [ok_inj, Prod.mk.injEq] at ha; rw [← ha.1]
  rw [this]; simp [fills]

theorem fills_cancelLimit {c : Cfg} {s s' : State} {b : CancelBy} {r}
    (h : cancelLimit c s b = .ok (s', r)) : fills s'.log = fills s.log := by
  obtain ⟨_, ⟨_, rfl, _⟩ | ⟨removed, active', a, m', h1, _, _, _, _, _, rfl, _⟩⟩ := cancelLimit_ok h
  · rfl
  · simp [fills]

theorem fills_amendLimit {c : Cfg} {s s' : State} {id : Nat} {o : NewLimit} {r}
    (h : amendLimit c s id o = .ok (s', r)) : fills s'.log = fills s.log := by
  rcases amendLimit_cases h with ⟨_, rfl, _⟩ | ⟨old, total, _, _, ⟨_, _, x, hc⟩ | ⟨hq, h⟩⟩
  · rfl
  · exact fills_cancelLimit hc
  · rcases h with ⟨err, hc, _⟩ | ⟨s1, x, hc, hs⟩
    · exact fills_cancelLimit hc
    · exact (fills_submitLimit hs).trans (fills_cancelLimit hc)

theorem fills_observe {c : Cfg} {s s' : State} {u : Update}
    (h : observe c s u = .ok s') : fills s'.log = fills s.log := by
  simp only [observe, bind_ok, ok_inj] at h
  obtain ⟨ms', _, rfl⟩ := h
  simp only
  split <;> simp [fills]

/-! ### Arithmetic of the ledger -/

theorem abs_of_pos {q : Int} (h : 0 < q) : Spec.abs q = q := by
  unfold Spec.abs; rw [if_pos (by omega)]

theorem abs_of_neg {q : Int} (h : q < 0) : Spec.abs q = -q := by
  unfold Spec.abs; rw [if_neg (by omega)]

theorem abs_neg_of_pos {q : Int} (h : 0 < q) : Spec.abs (-q) = q := by
  rw [abs_of_neg (by omega)]; omega

theorem ledger_paid_le (c : Cfg) (l : Ledger) (f : Fill) : l.paid ≤ (l.fill c f).paid := by
  unfold Ledger.fill
  simp only
  split
  · simp
  · split
    · simp
    · simp only; split <;> omega

theorem ledger_qty (c : Cfg) (fs : List Fill) : (Spec.ledger c fs).qty = netBought fs := by
  induction fs with
  | nil => rfl
  | cons f fs ih =>
    simp only [Spec.ledger, netBought, Ledger.fill]
    split
    · next h => rw [ih] at h; simp; omega
    · split <;> simp [ih] <;> omega

theorem tdiv_nonneg_of {a b : Int} (ha : 0 ≤ a) (hb : 0 ≤ b) : 0 ≤ a.tdiv b :=
  Int.tdiv_nonneg ha hb

theorem value_nonneg (e : Env) {q p : Int} (hq : 0 ≤ q) (hp : 0 ≤ p) : 0 ≤ value e q p := by
  have := scale_pos e
  unfold value
  split
  · exact Int.tdiv_nonneg (Int.mul_nonneg hq hp) (by omega)
  · exact Int.tdiv_nonneg (Int.mul_nonneg hq (by omega)) hp

theorem share_nonneg (e : Env) {x r : Int} (hx : 0 ≤ x) (hr : 0 ≤ r) : 0 ≤ share e x r := by
  have := scale_pos e
  exact Int.tdiv_nonneg (Int.mul_nonneg hx hr) (by omega)

theorem fee_nonneg {c : Cfg} {f : Fill} (hm : 0 ≤ c.spec.feeMaker) (ht : 0 ≤ c.spec.feeTaker)
    (hq : 0 < f.qty) (hp : 0 < f.price) : 0 ≤ f.fee c := by
  unfold Fill.fee
  refine share_nonneg _ (value_nonneg _ (by omega) (by omega)) ?_
  split <;> assumption

/-- With fees that are never negative the ledger loses no fee. -/
theorem ledger_fees (c : Cfg) (fs : List Fill)
    (hf : ∀ f ∈ fs, 0 ≤ f.fee c ∧ 0 < f.qty) :
    (Spec.ledger c fs).paid + (Spec.ledger c fs).owed = feeSum c fs ∧
      0 ≤ (Spec.ledger c fs).owed ∧ ((Spec.ledger c fs).qty = 0 → (Spec.ledger c fs).owed = 0) := by
  induction fs with
  | nil => simp [Spec.ledger, feeSum, Ledger.empty]
  | cons f fs ih =>
    obtain ⟨h1, h2, h3⟩ := ih (fun g hg => hf g (by simp [hg]))
    obtain ⟨h4, h5⟩ := hf f (by simp)
    simp only [Spec.ledger, feeSum, Ledger.fill]
    generalize Spec.ledger c fs = l at *
    have hs : f.signed = f.qty ∧ f.side = .buy ∨ f.signed = -f.qty ∧ f.side = .sell := by
      unfold Fill.signed; cases f.side <;> simp
    split
    · next hz =>
      have := h3 hz
      refine ⟨by simp; omega, by simpa using h4, ?_⟩
      simp only
      omega
    · next hz =>
      split
      · next hd =>
        refine ⟨by simp; omega, by simp; omega, ?_⟩
        simp only
        rcases hd with ⟨hd, he⟩ | ⟨hd, he⟩ <;> simp [he] at hs <;> omega
      · next hd =>
        refine ⟨?_, ?_, ?_⟩
        · simp only
          split <;> split <;> omega
        · simp only
          split <;> omega
        · simp only [not_or, not_and] at *
          intro hq
          have : ¬ f.qty < Spec.abs l.qty := by
            unfold Spec.abs
            split <;> omega
          simp [this]

/-- Whatever the rates, the ledger loses exactly the rebates outstanding at a close. -/
theorem ledger_forfeited (c : Cfg) (fs : List Fill) (hf : ∀ f ∈ fs, 0 < f.qty) :
    (Spec.ledger c fs).paid + (Spec.ledger c fs).owed = feeSum c fs + forfeited c fs ∧
      ((Spec.ledger c fs).qty = 0 → (Spec.ledger c fs).owed = 0) := by
  induction fs with
  | nil => simp [Spec.ledger, feeSum, forfeited, Ledger.empty]
  | cons f fs ih =>
    obtain ⟨h1, h3⟩ := ih (fun g hg => hf g (by simp [hg]))
    have h5 := hf f (by simp)
    simp only [Spec.ledger, feeSum, forfeited, Ledger.fill]
    generalize Spec.ledger c fs = l at *
    generalize f.fee c = fee at *
    have hs : f.signed = f.qty ∧ f.side = .buy ∨ f.signed = -f.qty ∧ f.side = .sell := by
      unfold Fill.signed; cases f.side <;> simp
    by_cases hz : l.qty = 0
    · rw [if_pos hz]
      have := h3 hz
      have hn : ¬ l.closedBy f := by unfold Ledger.closedBy; omega
      simp only [hn, false_and, if_false]
      exact ⟨by omega, by omega⟩
    · rw [if_neg hz]
      by_cases hd : (0 < l.qty ∧ f.side = .buy) ∨ (l.qty < 0 ∧ f.side = .sell)
      · rw [if_pos hd]
        have hn : ¬ l.closedBy f := by
          unfold Ledger.closedBy
          rcases hd with ⟨a, b⟩ | ⟨a, b⟩ <;> simp [b] <;> omega
        simp only [hn, false_and, if_false]
        refine ⟨by omega, ?_⟩
        rcases hd with ⟨hd, he⟩ | ⟨hd, he⟩ <;> simp [he] at hs <;> omega
      · rw [if_neg hd]
        have hopp : 0 < l.qty ∧ f.side = .sell ∨ l.qty < 0 ∧ f.side = .buy := by
          rcases hs with ⟨_, hb⟩ | ⟨_, hb⟩ <;> simp [hb] at hd ⊢ <;> omega
        have hcl : l.closedBy f ↔ Spec.abs l.qty ≤ f.qty := by
          unfold Ledger.closedBy; simp [hopp]
        simp only [hcl]
        refine ⟨by split <;> split <;> split <;> omega, ?_⟩
        intro hq
        have : ¬ f.qty < Spec.abs l.qty := by
          unfold Spec.abs
          rcases hs with ⟨_, hb⟩ | ⟨_, hb⟩ <;> simp [hb] at hopp <;> split <;> omega
        simp [this]

theorem forfeited_nonneg (c : Cfg) (fs : List Fill) : 0 ≤ forfeited c fs := by
  induction fs with
  | nil => simp [forfeited]
  | cons f fs ih => simp only [forfeited]; split <;> omega

end Lfest
