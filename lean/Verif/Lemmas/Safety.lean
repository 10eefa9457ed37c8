import Verif.Lemmas.Prices
import Verif.Lemmas.Build

/-! Position margin of flat accounts, sign of the wallet, and freedom from panics. -/

namespace Lfest

open Spec

/-! ### Position margin of a flat account -/

/-- A flat account holds no position margin. -/
def Flat (x : Core) : Prop := x.pos = .neutral → x.acct.balance .positionMargin = 0

theorem changePosition_flat {e : Env} {imr : Int} {a a' : Accounts} {pos : Position}
    {q p f : Int} {side : Side} (hd : e.debug = true)
    (h : changePosition e imr a pos q p side f = .ok (.neutral, a')) :
    a'.balance .positionMargin = 0 := by
  unfold changePosition at h
  simp only [bind_ok, debugP_ok, hd] at h
  obtain ⟨_, _, h⟩ := h
  cases pos with
  | neutral =>
    simp only [bind_ok] at h
    obtain ⟨_, _, h⟩ := h
    cases side <;> simp only [bind_ok, ok_inj, Prod.mk.injEq] at h <;>
      obtain ⟨_, _, h, _⟩ := h <;> simp at h
  | long i =>
    cases side with
    | buy =>
      simp only [bind_ok, ok_inj, Prod.mk.injEq] at h
      obtain ⟨_, _, h, _⟩ := h; simp at h
    | sell =>
      simp only at h
      split at h
      · simp only [bind_ok, ok_inj, Prod.mk.injEq] at h
        obtain ⟨_, _, h, _⟩ := h; simp at h
      · split at h
        · simp only [bind_ok, debugP_ok, ok_inj, Prod.mk.injEq] at h
          obtain ⟨r, _, _, h, _, rfl⟩ := h
          exact h trivial
        · simp only [bind_ok, ok_inj, Prod.mk.injEq] at h
          obtain ⟨_, _, _, _, _, _, _, _, h, _⟩ := h; simp at h
  | short i =>
    cases side with
    | sell =>
      simp only [bind_ok, ok_inj, Prod.mk.injEq] at h
      obtain ⟨_, _, h, _⟩ := h; simp at h
    | buy =>
      simp only at h
      split at h
      · simp only [bind_ok, ok_inj, Prod.mk.injEq] at h
        obtain ⟨_, _, h, _⟩ := h; simp at h
      · split at h
        · simp only [bind_ok, debugP_ok, ok_inj, Prod.mk.injEq] at h
          obtain ⟨r, _, _, h, _, rfl⟩ := h
          exact h trivial
        · simp only [bind_ok, ok_inj, Prod.mk.injEq] at h
          obtain ⟨_, _, _, _, _, _, _, _, h, _⟩ := h; simp at h

theorem Flat.step {c : Cfg} {st : Bool} {x y : Core} (hd : c.env.debug = true) (h : Flat x)
    (k : CoreStep c st x y) : Flat y := by
  cases k with
  | event ev hev => exact h
  | sample mid => exact h
  | reserve v ht =>
    intro hp
    have := transfer_balance ht .positionMargin
    simp at this
    simp only [this]
    exact h hp
  | release v ht =>
    intro hp
    have := transfer_balance ht .positionMargin
    simp at this
    simp only [this]
    exact h hp
  | fill f full _ hc =>
    intro hp
    simp only at hp
    subst hp
    exact changePosition_flat hd hc

theorem Spec.Reachable.flat {c : Cfg} {s : State} (hd : c.env.debug = true) (h : Reachable c s) :
    s.pos = .neutral → s.acct.balance .positionMargin = 0 := by
  obtain ⟨ops, h⟩ := h
  have : Flat s.core := (run_core (st := false) h).inv (fun _ _ h k => h.step hd k) (by
    intro _; simp [State.core, State.init, Accounts.new, Accounts.balance, Accounts.get, TAccount.net])
  exact this

/-- Opening from flat by a fill. -/
theorem changePosition_open {c : Cfg} {a a' : Accounts} {pos' : Position} {f : Fill}
    (h : changePosition c.env c.spec.initMarginReq a .neutral f.qty f.price f.side (f.fee c)
      = .ok (pos', a')) :
    ∃ i, (pos' = .long i ∨ pos' = .short i) ∧ i.qty = f.qty ∧ i.entry = f.price ∧
      a'.balance .positionMargin = a.balance .positionMargin +
        share c.env (value c.env f.qty f.price) c.spec.initMarginReq := by
  unfold changePosition at h
  simp only [bind_ok] at h
  obtain ⟨_, _, _, _, h⟩ := h
  cases hs : f.side <;> rw [hs] at h <;> simp only [bind_ok, ok_inj, Prod.mk.injEq] at h <;>
    obtain ⟨⟨i, a1⟩, hn, rfl, rfl⟩ := h <;> obtain ⟨_, _, _, h1, h2⟩ := Inner.new_ok hn <;>
    refine ⟨i, by simp, by simp at h1; simp [h1], by simp at h1; simp [h1], ?_⟩ <;>
    (have := h2.bal .positionMargin; simpa [mv] using this)

/-- Closing a position completely. -/
theorem changePosition_close {c : Cfg} {a a' : Accounts} {pos : Position} {i : Inner} {f : Fill}
    (hi : pos = .long i ∨ pos = .short i)
    (h : changePosition c.env c.spec.initMarginReq a pos f.qty f.price f.side (f.fee c)
      = .ok (.neutral, a')) :
    a'.balance .positionMargin = a.balance .positionMargin -
        share c.env (value c.env i.qty i.entry) c.spec.initMarginReq := by
  unfold changePosition at h
  simp only [bind_ok] at h
  obtain ⟨_, _, h⟩ := h
  rcases hi with rfl | rfl <;> cases hs : f.side <;> rw [hs] at h <;> simp only at h
  all_goals first
    | (simp only [bind_ok, ok_inj, Prod.mk.injEq] at h; obtain ⟨_, _, h, _⟩ := h; simp at h; done)
    | skip
  all_goals
    split at h
    · simp only [bind_ok, ok_inj, Prod.mk.injEq] at h
      obtain ⟨_, _, h, _⟩ := h; simp at h
    · split at h
      · next hq =>
        simp only [bind_ok, ok_inj, Prod.mk.injEq] at h
        obtain ⟨r, hr, _, _, _, rfl⟩ := h
        obtain ⟨_, _, _, _, hm⟩ := Inner.decrease_ok hr
        have := hm.bal .positionMargin
        simp [reduceDelta, hq] at this
        omega
      · simp only [bind_ok, ok_inj, Prod.mk.injEq] at h
        obtain ⟨_, _, _, _, _, _, _, _, h, _⟩ := h; simp at h

/-- The position that a single fill opens. -/
def opened (f : Fill) (fee : Int) : Position :=
  match f.side with
  | .buy => .long ⟨f.qty, f.price, fee⟩
  | .sell => .short ⟨f.qty, f.price, fee⟩

theorem changePosition_opened {c : Cfg} {a a' : Accounts} {pos' : Position} {f : Fill}
    (h : changePosition c.env c.spec.initMarginReq a .neutral f.qty f.price f.side (f.fee c)
      = .ok (pos', a')) :
    pos' = opened f (f.fee c) ∧ a'.balance .positionMargin = a.balance .positionMargin +
        share c.env (value c.env f.qty f.price) c.spec.initMarginReq := by
  unfold changePosition at h
  simp only [bind_ok] at h
  obtain ⟨_, _, _, _, h⟩ := h
  cases hs : f.side <;> rw [hs] at h <;> simp only [bind_ok, ok_inj, Prod.mk.injEq] at h <;>
    obtain ⟨⟨i, a1⟩, hn, rfl, rfl⟩ := h <;> obtain ⟨_, _, _, h1, h2⟩ := Inner.new_ok hn <;>
    refine ⟨by simp [opened, hs]; simpa using h1, ?_⟩ <;>
    (have := h2.bal .positionMargin; simpa [mv] using this)

theorem changePosition_closed {c : Cfg} {a a' : Accounts} {pos' : Position} {f g : Fill} {fee : Int}
    (hs : g.side = opposite f.side) (hq : g.qty = f.qty)
    (h : changePosition c.env c.spec.initMarginReq a (opened f fee) g.qty g.price g.side (g.fee c)
      = .ok (pos', a')) :
    pos' = .neutral ∧ a'.balance .positionMargin = a.balance .positionMargin -
        share c.env (value c.env f.qty f.price) c.spec.initMarginReq := by
  unfold changePosition at h
  simp only [bind_ok] at h
  obtain ⟨_, _, h⟩ := h
  cases hf : f.side <;> rw [hf] at hs <;> simp only [opposite] at hs <;>
    simp only [opened, hf, hs, hq, Int.lt_irrefl, if_false, if_true, bind_ok, ok_inj, Prod.mk.injEq] at h <;>
    obtain ⟨r, hr, _, _, rfl, rfl⟩ := h <;> obtain ⟨_, _, _, _, hm⟩ := Inner.decrease_ok hr <;>
    refine ⟨rfl, ?_⟩ <;> have := hm.bal .positionMargin <;> simp [reduceDelta] at this <;> omega

/-- Position and margin while every position is opened by one fill and closed by one fill. -/
structure Trips (c : Cfg) (x : Core) : Prop where
  flat : roundTrips (fills x.log) → x.pos = .neutral ∧ x.acct.balance .positionMargin = 0
  opened : ∀ f fs, fills x.log = f :: fs → roundTrips fs → x.pos = opened f (f.fee c) ∧
    x.acct.balance .positionMargin = share c.env (value c.env f.qty f.price) c.spec.initMarginReq

theorem Trips.step {c : Cfg} {st : Bool} {x y : Core} (h : Trips c x) (k : CoreStep c st x y) :
    Trips c y := by
  cases k with
  | event ev hev => exact ⟨by simpa [fills_plain hev] using h.flat, by simpa [fills_plain hev] using h.opened⟩
  | sample mid => exact ⟨by simpa [fills_sample] using h.flat, by simpa [fills_sample] using h.opened⟩
  | reserve v ht =>
    have := transfer_balance ht .positionMargin
    simp at this
    exact ⟨by simpa [this] using h.flat, by simpa [this] using h.opened⟩
  | release v ht =>
    have := transfer_balance ht .positionMargin
    simp at this
    exact ⟨by simpa [this] using h.flat, by simpa [this] using h.opened⟩
  | @fill a p l a' p' f full hp hc =>
    constructor
    · intro ht
      simp only [fills_report] at ht
      cases hl : fills l with
      | nil => rw [hl] at ht; exact absurd ht (by simp [roundTrips])
      | cons g gs =>
        rw [hl] at ht
        obtain ⟨hs, hq, hr⟩ := ht
        obtain ⟨e1, e2⟩ := h.opened g gs hl hr
        simp only at e1 e2 ⊢
        subst e1
        obtain ⟨e3, e4⟩ := changePosition_closed hs hq hc
        exact ⟨e3, by omega⟩
    · intro g gs e hr
      simp only [fills_report, List.cons.injEq] at e
      obtain ⟨rfl, rfl⟩ := e
      obtain ⟨e1, e2⟩ := h.flat hr
      simp only at e1 e2 ⊢
      subst e1
      obtain ⟨e3, e4⟩ := changePosition_opened hc
      exact ⟨e3, by omega⟩

theorem Spec.Reachable.trips {c : Cfg} {s : State} (h : Reachable c s) : Trips c s.core := by
  obtain ⟨ops, h⟩ := h
  refine (run_core (st := false) h).inv (fun _ _ h k => h.step k) ⟨?_, ?_⟩
  · intro _
    simp [State.core, State.init, Accounts.new, Accounts.balance, Accounts.get, TAccount.net]
  · intro f fs e; simp [State.core, State.init, fills] at e

/-! ### Wallet -/

theorem cancelLimit_wallet {c : Cfg} {s s' : State} {b : CancelBy} {r}
    (h : cancelLimit c s b = .ok (s', r)) : s.acct.balance .wallet ≤ s'.acct.balance .wallet := by
  obtain ⟨_, ⟨_, rfl, _⟩ | ⟨removed, active', a, m', h1, _, _, _, ha, _, rfl, _⟩⟩ := cancelLimit_ok h
  · omega
  · rcases refund_ok ha with ⟨_, ht⟩ | ⟨_, rfl⟩
    · have := transfer_balance ht .wallet
      simp at this
      simp only [this]; omega
    · simp

theorem appendLimit_wallet {c : Cfg} {s s' : State} {o : Limit} {r}
    (hw : 0 ≤ s.acct.balance .wallet) (h : appendLimit c s o = .ok (s', r)) :
    0 ≤ s'.acct.balance .wallet := by
  simp only [appendLimit, bind_ok] at h
  obtain ⟨r1, _, h⟩ := h
  split at h
  · simp only [ok_inj, Prod.mk.injEq] at h; obtain ⟨rfl, _⟩ := h; exact hw
  · split at h
    · simp only [ok_inj, Prod.mk.injEq] at h; obtain ⟨rfl, _⟩ := h; exact hw
    · simp only [bind_ok] at h
      obtain ⟨m, _, h⟩ := h
      split at h
      · simp only [bind_ok, appendChecks, assertP_ok, ok_inj, Prod.mk.injEq] at h
        obtain ⟨a, _, s3, ⟨_, _, _, _, _, h1, rfl⟩, rfl, _⟩ := h
        exact h1
      · split at h
        · simp only [bind_ok, appendChecks, assertP_ok, ok_inj, Prod.mk.injEq] at h
          obtain ⟨a, _, s3, ⟨_, _, _, _, _, h1, rfl⟩, rfl, _⟩ := h
          exact h1
        · simp only [ok_inj, Prod.mk.injEq] at h; obtain ⟨rfl, _⟩ := h; exact hw

theorem submitLimit_wallet {c : Cfg} {s s' : State} {o : NewLimit} {r}
    (hw : 0 ≤ s.acct.balance .wallet) (h : submitLimit c s o = .ok (s', r)) :
    0 ≤ s'.acct.balance .wallet := by
  simp only [submitLimit, bind_ok] at h
  obtain ⟨r1, _, h⟩ := h
  split at h
  · simp only [ok_inj, Prod.mk.injEq] at h; obtain ⟨rfl, _⟩ := h; exact hw
  · simp only [bind_ok] at h
    obtain ⟨r2, _, h⟩ := h
    split at h
    · simp only [ok_inj, Prod.mk.injEq] at h; obtain ⟨rfl, _⟩ := h; exact hw
    · simp only [bind_ok] at h
      obtain ⟨r3, _, h⟩ := h
      split at h
      · simp only [ok_inj, Prod.mk.injEq] at h; obtain ⟨rfl, _⟩ := h; exact hw
      · split at h
        · simp only [ok_inj, Prod.mk.injEq] at h; obtain ⟨rfl, _⟩ := h; exact hw
        · simp only [bind_ok] at h
          obtain ⟨⟨s3, r4⟩, h4, h⟩ := h
          have := appendLimit_wallet (by exact hw) h4
          cases r4 <;> simp only [ok_inj, Prod.mk.injEq] at h <;> obtain ⟨rfl, _⟩ := h <;> exact this

theorem amendLimit_wallet {c : Cfg} {s s' : State} {id : Nat} {o : NewLimit} {r}
    (hw : 0 ≤ s.acct.balance .wallet) (h : amendLimit c s id o = .ok (s', r)) :
    0 ≤ s'.acct.balance .wallet := by
  rcases amendLimit_cases h with ⟨_, rfl, _⟩ | ⟨old, total, _, _, ⟨_, _, x, hc⟩ | ⟨hq, h⟩⟩
  · exact hw
  · have := cancelLimit_wallet hc; omega
  · rcases h with ⟨err, hc, _⟩ | ⟨s1, x, hc, hs⟩
    · have := cancelLimit_wallet hc; omega
    · exact submitLimit_wallet (by have := cancelLimit_wallet hc; omega) hs

/-- A fill that enlarges the position takes its margin from the wallet and nothing else. -/
theorem changePosition_enlarge {e : Env} {imr q p f : Int} {side : Side} {a a' : Accounts}
    {pos pos' : Position} (hw : PosWF pos) (hen : enlarges pos side)
    (h : changePosition e imr a pos q p side f = .ok (pos', a')) :
    0 < q ∧ 0 < p ∧ a'.balance .wallet = a.balance .wallet - share e (value e q p) imr := by
  unfold changePosition at h
  simp only [bind_ok] at h
  obtain ⟨_, _, h⟩ := h
  cases pos with
  | neutral =>
    simp only [bind_ok] at h
    obtain ⟨_, _, h⟩ := h
    cases side <;> simp only [bind_ok, ok_inj, Prod.mk.injEq] at h <;>
      obtain ⟨⟨i, a1⟩, hn, rfl, rfl⟩ := h <;> obtain ⟨h0, h1, _, _, h2⟩ := Inner.new_ok hn <;>
      (have := h2.bal .wallet; simp [mv] at this; exact ⟨h0, h1, by simp only; omega⟩)
  | long i =>
    cases side with
    | buy =>
      simp only [bind_ok, ok_inj, Prod.mk.injEq] at h
      obtain ⟨⟨j, a1⟩, hn, rfl, rfl⟩ := h
      obtain ⟨h0, h1, _, _, h2⟩ := Inner.increase_ok hn
      have := h2.bal .wallet; simp [mv] at this; exact ⟨h0, h1, by simp only; omega⟩
    | sell =>
      have := hw
      simp [enlarges, opposing, Position.quantity, larger, PosWF] at hen this
      omega
  | short i =>
    cases side with
    | sell =>
      simp only [bind_ok, ok_inj, Prod.mk.injEq] at h
      obtain ⟨⟨j, a1⟩, hn, rfl, rfl⟩ := h
      obtain ⟨h0, h1, _, _, h2⟩ := Inner.increase_ok hn
      have := h2.bal .wallet; simp [mv] at this; exact ⟨h0, h1, by simp only; omega⟩
    | buy =>
      have := hw
      simp [enlarges, opposing, Position.quantity, larger, PosWF] at hen this
      omega

theorem feeShare_nonneg {e : Env} {q p f : Int} (hq : 0 < q) (hp : 0 < p) (hf : 0 ≤ f) :
    0 ≤ share e (value e q p) f := by
  have hv : 0 ≤ value e q p := by
    unfold value
    have := scale_pos e
    cases e.kind
    · exact Int.tdiv_nonneg (Int.mul_nonneg (by omega) (by omega)) (by omega)
    · exact Int.tdiv_nonneg (Int.mul_nonneg (by omega) (by omega)) (by omega)
  exact Int.tdiv_nonneg (Int.mul_nonneg hv hf) (by have := scale_pos e; omega)

/-- A market order that does not oppose the position leaves a non-negative wallet. -/
theorem submitMarket_wallet {c : Cfg} {s s' : State} {o : NewMarket} {r}
    (hwf : PosWF s.pos) (hw : 0 ≤ s.acct.balance .wallet) (hf : 0 ≤ c.spec.feeTaker)
    (hen : enlarges s.pos o.side) (h : submitMarket c s o = .ok (s', r)) :
    0 ≤ s'.acct.balance .wallet := by
  simp only [submitMarket, bind_ok] at h
  obtain ⟨r1, _, h⟩ := h
  split at h
  · simp only [ok_inj, Prod.mk.injEq] at h; obtain ⟨rfl, _⟩ := h; exact hw
  · simp only [bind_ok] at h
    obtain ⟨r2, h2, h⟩ := h
    have htouch : touch s.ms o.side = touchPrice s.ms o.side := by cases o.side <;> rfl
    split at h
    · simp only [ok_inj, Prod.mk.injEq] at h; obtain ⟨rfl, _⟩ := h; exact hw
    · simp only [bind_ok, settleMarket, ok_inj, Prod.mk.injEq] at h
      obtain ⟨s3, ⟨_, _, _, _, v, _, ⟨pos', a'⟩, hc, rfl⟩, rfl, _⟩ := h
      simp only [NewMarket.intoFilled, htouch] at hc h2
      obtain ⟨hq, hp, e⟩ := changePosition_enlarge hwf hen hc
      rcases checkMarket_ok hwf h2 with ⟨_, hm⟩ | ⟨h3, _⟩
      · unfold marketAllowed at hm
        simp only [show opposing s.pos.quantity o.side = 0 from hen, if_true] at hm
        unfold needed at hm
        have := feeShare_nonneg (e := c.env) hq hp hf
        simp only [e]; omega
      · simp at h3

/-! ### Fills that go through -/

theorem quantity_valid {f : QuantityFilter} {q : Int} (ht : f.tickSize ≠ 0) (h : quantityOk f q) :
    f.validate q = .ok (.ok ()) := by
  obtain ⟨r, hr⟩ := quantity_total (q := q) ht
  rw [hr, (quantity_ok hr).2 h]

theorem checkFunds_total {c : Cfg} {q p funds : Int} (hp : 0 < p) : ∃ r, checkFunds c q p funds = .ok r := by
  simp only [checkFunds, convert_pos (e := c.env) (q := q) (show p ≠ 0 by omega), bind, Except.bind]
  split <;> exact ⟨_, rfl⟩

theorem checkMarket_total {c : Cfg} {s : State} {side : Side} {q : Int}
    (hp : 0 < touchPrice s.ms side) :
    ∃ r, checkMarketOrder c s.pos (s.acct.balance .positionMargin) side q
      (touchPrice s.ms side) (s.acct.balance .wallet) = .ok r := by
  unfold checkMarketOrder checkMarketBuy checkMarketSell
  cases side <;> cases s.pos <;> simp only <;> (try split) <;>
    first | exact checkFunds_total hp | exact ⟨_, rfl⟩

theorem checkMarket_allowed {c : Cfg} {s : State} {side : Side} {q : Int} (hw : PosWF s.pos)
    (hp : 0 < touchPrice s.ms side) (h : marketAllowed c s side q) :
    checkMarketOrder c s.pos (s.acct.balance .positionMargin) side q (touchPrice s.ms side)
      (s.acct.balance .wallet) = .ok (.ok ()) := by
  obtain ⟨r, hr⟩ := checkMarket_total (c := c) (s := s) (side := side) (q := q) hp
  rcases checkMarket_ok hw hr with ⟨rfl, _⟩ | ⟨_, hn⟩
  · exact hr
  · exact absurd h hn

theorem Inner.new_total {e : Env} {imr : Int} {a : Accounts} {q p f : Int}
    (hs : a.debitSum = a.creditSum) (hq : 0 < q) (hp : 0 < p)
    (hm : 0 < share e (value e q p) imr) : ∃ r, Inner.new e imr a q p f = .ok r := by
  obtain ⟨a', ha⟩ := transfer_total (e := e) (d := .positionMargin) (c := .wallet) hs hm (by simp)
  refine ⟨(⟨q, p, f⟩, a'), ?_⟩
  simp only [Inner.new, bind_ok, assertP_ok]
  exact ⟨(), hq, (), hp, _, convert_pos (by omega), a', ha, rfl⟩

theorem Inner.increase_total {e : Env} {imr : Int} {a : Accounts} {i : Inner} {q p f : Int}
    (hs : a.debitSum = a.creditSum) (hi : 0 < i.qty) (hq : 0 < q) (hp : 0 < p)
    (hm : 0 < share e (value e q p) imr) : ∃ r, i.increase e imr a q p f = .ok r := by
  obtain ⟨a', ha⟩ := transfer_total (e := e) (d := .positionMargin) (c := .wallet) hs hm (by simp)
  have hw : ∃ w, newWeightedPrice e.scale i.entry i.qty p q = .ok w := by
    simp only [newWeightedPrice, ddiv_ok]; exact ⟨_, by omega, rfl⟩
  obtain ⟨w, hw⟩ := hw
  refine ⟨(⟨i.qty + q, w, i.fees + f⟩, a'), ?_⟩
  simp only [Inner.increase, bind_ok, assertP_ok]
  exact ⟨(), hq, (), hp, _, convert_pos (by omega), w, hw, a', ha, rfl⟩

theorem Inner.decrease_total {e : Env} {imr : Int} {a : Accounts} {i : Inner} {q p d f : Int}
    (hs : a.debitSum = a.creditSum) (hq : 0 < q) (hle : q ≤ i.qty) (hp : 0 < p) (he : 0 < i.entry)
    (hm : 0 < share e (value e q i.entry) imr) :
    ∃ r, i.decrease e imr a q p d f = .ok r := by
  have hv := pnl_total (e := e) (q := (if d = 1 then q else -q)) (show i.entry ≠ 0 by omega) (show p ≠ 0 by omega)
  obtain ⟨b1, hb1⟩ := settlePnl_total (e := e) hs (Spec.pnl e i.entry p ((if d = 1 then q else -q)))
  have hs1 := (settlePnl_ok hb1).balanced hs
  obtain ⟨b2, hb2⟩ := transfer_total (e := e) (d := .wallet) (c := .positionMargin) hs1 hm (by simp)
  have hs2 := (transfer_moves (by simp) (by simp) hb2).balanced hs1
  obtain ⟨r', hr'⟩ := settleFees_total (e := e) hs2 (i.fees + f)
  simp only [Inner.decrease, bind_ok, assertP_ok, debugP_ok, ok_inj]
  exact ⟨_, (), hq, (), hle, (), fun _ => by omega, _, hv, b1, hb1, _, convert_pos (by omega), (),
    fun _ => hm, b2, hb2, r', hr', rfl⟩

theorem share_entry {e : Env} {q p imr : Int} (hp : 0 ≤ p) (h : 0 < share e (value e q p) imr) :
    0 < p := by
  rcases Int.lt_or_eq_of_le hp with h0 | h0
  · exact h0
  · subst h0
    have : value e q 0 = 0 := by unfold value; cases e.kind <;> simp
    rw [this] at h
    simp [share] at h

/-- When a fill goes through: the margin reserved or freed is at least one unit in the last
place, and nothing is left over of the margin of a position that is closed completely. -/
theorem changePosition_total {e : Env} {imr q p f : Int} {side : Side} {a : Accounts}
    {pos : Position} (hw : PosWF pos) (hs : a.debitSum = a.creditSum) (he : 0 ≤ pos.entryPrice)
    (hq : 0 < q) (hp : 0 < p)
    (hflat : e.debug = true → pos = .neutral → a.balance .positionMargin = 0)
    (hopen : opposing pos.quantity side < q →
      0 < share e (value e (q - opposing pos.quantity side) p) imr)
    (hred : 0 < opposing pos.quantity side →
      0 < share e (value e (smaller q (opposing pos.quantity side)) pos.entryPrice) imr)
    (hex : 0 < opposing pos.quantity side →
      opposing pos.quantity side < q ∨ (opposing pos.quantity side = q ∧ e.debug = true) →
      a.balance .positionMargin =
        share e (value e (opposing pos.quantity side) pos.entryPrice) imr) :
    ∃ r, changePosition e imr a pos q p side f = .ok r := by
  simp only [changePosition]
  have hlong : ∀ i : Inner, pos = .long i → 0 < i.qty := by rintro i rfl; exact hw
  have hshort : ∀ i : Inner, pos = .short i → 0 < i.qty := by rintro i rfl; exact hw
  cases pos with
  | neutral =>
    simp only [Position.quantity, opposing_neutral, Int.sub_zero] at hopen
    obtain ⟨⟨i, a'⟩, h⟩ := Inner.new_total (e := e) (f := f) hs hq hp (hopen hq)
    cases side
    · refine ⟨(.long i, a'), ?_⟩
      simp only [bind_ok, debugP_ok]
      exact ⟨(), fun _ => hq, (), fun hd => hflat hd rfl, (i, a'), h, rfl⟩
    · refine ⟨(.short i, a'), ?_⟩
      simp only [bind_ok, debugP_ok]
      exact ⟨(), fun _ => hq, (), fun hd => hflat hd rfl, (i, a'), h, rfl⟩
  | long i =>
    have hi := hlong i rfl
    cases side with
    | buy =>
      have h0 : opposing (Position.quantity (.long i)) .buy = 0 := by
        simp only [opposing, Position.quantity, larger]; omega
      rw [h0] at hopen
      simp only [Int.sub_zero] at hopen
      obtain ⟨⟨j, a'⟩, h⟩ := Inner.increase_total (e := e) (i := i) (f := f) hs hi hq hp (hopen hq)
      refine ⟨(.long j, a'), ?_⟩
      simp only [bind_ok, debugP_ok]
      exact ⟨(), fun _ => hq, (j, a'), h, rfl⟩
    | sell =>
      have h0 : opposing (Position.quantity (.long i)) .sell = i.qty := by
        simp only [opposing, Position.quantity, larger]; omega
      rw [h0] at hopen hred hex
      simp only [Position.entryPrice] at hred hex he
      obtain ⟨⟨r, ha⟩, hr⟩ := Inner.decrease_total (e := e) (i := i) (q := smaller q i.qty) (d := 1) (f := f)
        (p := p) hs (by unfold smaller; split <;> omega) (by unfold smaller; split <;> omega) hp
        (share_entry he (hred hi)) (hred hi)
      have hmov := (Inner.decrease_ok hr).2.2.2.2
      by_cases hlt : q < i.qty
      · have : smaller q i.qty = q := by unfold smaller; split <;> omega
        rw [this] at hr
        refine ⟨(.long r, ha), ?_⟩
        simp only [bind_ok, debugP_ok]
        refine ⟨(), fun _ => hq, ?_⟩
        rw [if_pos hlt]
        simp only [bind_ok]
        exact ⟨_, hr, rfl⟩
      · have hsm : smaller q i.qty = i.qty := by unfold smaller; split <;> omega
        rw [hsm] at hr hmov
        have hz := hmov.bal .positionMargin
        simp [reduceDelta] at hz
        by_cases heq : q = i.qty
        · refine ⟨(.neutral, ha), ?_⟩
          simp only [bind_ok, debugP_ok]
          refine ⟨(), fun _ => hq, ?_⟩
          rw [if_neg hlt, if_pos heq]
          simp only [bind_ok, debugP_ok]
          refine ⟨(r, ha), by rw [heq]; exact hr, (), fun hd => ?_, rfl⟩
          have := hex hi (.inr ⟨heq.symm, hd⟩)
          simp only; omega
        · have hgt : i.qty < q := by omega
          have hm := hex hi (.inl hgt)
          have hsum := hmov.balanced hs
          obtain ⟨⟨j, b⟩, hn⟩ := Inner.new_total (e := e) (imr := imr) (q := q - i.qty) (p := p) (f := 0) hsum (by omega) hp
            (hopen hgt)
          have hrq := (Inner.decrease_ok hr).2.2.2.1
          refine ⟨(.short j, b), ?_⟩
          simp only [bind_ok, debugP_ok]
          refine ⟨(), fun _ => hq, ?_⟩
          rw [if_neg hlt, if_neg heq]
          simp only [bind_ok, assertP_ok]
          refine ⟨(r, ha), hr, (), ?_, (), ?_, (j, b), hn, rfl⟩
          · simp only at hrq; rw [hrq]; simp
          · simp only; omega
  | short i =>
    have hi := hshort i rfl
    cases side with
    | sell =>
      have h0 : opposing (Position.quantity (.short i)) .sell = 0 := by
        simp only [opposing, Position.quantity, larger]; omega
      rw [h0] at hopen
      simp only [Int.sub_zero] at hopen
      obtain ⟨⟨j, a'⟩, h⟩ := Inner.increase_total (e := e) (i := i) (f := f) hs hi hq hp (hopen hq)
      refine ⟨(.short j, a'), ?_⟩
      simp only [bind_ok, debugP_ok]
      exact ⟨(), fun _ => hq, (j, a'), h, rfl⟩
    | buy =>
      have h0 : opposing (Position.quantity (.short i)) .buy = i.qty := by
        simp only [opposing, Position.quantity, larger]; omega
      rw [h0] at hopen hred hex
      simp only [Position.entryPrice] at hred hex he
      obtain ⟨⟨r, ha⟩, hr⟩ := Inner.decrease_total (e := e) (i := i) (q := smaller q i.qty) (d := -1) (f := f)
        (p := p) hs (by unfold smaller; split <;> omega) (by unfold smaller; split <;> omega) hp
        (share_entry he (hred hi)) (hred hi)
      have hmov := (Inner.decrease_ok hr).2.2.2.2
      by_cases hlt : q < i.qty
      · have : smaller q i.qty = q := by unfold smaller; split <;> omega
        rw [this] at hr
        refine ⟨(.short r, ha), ?_⟩
        simp only [bind_ok, debugP_ok]
        refine ⟨(), fun _ => hq, ?_⟩
        rw [if_pos hlt]
        simp only [bind_ok]
        exact ⟨_, hr, rfl⟩
      · have hsm : smaller q i.qty = i.qty := by unfold smaller; split <;> omega
        rw [hsm] at hr hmov
        have hz := hmov.bal .positionMargin
        simp [reduceDelta] at hz
        by_cases heq : q = i.qty
        · refine ⟨(.neutral, ha), ?_⟩
          simp only [bind_ok, debugP_ok]
          refine ⟨(), fun _ => hq, ?_⟩
          rw [if_neg hlt, if_pos heq]
          simp only [bind_ok, debugP_ok]
          refine ⟨(r, ha), by rw [heq]; exact hr, (), fun hd => ?_, rfl⟩
          have := hex hi (.inr ⟨heq.symm, hd⟩)
          simp only; omega
        · have hgt : i.qty < q := by omega
          have hm := hex hi (.inl hgt)
          have hsum := hmov.balanced hs
          obtain ⟨⟨j, b⟩, hn⟩ := Inner.new_total (e := e) (imr := imr) (q := q - i.qty) (p := p) (f := 0) hsum (by omega) hp
            (hopen hgt)
          have hrq := (Inner.decrease_ok hr).2.2.2.1
          refine ⟨(.long j, b), ?_⟩
          simp only [bind_ok, debugP_ok]
          refine ⟨(), fun _ => hq, ?_⟩
          rw [if_neg hlt, if_neg heq]
          simp only [bind_ok, assertP_ok]
          refine ⟨(r, ha), hr, (), ?_, (), ?_, (j, b), hn, rfl⟩
          · simp only at hrq; rw [hrq]; simp
          · simp only; omega

/-- The converse of `changePosition_total`: a fill that goes through meets its conditions. -/
theorem changePosition_needs {e : Env} {imr q p f : Int} {side : Side} {a : Accounts}
    {pos : Position} {r} (hw : PosWF pos)
    (h : changePosition e imr a pos q p side f = .ok r) :
    (opposing pos.quantity side < q →
      0 < share e (value e (q - opposing pos.quantity side) p) imr) ∧
    (0 < opposing pos.quantity side →
      0 < share e (value e (smaller q (opposing pos.quantity side)) pos.entryPrice) imr) ∧
    (0 < opposing pos.quantity side →
      opposing pos.quantity side < q ∨ (opposing pos.quantity side = q ∧ e.debug = true) →
      a.balance .positionMargin =
        share e (value e (opposing pos.quantity side) pos.entryPrice) imr) := by
  unfold changePosition at h
  have hlong : ∀ i : Inner, pos = .long i → 0 < i.qty := by rintro i rfl; exact hw
  have hshort : ∀ i : Inner, pos = .short i → 0 < i.qty := by rintro i rfl; exact hw
  simp only [bind_ok, debugP_ok] at h
  obtain ⟨_, _, h⟩ := h
  cases pos with
  | neutral =>
    simp only [Position.quantity, opposing_neutral, Int.sub_zero]
    cases side <;>
    · simp only [bind_ok] at h
      obtain ⟨_, _, x, hx, _⟩ := h
      exact ⟨fun _ => (Inner.new_ok hx).2.2.1, fun h => absurd h (by omega),
        fun h => absurd h (by omega)⟩
  | long i =>
    have hi := hlong i rfl
    cases side with
    | buy =>
      have h0 : opposing (Position.quantity (.long i)) .buy = 0 := by
        simp only [opposing, Position.quantity, larger]; omega
      rw [h0]
      simp only [bind_ok] at h
      obtain ⟨x, hx, _⟩ := h
      simp only [Int.sub_zero]
      exact ⟨fun _ => (Inner.increase_ok hx).2.2.1, fun h => absurd h (by omega),
        fun h => absurd h (by omega)⟩
    | sell =>
      have h0 : opposing (Position.quantity (.long i)) .sell = i.qty := by
        simp only [opposing, Position.quantity, larger]; omega
      rw [h0]
      simp only [Position.entryPrice]
      simp only at h
      split at h
      · next hlt =>
        simp only [bind_ok] at h
        obtain ⟨x, hx, _⟩ := h
        have : smaller q i.qty = q := by unfold smaller; split <;> omega
        rw [this]
        exact ⟨fun h => absurd h (by omega), fun _ => (Inner.decrease_ok hx).2.2.1,
          fun _ h => absurd h (by omega)⟩
      · next hlt =>
        have hsm : smaller q i.qty = i.qty := by unfold smaller; split <;> omega
        rw [hsm]
        split at h
        · next heq =>
          simp only [bind_ok, debugP_ok] at h
          obtain ⟨x, hx, _, hz, _⟩ := h
          rw [heq] at hx
          have hb := (Inner.decrease_ok hx).2.2.2.2.bal .positionMargin
          simp only [reduceDelta] at hb
          refine ⟨fun h => absurd h (by omega), fun _ => (Inner.decrease_ok hx).2.2.1,
            fun _ h => ?_⟩
          have := hz (by rcases h with h | h; omega; exact h.2)
          omega
        · next hne =>
          simp only [bind_ok, assertP_ok] at h
          obtain ⟨x, hx, _, _, _, hz, y, hy, _⟩ := h
          have hb := (Inner.decrease_ok hx).2.2.2.2.bal .positionMargin
          simp only [reduceDelta] at hb
          exact ⟨fun _ => (Inner.new_ok hy).2.2.1, fun _ => (Inner.decrease_ok hx).2.2.1,
            fun _ _ => by omega⟩
  | short i =>
    have hi := hshort i rfl
    cases side with
    | sell =>
      have h0 : opposing (Position.quantity (.short i)) .sell = 0 := by
        simp only [opposing, Position.quantity, larger]; omega
      rw [h0]
      simp only [bind_ok] at h
      obtain ⟨x, hx, _⟩ := h
      simp only [Int.sub_zero]
      exact ⟨fun _ => (Inner.increase_ok hx).2.2.1, fun h => absurd h (by omega),
        fun h => absurd h (by omega)⟩
    | buy =>
      have h0 : opposing (Position.quantity (.short i)) .buy = i.qty := by
        simp only [opposing, Position.quantity, larger]; omega
      rw [h0]
      simp only [Position.entryPrice]
      simp only at h
      split at h
      · next hlt =>
        simp only [bind_ok] at h
        obtain ⟨x, hx, _⟩ := h
        have : smaller q i.qty = q := by unfold smaller; split <;> omega
        rw [this]
        exact ⟨fun h => absurd h (by omega), fun _ => (Inner.decrease_ok hx).2.2.1,
          fun _ h => absurd h (by omega)⟩
      · next hlt =>
        have hsm : smaller q i.qty = i.qty := by unfold smaller; split <;> omega
        rw [hsm]
        split at h
        · next heq =>
          simp only [bind_ok, debugP_ok] at h
          obtain ⟨x, hx, _, hz, _⟩ := h
          rw [heq] at hx
          have hb := (Inner.decrease_ok hx).2.2.2.2.bal .positionMargin
          simp only [reduceDelta] at hb
          refine ⟨fun h => absurd h (by omega), fun _ => (Inner.decrease_ok hx).2.2.1,
            fun _ h => ?_⟩
          have := hz (by rcases h with h | h; omega; exact h.2)
          omega
        · next hne =>
          simp only [bind_ok, assertP_ok] at h
          obtain ⟨x, hx, _, _, _, hz, y, hy, _⟩ := h
          have hb := (Inner.decrease_ok hx).2.2.2.2.bal .positionMargin
          simp only [reduceDelta] at hb
          exact ⟨fun _ => (Inner.new_ok hy).2.2.1, fun _ => (Inner.decrease_ok hx).2.2.1,
            fun _ _ => by omega⟩

/-- When a market order panics. -/
theorem submitMarket_exact {c : Cfg} {s : State} {o : NewMarket}
    (ht : c.spec.quantityFilter.tickSize ≠ 0) (hw : PosWF s.pos)
    (hs : s.acct.debitSum = s.acct.creditSum) (he : 0 ≤ s.pos.entryPrice)
    (hflat : c.env.debug = true → s.pos = .neutral → s.acct.balance .positionMargin = 0)
    (hq : 0 < o.qty) (hp : 0 < touchPrice s.ms o.side) :
    (∃ p, submitMarket c s o = .error p) ↔
      quantityOk c.spec.quantityFilter o.qty ∧ marketAllowed c s o.side o.qty ∧
        ¬ marginsWorkOut c s o.side o.qty := by
  constructor
  · rintro ⟨p, h⟩
    obtain ⟨r1, h1⟩ := quantity_total (q := o.qty) ht
    have hcp := h
    simp only [submitMarket, h1, bind, Except.bind] at h
    cases r1 with
    | error err => simp at h
    | ok u =>
      refine ⟨(quantity_ok h1).1 rfl, ?_⟩
      obtain ⟨r2, h2⟩ := checkMarket_total (c := c) (s := s) (side := o.side) (q := o.qty) hp
      have ht' : touch s.ms o.side = touchPrice s.ms o.side := by cases o.side <;> rfl
      simp only [ht', h2] at h
      rcases checkMarket_ok hw h2 with ⟨rfl, hal⟩ | ⟨⟨err, rfl⟩, _⟩
      · refine ⟨hal, fun hm => ?_⟩
        obtain ⟨⟨pos', a'⟩, hc⟩ := changePosition_total (e := c.env) (imr := c.spec.initMarginReq)
          (f := Fill.fee c ⟨false, o.side, touchPrice s.ms o.side, o.qty⟩) (side := o.side)
          hw hs he hq hp hflat hm.1 hm.2.1 hm.2.2
        obtain ⟨s', f, h', _⟩ := submitMarket_accept (o := o)
          (quantity_valid ht ((quantity_ok h1).1 rfl)) (checkMarket_allowed hw hp hal) hq hp hc
        rw [h'] at hcp
        cases hcp
      · simp at h
  · rintro ⟨hok, hal, hm⟩
    rcases hst : submitMarket c s o with p | ⟨s', r⟩
    · exact ⟨p, rfl⟩
    · exfalso
      rcases submitMarket_cases hst with ⟨err, hv, _⟩ |
        ⟨_, ⟨err, hv, _⟩ | ⟨_, _, _, pos', a', hc, _⟩⟩
      · rw [quantity_valid ht hok] at hv; cases hv
      · rw [checkMarket_allowed hw hp hal] at hv; cases hv
      · exact hm (changePosition_needs hw hc)

/-! ### Quiet updates -/

theorem filled_release {u : Update} {o : Limit} (hf : u.canFill = true) :
    ∃ x, u.filled false o = .ok x := by
  cases u with
  | bba b => simp [Update.canFill] at hf
  | trade t =>
    simp only [Update.filled, Trade.filled, debugP, bind, Except.bind]
    cases o.side <;> simp only [Bool.false_eq_true, if_false] <;> split <;> exact ⟨_, rfl⟩
  | candle t =>
    simp only [Update.filled, Candle.filled, debugP, bind, Except.bind]
    cases o.side <;> simp only [Bool.false_eq_true, if_false] <;> split <;> exact ⟨_, rfl⟩
  | smart t => exact ⟨_, rfl⟩
  | custom k => exact ⟨_, rfl⟩

theorem matchLoop_none {c : Cfg} {u : Update} {os : List Limit} {l : Loop}
    (h : ∀ o ∈ os, u.filled c.env.debug o = .ok none) : matchLoop c u l os = .ok (l, os) := by
  induction os with
  | nil => rfl
  | cons o os ih =>
    simp only [matchLoop, bind_ok]
    refine ⟨(l, o), ?_, (l, os), ih (fun x hx => h x (by simp [hx])), rfl⟩
    simp only [matchOrder, bind_ok]
    exact ⟨none, h o (by simp), rfl⟩

end Lfest
