import Verif.Lemmas.Trace
import Verif.Examples

/-!
# Before the first market update (C75)
-/

namespace Lfest

open Spec

/-- Is this call a market update? -/
def Op.isUpdate : Op → Bool
  | .update _ => true
  | _ => false

/-- Was an order accepted, filled or cancelled? -/
def Resp.orderOk : Resp → Bool
  | .market (.ok _) => true
  | .limit (.ok _) => true
  | _ => false

/-- Nothing has been quoted, ordered or traded. -/
structure Untouched (c : Cfg) (s : State) : Prop where
  ms : s.ms = .init
  acct : s.acct = .new c.start
  pos : s.pos = .neutral
  active : s.active = []
  om : s.om = []
  trigger : s.trigger = (State.init c).trigger

theorem Untouched.limit {c : Cfg} {s s' : State} {o : NewLimit} {r}
    (hu : c.spec.priceFilter.multiplierUp ≠ 0) (hs : Untouched c s)
    (h : submitLimit c s o = .ok (s', r)) : Untouched c s' ∧ ∃ err, r = .error (.order err) := by
  rcases submitLimit_cases h with ⟨err, _, rfl, rfl⟩ | ⟨_, h⟩
  · exact ⟨⟨hs.ms, hs.acct, hs.pos, hs.active, hs.om, hs.trigger⟩, _, rfl⟩
  rcases h with ⟨err, _, rfl, rfl⟩ | ⟨hp, _⟩
  · exact ⟨⟨hs.ms, hs.acct, hs.pos, hs.active, hs.om, hs.trigger⟩, _, rfl⟩
  exfalso
  have hm : s.ms.mid c.scale = 0 := by
    rw [hs.ms]
    simp [MarketState.mid, MarketState.init, midPrice]
  rw [hm] at hp
  unfold PriceFilter.validate at hp
  split at hp
  · simp at hp
  next h0 =>
  split at hp
  · simp at hp
  split at hp
  · simp at hp
  simp only [bind_ok] at hp
  obtain ⟨r, _, hp⟩ := hp
  split at hp
  · simp at hp
  rw [if_pos ⟨by simp only [dmul]; simp; omega, hu⟩] at hp
  simp at hp

theorem Untouched.step {c : Cfg} {s s' : State} {op : Op} {r : Resp}
    (hu : c.spec.priceFilter.multiplierUp ≠ 0) (hs : Untouched c s) (hop : op.isUpdate = false)
    (hst : step c s op = .ok (s', r)) : Untouched c s' ∧ r.orderOk = false := by
  rcases step_cases hst with ⟨a, u, x, rfl, hb, h, rfl⟩ | ⟨a, u, rfl, hb, h, rfl⟩ | ⟨err, rfl, rfl⟩ |
    ⟨_, _, _, x, rfl, _, h, rfl⟩ | ⟨_, _, _, _, x, rfl, hp, hq, h, rfl⟩ |
    ⟨_, _, _, _, _, x, rfl, _, _, h, rfl⟩ | ⟨_, x, rfl, h, rfl⟩
  · simp [Op.isUpdate] at hop
  · refine ⟨?_, rfl⟩
    cases hf : u.canFill with
    | false =>
      rw [checkActive_bba h hf]
      exact ⟨hs.ms, hs.acct, hs.pos, hs.active, hs.om, hs.trigger⟩
    | true =>
      obtain ⟨l, orders, active', h1, h2, _, _, rfl⟩ := checkActive_ok h hf
      rw [hs.active] at h1
      simp only [matchLoop, ok_inj, Prod.mk.injEq] at h1
      obtain ⟨rfl, rfl⟩ := h1
      simp only [State.loop, removeExecuted, ok_inj] at h2
      subst h2
      exact ⟨hs.ms, hs.acct, hs.pos, rfl, hs.om, hs.trigger⟩
  · exact ⟨hs, rfl⟩
  · rcases submitMarket_cases h with ⟨err, _, rfl, rfl⟩ | ⟨_, h⟩
    · exact ⟨⟨hs.ms, hs.acct, hs.pos, hs.active, hs.om, hs.trigger⟩, rfl⟩
    rcases h with ⟨err, _, rfl, rfl⟩ | ⟨_, _, hpr, _⟩
    · exact ⟨⟨hs.ms, hs.acct, hs.pos, hs.active, hs.om, hs.trigger⟩, rfl⟩
    · exfalso
      rw [hs.ms] at hpr
      revert hpr
      simp only [touchPrice, MarketState.init]
      split <;> simp
  · obtain ⟨a, err, rfl⟩ := hs.limit hu h
    exact ⟨a, rfl⟩
  · rcases amendLimit_cases h with ⟨_, rfl, rfl⟩ | ⟨old, _, hg, _⟩
    · exact ⟨hs, rfl⟩
    · rw [hs.active] at hg
      simp [Book.getById] at hg
  · unfold cancelLimit at h
    simp only [bind_ok] at h
    obtain ⟨_, _, _, _, h⟩ := h
    rw [hs.active] at h
    cases ‹CancelBy› <;>
    · simp only [Book.removeCancel] at h
      cases h
      exact ⟨hs, rfl⟩

theorem untouched_run {c : Cfg} {ops : List Op} {s : State}
    (hu : c.spec.priceFilter.multiplierUp ≠ 0) (hops : ∀ op ∈ ops, op.isUpdate = false)
    (hrun : run c (State.init c) ops = .ok s) : Untouched c s := by
  have key : ∀ (ops : List Op) (s0 : State), Untouched c s0 → (∀ op ∈ ops, op.isUpdate = false) →
      run c s0 ops = .ok s → Untouched c s := by
    intro ops
    induction ops with
    | nil => intro s0 h0 _ hr; simp only [run, ok_inj] at hr; exact hr ▸ h0
    | cons op ops ih =>
      intro s0 h0 ho hr
      simp only [run, bind_ok] at hr
      obtain ⟨⟨s1, r⟩, h1, hr⟩ := hr
      exact ih s1 (h0.step hu (ho op (by simp)) h1).1 (fun o h => ho o (by simp [h])) hr
  exact key ops _ ⟨rfl, rfl, rfl, rfl, rfl, rfl⟩ hops hrun

/-- C75: as long as no market update has been accepted, no order is accepted, filled or cancelled,
there is no position, and all balances are those of a new exchange, whatever else is called. -/
theorem C75_nothing_before_first_update (c : Cfg) (ops : List Op) (s : State)
    (hu : c.spec.priceFilter.multiplierUp ≠ 0) (hops : ∀ op ∈ ops, op.isUpdate = false)
    (hrun : run c (State.init c) ops = .ok s) :
    s.active = [] ∧ s.pos = .neutral ∧ s.ms = (State.init c).ms ∧
    (∀ id, s.acct.balance id = (State.init c).acct.balance id) ∧
    (∀ op s' r, op.isUpdate = false → step c s op = .ok (s', r) → r.orderOk = false) := by
  have hs := untouched_run hu hops hrun
  exact ⟨hs.active, hs.pos, hs.ms, fun id => by rw [hs.acct]; rfl,
    fun op s' r ho h => (hs.step hu ho h).2⟩

/-- C75: before the first update a market order whose quantity passes the filter panics. -/
theorem C75_market_order_panics (c : Cfg) (ops : List Op) (s : State) (side : Side) (q : Int)
    (uid : Nat) (hu : c.spec.priceFilter.multiplierUp ≠ 0) (hops : ∀ op ∈ ops, op.isUpdate = false)
    (hrun : run c (State.init c) ops = .ok s) (hw : 0 ≤ c.start) (hq : 0 < q)
    (hv : c.spec.quantityFilter.validate q = .ok (.ok ())) :
    ∃ p, step c s (.market side q uid) = .error p := by
  cases hst : step c s (.market side q uid) with
  | error p => exact ⟨p, rfl⟩
  | ok x =>
    exfalso
    have hs := untouched_run hu hops hrun
    obtain ⟨s', r⟩ := x
    have hst' := hst
    simp only [step, NewMarket.new] at hst
    rw [if_neg (by omega : ¬ q ≤ 0)] at hst
    simp only [bind_ok] at hst
    obtain ⟨⟨s1, x⟩, h, hx⟩ := hst
    have ht : touchPrice s.ms side = 0 := by
      rw [hs.ms]; cases side <;> rfl
    rcases submitMarket_cases h with ⟨err, h1, _⟩ | ⟨_, ⟨err, h1, _⟩ | ⟨_, _, hp, _⟩⟩
    · rw [hv] at h1; simp at h1
    · simp only [ht, hs.pos, hs.acct] at h1
      have hw' : (Accounts.new c.start).balance .wallet = c.start := by
        simp [Accounts.new, Accounts.balance, Accounts.get, TAccount.net]
      have h2 : checkFunds c q 0 c.start = .ok (.error err) := by
        rw [hw'] at h1
        cases side <;> exact h1
      unfold checkFunds at h2
      simp only [bind_ok] at h2
      obtain ⟨v, hc, h2⟩ := h2
      cases hk : c.env.kind <;> simp [convert, hk, ddiv, dmul] at hc
      subst hc
      simp [dmul] at h2
      rw [if_neg (by omega)] at h2
      simp at h2
    · simp only [ht] at hp; omega

/-- The multiplier of every price filter built by its constructor is above one. -/
theorem C75_filters (scale : Int) (mn mx : Option Int) (tick up down : Int) (f : PriceFilter)
    (h1 : 0 < scale) (h : PriceFilter.new scale mn mx tick up down = .ok (.ok f)) :
    f.multiplierUp ≠ 0 := by
  simp only [PriceFilter.new, bind_ok] at h
  obtain ⟨_, _, h⟩ := h
  repeat' split at h
  all_goals first | (simp at h; done) | skip
  cases h
  show up ≠ 0
  omega

/-- A history without updates in which orders are sent, cancelled and amended. -/
example : Ex.lin.spec.priceFilter.multiplierUp ≠ 0 ∧
    Ex.after Ex.lin [.limit .buy (Ex.d 95) (Ex.d 2) 2, .cancel (.orderId 0),
      .amend 0 .sell (Ex.d 95) (Ex.d 1) 3, .checkActive (.trade ⟨2, Ex.d 94, Ex.d 1, .sell⟩),
      .market .buy 0 1] (fun s => decide (s.log ≠ [])) = true ∧
    Ex.lin.spec.quantityFilter.validate (Ex.d 1) = .ok (.ok ()) := by
  decide +kernel

end Lfest
