import Verif.Returns
import Verif.Lemmas.NoPanic
import Verif.Lemmas.Panics
import Verif.Lemmas.Safety

/-! When the modelled code returns. -/

namespace Lfest

open Spec Ref

/-- The call does not panic. -/
def Yields {α} (x : Res α) : Prop := ∃ a, x = .ok a

theorem Yields.ok {α} (a : α) : Yields (.ok a : Res α) := ⟨a, rfl⟩

theorem returns_ok {α} (a : α) : Yields (.ok a : Res α) ↔ True := ⟨fun _ => trivial, fun _ => ⟨a, rfl⟩⟩

theorem returns_error {α} (p : Panic) : Yields (.error p : Res α) ↔ False :=
  ⟨fun ⟨_, h⟩ => (by cases h), False.elim⟩

theorem returns_bind {α β} {x : Res α} {f : α → Res β} :
    Yields (x >>= f) ↔ ∃ a, x = .ok a ∧ Yields (f a) := by
  unfold Yields
  constructor
  · rintro ⟨b, h⟩
    obtain ⟨a, h1, h2⟩ := bind_ok.1 h
    exact ⟨a, h1, b, h2⟩
  · rintro ⟨a, h1, b, h2⟩
    exact ⟨b, bind_ok.2 ⟨a, h1, h2⟩⟩

theorem Yields.bind {α β} {x : Res α} {f : α → Res β} {P Q : Prop} (h1 : Yields x ↔ P)
    (h2 : ∀ a, x = .ok a → P → (Yields (f a) ↔ Q)) : Yields (x >>= f) ↔ P ∧ Q := by
  rw [returns_bind]
  constructor
  · rintro ⟨a, ha, h⟩
    have hp := h1.1 ⟨a, ha⟩
    exact ⟨hp, (h2 a ha hp).1 h⟩
  · rintro ⟨hp, hq⟩
    obtain ⟨a, ha⟩ := h1.2 hp
    exact ⟨a, ha, (h2 a ha hp).2 hq⟩

theorem Yields.free {α β} {x : Res α} {f : α → Res β} {Q : Prop} (h1 : Yields x)
    (h2 : ∀ a, x = .ok a → (Yields (f a) ↔ Q)) : Yields (x >>= f) ↔ Q :=
  Iff.trans (Yields.bind (P := True) ⟨fun _ => trivial, fun _ => h1⟩ fun a ha _ => h2 a ha)
    ⟨fun h => h.2, fun h => ⟨trivial, h⟩⟩

theorem Yields.last {α β} {x : Res α} {f : α → Res β} {P : Prop} (h1 : Yields x ↔ P)
    (h2 : ∀ a, x = .ok a → P → Yields (f a)) : Yields (x >>= f) ↔ P :=
  Iff.trans (Yields.bind (Q := True) h1 fun a ha hp => ⟨fun _ => trivial, fun _ => h2 a ha hp⟩)
    ⟨fun h => h.1, fun h => ⟨h, trivial⟩⟩

theorem Yields.next {α β} {x : Res α} {f : α → Res β} (h1 : Yields x)
    (h2 : ∀ a, x = .ok a → Yields (f a)) : Yields (x >>= f) :=
  let ⟨a, ha⟩ := h1
  returns_bind.2 ⟨a, ha, h2 a ha⟩

theorem returns_assert {c : Prop} [Decidable c] {p : Panic} : Yields (assertP c p) ↔ c :=
  ⟨fun ⟨_, h⟩ => assertP_ok.1 h, fun h => ⟨(), assertP_ok.2 h⟩⟩

theorem returns_debug {d : Bool} {c : Prop} [Decidable c] {p : Panic} :
    Yields (debugP d c p) ↔ (d = true → c) :=
  ⟨fun ⟨_, h⟩ => debugP_ok.1 h, fun h => ⟨(), debugP_ok.2 h⟩⟩

/-! ### Making updates and looking at them -/

theorem smart_returns {d : Bool} {f : PriceFilter} {ts : List Trade} {b : Bba} :
    Yields (SmartCandle.new d ts b f) ↔ makes d (.smart ts b f) := by
  unfold makes
  simp only
  by_cases ht : f.tickSize = 0
  · simp only [ht, ne_eq, not_true_eq_false, false_and, and_false, iff_false]
    rintro ⟨sc, h⟩
    exact smart_tick h ht
  cases d with
  | true =>
    refine Iff.trans (smart_valid ht) ?_
    simp only [forall_const]
    constructor
    · rintro ⟨h1, ⟨t, h2, h3⟩, h4⟩
      exact ⟨fun e => by simp [e] at h2, ht, h1, ⟨t, h2, h3⟩, h4⟩
    · rintro ⟨_, _, h1, h2, h3⟩
      exact ⟨h1, h2, h3⟩
  | false =>
    cases ts with
    | nil => simp [SmartCandle.new, returns_error]
    | cons t0 rest =>
      obtain ⟨r, hr⟩ := bba_total (f := f) (b := b) ht
      have hv := bba_valid (f := f) (b := b) ht
      rw [← hv, hr]
      simp only [SmartCandle.new, debugAnyValid, assertP, debugP, hr, bind, Except.bind]
      cases r with
      | error err => simp [returns_error]
      | ok u => simp [returns_ok, ht]

theorem build_returns {d : Bool} {a : UpdateArg} : Yields (a.build d) ↔ makes d a := by
  cases a with
  | smart ts b f =>
    simp only [UpdateArg.build]
    rw [← smart_returns, returns_bind]
    exact ⟨fun ⟨sc, h, _⟩ => ⟨sc, h⟩, fun ⟨sc, h⟩ => ⟨sc, h, .ok _⟩⟩
  | _ => simp [UpdateArg.build, makes, returns_ok]

theorem observe_returns {c : Cfg} {s : State} {a : UpdateArg} {u : Update}
    (ht : c.spec.priceFilter.tickSize ≠ 0) (hb : a.build c.env.debug = .ok u) :
    Yields (observe c s u) ↔ (c.env.debug = true → updateOk c.spec.priceFilter a) := by
  have hobs : Yields (observe c s u) ↔
      (c.env.debug = true → u.validate c.spec.priceFilter = .ok (.ok ())) := by
    simp only [observe, MarketState.update, debugValidate]
    cases hd : c.env.debug with
    | false => simp [returns_ok, bind, Except.bind]
    | true =>
      simp only [if_true, forall_const]
      cases hv : u.validate c.spec.priceFilter with
      | error p => simp [returns_error, bind, Except.bind]
      | ok r => cases r <;> simp [returns_error, returns_ok, bind, Except.bind]
  rw [hobs]
  refine forall_congr' fun hd => ?_
  rw [hd] at hb
  have ht' : (filterOf c.spec.priceFilter a).tickSize ≠ 0 := by
    cases a with
    | smart ts b f =>
      simp only [UpdateArg.build, bind_ok, ok_inj] at hb
      obtain ⟨sc, h, _⟩ := hb
      exact smart_tick h
    | _ => exact ht
  rw [← debug_valid ht']
  simp only [hb, ok_inj, exists_eq_left']

/-! ### Fills -/

theorem changePosition_returns {c : Cfg} {x : Exchange} {f : Fill} {fee : Int} {a : Accounts}
    {pos : Position} (hw : PosWF pos) (hs : a.debitSum = a.creditSum) (he : 0 ≤ pos.entryPrice)
    (hq : 0 < f.qty) (hp : 0 < f.price)
    (hflat : c.env.debug = true → pos = .neutral → a.balance .positionMargin = 0)
    (e1 : x.book.qty = pos.quantity) (e2 : x.book.entry = pos.entryPrice)
    (e3 : x.locked = a.balance .positionMargin) :
    Yields (changePosition c.env c.spec.initMarginReq a pos f.qty f.price f.side fee) ↔
      x.books c f := by
  unfold Exchange.books initial
  simp only [e1, e2, e3]
  constructor
  · rintro ⟨r, h⟩
    exact changePosition_needs hw h
  · rintro ⟨h1, h2, h3⟩
    exact changePosition_total hw hs he hq hp hflat h1 h2 h3

theorem fill_entry (c : Cfg) {l : Ledger} {f : Fill} (h : 0 ≤ l.entry) (hp : 0 < f.price)
    (hq : 0 < f.qty) : 0 ≤ (l.fill c f).entry := by
  simp only [Ledger.fill]
  split
  · exact Int.le_of_lt hp
  · split
    · refine (weighted_bounds c.env h (Int.le_of_lt hp) ?_ (Int.le_of_lt hq) ?_).1
      · unfold Spec.abs; split <;> omega
      · have : 0 ≤ Spec.abs l.qty := by unfold Spec.abs; split <;> omega
        omega
    · simp only
      (repeat' split) <;> omega

theorem affordable_view {c : Cfg} {s : State} (hl : LInv c s.core) (side : Side) (q : Int) :
    affordable c (Ref.view c s) side q = true ↔ marketAllowed c s side q := by
  have e1 : (Ref.view c s).book.qty = s.pos.quantity := rfl
  have e2 : (Ref.view c s).market = s.ms := rfl
  have e3 : (Ref.view c s).locked = s.acct.balance .positionMargin := rfl
  unfold affordable marketAllowed
  rw [view_wallet hl, e1, e2, e3]
  simp only
  split
  · simp
  · split
    · next hq => simp [hq]
    · next hq => simp [hq]

/-- At the price zero an inverse contract has no value. -/
theorem checkFunds_zero {c : Cfg} {q funds : Int} (hk : c.env.kind ≠ .linear) :
    ¬ Yields (checkFunds c q 0 funds) := by
  have : c.env.kind = .inverse := by cases h : c.env.kind <;> simp_all
  rintro ⟨r, h⟩
  simp [checkFunds, convert, this, ddiv, bind, Except.bind] at h

theorem checkFunds_returns {c : Cfg} {q p funds : Int} :
    Yields (checkFunds c q p funds) ↔ (c.env.kind = .linear ∨ p ≠ 0) := by
  by_cases hk : c.env.kind = .linear
  · simp only [hk, true_or, iff_true, checkFunds, convert_linear hk, bind, Except.bind]
    split <;> exact .ok _
  · by_cases hp : p = 0
    · subst hp
      simp only [hk, ne_eq, not_true_eq_false, or_self, iff_false]
      exact checkFunds_zero hk
    · simp only [hp, ne_eq, not_false_eq_true, or_true, iff_true, checkFunds, convert_pos hp, bind,
        Except.bind]
      split <;> exact .ok _

theorem checkMarket_returns {c : Cfg} {s : State} {side : Side} {q : Int} (hw : PosWF s.pos)
    (hn : ¬ marketAllowed c s side q) :
    Yields (checkMarketOrder c s.pos (s.acct.balance .positionMargin) side q
      (touchPrice s.ms side) (s.acct.balance .wallet)) ↔
      (c.env.kind = .linear ∨ touchPrice s.ms side ≠ 0) := by
  have key : ¬ (opposing s.pos.quantity side ≠ 0 ∧ q ≤ opposing s.pos.quantity side) := by
    rintro ⟨h1, h2⟩
    apply hn
    unfold marketAllowed
    simp only
    rw [if_neg h1, if_pos h2]
    trivial
  unfold checkMarketOrder checkMarketBuy checkMarketSell
  cases side <;> cases hp : s.pos <;> rw [hp] at key hw <;> simp only
  all_goals first | exact checkFunds_returns | skip
  all_goals
    simp only [PosWF] at hw
    simp only [Position.quantity, opposing, larger] at key
    rw [if_neg (by intro h; apply key; omega)]
    exact checkFunds_returns

/-- When a market order returns. -/
theorem submitMarket_returns {c : Cfg} {s : State} {o : NewMarket}
    (ht : c.spec.quantityFilter.tickSize ≠ 0) (hl : LInv c s.core) (he : 0 ≤ s.pos.entryPrice)
    (hflat : c.env.debug = true → s.pos = .neutral → s.acct.balance .positionMargin = 0)
    (hq : 0 < o.qty) :
    Yields (submitMarket c s o) ↔ (Ref.view c s).marketReturns c o.side o.qty := by
  have hw : PosWF s.pos := hl.wf
  have hs : s.acct.debitSum = s.acct.creditSum := hl.sums
  have haff := affordable_view hl o.side o.qty
  have ht' : touch s.ms o.side = touchPrice s.ms o.side := by cases o.side <;> rfl
  obtain ⟨r1, h1⟩ := quantity_total (q := o.qty) ht
  unfold Exchange.marketReturns
  have e2 : (Ref.view c s).market = s.ms := rfl
  simp only [e2]
  rcases quantityError_ok h1 with ⟨err, rfl, hqe⟩ | ⟨rfl, hqe⟩
  · rw [hqe]
    simp only [submitMarket, h1, bind, Except.bind]
    simp [returns_ok]
  rw [hqe]
  simp only [ne_eq, not_true_eq_false, false_or]
  by_cases hal : marketAllowed c s o.side o.qty
  · rw [if_pos (haff.2 hal)]
    constructor
    · rintro ⟨⟨s', r⟩, h⟩
      rcases submitMarket_cases h with ⟨err, hv, _⟩ | ⟨_, ⟨err, hv, _⟩ | ⟨_, hq0, hp, pos', a', hc, _⟩⟩
      · rw [h1] at hv; cases hv
      · rcases checkMarket_ok hw hv with ⟨he, _⟩ | ⟨_, hn⟩
        · simp at he
        · exact absurd hal hn
      · exact ⟨hp, (changePosition_returns (f := ⟨false, o.side, touchPrice s.ms o.side, o.qty⟩)
          hw hs he hq hp hflat rfl rfl rfl).1 ⟨_, hc⟩⟩
    · rintro ⟨hp, hb⟩
      obtain ⟨⟨pos', a'⟩, hc⟩ := (changePosition_returns (c := c) (x := Ref.view c s)
        (fee := Fill.fee c ⟨false, o.side, touchPrice s.ms o.side, o.qty⟩)
        (f := ⟨false, o.side, touchPrice s.ms o.side, o.qty⟩)
        hw hs he hq hp hflat rfl rfl rfl).2 hb
      obtain ⟨s', f, h, _⟩ := submitMarket_accept (o := o) h1 (checkMarket_allowed hw hp hal) hq hp hc
      exact ⟨_, h⟩
  · rw [if_neg (fun k => hal (haff.1 k)), ← checkMarket_returns hw hal]
    simp only [submitMarket, h1, bind, Except.bind, ht']
    constructor
    · rintro ⟨r, h⟩
      cases hc : checkMarketOrder c s.pos (s.acct.balance .positionMargin) o.side o.qty
          (touchPrice s.ms o.side) (s.acct.balance .wallet) with
      | error e => rw [hc] at h; simp at h
      | ok x => exact .ok _
    · rintro ⟨r, h⟩
      rw [h]
      rcases checkMarket_ok hw h with ⟨_, hn⟩ | ⟨rfl, _⟩
      · exact absurd hn hal
      · exact .ok _

/-! ### Limit orders -/

theorem appendLimit_returns {c : Cfg} {s : State} {o : Limit} (hs : s.om = s.active)
    (hg : GoodOrders (s.active ++ [o])) (ho : 0 < o.remaining) (hw : PosWF s.pos)
    (hsums : s.acct.debitSum = s.acct.creditSum)
    (hn : ∀ x ∈ s.active, x.id ≠ o.id) (hcap : c.maxOpen ≤ 10000)
    (hdb : c.env.debug = true → c.spec.initMarginReq ≤ c.scale) :
    Yields (appendLimit c s o) ↔
      (c.maxOpen ≤ s.active.length ∨
        marginReq c (s.active ++ [o]) s.pos.quantity = s.acct.balance .orderMargin ∨
        Spec.abs (marginReq c (s.active ++ [o]) s.pos.quantity - s.acct.balance .orderMargin) ≤
          s.acct.balance .wallet) := by
  simp only [appendLimit, omUpdate, bind, Except.bind, assertP, hs]
  rw [if_pos (show o.remaining > 0 from ho)]
  simp only [Book.insert, getById_none.2 hn]
  by_cases hlen : s.active.length ≥ c.maxOpen
  · rw [if_pos hlen]
    simp only [hlen, true_or, iff_true]
    exact .ok _
  rw [if_neg hlen, if_neg (by simp only [activeCap]; omega)]
  have hlen' : ¬ c.maxOpen ≤ s.active.length := hlen
  simp only [orderMargin_total c hw hg hdb, hlen', false_or]
  generalize hm : marginReq c (s.active ++ [o]) s.pos.quantity = m
  have hab : ∀ x : Int, Spec.abs x = if 0 ≤ x then x else -x := fun x => rfl
  have hne : s.active ++ [o] ≠ [] := by simp
  have key : ∀ x : Int, 0 < x → Spec.abs (m - s.acct.balance .orderMargin) = x →
      m ≠ s.acct.balance .orderMargin → ∀ a, transfer c.env s.acct .orderMargin .wallet x = .ok a →
      ∀ k : State → State × Except Error Unit,
      (Yields (appendChecks { s with active := s.active ++ [o], om := s.active ++ [o], acct := a }
        >>= fun v => .ok (k v)) ↔
        (m = s.acct.balance .orderMargin ∨
          Spec.abs (m - s.acct.balance .orderMargin) ≤ s.acct.balance .wallet)) := by
    intro x h0 hx hm a ha k
    have hb : a.balance .wallet = s.acct.balance .wallet - x := by
      rw [transfer_balance ha]; simp
    rw [hx]
    have e : Yields (appendChecks { s with active := s.active ++ [o], om := s.active ++ [o], acct := a }) ↔
        0 ≤ a.balance .wallet := by
      unfold appendChecks
      refine Iff.trans (Yields.bind (P := True) (by rw [returns_assert]; simp) fun _ _ _ =>
        Yields.bind (P := True) (Q := 0 ≤ a.balance .wallet) ?_ fun _ _ _ => ?_) (by simp)
      · rw [returns_assert]; simp
      · refine Iff.trans (Yields.bind (P := 0 ≤ a.balance .wallet) (Q := True) (by rw [returns_assert])
          fun _ _ _ => returns_ok _) (by simp)
    have e' : (m = s.acct.balance .orderMargin ∨ x ≤ s.acct.balance .wallet) ↔ 0 ≤ a.balance .wallet := by
      omega
    rw [e', ← e]
    rw [returns_bind]
    exact ⟨fun ⟨v, h, _⟩ => ⟨v, h⟩, fun ⟨v, h⟩ => ⟨v, h, .ok _⟩⟩
  split
  · next hgt =>
    obtain ⟨a, ha⟩ := transfer_total (e := c.env) (d := .orderMargin) (c := .wallet)
      (x := m - s.acct.balance .orderMargin) hsums (by omega) (by simp)
    simp only [ha]
    exact key _ (by omega) (by rw [hab, if_pos (by omega)]) (by omega) a ha (fun v => (v, .ok ()))
  · next hgt =>
    split
    · next hlt =>
      obtain ⟨a, ha⟩ := transfer_total (e := c.env) (d := .orderMargin) (c := .wallet)
        (x := s.acct.balance .orderMargin - m) hsums (by omega) (by simp)
      simp only [ha]
      exact key _ (by omega) (by rw [hab, if_neg (by omega)]; omega) (by omega) a ha (fun v => (v, .ok ()))
    · simp only [returns_ok, true_iff]
      omega

theorem limitReturns_iff {c : Cfg} {x : Exchange} {side : Side} {p q : Int} {uid : Nat} {o : Limit}
    (ho : o = ⟨uid, side, p, q, x.next, x.market.ts, .unfilled⟩) :
    x.limitReturns c side p q uid ↔
      (quantityError c.spec.quantityFilter q ≠ none ∨
        priceError c.env c.spec.priceFilter p (mid x.market) ≠ none ∨
        x.wallet c + x.required c < marginReq c (x.orders ++ [o]) x.book.qty ∨
        crossing x.market side p = true ∨ c.maxOpen ≤ x.orders.length ∨
        marginReq c (x.orders ++ [o]) x.book.qty = x.reserved ∨
        Spec.abs (marginReq c (x.orders ++ [o]) x.book.qty - x.reserved) ≤ x.wallet c) := by
  subst ho
  unfold Exchange.limitReturns Exchange.limitOrder
  simp only
  split
  · next h => simp [h]
  next h =>
  split
  · next h2 => simp [h2]
  next h2 =>
  simp only [h, h2, ne_eq, not_true_eq_false, false_or]
  split
  · next h3 =>
    have h3' : x.wallet c + x.required c < marginReq c (x.orders ++
      [⟨uid, side, p, q, x.next, x.market.ts, .unfilled⟩]) x.book.qty := h3
    simp [h3']
  next h3 =>
  have h3' : ¬ x.wallet c + x.required c < marginReq c (x.orders ++
    [⟨uid, side, p, q, x.next, x.market.ts, .unfilled⟩]) x.book.qty := h3
  simp only [h3', false_or]
  split
  · next h4 => simp [h4]
  next h4 =>
  simp only [h4, Bool.false_eq_true, false_or]
  split
  · next h5 => simp [h5]
  next h5 =>
  simp only [h5, false_or, Exchange.wallet, Exchange.required]
  generalize marginReq c (x.orders ++ [⟨uid, side, p, q, x.next, x.market.ts, .unfilled⟩]) x.book.qty = m
  unfold Spec.abs
  split <;> omega

/-- When a limit order submission returns. -/
theorem submitLimit_returns {c : Cfg} {s : State} {o : NewLimit} (hi : Inv c s)
    (hl : LInv c s.core) (hc : soundConfig c) (hp : 0 < o.price) (hq : 0 < o.qty) :
    Yields (submitLimit c s o) ↔ (Ref.view c s).limitReturns c o.side o.price o.qty o.uid := by
  obtain ⟨htq, htp, h0, hdb, hcap⟩ := hc
  have hdb : c.env.debug = true → c.spec.initMarginReq ≤ c.scale := fun _ => hdb
  have hw : PosWF s.pos := hl.wf
  have hsums : s.acct.debitSum = s.acct.creditSum := hl.sums
  have hs := hi.sync hcap
  have hwal := view_wallet hl
  let p := o.intoPending s.nextId s.ms.ts
  have hg : GoodOrders (s.active ++ [p]) := by
    intro x hx
    simp only [List.mem_append, List.mem_singleton] at hx
    rcases hx with hx | rfl
    · exact ⟨(hi.orders x hx).price, Int.le_of_lt (hi.orders x hx).rem⟩
    · exact ⟨hp, Int.le_of_lt hq⟩
  have hfresh : ∀ x ∈ s.active, x.id ≠ p.id := by
    intro x hx
    have := (hi.orders x hx).fresh
    simp only [p, NewLimit.intoPending]; omega
  obtain ⟨r1, h1⟩ := quantity_total (q := o.qty) htq
  obtain ⟨r2, h2⟩ := price_total (s := c.scale) (p := o.price) (m := s.ms.mid c.scale) htp
  obtain ⟨r3, h3⟩ := checkLimit_total (c := c) (wallet := s.acct.balance .wallet) hw hg hdb
  rw [limitReturns_iff (o := p) rfl]
  have e5 : (Ref.view c s).reserved = s.acct.balance .orderMargin := rfl
  have e6 : (Ref.view c s).required c = marginReq c s.active s.pos.quantity := rfl
  have e7 : (Ref.view c s).book.qty = s.pos.quantity := rfl
  have e8 : (Ref.view c s).market = s.ms := rfl
  have e9 : (Ref.view c s).orders = s.active := rfl
  rw [e5, e6, e7, e8, e9, crossing_eq, hwal]
  simp only [submitLimit, h1, bind, Except.bind]
  rcases quantityError_ok h1 with ⟨err, rfl, hqe⟩ | ⟨rfl, hqe⟩
  · simp [returns_ok, hqe]
  simp only [hqe, h2, ne_eq, not_true_eq_false, false_or]
  have emid : s.ms.mid c.scale = mid s.ms := mid_eq c s.ms
  rcases priceError_ok (e := c.env) h2 with ⟨err, rfl, hpe⟩ | ⟨rfl, hpe⟩
  · rw [emid] at hpe
    simp [returns_ok, hpe]
  rw [emid] at hpe
  have h3' : checkLimitOrder c s.pos (o.intoPending s.nextId s.ms.ts)
    (s.acct.balance .wallet) s.active = .ok r3 := h3
  simp only [hpe, hs, h3', not_true_eq_false, false_or]
  rcases checkLimit_ok hw (fun x hx => (hg x hx).2) h3 with ⟨rfl, hf⟩ | ⟨rfl, hf⟩
  · have hf' : ¬ s.acct.balance .wallet + marginReq c s.active s.pos.quantity <
      marginReq c (s.active ++ [p]) s.pos.quantity := by omega
    simp only [hf', false_or]
    have ems : marketable s.ms (o.intoPending s.nextId s.ms.ts).side
      (o.intoPending s.nextId s.ms.ts).price = marketable s.ms o.side o.price := rfl
    simp only [ems]
    cases hm : marketable s.ms o.side o.price with
    | true => simp [returns_ok]
    | false =>
      simp only [Bool.false_eq_true, if_false, false_or]
      have key := appendLimit_returns (c := c)
        (s := { s with log := .limitSubmit o :: s.log, nextId := s.nextId + 1, om := s.active })
        (o := p) rfl hg hq hw hsums hfresh hcap hdb
      simp only at key
      rw [← key]
      cases appendLimit c { s with log := .limitSubmit o :: s.log, nextId := s.nextId + 1, om := s.active } p with
      | error e =>
        simp only [returns_error]
      | ok v =>
        simp only [returns_ok, iff_true]
        obtain ⟨s3, r⟩ := v
        cases r <;> exact .ok _
  · simp [returns_ok, hf]

theorem cancelLimit_returns {c : Cfg} {s : State} {b : CancelBy} (hi : Inv c s)
    (hl : LInv c s.core) (hc : soundConfig c) :
    Yields (cancelLimit c s b) ↔ (Ref.view c s).cancelReturns c b := by
  obtain ⟨_, _, _, hdb, hcap⟩ := hc
  have hdb : c.env.debug = true → c.spec.initMarginReq ≤ c.scale := fun _ => hdb
  have hw : PosWF s.pos := hl.wf
  have hs := hi.sync hcap
  have hg := goodOrders hi
  have e1 : (Ref.view c s).reserved = s.acct.balance .orderMargin := rfl
  have e2 : (Ref.view c s).required c = marginReq c s.active s.pos.quantity := rfl
  have e3 : (Ref.view c s).orders = s.active := rfl
  unfold Exchange.cancelReturns cancelLimit
  rw [e1, e2, hs, orderMargin_total c hw hg hdb]
  simp only [Exchange.cancel, e3]
  refine Yields.free (.ok _) (fun m hm => ?_)
  cases hm
  refine Yields.bind returns_assert fun _ _ hline => ?_
  cases hrm : s.active.removeCancel b with
  | none =>
    rw [removeCancel_eq] at hrm
    rw [removeBy_none' hrm]
    simp [returns_ok, e1]
  | some r =>
    obtain ⟨o, b'⟩ := r
    have hrm' := hrm
    rw [removeCancel_eq] at hrm'
    obtain ⟨hf, hb⟩ := removeBy_takeOut hrm'
    simp only [hf, ← hb]
    have hom : omRemove s.active b = .ok b' := by
      simp [omRemove, hrm, expectSome, bind, Except.bind]
    have hgb : GoodOrders b' := by
      intro x hx
      obtain ⟨xs, ys, e, _, _, h, hperm⟩ := removeBy_some hrm'
      refine hg x ?_
      rw [hperm.mem_iff] at hx
      rw [e]
      simp only [List.mem_append, List.mem_cons] at hx ⊢
      rcases hx with h | h
      · exact .inl h
      · exact .inr (.inr h)
    refine Yields.free ⟨_, hom⟩ (fun om' hm => ?_)
    rw [hom] at hm; cases hm
    refine Yields.free ⟨_, orderMargin_total c hw hgb hdb⟩ (fun m hm => ?_)
    rw [orderMargin_total c hw hgb hdb] at hm; cases hm
    refine Yields.last returns_assert fun _ _ hle => ?_
    have hle : marginReq c b' s.pos.quantity ≤ s.acct.balance .orderMargin := hle
    have hre : Yields (refund c.env s.acct (s.acct.balance .orderMargin) (marginReq c b' s.pos.quantity)) := by
      unfold refund
      split
      · exact transfer_total hl.sums (by omega) (by simp)
      · exact .ok _
    refine hre.next fun a ha => Yields.next (returns_assert.2 rfl) fun _ _ =>
      Yields.next (returns_assert.2 ?_) fun _ _ => .ok _
    rintro rfl
    rw [marginReq_nil] at ha hle
    unfold refund at ha
    split at ha
    · rw [transfer_balance ha]; simp
    · next h => cases ha; omega

theorem amendLimit_returns {c : Cfg} {s : State} {id : Nat} {o : NewLimit} (hi : Inv c s)
    (hl : LInv c s.core) (hc : soundConfig c) (hp : 0 < o.price) :
    Yields (amendLimit c s id o) ↔
      (Ref.view c s).amendReturns c id o.side o.price o.qty o.uid := by
  have hcap := hc.2.2.2.2
  have hw : PosWF s.pos := hl.wf
  have e3 : (Ref.view c s).orders = s.active := rfl
  unfold Exchange.amendReturns
  simp only [amendLimit, e3]
  cases hgid : s.active.getById id with
  | none =>
    have : s.active.find? (fun o => o.id == id) = none := hgid
    simp [this, returns_ok]
  | some old =>
    have hfind : s.active.find? (fun o => o.id == id) = some old := hgid
    simp only [hfind]
    obtain ⟨hmem, hid⟩ := getById_some hgid
    have hwf := hi.orders old hmem
    have ht : old.totalQuantity = .ok (old.filledQuantity + old.remaining) := by
      have hrem := hwf.rem
      have hcum := hwf.cum
      have ht : ∃ t, old.totalQuantity = .ok t := by
        simp only [Limit.filledQuantity] at hcum
        simp only [Limit.totalQuantity, assertP, bind, Except.bind]
        cases hf : old.fq with
        | unfilled => simp only; rw [if_pos hrem]; exact ⟨_, rfl⟩
        | filled cum avg =>
          simp only [hf] at hcum ⊢
          rw [if_pos (by omega)]; exact ⟨_, rfl⟩
      obtain ⟨t, ht⟩ := ht
      have htot : t = old.filledQuantity + old.remaining := by
        simp only [Limit.totalQuantity, bind_ok, assertP_ok, ok_inj] at ht
        obtain ⟨_, _, rfl⟩ := ht
        simp only [Limit.filledQuantity]; split <;> omega
      rw [ht, htot]
    have hcan := cancelLimit_returns (b := .orderId id) hi hl hc
    -- the order is there
    have hthere : ∀ s1 r, cancelLimit c s (.orderId id) = .ok (s1, r) → ∃ x, r = .ok x := by
      intro s1 r h
      have := cancelLimit_ref hw hi h
      simp only [Exchange.cancel, e3] at this
      have hn : s.active.find? (names (.orderId id)) = some old := hfind
      rw [hn] at this
      simp only [Prod.mk.injEq] at this
      exact ⟨_, this.2.symm⟩
    refine Yields.free ⟨_, ht⟩ fun total htot => ?_
    rw [ht] at htot; cases htot
    have eq : o.totalQuantity = o.qty := rfl
    simp only [eq]
    by_cases hle : o.qty ≤ old.filledQuantity
    · rw [if_pos (by omega)]
      have : ¬ old.filledQuantity < o.qty := by omega
      simp only [this, false_implies, and_true]
      refine Yields.last hcan fun r hr _ => ?_
      obtain ⟨s1, r⟩ := r
      obtain ⟨x, rfl⟩ := hthere _ _ hr
      exact .ok _
    · rw [if_neg (by omega)]
      have : old.filledQuantity < o.qty := by omega
      simp only [this, forall_const]
      have e4 : old.remaining + (o.qty - (old.filledQuantity + old.remaining)) = o.qty - old.filledQuantity := by
        omega
      rw [e4]
      have hset : o.setRemaining (o.qty - old.filledQuantity) =
          .ok { o with qty := o.qty - old.filledQuantity } := by
        simp only [NewLimit.setRemaining, assertP, bind, Except.bind]
        rw [if_pos (by omega)]
      refine Yields.free ⟨_, hset⟩ fun o' ho' => ?_
      rw [hset] at ho'; cases ho'
      refine Yields.bind hcan fun r hr _ => ?_
      obtain ⟨s1, r⟩ := r
      obtain ⟨x, rfl⟩ := hthere _ _ hr
      have hl1 : LInv c s1.core := (cancelLimit_core (st := false) hr).inv (fun _ _ => LInv.step) hl
      rw [cancelLimit_ref hw hi hr]
      exact submitLimit_returns (o := { o with qty := o.qty - old.filledQuantity })
        (cancelLimit_inv hi hr) hl1 hc hp (by simp only; omega)


end Lfest
