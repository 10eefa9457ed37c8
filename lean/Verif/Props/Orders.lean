import Verif.Lemmas.Trace
import Verif.Props.Ledger

/-!
# Orders and the order book (C12–C21)
-/

namespace Lfest

open Spec

/-! ## C12 -/

/-- C12: the ids handed out along a history are strictly increasing, and all smaller than the
next id. -/
theorem C12_ids_increase (c : Cfg) (ops : List Op) (s : State) (tr : List (Op × Resp))
    (h : history c (State.init c) ops = .ok (s, tr)) :
    (tr.filterMap handedOut).Pairwise (· < ·) ∧ ∀ i ∈ tr.filterMap handedOut, i < s.nextId := by
  have := history_induct (c := c)
    (P := fun s tr => Inv c s ∧ (tr.filterMap handedOut).Pairwise (· < ·) ∧
      ∀ i ∈ tr.filterMap handedOut, i < s.nextId)
    (fun s s' op r tr hp hst => by
      obtain ⟨hi, h1, h2⟩ := hp
      obtain ⟨h3, h4⟩ := step_nextId hi hst
      refine ⟨step_inv hi hst, ?_⟩
      simp only [List.filterMap_append, List.filterMap_cons, List.filterMap_nil]
      cases ho : handedOut (op, r) with
      | none => simp; exact ⟨h1, fun i x y k hk => by have := h2 i (List.mem_filterMap.2 ⟨_, k, hk⟩); omega⟩
      | some i =>
        obtain ⟨h5, h6⟩ := h4 i ho
        simp only [List.pairwise_append, List.mem_append, List.mem_singleton]
        refine ⟨⟨h1, by simp, fun a ha b hb => ?_⟩, fun j hj => ?_⟩
        · have := h2 a ha; omega
        · rcases hj with hj | rfl
          · have := h2 j hj; omega
          · exact h6)
    ops _ _ [] tr ⟨Inv.init c, by simp, by simp⟩ h
  simpa using this.2

/-- C12 for liquidations: the liquidating market order consumes an id of its own, so no other
order ever gets it. -/
theorem C12_liquidation_id (c : Cfg) (s s' : State) (u : UpdateArg)
    (h : step c s (.update u) = .ok (s', .update (.error (.risk .liquidate)))) :
    s'.nextId = s.nextId + 1 := by
  simp only [step, bind_ok, ok_inj, Prod.mk.injEq] at h
  obtain ⟨u', _, ⟨s1, r1⟩, h1, rfl, hr⟩ := h
  simp only [Resp.update.injEq] at hr; subst hr
  simp only [updateState, bind_ok] at h1
  obtain ⟨s2, h2, h1⟩ := h1
  have e := (observe_fields h2).2.2.2.2.1
  split at h1
  · simp only [bind_ok, ok_inj, Prod.mk.injEq] at h1
    obtain ⟨s3, h3, rfl, _⟩ := h1
    simp only [liquidate, bind_ok] at h3
    obtain ⟨o, _, r, hr, h3⟩ := h3
    split at h3
    · simp at h3
    · simp only [ok_inj] at h3; subst h3
      rcases submitMarket_cases hr with ⟨err, _, rfl, hh⟩ | ⟨_, ⟨err, _, rfl, hh⟩ |
        ⟨_, _, _, p', a', _, rfl, hh⟩⟩
      · simp at hh
      · simp at hh
      · simp [e]
  · simp only [bind_ok, ok_inj, Prod.mk.injEq] at h1
    obtain ⟨s3, h3, rfl, hh⟩ := h1
    simp at hh

/-- Ids 0 to 3 are handed out by a market order, two limit orders and an amendment, 4 is lost
to a rejected order, 5 goes to the next order. -/
example : (match history Ex.lin (State.init Ex.lin)
      (Ex.ops1 ++ [.amend 1 .sell (Ex.d 111) (Ex.d 2) 0, .limit .buy (Ex.d 150) (Ex.d 1) 0,
        .limit .buy (Ex.d 90) (Ex.d 1) 0]) with
    | .ok (_, tr) => decide (tr.filterMap handedOut = [0, 1, 2, 3, 5])
    | .error _ => false) = true := by decide +kernel

/-! ## C13 -/

/-- C13: the active orders have distinct ids below the next id, positive prices and remaining
quantities, and each is a later state of an order that was accepted by an earlier call: same
id, user id, side, price and timestamp, and filled plus remaining quantity equal to the
accepted quantity. -/
theorem C13_active_orders (c : Cfg) (ops : List Op) (s : State) (tr : List (Op × Resp))
    (h : history c (State.init c) ops = .ok (s, tr)) :
    (s.active.map Limit.id).Nodup ∧
    ∀ o ∈ s.active, o.id < s.nextId ∧ 0 < o.price ∧ 0 < o.remaining ∧ 0 ≤ o.filledQuantity ∧
      ∃ p ∈ tr.filterMap accepted, LaterState p o ∧
        o.filledQuantity + o.remaining = p.remaining := by
  have key := history_induct (c := c)
    (P := fun s tr => Inv c s ∧ ∀ o ∈ s.active, ∃ p ∈ tr.filterMap accepted, LaterState p o ∧
        p.fq = .unfilled)
    (fun s s' op r tr hp hst => by
      obtain ⟨hi, h1⟩ := hp
      refine ⟨step_inv hi hst, fun o ho => ?_⟩
      rcases step_active hi hst ho with ⟨p, hp, hl⟩ | ha
      · obtain ⟨p0, hp0, hl0, hu⟩ := h1 p hp
        refine ⟨p0, ?_, hl0.trans hl, hu⟩
        rw [List.filterMap_append, List.mem_append]; exact .inl hp0
      · refine ⟨o, ?_, .refl o, ?_⟩
        · rw [List.filterMap_append, List.mem_append]; right; simp [ha]
        · exact accepted_unfilled hi hst ha)
    ops _ _ [] tr ⟨Inv.init c, by simp [State.init]⟩ h
  simp only [List.nil_append] at key
  obtain ⟨hi, key⟩ := key
  refine ⟨hi.nodup, fun o ho => ?_⟩
  have w := hi.orders o ho
  obtain ⟨p, hp, hl, hu⟩ := key o ho
  refine ⟨w.fresh, w.price, w.rem, w.cum, p, hp, hl, ?_⟩
  have := hl.2.2.2.2.2
  simpa [Limit.filledQuantity, hu] using this

/-- After a trade one of two active orders is partially filled. -/
example : Ex.after Ex.lin Ex.ops2 (fun s => decide (s.active.map (fun o =>
    (o.id, o.filledQuantity, o.remaining)) = [(1, Ex.d 2, Ex.d 1), (2, 0, Ex.d 2)])) = true := by
  decide +kernel

/-! ## C14 -/

/-- C14: the list of margined orders is the list of active orders, in the same order, provided
the configured maximum does not exceed the fixed capacity of 10000. -/
theorem C14_margined_orders (c : Cfg) (ops : List Op) (s : State)
    (hc : c.maxOpen ≤ 10000) (h : run c (State.init c) ops = .ok s) : s.om = s.active :=
  (run_inv h).sync hc

/-- Partial fill, complete fill and cancellation behind us, an order still active. -/
example : Ex.after Ex.lin (Ex.ops3 ++ [.limit .sell (Ex.d 120) (Ex.d 1) 0])
    (fun s => decide (s.active.length = 1)) = true := by decide +kernel

/-! ## C15 -/

/-- C15: in no history are there more active orders than the configured maximum, or than 10000. -/
theorem C15_never_exceeded (c : Cfg) (ops : List Op) (s : State)
    (h : run c (State.init c) ops = .ok s) :
    s.active.length ≤ c.maxOpen ∧ s.active.length ≤ 10000 :=
  ⟨(run_inv h).len, (run_inv h).cap⟩

/-- C15, the limit at work: the number of active orders never exceeds the configured maximum nor 10000. When the
maximum (at most 10000) is reached no limit order is accepted; the error
`MaxNumberOfActiveOrders` occurs only then, and only counters change. -/
theorem C15_open_order_limit (c : Cfg) (s s' : State) (hs : Reachable c s)
    (side : Side) (price qty : Int) (uid : Nat) (r : Resp)
    (h : step c s (.limit side price qty uid) = .ok (s', r)) :
    s.active.length ≤ c.maxOpen ∧ s.active.length ≤ 10000 ∧
    (s.active.length = c.maxOpen → ∀ o, r ≠ .limit (.ok o)) ∧
    (r = .limit (.error .maxNumberOfActiveOrders) → c.maxOpen ≤ 10000 →
      s.active.length = c.maxOpen ∧
      s' = { s with log := .limitSubmit ⟨uid, side, price, qty⟩ :: s.log,
                    nextId := s.nextId + 1 }) := by
  have hi := hs.inv
  have hi' := (hs.step h).inv
  refine ⟨hi.len, hi.cap, fun hl o hr => ?_, fun hr hc => ?_⟩
  · subst hr
    rcases step_cases h with ⟨_, _, _, he, _⟩ | ⟨_, _, he, _⟩ | ⟨err, _, he⟩ |
      ⟨_, _, _, _, he, _⟩ | ⟨_, _, _, _, x, he, _, _, h, hx⟩ | ⟨_, _, _, _, _, _, he, _⟩ | ⟨_, _, he, _⟩
    all_goals try (cases he)
    cases hx
    obtain ⟨_, _, _, _, _, _, h2⟩ := submitLimit_arenas (fun x hx => (hi.orders x hx).fresh) h
    rcases h2 with ⟨err, hh, _⟩ | ⟨_, _, _, h3, _⟩
    · simp at hh
    · have := hi'.len; rw [h3] at this; simp at this; omega
  · subst hr
    rcases step_cases h with ⟨_, _, _, he, _⟩ | ⟨_, _, he, _⟩ | ⟨err, _, he⟩ |
      ⟨_, _, _, _, he, _⟩ | ⟨_, _, _, _, x, he, _, _, h, hx⟩ | ⟨_, _, _, _, _, _, he, _⟩ | ⟨_, _, he, _⟩
    all_goals try (cases he)
    cases hx
    rcases submitLimit_cases h with ⟨err, _, _, hr⟩ | ⟨_, h⟩
    · simp at hr
    rcases h with ⟨err, _, _, hr⟩ | ⟨_, h⟩
    · simp at hr
    rcases h with ⟨err, _, _, hr⟩ | ⟨_, h⟩
    · simp at hr
    rcases h with ⟨_, _, hr⟩ | ⟨_, ra, ha, hr⟩
    · simp at hr
    rcases hr with ⟨err, rfl, hr⟩ | ⟨_, hr⟩
    · simp at hr; subst hr
      obtain ⟨_, h⟩ := appendLimit_arenas (fun x hx => by
        have := (hi.orders x hx).fresh; simp [NewLimit.intoPending]; omega) ha
      have hsync := hi.sync hc
      rcases h with ⟨_, rfl, h1, h2⟩ | ⟨om', h1, h2, ⟨_, _, h3⟩ | ⟨hh, _⟩⟩
      · simp only [hsync] at h1
        exact ⟨by have := hi.len; omega, rfl⟩
      · exfalso
        unfold activeCap at h3; simp only at h3
        have := hi.cap
        obtain ⟨_, h4⟩ := omUpdate_ok h1
        simp only [hsync] at h4
        rcases h4 with ⟨_, h5, _⟩ | ⟨old, h5, _⟩
        · omega
        · obtain ⟨h6, h7⟩ := getById_some h5
          have := (hi.orders _ h6).fresh
          simp [NewLimit.intoPending] at h7; omega
      · simp at hh
    · simp at hr

/-- With a maximum of one order, the second one is rejected. -/
example : Ex.last { Ex.lin with maxOpen := 1 } [.update (.bba ⟨Ex.d 100, Ex.d 101, 1⟩),
    .limit .buy (Ex.d 90) (Ex.d 1) 0] (.limit .buy (Ex.d 91) (Ex.d 1) 0) (fun _ _ r =>
      decide (r = .limit (.error .maxNumberOfActiveOrders))) = true := by decide +kernel

/-! ## C16 -/

/-- C16: an accepted limit order does not cross the book, only crossing orders are rejected with
`GoodTillCrossingRejectedOrder`, which reports the price of the order and the quote it would have
traded at, and no submission trades. Which crossing orders get this error is
said by `C16_rejected_iff_crosses`. -/
theorem C16_never_crosses (c : Cfg) (s s' : State)
    (side : Side) (price qty : Int) (uid : Nat) (r : Resp)
    (h : step c s (.limit side price qty uid) = .ok (s', r)) :
    (∀ o, r = .limit (.ok o) → ¬ crosses s.ms side price) ∧
    (∀ limitPrice away, r = .limit (.error (.order (.goodTillCrossingRejected limitPrice away))) →
      crosses s.ms side price ∧ limitPrice = price ∧ away = touchPrice s.ms side) ∧
    fills s'.log = fills s.log := by
  have hm : ∀ side price, marketable s.ms side price = true ↔ crosses s.ms side price := by
    intro side price; cases side <;> simp [marketable, crosses]
  have hq := C03_quiet_calls c s s' _ r h (by simp [quiet])
  simp only [step] at h
  split at h
  · next err hn =>
    simp only [ok_inj, Prod.mk.injEq] at h; obtain ⟨rfl, rfl⟩ := h
    exact ⟨by simp, by simp, hq⟩
  · next o hn =>
    simp only [bind_ok, ok_inj, Prod.mk.injEq] at h
    obtain ⟨⟨s1, r1⟩, h1, rfl, rfl⟩ := h
    obtain ⟨hp, hq', rfl⟩ := newLimit_ok hn
    refine ⟨fun o hr => ?_, fun lp aw hr => ?_, hq⟩
    · simp only [Resp.limit.injEq] at hr; subst hr
      rcases submitLimit_cases h1 with ⟨err, _, _, hr⟩ | ⟨_, h⟩
      · simp at hr
      rcases h with ⟨err, _, _, hr⟩ | ⟨_, h⟩
      · simp at hr
      rcases h with ⟨err, _, _, hr⟩ | ⟨_, h⟩
      · simp at hr
      rcases h with ⟨_, _, hr⟩ | ⟨hmk, ra, ha, hr⟩
      · simp at hr
      · rw [← hm]; simpa using hmk
    · simp only [Resp.limit.injEq] at hr; subst hr
      rcases submitLimit_cases h1 with ⟨err, hv, _, hr⟩ | ⟨_, h⟩
      · simp at hr; subst hr
        exact absurd hv (quantityFilter_no_gtc _ _ _ _)
      rcases h with ⟨err, hv, _, hr⟩ | ⟨_, h⟩
      · simp at hr; subst hr
        exact absurd hv (priceFilter_no_gtc _ _ _ _ _ _)
      rcases h with ⟨err, _, _, hr⟩ | ⟨_, h⟩
      · simp at hr
      rcases h with ⟨hmk, _, hr⟩ | ⟨hmk, ra, ha, hr⟩
      · simp at hr
        refine ⟨(hm _ _).1 hmk, hr.1, ?_⟩
        rw [hr.2]; cases side <;> rfl
      · rcases hr with ⟨err, rfl, hr⟩ | ⟨_, hr⟩
        · simp at hr; subst hr
          exact absurd ha (appendLimit_no_gtc _ _ _ _ _ _)
        · simp at hr

/-- A buy at the ask is rejected, one tick below it is accepted. -/
example : Ex.last Ex.lin Ex.ops1 (.limit .buy (Ex.d 101) (Ex.d 1) 0) (fun _ _ r =>
      decide (r = .limit (.error (.order (.goodTillCrossingRejected (Ex.d 101) (Ex.d 101)))))) = true ∧
    Ex.last Ex.lin Ex.ops1 (.limit .buy (Ex.d 100) (Ex.d 1) 0) (fun s s' _ =>
      decide (s'.active.length = s.active.length + 1)) = true := by decide +kernel

/-! ## C17 -/

/-- C17 for limit orders: a rejected submission changes nothing but the id counter and the
tracker's record of submissions. (`om`, the copy of the active orders used for margin, may
differ if more than 10000 open orders are configured.) -/
theorem C17_rejected_limit (c : Cfg) (s s' : State) (hs : Reachable c s)
    (side : Side) (price qty : Int) (uid : Nat) (err : Error)
    (h : step c s (.limit side price qty uid) = .ok (s', .limit (.error err))) :
    s' = { s with log := .limitSubmit ⟨uid, side, price, qty⟩ :: s.log,
                  nextId := s'.nextId, om := s'.om } ∧
    (s'.nextId = s.nextId ∨ s'.nextId = s.nextId + 1) ∧
    (c.maxOpen ≤ 10000 → s'.om = s.om) := by
  have hi := hs.inv
  have hi' := (hs.step h).inv
  rcases step_cases h with ⟨_, _, _, he, _⟩ | ⟨_, _, he, _⟩ | ⟨err, _, he⟩ |
    ⟨_, _, _, _, he, _⟩ | ⟨_, _, _, _, x, he, _, _, h, hx⟩ | ⟨_, _, _, _, _, _, he, _⟩ | ⟨_, _, he, _⟩
  all_goals try (cases he)
  cases hx
  have hom : c.maxOpen ≤ 10000 → s'.om = s.om := fun hc => by
    obtain ⟨_, _, _, _, _, _, h2⟩ := submitLimit_arenas (fun x hx => (hi.orders x hx).fresh) h
    rcases h2 with ⟨err, hh, h3, _⟩ | ⟨hh, _, _, h3, _⟩
    · rw [hi'.sync hc, h3, hi.sync hc]
    · simp at hh
  refine ⟨?_, ?_, hom⟩
  all_goals
    rcases submitLimit_cases h with ⟨err, _, rfl, hr⟩ | ⟨_, h⟩
    · simp
    rcases h with ⟨err, _, rfl, hr⟩ | ⟨_, h⟩
    · simp
    rcases h with ⟨err, _, rfl, hr⟩ | ⟨_, h⟩
    · simp
    rcases h with ⟨_, rfl, hr⟩ | ⟨_, ra, ha, hr⟩
    · simp
    rcases hr with ⟨err, rfl, hr⟩ | ⟨_, hr⟩
    · obtain ⟨⟨a, he⟩, h⟩ := appendLimit_arenas (fun x hx => by
        have := (hi.orders x hx).fresh; simp [NewLimit.intoPending]; omega) ha
      rcases h with ⟨_, rfl, h1, h2⟩ | ⟨om', h1, h2, ⟨_, hs', h3⟩ | ⟨hh, _⟩⟩
      · simp
      · rw [hs'] <;> simp
      · simp at hh
    · simp at hr

/-- C17 for market orders: a rejected market order changes nothing but the id counter and the
tracker's record of submissions. Holds in every state. -/
theorem C17_rejected_market (c : Cfg) (s s' : State)
    (side : Side) (qty : Int) (uid : Nat) (err : Error)
    (h : step c s (.market side qty uid) = .ok (s', .market (.error err))) :
    s' = { s with log := .marketSubmit ⟨uid, side, qty⟩ :: s.log, nextId := s'.nextId } ∧
    (s'.nextId = s.nextId ∨ s'.nextId = s.nextId + 1) := by
  rcases step_cases h with ⟨_, _, _, he, _⟩ | ⟨_, _, he, _⟩ | ⟨err, _, he⟩ |
    ⟨_, _, _, _, he, _, h, hx⟩ | ⟨_, _, _, _, x, he, _⟩ | ⟨_, _, _, _, _, _, he, _⟩ | ⟨_, _, he, _⟩
  all_goals try (cases he)
  cases hx
  rcases submitMarket_cases h with ⟨err, _, rfl, _⟩ | ⟨_, ⟨err, _, rfl, _⟩ |
    ⟨_, _, _, p', a', _, rfl, hh⟩⟩
  · simp
  · simp
  · simp at hh

/-- Orders that violate the price filter, exceed the balance, cross the book, or violate the
quantity filter. -/
example : Ex.last Ex.lin Ex.ops2 (.limit .buy 10000001 (Ex.d 1) 0) (fun s s' r =>
      decide (r = .limit (.error (.order .invalidOrderPriceStepSize)) ∧ s'.nextId = s.nextId)) = true ∧
    Ex.last Ex.lin Ex.ops2 (.limit .buy (Ex.d 99) (Ex.d 100) 0) (fun s s' r =>
      decide (r = .limit (.error (.risk .notEnoughAvailableBalance)) ∧ s'.nextId = s.nextId + 1))
        = true ∧
    Ex.last Ex.lin Ex.ops2 (.market .buy (Ex.d 100) 0) (fun s s' r =>
      decide (r = .market (.error (.risk .notEnoughAvailableBalance)) ∧ s'.nextId = s.nextId + 1))
        = true ∧
    Ex.last Ex.lin Ex.ops2 (.market .buy 1 0) (fun s s' r =>
      decide (r = .market (.error (.order .invalidQuantityStepSize)) ∧ s'.nextId = s.nextId))
        = true := by decide +kernel

/-! ## C18 -/

/-- C18: effect of an accepted limit order. -/
theorem C18_accepted_limit (c : Cfg) (s s' : State) (hs : Reachable c s)
    (side : Side) (price qty : Int) (uid : Nat) (o : Limit)
    (h : step c s (.limit side price qty uid) = .ok (s', .limit (.ok o))) :
    o = ⟨uid, side, price, qty, s.nextId, s.ms.ts, .unfilled⟩ ∧
    s'.active = s.active ++ [o] ∧ s'.nextId = s.nextId + 1 ∧
    s'.ms = s.ms ∧ s'.pos = s.pos ∧ s'.feesPaid = s.feesPaid ∧
    s'.acct.balance .positionMargin = s.acct.balance .positionMargin ∧
    s'.acct.balance .treasury = s.acct.balance .treasury ∧
    s'.acct.balance .orderMargin - s.acct.balance .orderMargin =
      s.acct.balance .wallet - s'.acct.balance .wallet := by
  have hi := hs.inv
  have hq := C03_quiet_calls c s s' _ _ h (by simp [quiet])
  obtain ⟨e1, e2, e3, e4, e5⟩ := C03_only_fills_change_equity c s s' _ _ h hq
  rcases step_cases h with ⟨_, _, _, he, _⟩ | ⟨_, _, he, _⟩ | ⟨err, _, he⟩ |
    ⟨_, _, _, _, he, _⟩ | ⟨_, _, _, _, x, he, _, _, h, hx⟩ | ⟨_, _, _, _, _, _, he, _⟩ | ⟨_, _, he, _⟩
  all_goals try (cases he)
  cases hx
  obtain ⟨_, h1, _, _, _, _, h2⟩ := submitLimit_arenas (fun x hx => (hi.orders x hx).fresh) h
  rcases h2 with ⟨err, hh, h3, _⟩ | ⟨hh, h4, _, h3, _⟩
  · simp at hh
  · simp only [Except.ok.injEq] at hh
    subst hh
    refine ⟨rfl, h3, h4, h1, e3, e2, e4, e5, ?_⟩
    simp only [equity] at e1; omega

example : Ex.last Ex.lin Ex.ops2 (.limit .buy (Ex.d 90) (Ex.d 1) 7) (fun s s' r =>
    decide (r = .limit (.ok ⟨7, .buy, Ex.d 90, Ex.d 1, s.nextId, 2, .unfilled⟩) ∧
      s'.acct.balance .orderMargin - s.acct.balance .orderMargin = Ex.d 90)) = true := by
  decide +kernel

/-! ## C19 -/

/-- C19, success: the returned order is the first active order that the request names; it is
removed and no other; the order margin drops to the requirement of the remaining orders and
the difference goes to the wallet. -/
theorem C19_cancel_removes (c : Cfg) (s s' : State) (b : CancelBy) (o : Limit)
    (h : step c s (.cancel b) = .ok (s', .limit (.ok o))) :
    (∃ before after, s.active = before ++ o :: after ∧ named b o ∧
      (∀ x ∈ before, ¬ named b x) ∧ s'.active.Perm (before ++ after)) ∧
    s'.pos = s.pos ∧ s'.ms = s.ms ∧ s'.nextId = s.nextId ∧ s'.feesPaid = s.feesPaid ∧
    s'.acct.balance .positionMargin = s.acct.balance .positionMargin ∧
    s'.acct.balance .treasury = s.acct.balance .treasury ∧
    s'.acct.balance .orderMargin ≤ s.acct.balance .orderMargin ∧
    s'.acct.balance .wallet - s.acct.balance .wallet =
      s.acct.balance .orderMargin - s'.acct.balance .orderMargin := by
  have hq := C03_quiet_calls c s s' _ _ h (by simp [quiet])
  obtain ⟨e1, e2, e3, e4, e5⟩ := C03_only_fills_change_equity c s s' _ _ h hq
  rcases step_cases h with ⟨_, _, _, he, _⟩ | ⟨_, _, he, _⟩ | ⟨err, _, he⟩ |
    ⟨_, _, _, _, he, _⟩ | ⟨_, _, _, _, x, he, _⟩ | ⟨_, _, _, _, _, _, he, _⟩ | ⟨_, _, he, h, hx⟩
  all_goals try (cases he)
  cases hx
  obtain ⟨_, ⟨_, _, hh⟩ | ⟨removed, active', a, m', h1, _, h2, h3, h4, _, rfl, hh⟩⟩ := cancelLimit_ok h
  · simp at hh
  simp only [Except.ok.injEq] at hh; subst hh
  have hbal : a.balance .orderMargin = m' := by
    rcases refund_ok h4 with ⟨_, ht⟩ | ⟨_, rfl⟩
    · have := transfer_balance ht .orderMargin; simp at this; omega
    · omega
  refine ⟨?_, rfl, rfl, rfl, e2, e4, e5, by simp only [hbal]; exact h3, ?_⟩
  · cases b with
    | orderId id =>
      obtain ⟨xs, ys, f1, f2, f3, _, f5⟩ := removeBy_some (h1 : Book.removeBy _ s.active = _)
      exact ⟨xs, ys, f1, by simpa [named] using f2, by simpa [named] using f3, f5⟩
    | userOrderId uid =>
      obtain ⟨xs, ys, f1, f2, f3, _, f5⟩ := removeBy_some (h1 : Book.removeBy _ s.active = _)
      exact ⟨xs, ys, f1, by simpa [named] using f2, by simpa [named] using f3, f5⟩
  · simp only [equity] at e1 e4 ⊢; omega

/-- C19, failure: the call fails iff no active order is named; it then changes nothing at all
and the error tells an id not yet assigned, an id no longer active and an unknown user id
apart. -/
theorem C19_cancel_errors (c : Cfg) (s s' : State) (b : CancelBy) (r : Resp)
    (h : step c s (.cancel b) = .ok (s', r)) :
    ((∃ err, r = .limit (.error err)) ↔ ∀ x ∈ s.active, ¬ named b x) ∧
    ∀ err, r = .limit (.error err) → s' = s ∧
      (∀ id, b = .orderId id → id < s.nextId → err = .orderNoLongerActive) ∧
      (∀ id, b = .orderId id → s.nextId ≤ id → err = .orderIdNotFound id) ∧
      (∀ uid, b = .userOrderId uid → err = .userOrderIdNotFound) := by
  rcases step_cases h with ⟨_, _, _, he, _⟩ | ⟨_, _, he, _⟩ | ⟨err, _, he⟩ |
    ⟨_, _, _, _, he, _⟩ | ⟨_, _, _, _, x, he, _⟩ | ⟨_, _, _, _, _, _, he, _⟩ | ⟨_, x, he, h, rfl⟩
  all_goals try (cases he)
  · simp [step, bind_ok] at h
  have hnone : s.active.removeCancel b = none ↔ ∀ x ∈ s.active, ¬ named b x := by
    cases b with
    | orderId id => rw [Book.removeCancel, Book.removeById, removeBy_none]; simp [named]
    | userOrderId uid => rw [Book.removeCancel, Book.removeByUid, removeBy_none]; simp [named]
  obtain ⟨_, ⟨h1, rfl, rfl⟩ | ⟨removed, active', a, m', h1, _, h2, h3, h4, _, rfl, rfl⟩⟩ :=
    cancelLimit_ok h
  · refine ⟨⟨fun _ => hnone.1 h1, fun _ => ⟨_, rfl⟩⟩, fun err hr => ?_⟩
    simp at hr; subst hr
    refine ⟨rfl, ?_, ?_, ?_⟩
    · rintro id rfl hlt; simp [cancelError, missingOrder, hlt]
    · rintro id rfl hlt; simp [cancelError, missingOrder]; omega
    · rintro uid rfl; rfl
  · refine ⟨⟨by simp, fun hh => ?_⟩, by simp⟩
    rw [← hnone, h1] at hh; simp at hh

/-- Cancel by id, by user id, of a finished order, of an unknown one. -/
example : Ex.last Ex.lin Ex.ops2 (.cancel (.orderId 2)) (fun s s' _ =>
      decide (s'.active.length + 1 = s.active.length ∧
        s'.acct.balance .wallet = s.acct.balance .wallet + Ex.d 190)) = true ∧
    Ex.last Ex.lin Ex.ops2 (.cancel (.userOrderId 1)) (fun s s' _ =>
      decide (s'.active.map Limit.id = [2] ∧ s.active.length = 2)) = true ∧
    Ex.last Ex.lin Ex.ops2 (.cancel (.orderId 0)) (fun _ _ r =>
      decide (r = .limit (.error .orderNoLongerActive))) = true ∧
    Ex.last Ex.lin Ex.ops2 (.cancel (.orderId 9)) (fun _ _ r =>
      decide (r = .limit (.error (.orderIdNotFound 9)))) = true ∧
    Ex.last Ex.lin Ex.ops2 (.cancel (.userOrderId 9)) (fun _ _ r =>
      decide (r = .limit (.error .userOrderIdNotFound))) = true := by decide +kernel

/-! ## C20 -/

/-- C20: amending an active order of which `filledQuantity` was already filled. If the new
total quantity is at most that, the order is cancelled and `AmendQtyAlreadyFilled` returned.
If the amendment is accepted, the old order is replaced by a new one with a fresh id and the
rest of the new quantity. In every case the old order is gone and the other orders stay. -/
theorem C20_amend (c : Cfg) (s s' : State) (hs : Reachable c s) (old : Limit)
    (hold : old ∈ s.active) (side : Side) (price qty : Int) (uid : Nat)
    (x : Except Error Limit)
    (h : step c s (.amend old.id side price qty uid) = .ok (s', .limit x)) :
    let others := s.active.filter (fun o => decide (o.id ≠ old.id))
    (qty ≤ old.filledQuantity → x = .error .amendQtyAlreadyFilled) ∧
    (∀ o, x = .ok o → old.filledQuantity < qty ∧
      o = ⟨uid, side, price, qty - old.filledQuantity, s.nextId, s.ms.ts, .unfilled⟩ ∧
      ¬ crosses s.ms side price ∧
      s'.active.Perm (o :: others)) ∧
    (∀ err, x = .error err → s'.active.Perm others) ∧
    s'.pos = s.pos := by
  intro others
  have hi := hs.inv
  have hq := C03_quiet_calls c s s' _ _ h (by simp [quiet])
  have hpos := (C03_only_fills_change_equity c s s' _ _ h hq).2.2.1
  have hget : s.active.getById old.id = some old := getById_of_mem hi.nodup hold
  rcases step_cases h with ⟨_, _, _, he, _⟩ | ⟨_, _, he, _⟩ | ⟨err, _, he⟩ |
    ⟨_, _, _, _, he, _⟩ | ⟨_, _, _, _, _, he, _⟩ | ⟨_, _, _, _, _, _, he, hp0, hq0, h, hx⟩ |
    ⟨_, _, he, _⟩
  all_goals try (cases he)
  cases hx
  rcases amendLimit_cases h with ⟨hg, _, _⟩ | ⟨o1, total, hg, ht, hr⟩
  · rw [hget] at hg; simp at hg
  rw [hget] at hg; simp only [Option.some.injEq] at hg; subst hg
  have ht' : total = old.remaining + old.filledQuantity := by
    simp only [Limit.totalQuantity, bind_ok, assertP_ok, ok_inj] at ht
    obtain ⟨_, _, rfl⟩ := ht
    unfold Limit.filledQuantity
    split <;> simp
  subst ht'
  rcases hr with ⟨hle, rfl, y, hc⟩ | ⟨hlt, hr⟩
  · refine ⟨fun _ => rfl, by simp, fun err hh => ?_, hpos⟩
    exact cancel_id_filter hi.nodup hc
  · simp only at hlt
    rcases hr with ⟨err, hc, rfl⟩ | ⟨s1, y, hc, hsub⟩
    · exfalso
      obtain ⟨_, ⟨h1, _, _⟩ | ⟨_, _, _, _, _, _, _, _, _, _, _, hh⟩⟩ := cancelLimit_ok hc
      · have h2 := (removeBy_none (p := fun o => o.id == old.id) (b := s.active)).1 h1 old hold
        simp at h2
      · simp at hh
    · have hi1 := cancelLimit_inv hi hc
      obtain ⟨f1, f2, f3, _, _⟩ := cancelLimit_fields hc
      have hperm := cancel_id_filter hi.nodup hc
      obtain ⟨_, _, _, _, _, _, h2⟩ := submitLimit_arenas (fun x hx => (hi1.orders x hx).fresh) hsub
      rcases h2 with ⟨err, rfl, h3, _⟩ | ⟨rfl, h4, _, h3, _⟩
      · refine ⟨fun hle => by omega, by simp, fun err' _ => ?_, hpos⟩
        rw [h3]; exact hperm
      · refine ⟨fun hle => by omega, fun o ho => ?_, by simp, hpos⟩
        simp only [Except.ok.injEq] at ho; subst ho
        refine ⟨by omega, ?_, ?_, ?_⟩
        · simp only [NewLimit.intoPending, f1, f2, Limit.mk.injEq, true_and, and_true]; omega
        · rcases submitLimit_cases hsub with ⟨err, _, _, hr⟩ | ⟨_, h⟩
          · simp at hr
          rcases h with ⟨err, _, _, hr⟩ | ⟨_, h⟩
          · simp at hr
          rcases h with ⟨err, _, _, hr⟩ | ⟨_, h⟩
          · simp at hr
          rcases h with ⟨_, _, hr⟩ | ⟨hmk, ra, ha, hr⟩
          · simp at hr
          · rw [f1] at hmk
            cases side <;> simpa [marketable, crosses] using hmk
        · rw [h3]
          exact (List.perm_append_comm (l₁ := s1.active)).trans (hperm.cons _)

/-- C20, unknown ids: the call fails with the same errors as a cancellation and changes
nothing. -/
theorem C20_amend_unknown (c : Cfg) (s s' : State) (id : Nat)
    (hold : ∀ o ∈ s.active, o.id ≠ id) (side : Side) (price qty : Int) (uid : Nat)
    (x : Except Error Limit)
    (h : step c s (.amend id side price qty uid) = .ok (s', .limit x)) :
    s' = s ∧ (id < s.nextId → x = .error .orderNoLongerActive) ∧
    (s.nextId ≤ id → x = .error (.orderIdNotFound id)) := by
  rcases step_cases h with ⟨_, _, _, he, _⟩ | ⟨_, _, he, _⟩ | ⟨err, _, he⟩ |
    ⟨_, _, _, _, he, _⟩ | ⟨_, _, _, _, _, he, _⟩ | ⟨_, _, _, _, _, _, he, hp0, hq0, h, hx⟩ |
    ⟨_, _, he, _⟩
  all_goals try (cases he)
  cases hx
  rcases amendLimit_cases h with ⟨hg, rfl, rfl⟩ | ⟨o1, total, hg, ht, hr⟩
  · refine ⟨rfl, fun hlt => by simp [missingOrder, hlt], fun hlt => ?_⟩
    have : ¬ id < s'.nextId := by omega
    simp [missingOrder, this]
  · obtain ⟨h1, h2⟩ := getById_some hg
    exact absurd h2 (hold _ h1)

/-- Amend a partially filled order (3, of which 2 filled): to 6 leaves 4; to 2 cancels. -/
example : Ex.last Ex.lin Ex.ops2 (.amend 1 .sell (Ex.d 112) (Ex.d 6) 5) (fun s s' r =>
      decide (r = .limit (.ok ⟨5, .sell, Ex.d 112, Ex.d 4, s.nextId, 2, .unfilled⟩) ∧
        s'.active.length = 2)) = true ∧
    Ex.last Ex.lin Ex.ops2 (.amend 1 .sell (Ex.d 112) (Ex.d 2) 5) (fun _ s' r =>
      decide (r = .limit (.error .amendQtyAlreadyFilled) ∧ s'.active.length = 1)) = true := by
  decide +kernel

/-- C20: amending is not atomic. There is a reachable state in which an amendment is rejected
(the new price crosses the book) and the original order is lost. -/
theorem C20_amend_not_atomic : ¬ ∀ (c : Cfg) (s s' : State) (id : Nat) (side : Side)
    (price qty : Int) (uid : Nat) (err : Error), Reachable c s →
      step c s (.amend id side price qty uid) = .ok (s', .limit (.error err)) →
      s'.active = s.active := by
  intro h
  have w : Ex.last Ex.lin Ex.ops2 (.amend 1 .sell (Ex.d 99) (Ex.d 6) 5) (fun s s' r =>
      decide (r = .limit (.error (.order (.goodTillCrossingRejected (Ex.d 99) (Ex.d 100)))) ∧ s'.active ≠ s.active))
        = true := by decide +kernel
  obtain ⟨s, s', r, hr, hst, hp⟩ := Ex.last_reach w
  simp only [decide_eq_true_eq] at hp
  obtain ⟨rfl, hne⟩ := hp
  exact hne (h _ _ _ _ _ _ _ _ _ hr hst)

/-! ## C21 -/

/-- C21: an accepted market order is filled completely at the current ask or bid, reported as
one taker fill, changes the position by its quantity and leaves the active orders, the order
margin and the market alone. -/
theorem C21_market_order (c : Cfg) (s s' : State) (hs : Reachable c s)
    (side : Side) (qty : Int) (uid : Nat) (f : FilledMarket)
    (h : step c s (.market side qty uid) = .ok (s', .market (.ok f))) :
    let price := touchPrice s.ms side
    f = ⟨uid, side, qty, s.nextId, s.ms.ts, s.ms.ts, price, qty⟩ ∧
    fills s'.log = ⟨false, side, price, qty⟩ :: fills s.log ∧
    s'.pos.quantity = s.pos.quantity + (match side with | .buy => qty | .sell => -qty) ∧
    s'.active = s.active ∧ s'.om = s.om ∧ s'.ms = s.ms ∧ s'.nextId = s.nextId + 1 ∧
    s'.acct.balance .orderMargin = s.acct.balance .orderMargin := by
  intro price
  have hs' := hs.step h
  rcases step_cases h with ⟨_, _, _, he, _⟩ | ⟨_, _, he, _⟩ | ⟨err, _, he⟩ |
    ⟨_, _, _, _, he, _, h, hx⟩ | ⟨_, _, _, _, _, he, _⟩ | ⟨_, _, _, _, _, _, he, _⟩ | ⟨_, _, he, _⟩
  all_goals try (cases he)
  cases hx
  rcases submitMarket_cases h with ⟨err, _, _, hh⟩ | ⟨_, ⟨err, _, _, hh⟩ |
    ⟨_, _, _, p', a', hc, rfl, hh⟩⟩
  · simp at hh
  · simp at hh
  · simp only [Except.ok.injEq] at hh
    subst hh
    have hfl : fills (Event.trade side price qty :: .marketFill :: .marketSubmit ⟨uid, side, qty⟩ :: s.log)
        = ⟨false, side, price, qty⟩ :: fills s.log := by simp [fills]
    obtain ⟨ops, h1⟩ := hs
    obtain ⟨ops', h2⟩ := hs'
    have q1 := (C06_position_quantity c ops s h1).1
    have q2 := (C06_position_quantity c ops' _ h2).1
    simp only at q2
    rw [hfl] at q2
    refine ⟨rfl, hfl, ?_, rfl, rfl, rfl, rfl, ?_⟩
    · simp only [q2, q1, netBought, Fill.signed]
      cases side <;> simp <;> omega
    · exact (changePosition_ledger (f := ⟨false, side, price, qty⟩) (k := 0) (run_linv h1).wf hc).2.2.2.1

example : Ex.last Ex.lin Ex.ops2 (.market .sell (Ex.d 1) 3) (fun s s' r =>
    decide (r = .market (.ok ⟨3, .sell, Ex.d 1, 3, 2, 2, Ex.d 100, Ex.d 1⟩) ∧
      s.pos.quantity = Ex.d 3 ∧ s'.pos.quantity = Ex.d 2)) = true := by decide +kernel

end Lfest
