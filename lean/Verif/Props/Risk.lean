import Verif.Lemmas.Risk
import Verif.Props.Orders
import Verif.Props.Config

/-!
# Risk checks and liquidation (C22, C28–C31, C59, C60)
-/

namespace Lfest

open Spec

/-! ## C22 -/

/-- C22: a market order with an allowed quantity is executed if and only if the margin rule
allows it; otherwise it is turned down for lack of funds. -/
theorem C22_market_margin_rule (c : Cfg) (s s' : State) (side : Side) (q : Int) (uid : Nat)
    (r : Except Error FilledMarket) (hr : Reachable c s)
    (hst : step c s (.market side q uid) = .ok (s', .market r))
    (hq : quantityOk c.spec.quantityFilter q) :
    ((∃ f, r = .ok f) ↔ marketAllowed c s side q) ∧
    (r = .error (.risk .notEnoughAvailableBalance) ↔ ¬ marketAllowed c s side q) := by
  have hw := hr.linv.wf
  rcases step_cases hst with ⟨_, _, _, he, _⟩ | ⟨_, _, he, _⟩ | ⟨err, _, he⟩ |
    ⟨_, _, _, _, he, hp, h, hx⟩ | ⟨_, _, _, _, x, he, _⟩ | ⟨_, _, _, _, _, _, he, _⟩ | ⟨_, _, he, _⟩
  all_goals try (cases he)
  cases hx
  rcases submitMarket_cases h with ⟨_, h1, _, _⟩ | ⟨_, ⟨_, h1, _, rfl⟩ | ⟨h1, _, _, _, _, _, _, rfl⟩⟩
  · exact absurd ((quantity_ok h1).2 hq) (by simp)
  · rcases checkMarket_ok hw h1 with ⟨he, _⟩ | ⟨he, hn⟩
    · simp at he
    · simp only [Except.error.injEq] at he; subst he; simp [hn]
  · rcases checkMarket_ok hw h1 with ⟨_, hn⟩ | ⟨he, hn⟩
    · simp [hn]
    · simp at he

/-- A purchase of 4 fits into 1000 at a price of 101, one of 10 does not; and a sale of 12 that
flips a long position of 5 fits although a sale of 12 from a flat account would not. -/
example : Ex.last Ex.lin [.update (.bba ⟨Ex.d 100, Ex.d 101, 1⟩)] (.market .buy (Ex.d 4) 0)
      (fun _ _ r => Ex.isOk r) = true ∧
    Ex.last Ex.lin [.update (.bba ⟨Ex.d 100, Ex.d 101, 1⟩)] (.market .buy (Ex.d 10) 0)
      (fun _ _ r => decide (r = .market (.error (.risk .notEnoughAvailableBalance)))) = true ∧
    Ex.last Ex.lin [.update (.bba ⟨Ex.d 100, Ex.d 101, 1⟩), .market .buy (Ex.d 5) 0]
      (.market .sell (Ex.d 12) 0) (fun _ _ r => Ex.isOk r) = true := by decide +kernel

/-! ## C60 -/

/-- C60: the verdict on a market order is a function of the visible state: it is executed if
and only if its quantity is positive and allowed and the margin rule allows it. -/
theorem C60_market_order_decision (c : Cfg) (s s' : State) (side : Side) (q : Int) (uid : Nat)
    (r : Resp) (hr : Reachable c s) (hst : step c s (.market side q uid) = .ok (s', r)) :
    (∃ f, r = .market (.ok f)) ↔
      0 < q ∧ quantityOk c.spec.quantityFilter q ∧ marketAllowed c s side q := by
  have hw := hr.linv.wf
  rcases step_cases hst with ⟨_, _, _, he, _⟩ | ⟨_, _, he, _⟩ | ⟨err, _, he⟩ |
    ⟨_, _, _, x, he, hp, h, rfl⟩ | ⟨_, _, _, _, x, he, _⟩ | ⟨_, _, _, _, _, _, he, _⟩ | ⟨_, _, he, _⟩
  all_goals try (cases he; done)
  · subst he
    simp only [reduceCtorEq, exists_false, false_iff, not_and]
    intro hq
    simp only [step, NewMarket.new] at hst
    rw [if_neg (by omega)] at hst
    simp only [bind_ok, ok_inj, Prod.mk.injEq] at hst
    obtain ⟨_, _, _, h⟩ := hst
    simp at h
  · cases he
    by_cases hq : quantityOk c.spec.quantityFilter q
    · have := (C22_market_margin_rule c s s' side q uid x hr hst hq).1
      simp only [Resp.market.injEq, this, hp, hq, true_and]
    · simp only [hq, false_and, and_false, iff_false]
      rintro ⟨f, he⟩
      cases he
      rcases submitMarket_cases h with ⟨_, _, _, he⟩ | ⟨h1, _⟩
      · simp at he
      · exact hq ((quantity_ok h1).1 rfl)

/-- An order that is too small for the quantity step, one that is too large for the wallet, one of
nothing, and one that is accepted. -/
example : ([1500, Ex.d 10, 0, Ex.d 4].map fun q =>
    Ex.last Ex.lin [.update (.bba ⟨Ex.d 100, Ex.d 101, 1⟩)] (.market .buy q 0)
      (fun _ _ r => Ex.isOk r)) = [false, false, false, true] := by decide +kernel

/-! ## C28 -/

/-- C28: a limit order with an allowed price and quantity is turned down for lack of funds if
and only if the requirement of the active orders including it exceeds the wallet balance plus
the requirement without it. -/
theorem C28_limit_margin_rule (c : Cfg) (s s' : State) (side : Side) (price q : Int) (uid : Nat)
    (r : Except Error Limit) (o : Limit) (hr : Reachable c s) (hcap : c.maxOpen ≤ 10000)
    (hst : step c s (.limit side price q uid) = .ok (s', .limit r))
    (hq : quantityOk c.spec.quantityFilter q)
    (hp : priceOk c.env c.spec.priceFilter price (mid s.ms))
    (ho : o = ⟨uid, side, price, q, s.nextId, s.ms.ts, .unfilled⟩) :
    r = .error (.risk .notEnoughAvailableBalance) ↔
      s.acct.balance .wallet + marginReq c s.active s.pos.quantity <
        marginReq c (s.active ++ [o]) s.pos.quantity := by
  rcases step_cases hst with ⟨_, _, _, he, _⟩ | ⟨_, _, he, _⟩ | ⟨err, _, he⟩ |
    ⟨_, _, _, _, he, _⟩ | ⟨_, _, _, _, x, he, hp', hq', h, hx⟩ | ⟨_, _, _, _, _, _, he, _⟩ | ⟨_, _, he, _⟩
  all_goals try (cases he)
  cases hx
  rcases submitLimit_check hr hcap hq' h o ho with ⟨hn, _⟩ | ⟨_, hn, _⟩ | ⟨_, _, hlt, rfl⟩ |
    ⟨_, _, hle, ⟨_, rfl⟩ | ⟨_, _, rfl⟩ | ⟨_, _, rfl⟩⟩
  · exact absurd hq hn
  · exact absurd hp hn
  · simp [hlt]
  all_goals simp; omega

/-- C28: whenever a limit order is accepted, the wallet balance is not negative afterwards. -/
theorem C28_wallet_after_acceptance (c : Cfg) (s s' : State) (op : Op) (p : Limit)
    (hr : Reachable c s) (hcap : c.maxOpen ≤ 10000) (hi : 0 ≤ c.spec.initMarginReq)
    (hop : ∃ side price q uid, op = .limit side price q uid)
    (hst : step c s op = .ok (s', .limit (.ok p))) : 0 ≤ s'.acct.balance .wallet := by
  obtain ⟨side, price, q, uid, rfl⟩ := hop
  rcases step_cases hst with ⟨_, _, _, he, _⟩ | ⟨_, _, he, _⟩ | ⟨err, _, he⟩ |
    ⟨_, _, _, _, he, _⟩ | ⟨_, _, _, _, x, he, hp', hq', h, hx⟩ | ⟨_, _, _, _, _, _, he, _⟩ | ⟨_, _, he, _⟩
  all_goals try (cases he)
  cases hx
  have hI := hr.inv
  rcases submitLimit_check hr hcap hq' h _ rfl with ⟨_, _, he⟩ | ⟨_, _, _, he⟩ | ⟨_, _, _, he⟩ |
    ⟨_, _, hle, ⟨_, he⟩ | ⟨_, _, he⟩ | ⟨_, _, he⟩⟩
  all_goals try (simp at he; done)
  simp only [Except.ok.injEq] at he
  subst he
  have hI' := submitLimit_inv hp' hq' hI h
  obtain ⟨_, h1, _, _, h4⟩ := submitLimit_margin hp' hq' hI hr.linv.wf hcap h
  have hmono := marginReq_append (c := c) (os := s.active) (pos := s.pos.quantity)
    (fun x hx => by
      rw [← h1] at hx
      have := hI'.orders x hx; exact ⟨this.price, Int.le_of_lt this.rem⟩) hi
  rw [h1] at h4
  have hap := submitLimit_cases h
  -- either money moved, and the exchange asserted that the wallet is not negative, or not
  have key : s'.acct = s.acct ∨ 0 ≤ s'.acct.balance .wallet := by
    rcases hap with ⟨_, _, _, he⟩ | ⟨_, ⟨_, _, _, he⟩ | ⟨_, ⟨_, _, _, he⟩ | ⟨_, ⟨_, _, he⟩ |
      ⟨_, ra, ha, ⟨_, _, he⟩ | ⟨rfl, _⟩⟩⟩⟩⟩
    all_goals try (simp at he; done)
    simp only [appendLimit, bind_ok] at ha
    obtain ⟨r1, _, ha⟩ := ha
    split at ha
    · simp at ha
    · split at ha
      · simp at ha
      · simp only [bind_ok] at ha
        obtain ⟨nm, _, ha⟩ := ha
        split at ha
        · simp only [bind_ok, ok_inj, Prod.mk.injEq] at ha
          obtain ⟨a, _, s3, h3, rfl, _⟩ := ha
          obtain ⟨rfl, _, _, hwn⟩ := appendChecks_ok h3
          exact .inr hwn
        · split at ha
          · simp only [bind_ok, ok_inj, Prod.mk.injEq] at ha
            obtain ⟨a, _, s3, h3, rfl, _⟩ := ha
            obtain ⟨rfl, _, _, hwn⟩ := appendChecks_ok h3
            exact .inr hwn
          · simp only [ok_inj, Prod.mk.injEq] at ha
            obtain ⟨rfl, _⟩ := ha
            exact .inl rfl
  rcases key with e | hn
  · rw [e]; omega
  · exact hn

/-- An order that just fits into the wallet, and one that does not. -/
example : Ex.last Ex.lin Ex.ops1 (.limit .buy (Ex.d 100) (Ex.d 3) 0)
      (fun s s' r => Ex.isOk r && decide (s.acct.balance .wallet = Ex.d 305 ∧
        s'.acct.balance .wallet = Ex.d 5)) = true ∧
    Ex.last Ex.lin Ex.ops1 (.limit .buy (Ex.d 100) (Ex.d 4) 0)
      (fun _ _ r => decide (r = .limit (.error (.risk .notEnoughAvailableBalance)))) = true := by
  decide +kernel

/-! ## C59 -/

/-- C59: the verdict on a limit order is a function of the visible state: it is accepted if
and only if price and quantity are positive and allowed by the filters, the margin rule holds,
it does not cross the book, and there is room for it. -/
theorem C59_limit_order_decision (c : Cfg) (s s' : State) (side : Side) (price q : Int)
    (uid : Nat) (r : Resp) (o : Limit) (hr : Reachable c s) (hcap : c.maxOpen ≤ 10000)
    (hst : step c s (.limit side price q uid) = .ok (s', r))
    (ho : o = ⟨uid, side, price, q, s.nextId, s.ms.ts, .unfilled⟩) :
    ((∃ p, r = .limit (.ok p)) ↔
      0 < price ∧ 0 < q ∧ quantityOk c.spec.quantityFilter q ∧
      priceOk c.env c.spec.priceFilter price (mid s.ms) ∧
      marginReq c (s.active ++ [o]) s.pos.quantity ≤
        s.acct.balance .wallet + marginReq c s.active s.pos.quantity ∧
      ¬ crosses s.ms side price ∧ s.active.length < c.maxOpen) ∧
    (∀ p, r = .limit (.ok p) → p = o) := by
  rcases step_cases hst with ⟨_, _, _, he, _⟩ | ⟨_, _, he, _⟩ | ⟨err, _, he⟩ |
    ⟨_, _, _, _, he, _⟩ | ⟨_, _, _, _, x, he, hp', hq', h, rfl⟩ | ⟨_, _, _, _, _, _, he, _⟩ |
    ⟨_, _, he, _⟩
  all_goals try (cases he; done)
  · subst he
    refine ⟨?_, by simp⟩
    simp only [reduceCtorEq, exists_false, false_iff]
    rintro ⟨hp, hq, _⟩
    simp only [step, NewLimit.new] at hst
    rw [if_neg (by omega), if_neg (by omega)] at hst
    simp only [bind_ok, ok_inj, Prod.mk.injEq] at hst
    obtain ⟨_, _, _, h⟩ := hst
    simp at h
  · cases he
    rcases submitLimit_check hr hcap hq' h o ho with ⟨hn, _, rfl⟩ | ⟨_, hn, _, rfl⟩ | ⟨_, _, hlt, rfl⟩ |
      ⟨h1, h2, hle, ⟨hn, rfl⟩ | ⟨_, hn, rfl⟩ | ⟨h3, h4, rfl⟩⟩
    · refine ⟨?_, by simp⟩
      simp [hn]
    · refine ⟨?_, by simp⟩
      simp [hn]
    · refine ⟨?_, by simp⟩
      simp; intros; omega
    · refine ⟨?_, by simp⟩
      simp [hn]
    · refine ⟨?_, by simp⟩
      simp; intros; omega
    · refine ⟨?_, by simp⟩
      simp [hp', hq', h1, h2, hle, h3, h4]

/-- C59: the error is a function of the visible state too. An order with positive price and
quantity is turned down by a filter if price or quantity is not allowed; else for lack of funds
(C28); else because it crosses the book (C16); else because there is no room for it (C15). -/
theorem C59_limit_order_errors (c : Cfg) (s s' : State) (side : Side) (price q : Int)
    (uid : Nat) (r : Except Error Limit) (o : Limit) (hr : Reachable c s)
    (hcap : c.maxOpen ≤ 10000) (hst : step c s (.limit side price q uid) = .ok (s', .limit r))
    (ho : o = ⟨uid, side, price, q, s.nextId, s.ms.ts, .unfilled⟩) :
    let filters := quantityOk c.spec.quantityFilter q ∧
      priceOk c.env c.spec.priceFilter price (mid s.ms)
    let funds := marginReq c (s.active ++ [o]) s.pos.quantity ≤
        s.acct.balance .wallet + marginReq c s.active s.pos.quantity
    ((∃ err, r = .error (.order err) ∧ ∀ a b, err ≠ .goodTillCrossingRejected a b) ↔ ¬ filters) ∧
    (r = .error (.risk .notEnoughAvailableBalance) ↔ filters ∧ ¬ funds) ∧
    (r = .error (.order (.goodTillCrossingRejected price (touchPrice s.ms side))) ↔
      filters ∧ funds ∧ crosses s.ms side price) ∧
    (r = .error .maxNumberOfActiveOrders ↔
      filters ∧ funds ∧ ¬ crosses s.ms side price ∧ s.active.length = c.maxOpen) := by
  intro filters funds
  have hlen := (C15_open_order_limit c s s' hr side price q uid _ hst).1
  rcases step_cases hst with ⟨_, _, _, he, _⟩ | ⟨_, _, he, _⟩ | ⟨err, _, he⟩ |
    ⟨_, _, _, _, he, _⟩ | ⟨_, _, _, _, x, he, hp', hq', h, hx⟩ | ⟨_, _, _, _, _, _, he, _⟩ |
    ⟨_, _, he, _⟩
  all_goals try (cases he; done)
  cases he
  cases hx
  have hgtc : ∀ a b, r = .error (.order (.goodTillCrossingRejected a b)) → filters := by
    rintro a b rfl
    rcases submitLimit_cases h with ⟨err, hv, _, he⟩ | ⟨h1, h⟩
    · simp at he; subst he; exact absurd hv (quantityFilter_no_gtc _ _ _ _)
    rcases h with ⟨err, hv, _, he⟩ | ⟨h2, h⟩
    · simp at he; subst he; exact absurd hv (priceFilter_no_gtc _ _ _ _ _ _)
    rw [mid_eq c s.ms] at h2
    exact ⟨(quantity_ok h1).1 rfl, (price_ok h2).1 rfl⟩
  rcases submitLimit_check hr hcap hq' h o ho with ⟨hn, e, rfl⟩ | ⟨_, hn, e, rfl⟩ |
    ⟨h1, h2, hlt, rfl⟩ | ⟨h1, h2, hle, ⟨hn, rfl⟩ | ⟨hc, hn, rfl⟩ | ⟨h3, h4, rfl⟩⟩
  · have hf : ¬ filters := fun h => hn h.1
    have he : ∀ a b, e ≠ .goodTillCrossingRejected a b := fun a b h => hf (hgtc a b (by rw [h]))
    simp [hf, he]
  · have hf : ¬ filters := fun h => hn h.2
    have he : ∀ a b, e ≠ .goodTillCrossingRejected a b := fun a b h => hf (hgtc a b (by rw [h]))
    simp [hf, he]
  · have hf : filters := ⟨h1, h2⟩
    have hu : ¬ funds := by show ¬ (_ ≤ _); omega
    simp [hf, hu]
  · have hf : filters := ⟨h1, h2⟩
    have hu : funds := hle
    simp [hf, hu, hn]
  · have hf : filters := ⟨h1, h2⟩
    have hu : funds := hle
    have : s.active.length = c.maxOpen := by omega
    simp [hf, hu, hc, this]
  · have hf : filters := ⟨h1, h2⟩
    have hu : funds := hle
    have : s.active.length ≠ c.maxOpen := by omega
    simp [hf, hu, h3, this]

/-- C16: an order is rejected with `GoodTillCrossingRejectedOrder` if and only if it crosses the
book and is allowed by the filters and the margin rule. -/
theorem C16_rejected_iff_crosses (c : Cfg) (s s' : State) (side : Side) (price q : Int)
    (uid : Nat) (r : Except Error Limit) (o : Limit) (hr : Reachable c s)
    (hcap : c.maxOpen ≤ 10000) (hst : step c s (.limit side price q uid) = .ok (s', .limit r))
    (ho : o = ⟨uid, side, price, q, s.nextId, s.ms.ts, .unfilled⟩)
    (hq : quantityOk c.spec.quantityFilter q)
    (hp : priceOk c.env c.spec.priceFilter price (mid s.ms))
    (hm : marginReq c (s.active ++ [o]) s.pos.quantity ≤
      s.acct.balance .wallet + marginReq c s.active s.pos.quantity) :
    r = .error (.order (.goodTillCrossingRejected price (touchPrice s.ms side))) ↔ crosses s.ms side price := by
  have := (C59_limit_order_errors c s s' side price q uid r o hr hcap hst ho).2.2.1
  rw [this]
  exact ⟨fun h => h.2.2, fun h => ⟨⟨hq, hp⟩, hm, h⟩⟩

/-- Every kind of error occurs. -/
example : Ex.last Ex.lin Ex.ops1 (.limit .sell (Ex.d 202) (Ex.d 1) 0)
      (fun _ _ r => decide (r = .limit (.error (.order .limitPriceAboveMultiple)))) = true ∧
    Ex.last Ex.lin Ex.ops1 (.limit .buy (Ex.d 100) (Ex.d 4) 0)
      (fun _ _ r => decide (r = .limit (.error (.risk .notEnoughAvailableBalance)))) = true ∧
    Ex.last Ex.lin Ex.ops1 (.limit .sell (Ex.d 100) (Ex.d 1) 0)
      (fun _ _ r => decide (r = .limit (.error (.order (.goodTillCrossingRejected (Ex.d 100) (Ex.d 100)))))) = true ∧
    Ex.last { Ex.lin with maxOpen := 2 } Ex.ops1 (.limit .sell (Ex.d 115) (Ex.d 1) 0)
      (fun _ _ r => decide (r = .limit (.error .maxNumberOfActiveOrders))) = true := by
  decide +kernel

/-- All verdicts occur. -/
example : ([(.sell, Ex.d 115, Ex.d 1), (.sell, Ex.d 115, 1500), (.sell, Ex.d 202, Ex.d 1),
      (.buy, Ex.d 100, Ex.d 4), (.sell, Ex.d 100, Ex.d 1), (.sell, 0, Ex.d 1)].map
      fun (x : Side × Int × Int) => Ex.last Ex.lin Ex.ops1 (.limit x.1 x.2.1 x.2.2 0)
        (fun _ _ r => Ex.isOk r)) = [true, false, false, false, false, false] := by decide +kernel

/-! ## C29 -/

/-- C29: an update is answered with `Liquidate` if and only if the position breaches its
maintenance margin at the quotes of the update; there is no other error. -/
theorem C29_liquidation_iff_breach (c : Cfg) (s s' : State) (u : UpdateArg)
    (r : Except Error (List LimitUpdate)) (hr : Reachable c s)
    (hst : step c s (.update u) = .ok (s', .update r)) :
    (r = .error (.risk .liquidate) ↔ breach c s.pos (quotesAfter s.ms u)) ∧
    (∀ err, r = .error err → err = .risk .liquidate) := by
  rcases step_cases hst with ⟨_, _, x, he, hb, h, hx⟩ | ⟨_, _, he, _⟩ | ⟨err, _, he⟩ |
    ⟨_, _, _, _, he, _⟩ | ⟨_, _, _, _, x, he, _⟩ | ⟨_, _, _, _, _, _, he, _⟩ | ⟨_, _, he, _⟩
  all_goals try (cases he)
  cases hx
  obtain ⟨s1, h1, h2⟩ := updateState_cases hr.linv.wf h
  rw [(observe_quotes hb h1).1] at h2
  rcases h2 with ⟨hb, _, rfl⟩ | ⟨hb, _, rfl⟩
  · simp [hb]
  · simp [hb]

/-- The liquidation limits are entry*(1-m) and entry*(1+m), rounded down, without any further
error: a bid of `b` is below the limit of a long position exactly if `b+1` units in the last
place are at most the exact product, an ask of `a` above that of a short exactly if the exact
product is below `a`. -/
theorem C29_limits_exact (c : Cfg) (entry x : Int) (he : 0 ≤ entry)
    (hm : 0 ≤ c.spec.maintenanceMargin) (hm' : c.spec.maintenanceMargin ≤ c.env.scale) :
    (x < longLimit c entry ↔
      (x + 1) * c.env.scale ≤ entry * (c.env.scale - c.spec.maintenanceMargin)) ∧
    (shortLimit c entry < x ↔
      entry * (c.env.scale + c.spec.maintenanceMargin) < x * c.env.scale) := by
  have hs := scale_pos c.env
  have n1 : 0 ≤ entry * (c.env.scale - c.spec.maintenanceMargin) :=
    Int.mul_nonneg he (by omega)
  have n2 : 0 ≤ entry * (c.env.scale + c.spec.maintenanceMargin) :=
    Int.mul_nonneg he (by omega)
  obtain ⟨a1, a2, _⟩ := tdiv_bounds n1 hs
  obtain ⟨b1, b2, _⟩ := tdiv_bounds n2 hs
  unfold longLimit shortLimit
  constructor
  · constructor
    · intro h
      exact Int.le_trans (Int.mul_le_mul_of_nonneg_right (Int.add_one_le_of_lt h) (Int.le_of_lt hs)) a1
    · intro h
      exact le_tdiv hs n1 h
  · constructor
    · intro h
      have := Int.mul_le_mul_of_nonneg_right (Int.add_one_le_of_lt h) (Int.le_of_lt hs)
      rw [Int.add_mul, Int.one_mul] at this
      omega
    · intro h
      have h2 : (entry * (c.env.scale + c.spec.maintenanceMargin)).tdiv c.env.scale * c.env.scale <
          x * c.env.scale := by omega
      exact Int.lt_of_mul_lt_mul_right h2 (Int.le_of_lt hs)

/-- A flat account is never liquidated. -/
theorem C29_neutral_never (c : Cfg) (s s' : State) (u : UpdateArg)
    (r : Except Error (List LimitUpdate)) (hr : Reachable c s) (hn : s.pos = .neutral)
    (hst : step c s (.update u) = .ok (s', .update r)) : ∃ ups, r = .ok ups := by
  obtain ⟨h1, h2⟩ := C29_liquidation_iff_breach c s s' u r hr hst
  cases r with
  | ok ups => exact ⟨ups, rfl⟩
  | error err =>
    have := h2 err rfl; subst this
    have := h1.1 rfl
    rw [hn] at this
    simp [breach, Position.quantity] at this

/-- Long 5 from 101 with a maintenance margin of one half: the limit is 50.5. A bid of 51 is
fine, a bid of 50 is not. Short 2 from 100: the limit is 150. -/
example : Ex.last Ex.lin [.update (.bba ⟨Ex.d 100, Ex.d 101, 1⟩), .market .buy (Ex.d 5) 0]
      (.update (.bba ⟨Ex.d 51, Ex.d 52, 2⟩)) (fun _ _ r => Ex.isOk r) = true ∧
    Ex.last Ex.lin [.update (.bba ⟨Ex.d 100, Ex.d 101, 1⟩), .market .buy (Ex.d 5) 0]
      (.update (.bba ⟨Ex.d 50, Ex.d 52, 2⟩))
      (fun _ _ r => decide (r = .update (.error (.risk .liquidate)))) = true ∧
    Ex.last Ex.lin [.update (.bba ⟨Ex.d 100, Ex.d 101, 1⟩), .market .sell (Ex.d 2) 0]
      (.update (.candle ⟨Ex.d 100, Ex.d 151, Ex.d 90, Ex.d 160, 2⟩))
      (fun _ _ r => decide (r = .update (.error (.risk .liquidate)))) = true := by
  decide +kernel

/-! ## C30 -/

/-- C30: after a liquidation the position is flat. There was exactly one fill: a taker fill of
the whole position, a long sold at the bid and a short bought at the ask of the update. Active
orders and order margin are untouched. -/
theorem C30_liquidation_flattens (c : Cfg) (s s' : State) (u : UpdateArg) (err : Error)
    (hr : Reachable c s) (hst : step c s (.update u) = .ok (s', .update (.error err))) :
    s'.pos = .neutral ∧
    fills s'.log = closingFill s.pos (quotesAfter s.ms u) :: fills s.log ∧
    s'.active = s.active ∧ s'.om = s.om ∧
    s'.acct.balance .orderMargin = s.acct.balance .orderMargin := by
  rcases step_cases hst with ⟨_, _, x, he, hb, h, hx⟩ | ⟨_, _, he, _⟩ | ⟨err, _, he⟩ |
    ⟨_, _, _, _, he, _⟩ | ⟨_, _, _, _, x, he, _⟩ | ⟨_, _, _, _, _, _, he, _⟩ | ⟨_, _, he, _⟩
  all_goals try (cases he)
  cases hx
  have hw := hr.linv.wf
  obtain ⟨s1, h1, h2⟩ := updateState_cases hw h
  rcases h2 with ⟨_, h2, _⟩ | ⟨_, _, he⟩
  · obtain ⟨e1, e2, e3, e4, _, _⟩ := observe_fields h1
    have hfl := fills_observe h1
    have hq := (observe_quotes hb h1).1
    obtain ⟨_, k2, k3, k4, _⟩ := liquidate_spec (by rw [e2]; exact hw) h2
    obtain ⟨_, _, f3, f4, _⟩ := liquidate_fields h2
    refine ⟨k2, ?_, by rw [f3, e3], by rw [f4, e4], by rw [k4, e1]⟩
    rw [k3, e2, hq, hfl]
  · simp at he

/-- The long position of the example above, with two resting orders. -/
example : Ex.last Ex.lin Ex.ops1 (.update (.bba ⟨Ex.d 50, Ex.d 52, 2⟩))
    (fun s s' r => decide (r = .update (.error (.risk .liquidate)) ∧
      s.pos.quantity = Ex.d 5 ∧ s'.pos = .neutral ∧ s'.active.length = 2 ∧
      fills s'.log = [⟨false, .sell, Ex.d 50, Ex.d 5⟩, ⟨false, .buy, Ex.d 101, Ex.d 5⟩])) = true := by
  decide +kernel

/-- A liquidation only succeeds if the position quantity passes the quantity filter. -/
theorem C30_needs_allowed_quantity (c : Cfg) (s s' : State) (u : UpdateArg) (err : Error)
    (hr : Reachable c s) (hst : step c s (.update u) = .ok (s', .update (.error err))) :
    quantityOk c.spec.quantityFilter (Spec.abs s.pos.quantity) := by
  rcases step_cases hst with ⟨_, _, x, he, hb, h, hx⟩ | ⟨_, _, he, _⟩ | ⟨err, _, he⟩ |
    ⟨_, _, _, _, he, _⟩ | ⟨_, _, _, _, x, he, _⟩ | ⟨_, _, _, _, _, _, he, _⟩ | ⟨_, _, he, _⟩
  all_goals try (cases he)
  cases hx
  have hw := hr.linv.wf
  obtain ⟨s1, h1, h2⟩ := updateState_cases hw h
  rcases h2 with ⟨_, h2, _⟩ | ⟨_, _, he⟩
  · have e2 := (observe_fields h1).2.1
    have := (liquidate_spec (by rw [e2]; exact hw) h2).2.2.2.2
    rwa [e2] at this
  · simp at he

/-- … otherwise the process panics: two purchases of at most 3 each build a position of 4 that
cannot be sold in one order. -/
theorem C30_panics_on_quantity_filter : ∃ c s u, Reachable c s ∧
    breach c s.pos (quotesAfter s.ms u) ∧ step c s (.update u) = .error .liquidateSubmit := by
  obtain ⟨s, hr, hp, h⟩ := Ex.crash_reach
    (c := { Ex.lin with spec := { Ex.lin.spec with quantityFilter := ⟨none, some (Ex.d 3), 1000⟩ } })
    (ops := [.update (.bba ⟨Ex.d 100, Ex.d 101, 1⟩), .market .buy (Ex.d 2) 0, .market .buy (Ex.d 2) 0])
    (op := .update (.bba ⟨Ex.d 50, Ex.d 52, 2⟩)) (p := .liquidateSubmit)
    (f := fun s => decide (0 < s.pos.quantity ∧ Ex.d 50 < longLimit Ex.lin s.pos.entryPrice))
    (by decide +kernel)
  simp only [decide_eq_true_eq] at hp
  exact ⟨_, s, .bba ⟨Ex.d 50, Ex.d 52, 2⟩, hr, .inl hp, h⟩

/-! ## C31 -/

/-- C31: with a non-negative maintenance margin rate (C47) a long position is never liquidated
while the bid of the update is at or above its entry price, nor a short position while the ask
is at or below it. -/
theorem C31_no_liquidation_in_profit (c : Cfg) (s s' : State) (u : UpdateArg)
    (r : Except Error (List LimitUpdate)) (hr : Reachable c s)
    (hm : 0 ≤ c.spec.maintenanceMargin) (hm' : c.spec.maintenanceMargin ≤ c.env.scale)
    (hl : 0 < s.pos.quantity → s.pos.entryPrice ≤ (quotesAfter s.ms u).1)
    (hs : s.pos.quantity < 0 → (quotesAfter s.ms u).2 ≤ s.pos.entryPrice)
    (hst : step c s (.update u) = .ok (s', .update r)) : ∃ ups, r = .ok ups := by
  obtain ⟨h1, h2⟩ := C29_liquidation_iff_breach c s s' u r hr hst
  have he := hr.entry_nonneg
  have hsc := scale_pos c.env
  cases r with
  | ok ups => exact ⟨ups, rfl⟩
  | error err =>
    have := h2 err rfl; subst this
    rcases h1.1 rfl with ⟨hq, hb⟩ | ⟨hq, hb⟩
    · have hb := (C29_limits_exact c _ _ he hm hm').1.1 hb
      have hle := hl hq
      have k1 := Int.mul_le_mul_of_nonneg_right hle (Int.le_of_lt hsc)
      have k2 := Int.mul_nonneg he hm
      rw [Int.add_mul, Int.one_mul, Int.mul_sub] at hb
      omega
    · have hb := (C29_limits_exact c _ _ he hm hm').2.1 hb
      have hle := hs hq
      have k1 := Int.mul_le_mul_of_nonneg_right hle (Int.le_of_lt hsc)
      have k2 := Int.mul_nonneg he hm
      rw [Int.mul_add] at hb
      omega

/-- C31: the liquidation limit of a long position is at most its entry price, that of a short
position at least. -/
theorem C31_limits_on_losing_side (c : Cfg) (v : Nat) (fraction entry : Int)
    (hb : Built c v fraction) (he : 0 ≤ entry) :
    longLimit c entry ≤ entry ∧ entry ≤ shortLimit c entry := by
  obtain ⟨hm, h1, h2, _⟩ := C47_margin_rates c v fraction hb
  have hs := scale_pos c.env
  have k := Int.mul_nonneg he hm
  unfold longLimit shortLimit
  constructor
  · refine tdiv_le hs (Int.mul_nonneg he (by omega)) ?_
    rw [Int.mul_sub]; omega
  · refine le_tdiv hs (Int.mul_nonneg he (by omega)) ?_
    rw [Int.mul_add]; omega

/-- The long position of the examples, entered at 101: not liquidated at a bid of 101. -/
example : Ex.last Ex.lin Ex.ops1 (.update (.bba ⟨Ex.d 101, Ex.d 102, 2⟩))
    (fun s _ r => Ex.isOk r && decide (0 < s.pos.quantity ∧ s.pos.entryPrice = Ex.d 101)) = true ∧
    longLimit Ex.lin (Ex.d 101) = 5050000 ∧ shortLimit Ex.lin (Ex.d 101) = 15150000 := by
  decide +kernel

end Lfest
