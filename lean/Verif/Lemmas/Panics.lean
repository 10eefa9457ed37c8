import Verif.Lemmas.NoPanic
import Verif.Lemmas.Validate
import Verif.Lemmas.Safety

/-! Which assertions can fail. -/

namespace Lfest

open Spec

/-- If the computation panics, then at one of the listed sites. -/
def Only {α} (P : List Panic) (x : Res α) : Prop := ∀ p, x = .error p → p ∈ P

theorem Only.ok {α} {P : List Panic} (a : α) : Only P (.ok a : Res α) := by
  intro p h; simp at h

theorem Only.of_ok {α} {P : List Panic} {x : Res α} (h : ∃ a, x = .ok a) : Only P x := by
  obtain ⟨a, rfl⟩ := h; exact Only.ok a

theorem Only.err {α} {P : List Panic} {q : Panic} (h : q ∈ P) : Only P (.error q : Res α) := by
  intro p e; simp at e; exact e ▸ h

theorem Only.bind {α β} {P : List Panic} {x : Res α} {f : α → Res β} (h : Only P x)
    (k : ∀ a, x = .ok a → Only P (f a)) : Only P (x >>= f) := by
  cases hx : x with
  | error e => intro p hp; simp [Bind.bind, Except.bind] at hp; exact h p (by rw [hx, hp])
  | ok a => intro p hp; simp only [Bind.bind, Except.bind] at hp; exact k a hx p hp

theorem Only.mono {α} {P Q : List Panic} {x : Res α} (h : Only P x) (hs : ∀ p ∈ P, p ∈ Q) : Only Q x :=
  fun p hp => hs p (h p hp)

theorem Only.assert {P : List Panic} {c : Prop} [Decidable c] {p : Panic} (h : ¬ c → p ∈ P) :
    Only P (assertP c p) := by
  unfold assertP
  split
  · exact .ok _
  · next hc => exact .err (h hc)

theorem Only.debug {P : List Panic} {d : Bool} {c : Prop} [Decidable c] {p : Panic}
    (h : d = true → ¬ c → p ∈ P) : Only P (debugP d c p) := by
  unfold debugP
  split
  · next hd => exact .assert (h hd)
  · exact .ok _

theorem convert_only {P : List Panic} {e : Env} {q p : Int} (h : p = 0 → .divByZero ∈ P) :
    Only P (convert e q p) := by
  by_cases hp : p = 0
  · unfold convert
    split
    · exact .ok _
    · unfold ddiv; rw [if_pos hp]; exact .err (h hp)
  · exact .of_ok ⟨_, convert_pos hp⟩

theorem pnl_only {P : List Panic} {e : Env} {a b q : Int} (h : .divByZero ∈ P) :
    Only P (pnl e a b q) := by
  unfold pnl
  split
  · exact .ok _
  · split <;> exact .bind (convert_only fun _ => h) fun _ _ => .bind (convert_only fun _ => h) fun _ _ => .ok _

theorem transfer_only {P : List Panic} {e : Env} {a : Accounts} {d k : AccountId} {x : Int}
    (hs : a.debitSum = a.creditSum) (hdk : d ≠ k) (h : x ≤ 0 → .txnAmount ∈ P) :
    Only P (transfer e a d k x) := by
  by_cases hx : 0 < x
  · exact .of_ok (transfer_total hs hx hdk)
  · unfold transfer
    refine .bind (.assert fun _ => h (by omega)) fun _ h1 => ?_
    rw [assertP_ok] at h1; omega

theorem settlePnl_only {P : List Panic} {e : Env} {a : Accounts} {v : Int}
    (hs : a.debitSum = a.creditSum) : Only P (settlePnl e a v) := by
  unfold settlePnl
  split
  · exact transfer_only hs (by simp) (by omega)
  · split
    · exact transfer_only hs (by simp) (by omega)
    · exact .ok _

theorem settleFees_only {P : List Panic} {e : Env} {a : Accounts} {v : Int}
    (hs : a.debitSum = a.creditSum) : Only P (settleFees e a v) := by
  unfold settleFees
  split
  · exact .bind (transfer_only hs (by simp) (by omega)) fun _ _ => .ok _
  · exact .ok _

theorem Inner.new_only {P : List Panic} {e : Env} {imr : Int} {a : Accounts} {q p f : Int}
    (hs : a.debitSum = a.creditSum) (hq : 0 < q) (hp : 0 < p) (h : .txnAmount ∈ P) :
    Only P (Inner.new e imr a q p f) := by
  unfold Inner.new
  refine .bind (.assert (by omega)) fun _ _ => .bind (.assert (by omega)) fun _ _ =>
    .bind (convert_only (by omega)) fun _ _ => .bind (transfer_only hs (by simp) fun _ => h) fun _ _ => .ok _

theorem Inner.increase_only {P : List Panic} {e : Env} {imr : Int} {a : Accounts} {i : Inner} {q p f : Int}
    (hs : a.debitSum = a.creditSum) (hi : 0 < i.qty) (hq : 0 < q) (hp : 0 < p) (h : .txnAmount ∈ P) :
    Only P (i.increase e imr a q p f) := by
  unfold Inner.increase
  refine .bind (.assert (by omega)) fun _ _ => .bind (.assert (by omega)) fun _ _ =>
    .bind (convert_only (by omega)) fun _ _ => .bind ?_ fun _ _ =>
    .bind (transfer_only hs (by simp) fun _ => h) fun _ _ => .ok _
  unfold newWeightedPrice ddiv
  rw [if_neg (by omega)]; exact .ok _

theorem Inner.decrease_only {P : List Panic} {e : Env} {imr : Int} {a : Accounts} {i : Inner} {q p d f : Int}
    (hs : a.debitSum = a.creditSum) (hq : 0 < q) (hi : q ≤ i.qty)
    (h1 : .divByZero ∈ P) (h2 : .txnAmount ∈ P) (h3 : e.debug = true → .marginToFree ∈ P) :
    Only P (i.decrease e imr a q p d f) := by
  unfold Inner.decrease
  refine .bind (.assert (by omega)) fun _ _ => .bind (.assert (by omega)) fun _ _ =>
    .bind (.debug (by omega)) fun _ _ => .bind (pnl_only h1) fun v _ =>
    .bind (settlePnl_only hs) fun a1 ha1 => .bind (convert_only fun _ => h1) fun _ _ =>
    .bind (.debug fun hd _ => h3 hd) fun _ _ => .bind (transfer_only ?_ (by simp) fun _ => h2) fun a2 ha2 =>
    .bind (settleFees_only ?_) fun _ _ => .ok _
  · have := (settlePnl_ok ha1).sums; omega
  · have := (settlePnl_ok ha1).sums
    have := transfer_sums ha2
    omega

theorem changePosition_only {P : List Panic} {e : Env} {imr : Int} {a : Accounts} {pos : Position}
    {q p f : Int} {side : Side} (hs : a.debitSum = a.creditSum) (hw : PosWF pos) (hq : 0 < q)
    (hp : 0 < p) (hflat : e.debug = true → pos = .neutral → a.balance .positionMargin = 0)
    (h1 : .divByZero ∈ P) (h2 : .txnAmount ∈ P) (h3 : .flipMargin ∈ P)
    (h4 : e.debug = true → .marginToFree ∈ P) (h5 : e.debug = true → .closedMargin ∈ P) :
    Only P (changePosition e imr a pos q p side f) := by
  have hsum : ∀ {i : Inner} {x y d g : Int} {r : Inner × Accounts}, i.decrease e imr a x y d g = .ok r →
      r.2.debitSum = r.2.creditSum := fun h => by
    have := (Inner.decrease_ok h).2.2.2.2.sums; omega
  unfold changePosition
  refine .bind (.debug (by omega)) fun _ _ => ?_
  cases pos with
  | neutral =>
    refine .bind (.debug fun hd h => absurd (hflat hd rfl) h) fun _ _ => ?_
    cases side <;> exact .bind (Inner.new_only hs hq hp h2) fun _ _ => .ok _
  | long i =>
    have hi : 0 < i.qty := hw
    cases side with
    | buy => exact .bind (Inner.increase_only hs hi hq hp h2) fun _ _ => .ok _
    | sell =>
      simp only
      split
      · exact .bind (Inner.decrease_only hs hq (by omega) h1 h2 h4) fun _ _ => .ok _
      · split
        · exact .bind (Inner.decrease_only hs hq (by omega) h1 h2 h4) fun _ _ =>
            .bind (.debug fun hd _ => h5 hd) fun _ _ => .ok _
        · refine .bind (Inner.decrease_only hs hi (by omega) h1 h2 h4) fun r hr =>
            .bind (.assert fun h => absurd ?_ h) fun _ _ => .bind (.assert fun _ => h3) fun _ _ =>
            .bind (Inner.new_only (hsum hr) (by omega) hp h2) fun _ _ => .ok _
          rw [(Inner.decrease_ok hr).2.2.2.1]; simp
  | short i =>
    have hi : 0 < i.qty := hw
    cases side with
    | sell => exact .bind (Inner.increase_only hs hi hq hp h2) fun _ _ => .ok _
    | buy =>
      simp only
      split
      · exact .bind (Inner.decrease_only hs hq (by omega) h1 h2 h4) fun _ _ => .ok _
      · split
        · exact .bind (Inner.decrease_only hs hq (by omega) h1 h2 h4) fun _ _ =>
            .bind (.debug fun hd _ => h5 hd) fun _ _ => .ok _
        · refine .bind (Inner.decrease_only hs hi (by omega) h1 h2 h4) fun r hr =>
            .bind (.assert fun h => absurd ?_ h) fun _ _ => .bind (.assert fun _ => h3) fun _ _ =>
            .bind (Inner.new_only (hsum hr) (by omega) hp h2) fun _ _ => .ok _
          rw [(Inner.decrease_ok hr).2.2.2.1]; simp

theorem checkFunds_only {P : List Panic} {c : Cfg} {q p f : Int} (h : p = 0 → .divByZero ∈ P) :
    Only P (checkFunds c q p f) := by
  unfold checkFunds
  refine .bind (convert_only h) fun _ _ => ?_
  simp only
  split <;> exact .ok _

theorem checkMarketOrder_only {P : List Panic} {c : Cfg} {pos : Position} {m q p w : Int} {side : Side}
    (h : .divByZero ∈ P) : Only P (checkMarketOrder c pos m side q p w) := by
  unfold checkMarketOrder checkMarketBuy checkMarketSell
  (repeat' split) <;> first | exact .ok _ | exact checkFunds_only fun _ => h

theorem fillPanics_mem (d : Bool) : .divByZero ∈ fillPanics d ∧ .txnAmount ∈ fillPanics d ∧
    .flipMargin ∈ fillPanics d ∧ (d = true → .marginToFree ∈ fillPanics d) ∧
    (d = true → .closedMargin ∈ fillPanics d) := by
  cases d <;> simp [fillPanics]

theorem submitMarket_only {c : Cfg} {s : State} {o : NewMarket} (hq : 0 < o.qty) (hl : LInv c s.core)
    (ht : c.spec.quantityFilter.tickSize ≠ 0)
    (hf : c.env.debug = true → s.pos = .neutral → s.acct.balance .positionMargin = 0) :
    Only (marketPanics c.env.debug) (submitMarket c s o) := by
  obtain ⟨h1, h2, h3, h4, h5⟩ := fillPanics_mem c.env.debug
  have hsub : ∀ p ∈ fillPanics c.env.debug, p ∈ marketPanics c.env.debug := by
    intro p hp; simp [marketPanics, hp]
  unfold submitMarket
  refine .bind (.of_ok (quantity_total ht)) fun r _ => ?_
  cases r with
  | error e => exact .ok _
  | ok _ =>
    refine .bind (checkMarketOrder_only (hsub _ h1)) fun r _ => ?_
    cases r with
    | error e => exact .ok _
    | ok _ =>
      refine .bind ?_ fun _ _ => .ok _
      unfold settleMarket
      refine .bind (.assert fun h => absurd hq h) fun _ _ =>
        .bind (.assert fun _ => by simp [marketPanics]) fun _ hp => ?_
      rw [assertP_ok] at hp
      refine .bind (convert_only fun h => by simp only [h] at hp; omega) fun _ _ => .bind ?_ fun _ _ => .ok _
      exact (changePosition_only hl.sums hl.wf hq hp hf h1 h2 h3 h4 h5).mono hsub

theorem liquidate_only {c : Cfg} {s : State} (hl : LInv c s.core)
    (ht : c.spec.quantityFilter.tickSize ≠ 0) (hn : s.pos ≠ .neutral) :
    Only (.liquidateSubmit :: marketPanics c.env.debug) (liquidate c s) := by
  have hw : PosWF s.pos := hl.wf
  have ho : ∃ o, liquidationOrder s.pos = .ok o ∧ 0 < o.qty := by
    cases hp : s.pos with
    | neutral => exact absurd hp hn
    | long i =>
      rw [hp] at hw
      have : 0 < i.qty := hw
      exact ⟨⟨0, .sell, i.qty⟩, by
        simp only [liquidationOrder, NewMarket.new]; rw [if_neg (by omega)], this⟩
    | short i =>
      rw [hp] at hw
      have : 0 < i.qty := hw
      exact ⟨⟨0, .buy, i.qty⟩, by
        simp only [liquidationOrder, NewMarket.new]; rw [if_neg (by omega)], this⟩
  obtain ⟨o, ho, hq⟩ := ho
  unfold liquidate
  refine .bind (.of_ok ⟨o, ho⟩) fun o' ho' => ?_
  rw [ho] at ho'; simp only [ok_inj] at ho'; subst ho'
  refine .bind ((submitMarket_only hq hl ht fun _ h => absurd h hn).mono fun p hp => by simp [hp]) fun r _ => ?_
  obtain ⟨s', r⟩ := r
  cases r with
  | error e => exact .err (by simp)
  | ok _ => exact .ok _

theorem goodOrders {c : Cfg} {s : State} (hi : Inv c s) : GoodOrders s.active := fun x hx =>
  ⟨(hi.orders x hx).price, Int.le_of_lt (hi.orders x hx).rem⟩

theorem appendLimit_only {c : Cfg} {s : State} {o : Limit} (hcap : c.maxOpen ≤ 10000)
    (hsync : s.om = s.active) (hw : PosWF s.pos) (hsums : s.acct.debitSum = s.acct.creditSum)
    (hg : GoodOrders (s.active ++ [o])) (hrem : 0 < o.remaining)
    (hfresh : ∀ x ∈ s.active, x.id ≠ o.id)
    (hdb : c.env.debug = true → c.spec.initMarginReq ≤ c.scale) :
    Only [.walletNegative] (appendLimit c s o) := by
  have hchk : ∀ s' : State, s'.om = s'.active → s'.active ≠ [] → Only [.walletNegative] (appendChecks s') := by
    intro s' h1 h2
    unfold appendChecks
    exact .bind (.assert fun h => absurd h1 h) fun _ _ =>
      .bind (.assert fun h => absurd (fun e => absurd e h2) h) fun _ _ =>
      .bind (.assert fun _ => by simp) fun _ _ => .ok _
  unfold appendLimit
  by_cases hlen : s.active.length ≥ c.maxOpen
  · have : omUpdate c.maxOpen s.om o = .ok (.error .maxNumberOfActiveOrders) := by
      simp only [omUpdate, assertP, hsync, Book.insert, getById_none.2 hfresh, bind, Except.bind]
      rw [if_pos hrem, if_pos hlen]
    rw [this]; exact .ok _
  · have : omUpdate c.maxOpen s.om o = .ok (.ok (s.active ++ [o])) := by
      simp only [omUpdate, assertP, hsync, Book.insert, getById_none.2 hfresh, bind, Except.bind]
      rw [if_pos hrem, if_neg hlen]
    rw [this]
    have hins : Book.insert activeCap s.active o = .ok (s.active ++ [o], none) := by
      simp only [Book.insert, getById_none.2 hfresh]
      rw [if_neg (by simp only [activeCap]; omega)]
    simp only [bind, Except.bind, hins, orderMargin_total c hw hg hdb]
    split
    · exact .bind (transfer_only hsums (by simp) (by omega)) fun _ _ =>
        .bind (hchk _ rfl (by simp)) fun _ _ => .ok _
    · split
      · exact .bind (transfer_only hsums (by simp) (by omega)) fun _ _ =>
          .bind (hchk _ rfl (by simp)) fun _ _ => .ok _
      · exact .ok _

theorem submitLimit_only {c : Cfg} {s : State} {o : NewLimit} (hi : Inv c s) (hl : LInv c s.core)
    (hc : soundConfig c) (hp : 0 < o.price) (hq : 0 < o.qty) :
    Only [.walletNegative] (submitLimit c s o) := by
  obtain ⟨k1, k2, k3, k4, k5⟩ := hc
  have hw : PosWF s.pos := hl.wf
  have hsync := hi.sync k5
  have hg : GoodOrders (s.active ++ [o.intoPending s.nextId s.ms.ts]) := by
    intro x hx
    simp only [List.mem_append, List.mem_singleton] at hx
    rcases hx with hx | rfl
    · exact goodOrders hi x hx
    · exact ⟨hp, Int.le_of_lt hq⟩
  unfold submitLimit
  refine .bind (.of_ok (quantity_total k1)) fun r _ => ?_
  cases r with
  | error e => exact .ok _
  | ok _ =>
    refine .bind (.of_ok (price_total k2)) fun r _ => ?_
    cases r with
    | error e => exact .ok _
    | ok _ =>
      refine .bind (.of_ok (checkLimit_total hw (by rw [hsync]; exact hg) fun _ => k4)) fun r _ => ?_
      cases r with
      | error e => exact .ok _
      | ok _ =>
        simp only
        split
        · exact .ok _
        · refine .bind (appendLimit_only k5 hsync hw hl.sums hg hq (fun x hx => ?_) fun _ => k4) fun r _ => ?_
          · have := (hi.orders x hx).fresh
            simp only [NewLimit.intoPending]; omega
          · obtain ⟨s3, r⟩ := r
            cases r <;> exact .ok _

theorem marginReq_nil (c : Cfg) (q : Int) : marginReq c [] q = 0 := by
  simp [marginReq, sideValue, larger, share]

theorem cancelLimit_only {c : Cfg} {s : State} {b : CancelBy} (hi : Inv c s) (hl : LInv c s.core)
    (hc : soundConfig c) :
    Only [.cancelMarginMismatch, .cancelMarginIncrease] (cancelLimit c s b) := by
  obtain ⟨k1, k2, k3, k4, k5⟩ := hc
  have hw : PosWF s.pos := hl.wf
  have hsync := hi.sync k5
  have hg := goodOrders hi
  unfold cancelLimit
  rw [hsync]
  refine .bind (.of_ok ⟨_, orderMargin_total c hw hg fun _ => k4⟩) fun m _ =>
    .bind (.assert fun _ => by simp) fun _ _ => ?_
  cases hr : s.active.removeCancel b with
  | none => exact .ok _
  | some r =>
    obtain ⟨o, b'⟩ := r
    have hom : omRemove s.active b = .ok b' := by simp [omRemove, hr, expectSome, bind, Except.bind]
    have hg' : GoodOrders b' := by
      obtain ⟨xs, ys, e, hp⟩ := removeCancel_some hr
      intro x hx
      refine hg x ?_
      have := hp.mem_iff.1 hx
      rw [e]; simp only [List.mem_append, List.mem_cons] at this ⊢
      rcases this with h | h
      · exact .inl h
      · exact .inr (.inr h)
    have hm' := orderMargin_total c hw hg' fun _ => k4
    refine .bind (.of_ok ⟨_, hom⟩) fun om' h1 => ?_
    rw [hom] at h1; simp only [ok_inj] at h1; subst h1
    refine .bind (.of_ok ⟨_, hm'⟩) fun n hn => ?_
    rw [hm'] at hn; simp only [ok_inj] at hn; subst hn
    refine .bind (.assert fun _ => by simp) fun _ hle => ?_
    rw [assertP_ok] at hle
    refine .bind ?_ fun a ha => .bind (.assert fun h => absurd rfl h) fun _ _ =>
      .bind (.assert fun h => absurd ?_ h) fun _ _ => .ok _
    · unfold refund
      split
      · exact transfer_only hl.sums (by simp) (by omega)
      · exact .ok _
    · rintro rfl
      rw [marginReq_nil] at ha hle
      rcases refund_ok ha with ⟨h, ht⟩ | ⟨h, rfl⟩
      · rw [transfer_balance ht]; simp
      · omega

theorem amendLimit_only {c : Cfg} {s : State} {id : Nat} {o : NewLimit} (hi : Inv c s) (hl : LInv c s.core)
    (hc : soundConfig c) (hp : 0 < o.price) :
    Only [.cancelMarginMismatch, .cancelMarginIncrease, .walletNegative] (amendLimit c s id o) := by
  have hcan : Only [.cancelMarginMismatch, .cancelMarginIncrease, .walletNegative]
      (cancelLimit c s (.orderId id)) := (cancelLimit_only hi hl hc).mono (by simp)
  unfold amendLimit
  cases hg : s.active.getById id with
  | none => exact .ok _
  | some old =>
    obtain ⟨hmem, hid⟩ := getById_some hg
    have hwf := hi.orders old hmem
    have ht : ∃ t, old.totalQuantity = .ok t := by
      have hrem := hwf.rem
      have hcum := hwf.cum
      simp only [Limit.filledQuantity] at hcum
      simp only [Limit.totalQuantity, assertP, bind, Except.bind]
      cases hf : old.fq with
      | unfilled => simp only; rw [if_pos hrem]; exact ⟨_, rfl⟩
      | filled cum avg =>
        simp only [hf] at hcum ⊢
        rw [if_pos (by omega)]; exact ⟨_, rfl⟩
    have hfound : ∀ s' e, cancelLimit c s (.orderId id) ≠ .ok (s', .error e) := by
      intro s' e h
      obtain ⟨_, ⟨h1, _⟩ | ⟨_, _, _, _, _, _, _, _, _, _, _, h1⟩⟩ := cancelLimit_ok h
      · obtain ⟨x, b', hx⟩ := removeById_isSome ⟨old, hmem, hid⟩
        simp only [Book.removeCancel] at h1
        rw [h1] at hx; simp at hx
      · simp at h1
    refine .bind (.of_ok ht) fun total _ => ?_
    simp only
    split
    · refine .bind hcan fun r hr => ?_
      obtain ⟨s', r⟩ := r
      cases r with
      | error e => exact absurd hr (hfound _ _)
      | ok x => exact .ok _
    · next hle =>
      have hset : o.setRemaining (old.remaining + (o.totalQuantity - total)) =
          .ok { o with qty := old.remaining + (o.totalQuantity - total) } := by
        simp only [NewLimit.setRemaining, assertP, bind, Except.bind]; rw [if_pos (by omega)]
      refine .bind (.of_ok ⟨_, hset⟩) fun new' hn => .bind hcan fun r hr => ?_
      rw [hset] at hn; simp only [ok_inj] at hn; subst hn
      obtain ⟨s', r⟩ := r
      cases r with
      | error e => exact .ok _
      | ok x =>
        have hq : 0 < old.remaining + (o.totalQuantity - total) := by omega
        exact Only.mono (P := [.walletNegative]) (submitLimit_only (cancelLimit_inv hi hr)
          ((cancelLimit_core (st := false) hr).inv (fun _ _ => LInv.step) hl) hc hp hq) (by simp)

/-! ### Building and matching market updates -/

theorem bba_only {P : List Panic} {f : PriceFilter} {b : Bba} (h : f.tickSize = 0 → .divByZero ∈ P) :
    Only P (b.validate f) := by
  by_cases ht : f.tickSize = 0
  · have hstep : ∀ x, Only P (enforceStepSize f.tickSize x) := by
      intro x; unfold enforceStepSize drem; rw [if_pos ht]; exact .err (h ht)
    have hcons : ∀ x xs, Only P x → Only P (checks xs) → Only P (checks (x :: xs)) := by
      intro x xs h1 h2
      unfold checks
      refine .bind h1 fun r _ => ?_
      cases r with
      | error e => exact .ok _
      | ok _ => exact h2
    have hmin := fun x => Only.of_ok (P := P) (enforceMin_total f.minPrice x)
    have hmax := fun x => Only.of_ok (P := P) (enforceMax_total f.maxPrice x)
    unfold Bba.validate
    exact hcons _ _ (hmin _) <| hcons _ _ (hmin _) <| hcons _ _ (hmax _) <| hcons _ _ (hmax _) <|
      hcons _ _ (hstep _) <| hcons _ _ (hstep _) <| hcons _ _ (.of_ok (spread_total _ _)) (.ok _)
  · exact .of_ok (bba_total ht)

theorem trade_only {P : List Panic} {f : PriceFilter} {b : Trade} (h : f.tickSize = 0 → .divByZero ∈ P) :
    Only P (b.validate f) := by
  by_cases ht : f.tickSize = 0
  · have hstep : ∀ x, Only P (enforceStepSize f.tickSize x) := by
      intro x; unfold enforceStepSize drem; rw [if_pos ht]; exact .err (h ht)
    have hcons : ∀ x xs, Only P x → Only P (checks xs) → Only P (checks (x :: xs)) := by
      intro x xs h1 h2
      unfold checks
      refine .bind h1 fun r _ => ?_
      cases r with
      | error e => exact .ok _
      | ok _ => exact h2
    unfold Trade.validate
    exact hcons _ _ (.of_ok (enforceMin_total _ _)) <| hcons _ _ (.of_ok (enforceMax_total _ _)) <|
      hcons _ _ (hstep _) (.ok _)
  · exact .of_ok (trade_total ht)

theorem anyTradeValid_only {P : List Panic} {f : PriceFilter} {ts : List Trade}
    (h : f.tickSize = 0 → .divByZero ∈ P) : Only P (anyTradeValid f ts) := by
  induction ts with
  | nil => exact .ok _
  | cons t ts ih =>
    unfold anyTradeValid
    refine .bind (trade_only h) fun r _ => ?_
    cases r with
    | error e => exact ih
    | ok _ => exact .ok _

theorem build_only (d : Bool) (a : UpdateArg) : Only (buildPanics d a) (a.build d) := by
  cases a with
  | smart ts b f =>
    unfold UpdateArg.build
    refine .bind ?_ fun _ _ => .ok _
    unfold SmartCandle.new
    cases ts with
    | nil => exact .err (by simp [buildPanics])
    | cons t ts =>
      have hz : f.tickSize = 0 → .divByZero ∈ buildPanics d (.smart (t :: ts) b f) := by
        intro h; simp [buildPanics, h]
      refine .bind ?_ fun x hx => .bind (.assert fun h => ?_) fun _ _ => .bind (bba_only hz) fun r _ => ?_
      · unfold debugAnyValid
        split
        · exact anyTradeValid_only hz
        · exact .ok _
      · cases d with
        | true => simp [buildPanics]
        | false => simp only [debugAnyValid, Bool.false_eq_true, if_false, ok_inj] at hx; exact absurd hx.symm h
      · cases r with
        | error e => exact .err (by simp [buildPanics])
        | ok _ =>
          exact .bind (.debug fun hd _ => by subst hd; simp [buildPanics]) fun _ _ => .ok _
  | _ => exact .ok _

/-- What an update fills is positive if its trades are, and at most what remains. -/
theorem fillRule_bounds {a : UpdateArg} {o : Limit} {q : Int} (hc : isCustom a = false)
    (hr : 0 < o.remaining)
    (h : fillRule a o = some q) : q ≤ o.remaining ∧ (badQuantity a = false → 0 < q) := by
  cases a with
  | custom k => simp [isCustom] at hc
  | bba b => simp [fillRule] at h
  | trade t =>
    simp only [fillRule] at h
    split at h <;> simp only [Option.some.injEq, reduceCtorEq] at h
    subst h
    simp only [badQuantity, decide_eq_false_iff_not, smaller]
    split <;> omega
  | candle k =>
    simp only [fillRule] at h
    split at h <;> split at h <;> simp only [Option.some.injEq, reduceCtorEq] at h <;> subst h <;>
      exact ⟨Int.le_refl _, fun _ => hr⟩
  | smart ts b f =>
    simp only [fillRule] at h
    split at h <;> simp only [Option.some.injEq, reduceCtorEq] at h
    next hne =>
    subst h
    refine ⟨by unfold smaller; split <;> omega, fun hb => ?_⟩
    have hpos : ∀ t ∈ ts, 0 < t.qty := by
      intro t ht
      simp only [badQuantity, List.any_eq_false, decide_eq_true_eq] at hb
      have := hb t ht; omega
    have hsum : ∀ l : List Trade, l ≠ [] → (∀ t ∈ l, 0 < t.qty) → 0 < tradeSum l := by
      intro l
      induction l with
      | nil => intro h; exact absurd rfl h
      | cons t l ih =>
        intro _ hl
        have h1 := hl t (by simp)
        by_cases he : l = []
        · subst he; simpa [tradeSum] using h1
        · have h2 := ih he (fun x hx => hl x (by simp [hx]))
          simp only [tradeSum] at h2 ⊢; omega
    have := hsum _ hne (fun t ht => hpos t (List.mem_filter.1 ht).1)
    unfold smaller; split <;> omega

/-- In debug builds a smart candle has only positive quantities. -/
theorem build_quantity {a : UpdateArg} {u : Update} (hb : a.build true = .ok u)
    (h : badQuantity a = true) : ∃ t, a = .trade t ∧ u = .trade t ∧ t.qty ≤ 0 := by
  cases a with
  | trade t =>
    simp only [UpdateArg.build, ok_inj] at hb
    exact ⟨t, rfl, hb.symm, by simpa [badQuantity] using h⟩
  | smart ts b f =>
    simp only [UpdateArg.build, bind_ok, ok_inj] at hb
    obtain ⟨sc, hs, _⟩ := hb
    simp only [badQuantity, List.any_eq_true, decide_eq_true_eq] at h
    obtain ⟨t, ht, hq⟩ := h
    cases ts with
    | nil => simp at ht
    | cons t0 ts =>
      simp only [SmartCandle.new, bind_ok, assertP_ok] at hs
      obtain ⟨_, _, _, _, r, _, hs⟩ := hs
      cases r with
      | error e => simp at hs
      | ok _ =>
        simp only [bind_ok, debugP_ok, forall_const] at hs
        obtain ⟨_, hs, _⟩ := hs
        have := hs t ht; omega
  | _ => simp [badQuantity] at h

theorem matchPanics_mem {d : Bool} {a : UpdateArg} (h : mayFill a = true) :
    (∀ p ∈ fillPanics d, p ∈ matchPanics d a) ∧ .walletNegative ∈ matchPanics d a ∧
    (d = true → .matchMarginMismatch ∈ matchPanics d a ∧ .matchMarginIncrease ∈ matchPanics d a ∧
      .finalMarginMismatch ∈ matchPanics d a) ∧
    (d = true → badQuantity a = true → .tradeQty ∈ matchPanics d a) ∧
    (d = false → badQuantity a = true → .fillNotPositive ∈ matchPanics d a) ∧
    (isCustom a = true → .fillTooLarge ∈ matchPanics d a ∧
      (d = true → .matchQty ∈ matchPanics d a) ∧
      (d = false → .fillNotPositive ∈ matchPanics d a)) := by
  unfold matchPanics
  rw [if_neg (by rw [h]; simp)]
  cases d <;> simp +contextual

theorem filled_only {c : Cfg} {a : UpdateArg} {u : Update} {o : Limit} (hb : a.build c.env.debug = .ok u)
    (hf : u.canFill = true) (ho : 0 < o.remaining) :
    Only (matchPanics c.env.debug a) (u.filled c.env.debug o) := by
  have hmem := (matchPanics_mem (d := c.env.debug) ((build_mayFill hb).trans hf)).2.2.2.1
  cases hd : c.env.debug with
  | false =>
    refine .of_ok ?_
    cases u with
    | bba b => simp [Update.canFill] at hf
    | trade t =>
      simp only [Update.filled, Trade.filled, debugP, Bool.false_eq_true, if_false, bind, Except.bind]
      cases o.side <;> simp only <;> split <;> exact ⟨_, rfl⟩
    | candle t =>
      simp only [Update.filled, Candle.filled, debugP, Bool.false_eq_true, if_false, bind, Except.bind]
      cases o.side <;> simp only <;> split <;> exact ⟨_, rfl⟩
    | smart t => exact ⟨_, rfl⟩
    | custom k => exact ⟨_, rfl⟩
  | true =>
    rw [hd] at hb hmem
    cases u with
    | bba b => simp [Update.canFill] at hf
    | trade t =>
      simp only [Update.filled, Trade.filled]
      refine .bind (.debug fun _ hq => hmem rfl ?_) fun _ _ => .bind (.debug fun _ h => absurd ho h) fun _ _ => ?_
      · cases a with
        | trade t' =>
          simp only [UpdateArg.build, ok_inj, Update.trade.injEq] at hb; subst hb
          simp only [badQuantity, decide_eq_true_eq]; omega
        | smart ts b f =>
          simp only [UpdateArg.build, bind_ok, ok_inj] at hb
          obtain ⟨_, _, hb⟩ := hb
          simp at hb
        | _ => simp [UpdateArg.build] at hb
      · cases o.side <;> simp only <;> split <;> exact .ok _
    | candle t =>
      simp only [Update.filled, Candle.filled]
      refine .bind (.debug fun _ h => absurd ho h) fun _ _ => ?_
      cases o.side <;> simp only <;> split <;> exact .ok _
    | smart t => exact .ok _
    | custom k => exact .ok _

/-- What holds in the matching loop, with the orders still to be visited. -/
structure Going (c : Cfg) (n : Nat) (l : Loop) (os : List Limit) : Prop where
  nodup : IdsNodup l.om
  good : GoodOrders l.om
  mem : ∀ o ∈ os, o ∈ l.om
  ids : IdsNodup os
  orders : ∀ o ∈ os, OrderWF n o
  pos : PosWF l.pos
  sums : l.acct.debitSum = l.acct.creditSum
  flat : c.env.debug = true → l.pos = .neutral → l.acct.balance .positionMargin = 0

theorem applyFill_book {c : Cfg} {ts : Int} {l l' : Loop} {o o' : Limit} {q : Int}
    (hn : IdsNodup l.om) (ho : o ∈ l.om) (h : applyFill c ts l o q = .ok (l', o')) :
    BookFill l.om l'.om o q := by
  obtain ⟨r, hf, ha, hpo, _, hm⟩ := applyFill_ok h
  obtain ⟨f1, f2, f3, _, _, f6, f7, f8⟩ := fill_fixed hf
  obtain ⟨xs, ys, hxy⟩ := List.append_of_mem ho
  have hnd : IdsNodup (xs ++ o :: ys) := hxy ▸ hn
  have hsplit := hnd.split.1
  refine ⟨xs, ys, hxy, ?_⟩
  cases r with
  | some f =>
    left
    refine ⟨?_, ?_⟩
    · have : o'.remaining = 0 := by
        simp only [Limit.fill, bind_ok, assertP_ok] at hf
        obtain ⟨_, _, _, _, hf⟩ := hf
        split at hf
        · split at hf <;> simp at hf
          obtain ⟨rfl, _⟩ := hf; simp_all
        · simp only [bind_ok] at hf
          obtain ⟨_, _, hf⟩ := hf
          split at hf <;> simp at hf
          obtain ⟨rfl, _⟩ := hf; assumption
      omega
    · obtain ⟨y, hy⟩ := omRemove_ok hm.1
      simp only [Book.removeCancel, f1] at hy
      have hp := (removeById_some hn hy).2.2.1
      refine hp.trans (List.Perm.of_eq ?_)
      rw [hxy]
      simp only [List.filter_append, List.filter_cons, ne_eq, not_true_eq_false, decide_false,
        Bool.false_eq_true, if_false]
      congr 1 <;> rw [List.filter_eq_self] <;> intro x hx <;>
        simp [hsplit x (by simp [hx])]
  | none =>
    right
    obtain ⟨hpos, h5⟩ := omUpdate_ok hm.1
    refine ⟨by omega, o', ?_, f1, f2, f3, f6⟩
    rcases h5 with ⟨h5, _⟩ | ⟨old, h5, _, h6⟩
    · exact absurd f1.symm (getById_none.1 h5 o ho)
    · rw [h6, replaceFirst_eq_map hn, hxy]
      exact put_mid hnd f1

theorem applyFill_only {P : List Panic} {c : Cfg} {n : Nat} {ts : Int} {l : Loop} {o : Limit} {q : Int}
    (hn : IdsNodup l.om) (ho : o ∈ l.om) (hw : OrderWF n o)
    (hle : ¬ q ≤ o.remaining → .fillTooLarge ∈ P) (hq : ¬ 0 < q → .fillNotPositive ∈ P) : Only P (applyFill c ts l o q) := by
  unfold applyFill
  refine .bind ?_ fun r hr => ?_
  · unfold Limit.fill
    refine .bind (.assert fun h => hle h) fun _ _ => .bind (.assert fun h => hq h) fun _ h2 => ?_
    rw [assertP_ok] at h2
    cases hf : o.fq with
    | unfilled => simp only; split <;> exact .ok _
    | filled cum avg =>
      have := hw.fq cum avg hf
      refine .bind ?_ fun _ _ => by simp only; split <;> exact .ok _
      unfold newWeightedPrice ddiv
      rw [if_neg (by omega)]; exact .ok _
  · obtain ⟨o', r⟩ := r
    obtain ⟨f1, f2, f3, _, _, f6, f7, f8⟩ := fill_fixed hr
    have hfw := (fill_wf hw hr).2.1
    cases r with
    | some f =>
      refine .bind ?_ fun _ _ => .ok _
      obtain ⟨y, b', hy⟩ := removeById_isSome (b := l.om) ⟨o, ho, f1.symm⟩
      refine .of_ok ⟨b', ?_⟩
      simp [omRemove, Book.removeCancel, hy, expectSome, bind, Except.bind]
    | none =>
      have hrem : 0 < o'.remaining := ((fill_wf hw hr).1 rfl).rem
      refine .bind (.debug fun _ h => absurd hrem h) fun _ _ => ?_
      have hom : omUpdate c.maxOpen l.om o' = .ok (.ok (replaceFirst (fun x => x.id == o'.id) o' l.om)) := by
        simp only [omUpdate, assertP, Book.insert, f1, getById_of_mem hn ho, bind, Except.bind]
        rw [if_pos hrem, if_pos (by intro e; rw [← e] at f6; omega)]
        simp only
        rw [if_pos (by omega)]
      rw [hom]
      exact .ok _

theorem matchOrder_only {c : Cfg} {n : Nat} {a : UpdateArg} {u : Update} {l : Loop} {o : Limit} {os : List Limit}
    (hdb : c.env.debug = true → c.spec.initMarginReq ≤ c.scale)
    (hb : a.build c.env.debug = .ok u) (hf : u.canFill = true) (hg : Going c n l (o :: os)) :
    Only (matchPanics c.env.debug a) (matchOrder c u l o) := by
  have hwf := hg.orders o (by simp)
  have hmem := hg.mem o (by simp)
  obtain ⟨m1, m2, m3, m4, m5, m6⟩ := matchPanics_mem (d := c.env.debug) ((build_mayFill hb).trans hf)
  obtain ⟨h1, h2, h3, h4, h5⟩ := fillPanics_mem c.env.debug
  unfold matchOrder
  refine .bind (filled_only hb hf hwf.rem) fun r hr => ?_
  cases r with
  | none => exact .ok _
  | some q =>
    have hbd := fun hc => fillRule_bounds (a := a) hc hwf.rem (filled_eq hb hr).symm
    have hle : ¬ q ≤ o.remaining → .fillTooLarge ∈ matchPanics c.env.debug a := by
      intro h
      cases hc : isCustom a with
      | true => exact (m6 hc).1
      | false => exact absurd (hbd hc).1 h
    have hq' : c.env.debug = true → ¬ 0 < q → .matchQty ∈ matchPanics c.env.debug a := by
      intro hd h0
      cases hc : isCustom a with
      | true => exact (m6 hc).2.1 hd
      | false =>
      refine absurd ((hbd hc).2 ?_) h0
      cases hbad : badQuantity a with
      | false => rfl
      | true =>
        rw [hd] at hb
        obtain ⟨t, rfl, rfl, ht⟩ := build_quantity hb hbad
        simp only [Update.filled, Trade.filled, hd, bind_ok, debugP_ok, forall_const] at hr
        obtain ⟨_, hr, _⟩ := hr
        omega
    refine .bind (.debug fun hd h => hq' hd h) fun _ hqd => .bind ?_ fun _ _ =>
      .bind (applyFill_only hg.nodup hmem hwf hle fun h => ?_) fun r1 hr1 => .bind ?_ fun l2 hl2 =>
      .bind ?_ fun l3 hl3 => .ok _
    · unfold debugMarginEq
      split
      · next hd =>
        exact .bind (.of_ok ⟨_, orderMargin_total c hg.pos hg.good hdb⟩) fun _ _ =>
          .assert fun _ => (m3 hd).1
      · exact .ok _
    · cases hd : c.env.debug with
      | true => exact absurd (debugP_ok.1 hqd hd) h
      | false =>
        rw [hd] at m5 m6
        cases hc : isCustom a with
        | true => exact (m6 hc).2.2 rfl
        | false =>
        refine m5 rfl ?_
        cases hbad : badQuantity a with
        | false => exact absurd ((hbd hc).2 hbad) h
        | true => rfl
    · obtain ⟨l1, o1⟩ := r1
      obtain ⟨r, hfl, ha, hpo, _, _⟩ := applyFill_ok hr1
      obtain ⟨f1, f2, f3, _, _, f6, f7, f8⟩ := fill_fixed hfl
      unfold settleLimit
      have hp : 0 < o1.price := by rw [f3]; exact hwf.price
      refine .bind (convert_only (by simp only; omega)) fun _ _ => .bind ?_ fun _ _ => .ok _
      simp only [ha, hpo]
      exact (changePosition_only hg.sums hg.pos f7 hp hg.flat h1 h2 h3 h4 h5).mono m1
    · obtain ⟨l1, o1⟩ := r1
      obtain ⟨r, hfl, ha, hpo, _, _⟩ := applyFill_ok hr1
      obtain ⟨hcp, ho2, _⟩ := settleLimit_ok hl2
      obtain ⟨_, hw, _, hbal, hsm, _⟩ := changePosition_ledger (f := ⟨true, o1.side, o1.price, q⟩) (k := 0)
        (hpo ▸ hg.pos) hcp
      have hbook := applyFill_book hg.nodup hmem hr1
      have hgood : GoodOrders l2.om := by rw [ho2]; exact hbook.good hg.good
      unfold releaseMargin
      refine .bind (.of_ok ⟨_, orderMargin_total c hw hgood hdb⟩) fun m _ =>
        .bind (.debug fun hd _ => (m3 hd).2.1) fun _ _ => .bind ?_ fun _ _ => .ok _
      unfold refund
      split
      · refine transfer_only ?_ (by simp) (by omega)
        have := hg.sums
        rw [ha] at hsm
        omega
      · exact .ok _

theorem matchOrder_going {c : Cfg} {n : Nat} {u : Update} {l l' : Loop} {o o' : Limit} {os : List Limit}
    (hg : Going c n l (o :: os)) (h : matchOrder c u l o = .ok (l', o')) :
    Going c n l' os ∧ ((l'.acct = l.acct ∧ l'.om = l.om ∧ l'.pos = l.pos) ∨
      (c.env.debug = true → l'.acct.balance .orderMargin = marginReq c l'.om l'.pos.quantity)) := by
  have hno := (IdsNodup.split (xs := []) hg.ids).1
  have hn' := (IdsNodup.split (xs := []) hg.ids).2
  simp only [List.nil_append] at hno hn'
  have hmem := hg.mem o (by simp)
  simp only [matchOrder, bind_ok] at h
  obtain ⟨r, hr, h⟩ := h
  cases r with
  | none =>
    simp only [ok_inj, Prod.mk.injEq] at h; obtain ⟨rfl, rfl⟩ := h
    exact ⟨⟨hg.nodup, hg.good, fun x hx => hg.mem x (by simp [hx]), hn',
      fun x hx => hg.orders x (by simp [hx]), hg.pos, hg.sums, hg.flat⟩, .inl ⟨rfl, rfl, rfl⟩⟩
  | some q =>
    simp only [bind_ok, debugP_ok, ok_inj, Prod.mk.injEq] at h
    obtain ⟨_, _, _, _, ⟨l1, o1⟩, h1, l2, h2, l3, h3, rfl, rfl⟩ := h
    obtain ⟨r, hf, ha, hpo, _, _⟩ := applyFill_ok h1
    obtain ⟨hcp, ho2, _⟩ := settleLimit_ok h2
    obtain ⟨m, hm, hp3, ho3, _, _, _, hmd, h4⟩ := releaseMargin_ok h3
    obtain ⟨_, hw, _, hbal, hsm, _⟩ := changePosition_ledger (f := ⟨true, o1.side, o1.price, q⟩) (k := 0)
      (hpo ▸ hg.pos) hcp
    have hBF := applyFill_book hg.nodup hmem h1
    have hgood : GoodOrders l2.om := by rw [ho2]; exact hBF.good hg.good
    have hsums2 : l2.acct.debitSum = l2.acct.creditSum := by
      have := hg.sums; rw [ha] at hsm; omega
    refine ⟨⟨?_, ?_, ?_, hn', fun x hx => hg.orders x (by simp [hx]), hp3 ▸ hw, ?_, ?_⟩, .inr ?_⟩
    · rw [ho3, ho2]
      obtain ⟨xs, ys, e1, ⟨_, e2⟩ | ⟨_, o2, e2, e3, _⟩⟩ := hBF
      · exact (IdsNodup.split (e1 ▸ hg.nodup)).2.perm e2.symm
      · have := hg.nodup; rw [e1] at this
        rw [e2, ← put_mid this e3]; exact this.map_put _
    · rw [ho3]; exact hgood
    · intro x hx
      have hx1 := hg.mem x (by simp [hx])
      have hx2 : x ≠ o := fun e => hno x hx (by rw [e])
      rw [ho3, ho2]
      obtain ⟨xs, ys, e1, ⟨_, e2⟩ | ⟨_, o2, e2, _⟩⟩ := hBF
      · rw [e1] at hx1
        simp only [List.mem_append, List.mem_cons, hx2, false_or] at hx1
        exact e2.mem_iff.2 (by simpa using hx1)
      · rw [e1] at hx1
        simp only [List.mem_append, List.mem_cons, hx2, false_or] at hx1
        rw [e2]; simp only [List.mem_append, List.mem_cons]
        rcases hx1 with h | h
        · exact .inl h
        · exact .inr (.inr h)
    · rcases h4 with ⟨_, h4⟩ | ⟨_, h5⟩
      · have := transfer_sums h4; omega
      · rw [h5]; exact hsums2
    · intro hd hne
      rw [hp3] at hne
      have h0 : l2.acct.balance .positionMargin = 0 := by
        rw [hne] at hcp; exact changePosition_flat hd hcp
      rcases h4 with ⟨_, h4⟩ | ⟨_, h5⟩
      · rw [transfer_balance h4]; simp; exact h0
      · rw [h5]; exact h0
    · intro hd
      have hreq := orderMargin_ok hw (fun x hx => (hgood x hx).2) hm
      have := hmd hd
      rw [ho3, hp3, ← hreq]
      rw [ha] at hbal
      rcases h4 with ⟨_, h4⟩ | ⟨_, h5⟩
      · rw [transfer_balance h4]; simp; omega
      · rw [h5]; omega

theorem matchLoop_going {c : Cfg} {n : Nat} {u : Update} {os : List Limit} :
    ∀ {l l' : Loop} {os'}, Going c n l os → matchLoop c u l os = .ok (l', os') →
    Going c n l' [] ∧ ((l'.acct = l.acct ∧ l'.om = l.om ∧ l'.pos = l.pos) ∨
      (c.env.debug = true → l'.acct.balance .orderMargin = marginReq c l'.om l'.pos.quantity)) := by
  induction os with
  | nil =>
    intro l l' os' hg h
    simp only [matchLoop, ok_inj, Prod.mk.injEq] at h; obtain ⟨rfl, rfl⟩ := h
    exact ⟨hg, .inl ⟨rfl, rfl, rfl⟩⟩
  | cons o os ih =>
    intro l l' os' hg h
    simp only [matchLoop, bind_ok, ok_inj, Prod.mk.injEq] at h
    obtain ⟨⟨l1, o1⟩, h1, ⟨l2, os2⟩, h2, rfl, rfl⟩ := h
    obtain ⟨hg1, hc1⟩ := matchOrder_going hg h1
    obtain ⟨hg2, hc2⟩ := ih hg1 h2
    refine ⟨hg2, ?_⟩
    rcases hc2 with ⟨e1, e2, e3⟩ | hc2
    · rcases hc1 with ⟨f1, f2, f3⟩ | hc1
      · exact .inl ⟨e1.trans f1, e2.trans f2, e3.trans f3⟩
      · exact .inr fun hd => by rw [e1, e2, e3]; exact hc1 hd
    · exact .inr hc2

theorem matchLoop_only {c : Cfg} {n : Nat} {a : UpdateArg} {u : Update}
    (hdb : c.env.debug = true → c.spec.initMarginReq ≤ c.scale)
    (hb : a.build c.env.debug = .ok u) (hf : u.canFill = true) {os : List Limit} :
    ∀ {l : Loop}, Going c n l os → Only (matchPanics c.env.debug a) (matchLoop c u l os) := by
  induction os with
  | nil => intro l _; exact .ok _
  | cons o os ih =>
    intro l hg
    unfold matchLoop
    refine .bind (matchOrder_only hdb hb hf hg) fun r hr => ?_
    obtain ⟨l1, o1⟩ := r
    exact .bind (ih (matchOrder_going hg hr).1) fun _ _ => .ok _

theorem checkActive_only {c : Cfg} {s : State} {a : UpdateArg} {u : Update} (hc : soundConfig c)
    (hi : Inv c s) (hl : LInv c s.core)
    (hflat : c.env.debug = true → s.pos = .neutral → s.acct.balance .positionMargin = 0)
    (hempty : c.env.debug = true → s.active = [] → s.acct.balance .orderMargin = 0)
    (hb : a.build c.env.debug = .ok u) : Only (matchPanics c.env.debug a) (checkActive c s u) := by
  obtain ⟨k1, k2, k3, k4, k5⟩ := hc
  unfold checkActive
  cases hf : u.canFill with
  | false => exact .ok _
  | true =>
    simp only [Bool.true_eq_false, if_false]
    obtain ⟨m1, m2, m3, m4, m5, m6⟩ := matchPanics_mem (d := c.env.debug) ((build_mayFill hb).trans hf)
    have hsync := hi.sync k5
    have hg : Going c s.nextId { acct := s.acct, pos := s.pos, om := s.om, log := s.log, updates := [], ids := [] }
        s.active := ⟨by rw [hsync]; exact hi.nodup, by rw [hsync]; exact goodOrders hi,
      by simp [hsync], hi.nodup, hi.orders, hl.wf, hl.sums, hflat⟩
    refine .bind (.debug fun _ h => absurd hsync h) fun _ _ =>
      .bind (matchLoop_only (fun _ => k4) hb hf hg) fun r hr => ?_
    obtain ⟨l, orders⟩ := r
    obtain ⟨hg', hcase⟩ := matchLoop_going hg hr
    obtain ⟨xs, hx1, hx2, _, _, hx5⟩ := matchLoop_out hr
    have hrem := matchLoop_om (done := []) (by simpa using hi.nodup)
      (by simp [removeExecuted, hsync]) (by simp) hr
    simp only [List.nil_append] at hrem hx5
    simp only
    refine .bind (.of_ok ⟨_, hrem⟩) fun act hact => ?_
    rw [hrem] at hact; simp only [ok_inj] at hact; subst hact
    refine .bind (.debug fun _ h => absurd ?_ h) fun _ _ => .bind (.debug fun _ h => absurd rfl h) fun _ _ =>
      .bind (.debug fun hd h => absurd ?_ h) fun _ _ => .bind ?_ fun _ _ => .bind (.assert fun _ => m2) fun _ _ => .ok _
    · rw [hx5, List.length_map]
      have h1 := List.length_filter_le Out.full xs
      have h2 := hx1.length
      have h3 := hi.len
      omega
    · intro he
      rcases hcase with ⟨e1, e2, _⟩ | hcase
      · simp only at e1 e2
        rw [e1]; refine hempty hd ?_
        rw [← hsync, ← e2]; exact he
      · rw [hcase hd, he, marginReq_nil]
    · unfold debugMarginEq
      split
      · next hd =>
        exact .bind (.of_ok ⟨_, orderMargin_total c hg'.pos hg'.good fun _ => k4⟩) fun _ _ =>
          .assert fun _ => (m3 hd).2.2
      · exact .ok _

/-- Debug builds: no order margin without orders. -/
theorem step_empty {c : Cfg} {s s' : State} {op : Op} {r} (hd : c.env.debug = true)
    (he : s.active = [] → s.acct.balance .orderMargin = 0)
    (hi : Inv c s) (hl : LInv c s.core)
    (hst : step c s op = .ok (s', r)) : s'.active = [] → s'.acct.balance .orderMargin = 0 := by
  have hcan : ∀ {s s' : State} {b r}, (s.active = [] → s.acct.balance .orderMargin = 0) →
      cancelLimit c s b = .ok (s', r) → s'.active = [] → s'.acct.balance .orderMargin = 0 := by
    intro s s' b r he h
    obtain ⟨_, ⟨_, rfl, _⟩ | ⟨_, _, _, _, _, _, _, _, _, hz, rfl, _⟩⟩ := cancelLimit_ok h
    · exact he
    · exact hz
  have hsub : ∀ {s s' : State} {o r}, Inv c s → (s.active = [] → s.acct.balance .orderMargin = 0) →
      submitLimit c s o = .ok (s', r) → s'.active = [] → s'.acct.balance .orderMargin = 0 := by
    intro s s' o r hi he h
    obtain ⟨_, _, _, _, _, _, ⟨_, _, e1, e2, _⟩ | ⟨_, _, _, e1, _⟩⟩ :=
      submitLimit_arenas (fun x hx => (hi.orders x hx).fresh) h
    · rw [e1, e2]; exact he
    · rw [e1]; simp
  have hmk : ∀ {s s' : State} {o r}, LInv c s.core → (s.active = [] → s.acct.balance .orderMargin = 0) →
      submitMarket c s o = .ok (s', r) → s'.active = [] → s'.acct.balance .orderMargin = 0 := by
    intro s s' o r hl he h
    obtain ⟨_, _, e1, _⟩ := submitMarket_fields h
    have hb : s'.acct.balance .orderMargin = s.acct.balance .orderMargin := by
      rcases submitMarket_cases h with ⟨err, _, rfl, rfl⟩ | ⟨_, ⟨err, _, rfl, rfl⟩ |
        ⟨_, _, _, pos', a', hcp, rfl, rfl⟩⟩
      · rfl
      · rfl
      · exact (changePosition_qty hl.wf hcp).2.2.2
    rw [e1, hb]; exact he
  have hca : ∀ {s s' : State} {u}, (s.active = [] → s.acct.balance .orderMargin = 0) →
      checkActive c s u = .ok s' → s'.active = [] → s'.acct.balance .orderMargin = 0 := by
    intro s s' u he h
    unfold checkActive at h
    split at h
    · simp only [ok_inj] at h; subst h; exact he
    · simp only [bind_ok, debugP_ok, hd, forall_const, ok_inj] at h
      obtain ⟨_, _, r, _, act, _, _, _, _, _, _, hz, _, _, _, _, rfl⟩ := h
      exact hz
  rcases step_cases hst with ⟨a, u, x, rfl, hb, h, rfl⟩ | ⟨a, u, rfl, hb, h, rfl⟩ | ⟨err, rfl, rfl⟩ |
    ⟨_, _, _, x, rfl, _, h, rfl⟩ | ⟨_, _, _, _, x, rfl, hp, hq, h, rfl⟩ |
    ⟨_, _, _, _, _, x, rfl, _, _, h, rfl⟩ | ⟨_, x, rfl, h, rfl⟩
  · simp only [updateState, bind_ok] at h
    obtain ⟨s1, h1, h⟩ := h
    obtain ⟨e1, e2, e3, e4, _⟩ := observe_fields h1
    have he1 : s1.active = [] → s1.acct.balance .orderMargin = 0 := by rw [e1, e3]; exact he
    split at h
    · simp only [bind_ok, ok_inj, Prod.mk.injEq] at h
      obtain ⟨s2, h2, rfl, _⟩ := h
      simp only [liquidate, bind_ok] at h2
      obtain ⟨o, _, ⟨s3, r3⟩, h3, h4⟩ := h2
      have hl1 : LInv c s1.core := (observe_core (st := false) h1).inv (fun _ _ => LInv.step) hl
      cases r3 with
      | error e => simp at h4
      | ok _ => simp only [ok_inj] at h4; subst h4; exact hmk hl1 he1 h3
    · simp only [bind_ok, ok_inj, Prod.mk.injEq] at h
      obtain ⟨s2, h2, rfl, _⟩ := h
      exact hca he1 h2
  · exact hca he h
  · exact he
  · exact hmk hl he h
  · exact hsub hi he h
  · rcases amendLimit_cases h with ⟨_, rfl, _⟩ | ⟨old, total, _, _, ⟨_, _, y, h1⟩ | ⟨_, ⟨e, h1, _⟩ | ⟨s1, y, h1, h2⟩⟩⟩
    · exact he
    · exact hcan he h1
    · exact hcan he h1
    · exact hsub (cancelLimit_inv hi h1) (hcan he h1) h2
  · exact hcan he h

theorem Spec.Reachable.empty {c : Cfg} {s : State} (hd : c.env.debug = true) (h : Reachable c s) :
    s.active = [] → s.acct.balance .orderMargin = 0 := by
  obtain ⟨ops, h⟩ := h
  have := run_induct (c := c) (P := fun s => Reachable c s ∧ (s.active = [] → s.acct.balance .orderMargin = 0))
    (fun s s' op r hp hst => ⟨hp.1.step hst, step_empty hd hp.2 hp.1.inv hp.1.linv hst⟩) ops _ _
    ⟨⟨[], rfl⟩, by simp [State.init, Accounts.new, Accounts.balance, Accounts.get, TAccount.net]⟩ h
  exact this.2

theorem step_only {c : Cfg} {s : State} {op : Op} (hc : soundConfig c) (hr : Reachable c s) :
    Only (possiblePanics c.env.debug op) (step c s op) := by
  have hi := hr.inv
  have hl := hr.linv
  have hflat : c.env.debug = true → s.pos = .neutral → s.acct.balance .positionMargin = 0 :=
    fun hd => hr.flat hd
  have hempty : c.env.debug = true → s.active = [] → s.acct.balance .orderMargin = 0 :=
    fun hd => hr.empty hd
  cases op with
  | update a =>
    unfold step
    refine .bind ((build_only _ a).mono fun p hp => by simp [possiblePanics, hp]) fun u hb => .bind ?_ fun _ _ => .ok _
    unfold updateState
    refine .bind ?_ fun s1 h1 => ?_
    · unfold observe MarketState.update debugValidate
      refine .bind (.bind ?_ fun r hr => ?_) fun _ _ => .ok _
      · split
        · refine .of_ok ?_
          cases u with
          | bba b => exact bba_total hc.2.1
          | trade b => exact trade_total hc.2.1
          | candle b => exact candle_total hc.2.1
          | smart b => exact ⟨_, rfl⟩
          | custom b => exact ⟨_, rfl⟩
        · exact .ok _
      · cases hd : c.env.debug with
        | false =>
          simp only [hd, Bool.false_eq_true, if_false, ok_inj] at hr; subst hr; exact .ok _
        | true =>
          cases r with
          | error e => exact .err (by simp [possiblePanics])
          | ok _ => exact .ok _
    · obtain ⟨e1, e2, e3, e4, e5, _⟩ := observe_fields h1
      have hl1 : LInv c s1.core := (observe_core (st := false) h1).inv (fun _ _ => LInv.step) hl
      have hi1 : Inv c s1 := hi.congr e3 e4 (by omega)
      split
      · next err herr =>
        refine .bind ((liquidate_only hl1 hc.1 ?_).mono fun p hp => ?_) fun _ _ => .ok _
        · intro hn; simp [checkMaintenanceMargin, hn] at herr
        · simp only [possiblePanics, List.mem_append, List.mem_cons] at hp ⊢
          rcases hp with h | h
          · exact .inl (.inr (.inl h))
          · exact .inl (.inr (.inr h))
      · refine .bind ((checkActive_only hc hi1 hl1 ?_ ?_ hb).mono fun p hp => by simp [possiblePanics, hp]) fun _ _ => .ok _
        · rw [e1, e2]; exact hflat
        · rw [e1, e3]; exact hempty
  | checkActive a =>
    unfold step
    refine .bind ((build_only _ a).mono fun p hp => by simp [possiblePanics, hp]) fun u hb =>
      .bind ((checkActive_only hc hi hl hflat hempty hb).mono fun p hp => by simp [possiblePanics, hp]) fun _ _ => .ok _
  | market side q uid =>
    simp only [step]
    cases hn : NewMarket.new side q uid with
    | error e => exact .ok _
    | ok o =>
      obtain ⟨hq, rfl⟩ := newMarket_ok hn
      exact .bind (submitMarket_only (o := ⟨uid, side, q⟩) hq hl hc.1 hflat) fun _ _ => .ok _
  | limit side p q uid =>
    simp only [step]
    cases hn : NewLimit.new side p q uid with
    | error e => exact .ok _
    | ok o =>
      obtain ⟨hp, hq, rfl⟩ := newLimit_ok hn
      exact .bind (submitLimit_only (o := ⟨uid, side, p, q⟩) hi hl hc hp hq) fun _ _ => .ok _
  | amend id side p q uid =>
    simp only [step]
    cases hn : NewLimit.new side p q uid with
    | error e => exact .ok _
    | ok o =>
      obtain ⟨hp, hq, rfl⟩ := newLimit_ok hn
      exact .bind (amendLimit_only (o := ⟨uid, side, p, q⟩) hi hl hc hp) fun _ _ => .ok _
  | cancel b =>
    unfold step
    exact .bind (cancelLimit_only hi hl hc) fun _ _ => .ok _

end Lfest
