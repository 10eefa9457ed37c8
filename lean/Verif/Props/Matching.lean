import Verif.Lemmas.Fill
import Verif.Props.Orders
import Verif.Examples

/-!
# Matching of resting orders (C32–C42)

The theorems are about calls of `update_state` that return `Ok`. If the update liquidates,
the resting orders are not matched at all (C30).
-/

namespace Lfest

open Spec

/-! ## C38: the common part -/

/-- C38: after a market update the active orders are, up to their order, the previous ones with
the fill rule applied to each. -/
theorem C38_active_after_update (c : Cfg) (s s' : State) (u : UpdateArg) (ups : List LimitUpdate)
    (hr : Reachable c s) (h : step c s (.update u) = .ok (s', .update (.ok ups))) :
    s'.active.Perm (s.active.filterMap (survivor c.env u)) :=
  (update_spec hr.inv h).1

/-- C38, order by order: without a fill the order is still there and identical; with a fill of
`q` it lost exactly `q` or is gone if that was all; nothing else is active. -/
theorem C38_every_order (c : Cfg) (s s' : State) (u : UpdateArg) (ups : List LimitUpdate)
    (hr : Reachable c s) (h : step c s (.update u) = .ok (s', .update (.ok ups))) :
    (∀ o ∈ s.active, fillRule u o = none → o ∈ s'.active) ∧
    (∀ o ∈ s.active, ∀ q, fillRule u o = some q →
      0 < q ∧ q ≤ o.remaining ∧ openQty s' o.id = o.remaining - q ∧
      (q < o.remaining → filledBy c.env o q ∈ s'.active) ∧
      (q = o.remaining → ∀ o' ∈ s'.active, o'.id ≠ o.id)) ∧
    (∀ o' ∈ s'.active, ∃ o ∈ s.active, o.id = o'.id) := by
  have hi := hr.inv
  obtain ⟨hp, _, _, _, hq, _⟩ := update_spec hi h
  have hn' := (hr.step h).inv.nodup
  obtain ⟨ho1, _⟩ := update_openQty hi h
  refine ⟨fun o ho hf => ?_, fun o ho q hf => ?_, fun o' ho' => ?_⟩
  · rw [hp.mem_iff, List.mem_filterMap]; exact ⟨o, ho, by simp [survivor, hf]⟩
  · obtain ⟨h1, h2⟩ := hq o ho q hf
    refine ⟨h1, h2, ?_, fun hlt => ?_, fun he => ?_⟩
    · rcases ho1 o ho with ⟨o', ho', hid, _, _, hrem⟩ | ⟨hno, hfull⟩
      · rw [← hid, openQty_of_mem hn' ho', hrem, hf]; rfl
      · rw [openQty_of_not hno]; rw [hf] at hfull; simp at hfull; omega
    · rw [hp.mem_iff, List.mem_filterMap]
      exact ⟨o, ho, by simp only [survivor, hf]; rw [if_neg (by omega)]⟩
    · rcases ho1 o ho with ⟨o', ho', hid, _, _, hrem⟩ | ⟨hno, _⟩
      · have := ((hr.step h).inv.orders o' ho').rem
        rw [hf] at hrem; simp at hrem; omega
      · exact hno
  · rw [hp.mem_iff, List.mem_filterMap] at ho'
    obtain ⟨o, ho, hs⟩ := ho'
    exact ⟨o, ho, (survivor_fixed hs).1.symm⟩

/-- C38 for a direct call of `check_active_orders`. -/
theorem C38_check_active_orders (c : Cfg) (s s' : State) (u : UpdateArg)
    (hr : Reachable c s) (h : step c s (.checkActive u) = .ok (s', .unit)) :
    s'.active.Perm (s.active.filterMap (survivor c.env u)) ∧
    s'.updates = reports c.env u s.active := by
  simp only [step, bind_ok, ok_inj, Prod.mk.injEq] at h
  obtain ⟨u', hb, s1, h, rfl, _⟩ := h
  obtain ⟨h1, h2, _⟩ := checkActive_spec hb hr.inv h
  exact ⟨h1, h2⟩

/-- A trade fills part of one of two resting orders, a candle then all of the other. -/
example : Ex.last Ex.lin Ex.ops1 (.update (.trade ⟨2, Ex.d 111, Ex.d 2, .buy⟩))
    (fun s s' r => decide (s.active.map (fillRule (.trade ⟨2, Ex.d 111, Ex.d 2, .buy⟩)) =
        [some (Ex.d 2), none] ∧ s'.active.map Limit.remaining = [Ex.d 1, Ex.d 2] ∧
        r = .update (.ok s'.updates) ∧ s'.updates.length = 1)) = true := by decide +kernel

example : Ex.last Ex.lin Ex.ops2 (.update (.candle ⟨Ex.d 96, Ex.d 97, Ex.d 90, Ex.d 99, 3⟩))
    (fun _ s' r => decide (s'.active.map Limit.id = [1] ∧ r = .update (.ok s'.updates) ∧
      s'.updates.length = 1)) = true := by decide +kernel

/-! ## C32 -/

/-- C32: a quote update leaves the active orders alone and causes no maker fill. It returns no
order updates unless it liquidates. -/
theorem C32_quotes_never_fill (c : Cfg) (s s' : State) (b : Bba) (r : Resp)
    (h : step c s (.update (.bba b)) = .ok (s', r)) :
    s'.active = s.active ∧
    ((r = .update (.ok []) ∧ fills s'.log = fills s.log ∧ s'.updates = []) ∨
      r = .update (.error (.risk .liquidate))) := by
  have h0 := h
  simp only [step, UpdateArg.build, bind_ok, ok_inj, Prod.mk.injEq] at h
  obtain ⟨u, rfl, ⟨s2, x⟩, h, rfl, rfl⟩ := h
  simp only [updateState, bind_ok] at h
  obtain ⟨s1, h1, h⟩ := h
  obtain ⟨_, _, e3, _⟩ := observe_fields h1
  split at h
  · next err hc =>
    simp only [bind_ok, ok_inj, Prod.mk.injEq] at h
    obtain ⟨s3, h3, rfl, rfl⟩ := h
    obtain ⟨_, _, f3, _⟩ := liquidate_fields h3
    refine ⟨f3.trans e3, .inr ?_⟩
    cases err with
    | liquidate => rfl
    | notEnoughAvailableBalance =>
      simp only [checkMaintenanceMargin] at hc
      split at hc
      · simp at hc
      · split at hc <;> simp at hc
      · split at hc <;> simp at hc
  · simp only [bind_ok, ok_inj, Prod.mk.injEq] at h
    obtain ⟨s3, h3, rfl, rfl⟩ := h
    have e := checkActive_bba h3 rfl
    subst e
    exact ⟨e3, .inl ⟨rfl, (fills_observe h1 : fills s1.log = _), rfl⟩⟩

/-- Quotes far through both resting orders. -/
example : Ex.last Ex.lin Ex.ops1 (.update (.bba ⟨Ex.d 90, Ex.d 91, 2⟩))
    (fun s s' r => decide (s.active.length = 2 ∧ s'.active = s.active ∧ r = .update (.ok []))) =
    true := by decide +kernel

/-! ## C33 -/

/-- C33: a trade fills a resting buy iff it is a sell strictly below its price, a resting sell
iff it is a buy strictly above it, by the smaller of the two quantities. -/
theorem C33_trade_rule (c : Cfg) (s s' : State) (t : Trade) (ups : List LimitUpdate)
    (hr : Reachable c s) (h : step c s (.update (.trade t)) = .ok (s', .update (.ok ups))) :
    ∀ o ∈ s.active,
      (((o.side = .buy ∧ t.side = .sell ∧ t.price < o.price) ∨
        (o.side = .sell ∧ t.side = .buy ∧ o.price < t.price)) →
          openQty s' o.id = o.remaining - smaller t.qty o.remaining ∧
          openQty s' o.id < openQty s o.id) ∧
      (¬ ((o.side = .buy ∧ t.side = .sell ∧ t.price < o.price) ∨
        (o.side = .sell ∧ t.side = .buy ∧ o.price < t.price)) → o ∈ s'.active) := by
  intro o ho
  obtain ⟨h1, h2, _⟩ := C38_every_order c s s' _ ups hr h
  have hh : hits t o.side o.price = true ↔
      ((o.side = .buy ∧ t.side = .sell ∧ t.price < o.price) ∨
        (o.side = .sell ∧ t.side = .buy ∧ o.price < t.price)) := by
    cases hs : o.side <;> simp [hits]
  rw [← hh]
  constructor
  · intro hit
    obtain ⟨k1, _, k3, _⟩ := h2 o ho (smaller t.qty o.remaining) (by simp [fillRule, hit])
    refine ⟨k3, ?_⟩
    rw [k3, openQty_of_mem hr.inv.nodup ho]; omega
  · intro hit
    exact h1 o ho (by simp [fillRule, hit])

/-- At exactly the limit price nothing is filled, one tick above the order is. -/
example : Ex.last Ex.lin Ex.ops1 (.update (.trade ⟨2, Ex.d 110, Ex.d 2, .buy⟩))
      (fun s s' _ => decide (s'.active = s.active)) = true ∧
    Ex.last Ex.lin Ex.ops1 (.update (.trade ⟨2, Ex.d 111, Ex.d 2, .buy⟩))
      (fun _ s' _ => decide (openQty s' 1 = Ex.d 1)) = true ∧
    Ex.last Ex.lin Ex.ops1 (.update (.trade ⟨2, Ex.d 111, Ex.d 9, .buy⟩))
      (fun _ s' _ => decide (openQty s' 1 = 0)) = true := by decide +kernel

/-- C33: a trade touches only orders on the inverted side (`Side::inverted`) of the trade, and the
inverse of the inverted side is the side itself. -/
theorem C33_inverted_side (c : Cfg) (s s' : State) (t : Trade) (ups : List LimitUpdate)
    (hr : Reachable c s) (h : step c s (.update (.trade t)) = .ok (s', .update (.ok ups))) :
    (∀ o ∈ s.active, o.side ≠ t.side.inverted → o ∈ s'.active) ∧
    (∀ o ∈ s.active, o ∉ s'.active → o.side.inverted = t.side) := by
  have key := C33_trade_rule c s s' t ups hr h
  refine ⟨fun o ho hs => (key o ho).2 ?_, fun o ho hn => ?_⟩
  · cases h1 : o.side <;> cases h2 : t.side <;> simp [h1, h2, Side.inverted] at hs ⊢
  · have := fun hh => hn ((key o ho).2 hh)
    cases h1 : o.side <;> cases h2 : t.side <;> simp [h1, h2, Side.inverted] at this ⊢

example : Ex.last Ex.lin Ex.ops1 (.update (.trade ⟨2, Ex.d 94, Ex.d 9, .sell⟩))
      (fun s s' _ => decide (s.active.length = 2 ∧ s'.active.map Limit.side = [.sell])) = true := by
  decide +kernel

/-! ## C34 -/

/-- C34: a candle fills a resting buy completely iff its low is strictly below the price, a
resting sell completely iff its high is strictly above, and leaves all others unchanged. -/
theorem C34_candle_rule (c : Cfg) (s s' : State) (k : Candle) (ups : List LimitUpdate)
    (hr : Reachable c s) (h : step c s (.update (.candle k)) = .ok (s', .update (.ok ups))) :
    (∀ o ∈ s.active,
      (((o.side = .buy ∧ k.low < o.price) ∨ (o.side = .sell ∧ o.price < k.high)) →
        ∀ o' ∈ s'.active, o'.id ≠ o.id) ∧
      (¬ ((o.side = .buy ∧ k.low < o.price) ∨ (o.side = .sell ∧ o.price < k.high)) →
        o ∈ s'.active)) ∧
    (∀ o ∈ s'.active, (o.side = .buy → o.price ≤ k.low) ∧ (o.side = .sell → k.high ≤ o.price)) := by
  obtain ⟨h1, h2, _⟩ := C38_every_order c s s' _ ups hr h
  have hp := C38_active_after_update c s s' _ ups hr h
  refine ⟨fun o ho => ⟨fun hit => ?_, fun hit => ?_⟩, fun o' ho' => ?_⟩
  · refine (h2 o ho o.remaining ?_).2.2.2.2 rfl
    cases hs : o.side <;> simp [hs] at hit <;> simp [fillRule, hs, hit]
  · refine h1 o ho ?_
    cases hs : o.side <;> simp [hs] at hit <;> simp [fillRule, hs] <;> omega
  · rw [hp.mem_iff, List.mem_filterMap] at ho'
    obtain ⟨o, ho, hs⟩ := ho'
    obtain ⟨_, f2, f3⟩ := survivor_fixed hs
    rw [f2, f3]
    cases hside : o.side with
    | buy =>
      simp only [survivor, fillRule, hside] at hs
      by_cases hc : k.low < o.price
      · simp [hc] at hs
      · simp; omega
    | sell =>
      simp only [survivor, fillRule, hside] at hs
      by_cases hc : o.price < k.high
      · simp [hc] at hs
      · simp; omega

/-- Only the buy at 95 is inside the candle's range. -/
example : Ex.last Ex.lin Ex.ops1 (.update (.candle ⟨Ex.d 100, Ex.d 101, Ex.d 94, Ex.d 110, 3⟩))
    (fun s s' _ => decide (s.active.map Limit.id = [1, 2] ∧ s'.active.map Limit.id = [1])) =
    true := by decide +kernel

/-! ## C35 -/

/-- C35: a smart candle fills a resting buy by the smaller of its remaining quantity and the
total quantity of the candle's sells strictly below its price (buys strictly above it for a
resting sell), and leaves it unchanged if there is no such trade. -/
theorem C35_smart_candle_rule (c : Cfg) (s s' : State) (ts : List Trade) (b : Bba)
    (pf : PriceFilter) (ups : List LimitUpdate) (hr : Reachable c s)
    (h : step c s (.update (.smart ts b pf)) = .ok (s', .update (.ok ups))) :
    ∀ o ∈ s.active,
      ((∀ t ∈ ts, hits t o.side o.price = false) → o ∈ s'.active) ∧
      ((∃ t ∈ ts, hits t o.side o.price = true) →
        openQty s' o.id = o.remaining -
          smaller (tradeSum (ts.filter (fun t => hits t o.side o.price))) o.remaining ∧
        openQty s' o.id < openQty s o.id) := by
  intro o ho
  obtain ⟨h1, h2, _⟩ := C38_every_order c s s' _ ups hr h
  constructor
  · intro hno
    refine h1 o ho ?_
    have : ts.filter (fun t => hits t o.side o.price) = [] := by
      rw [List.filter_eq_nil_iff]; intro t ht; simp [hno t ht]
    simp only [fillRule]; rw [if_pos this]
  · rintro ⟨t, ht, hit⟩
    have : ts.filter (fun t => hits t o.side o.price) ≠ [] := by
      intro he; rw [List.filter_eq_nil_iff] at he; exact he t ht hit
    obtain ⟨k1, _, k3, _⟩ := h2 o ho _ (by simp only [fillRule]; rw [if_neg this])
    refine ⟨k3, ?_⟩
    rw [k3, openQty_of_mem hr.inv.nodup ho]; omega

/-- Three buys, two of them above the resting sell at 110, together fill 2 of 3. -/
example : Ex.last Ex.lin Ex.ops1 (.update (.smart [⟨2, Ex.d 112, Ex.d 1, .buy⟩,
      ⟨3, Ex.d 109, Ex.d 7, .buy⟩, ⟨4, Ex.d 111, Ex.d 1, .buy⟩]
      ⟨Ex.d 100, Ex.d 101, 4⟩ Ex.lin.spec.priceFilter))
    (fun _ s' _ => decide (openQty s' 1 = Ex.d 1 ∧ openQty s' 2 = Ex.d 2)) = true := by
  decide +kernel

/-! ## C36 -/

/-- Remaining quantity after a list of trades was offered to an order one by one. -/
theorem replay_openQty (c : Cfg) (ts : List Trade) :
    ∀ (s s' : State) (tr : List (Op × Resp)), Reachable c s → (∀ t ∈ ts, 0 < t.qty) →
    history c s (ts.map (fun t => .update (.trade t))) = .ok (s', tr) →
    (∀ x ∈ tr, ∃ ups, x.2 = .update (.ok ups)) →
    (∀ o ∈ s.active, openQty s' o.id = o.remaining -
      smaller (tradeSum (ts.filter (fun t => hits t o.side o.price))) o.remaining) ∧
    (∀ id, (∀ o ∈ s.active, o.id ≠ id) → openQty s' id = 0) := by
  induction ts with
  | nil =>
    intro s s' tr hr _ h _
    simp only [List.map_nil, history, ok_inj, Prod.mk.injEq] at h
    obtain ⟨rfl, rfl⟩ := h
    refine ⟨fun o ho => ?_, fun id hno => openQty_of_not hno⟩
    have := (hr.inv.orders o ho).rem
    rw [openQty_of_mem hr.inv.nodup ho]
    simp [tradeSum, smaller]; omega
  | cons t ts ih =>
    intro s s' tr hr hq h hok
    simp only [List.map_cons, history, bind_ok, ok_inj, Prod.mk.injEq] at h
    obtain ⟨⟨s1, r1⟩, h1, ⟨s2, tr2⟩, h2, rfl, rfl⟩ := h
    obtain ⟨ups, hups⟩ := hok _ (List.mem_cons_self)
    simp only at hups; subst hups
    obtain ⟨u1, u2⟩ := update_openQty hr.inv h1
    have hr1 := hr.step h1
    obtain ⟨i1, i2⟩ := ih s1 s2 tr2 hr1 (fun t ht => hq t (by simp [ht])) h2
      (fun x hx => hok x (by simp [hx]))
    have htq := hq t (by simp)
    have hsum : ∀ (side : Side) (price : Int),
        0 ≤ tradeSum (ts.filter (fun t => hits t side price)) := by
      intro side price
      have : ∀ l : List Trade, (∀ t ∈ l, 0 < t.qty) → 0 ≤ tradeSum l := by
        intro l; induction l with
        | nil => intro _; simp [tradeSum]
        | cons x xs ih =>
          intro hx
          have h1 := hx x (by simp)
          have h2 := ih (fun t ht => hx t (by simp [ht]))
          simp only [tradeSum]; omega
      exact this _ (fun t ht => hq t (by rw [List.mem_filter] at ht; simp [ht.1]))
    refine ⟨fun o ho => ?_, fun id hno => i2 id (u2 id hno)⟩
    have hrem := (hr.inv.orders o ho).rem
    have hs := hsum o.side o.price
    rcases u1 o ho with ⟨o', ho', hid, hside, hprice, hrem'⟩ | ⟨hno, hfull⟩
    · rw [← hid, i1 o' ho', hside, hprice, hrem']
      simp only [fillRule, List.filter_cons]
      by_cases hit : hits t o.side o.price = true
      · simp only [hit, if_true, Option.getD_some, tradeSum, smaller]
        split <;> split <;> split <;> omega
      · simp [hit]
    · rw [i2 o.id hno]
      simp only [fillRule] at hfull
      by_cases hit : hits t o.side o.price = true
      · simp only [hit, if_true, Option.some.injEq, smaller] at hfull
        simp only [List.filter_cons, hit, if_true, tradeSum, smaller]
        split at hfull <;> split <;> omega
      · simp [hit] at hfull

/-- C36: a smart candle leaves every order with the same open quantity as its trades fed one
by one as `Trade` updates, if both go through without liquidation. -/
theorem C36_smart_candle_replay (c : Cfg) (s s1 s2 : State) (ts : List Trade) (b : Bba)
    (pf : PriceFilter) (ups : List LimitUpdate) (tr : List (Op × Resp)) (hr : Reachable c s)
    (hq : ∀ t ∈ ts, 0 < t.qty)
    (h1 : step c s (.update (.smart ts b pf)) = .ok (s1, .update (.ok ups)))
    (h2 : history c s (ts.map (fun t => .update (.trade t))) = .ok (s2, tr))
    (hok : ∀ x ∈ tr, ∃ ups, x.2 = .update (.ok ups)) :
    ∀ id, openQty s1 id = openQty s2 id := by
  obtain ⟨k1, k2⟩ := replay_openQty c ts s s2 tr hr hq h2 hok
  obtain ⟨u1, u2⟩ := update_openQty hr.inv h1
  have hn1 := (hr.step h1).inv.nodup
  intro id
  by_cases hex : ∃ o ∈ s.active, o.id = id
  · obtain ⟨o, ho, rfl⟩ := hex
    rw [k1 o ho]
    have hrem := (hr.inv.orders o ho).rem
    rcases u1 o ho with ⟨o', ho', hid, _, _, hrem'⟩ | ⟨hno, hfull⟩
    · rw [← hid, openQty_of_mem hn1 ho', hrem']
      simp only [fillRule]
      by_cases he : ts.filter (fun t => hits t o.side o.price) = []
      · rw [if_pos he, he]; simp [tradeSum, smaller]; omega
      · rw [if_neg he]; rfl
    · rw [openQty_of_not hno]
      simp only [fillRule] at hfull
      by_cases he : ts.filter (fun t => hits t o.side o.price) = []
      · rw [if_pos he] at hfull; simp at hfull
      · rw [if_neg he] at hfull; simp at hfull; omega
  · have hno : ∀ o ∈ s.active, o.id ≠ id := fun o ho he => hex ⟨o, ho, he⟩
    rw [k2 id hno, openQty_of_not (u2 id hno)]

/-- Both ways leave 1 of the resting sell. -/
example :
    let ts : List Trade := [⟨2, Ex.d 112, Ex.d 1, .buy⟩, ⟨3, Ex.d 109, Ex.d 7, .buy⟩,
      ⟨4, Ex.d 111, Ex.d 1, .buy⟩]
    Ex.last Ex.lin Ex.ops1 (.update (.smart ts ⟨Ex.d 100, Ex.d 101, 4⟩ Ex.lin.spec.priceFilter))
      (fun s s1 _ => match history Ex.lin s (ts.map (fun t => .update (.trade t))) with
        | .ok (s2, tr) => decide (openQty s1 1 = Ex.d 1 ∧ openQty s2 1 = Ex.d 1 ∧ tr.length = 3)
        | .error _ => false) = true := by decide +kernel

/-! ## C37 -/

/-- C37, per order: no order is filled by more than the quantity of the trade. The quantity is not
shared among the orders: see `C37_total_volume` and `C37_volume_exceeded`. -/
theorem C37_trade_volume (c : Cfg) (s s' : State) (t : Trade) (ups : List LimitUpdate)
    (hr : Reachable c s) (h : step c s (.update (.trade t)) = .ok (s', .update (.ok ups))) :
    (∀ o ∈ s.active, o.remaining - openQty s' o.id ≤ smaller t.qty o.remaining ∨
      openQty s' o.id = o.remaining) ∧
    ∃ new, fills s'.log = new ++ fills s.log ∧ ∀ f ∈ new, f.qty ≤ t.qty := by
  obtain ⟨h1, h2, _⟩ := C38_every_order c s s' _ ups hr h
  obtain ⟨_, _, _, h3, _⟩ := update_spec hr.inv h
  refine ⟨fun o ho => ?_, _, h3, fun f hf => ?_⟩
  · by_cases hit : hits t o.side o.price = true
    · have := (h2 o ho (smaller t.qty o.remaining) (by simp [fillRule, hit])).2.2.1
      left; omega
    · have := h1 o ho (by simp [fillRule, hit])
      right; exact openQty_of_mem (hr.step h).inv.nodup this
  · simp only [makerFills, List.mem_reverse, List.mem_filterMap] at hf
    obtain ⟨o, ho, hf⟩ := hf
    simp only [fillRule] at hf
    split at hf
    · simp at hf; subst hf; simp only [smaller]; split <;> omega
    · simp at hf

theorem fillSum_append (xs ys : List Fill) : fillSum (xs ++ ys) = fillSum xs + fillSum ys := by
  induction xs with
  | nil => simp [fillSum]
  | cons x xs ih => simp only [List.cons_append, fillSum, ih]; omega

theorem fillSum_reverse (xs : List Fill) : fillSum xs.reverse = fillSum xs := by
  induction xs with
  | nil => rfl
  | cons x xs ih => simp only [List.reverse_cons, fillSum_append, fillSum, ih]; omega

/-- C37, over all orders: every resting order that the trade hits is filled as if the trade were
for it alone, so the total is the sum of the smaller of trade quantity and open quantity, at most
the trade quantity times the number of orders hit. -/
theorem C37_total_volume (c : Cfg) (s s' : State) (t : Trade) (ups : List LimitUpdate)
    (hr : Reachable c s) (h : step c s (.update (.trade t)) = .ok (s', .update (.ok ups))) :
    let hit := s.active.filter (fun o => hits t o.side o.price)
    fillSum (fills s'.log) - fillSum (fills s.log) =
      (hit.map (fun o => smaller t.qty o.remaining)).sum ∧
    (hit.map (fun o => smaller t.qty o.remaining)).sum ≤ t.qty * hit.length := by
  obtain ⟨_, _, _, h3, _⟩ := update_spec hr.inv h
  intro hit
  refine ⟨?_, ?_⟩
  · rw [h3, fillSum_append, fillSum_reverse]
    have : ∀ os : List Limit, fillSum (makerFills (.trade t) os) =
        ((os.filter (fun o => hits t o.side o.price)).map (fun o => smaller t.qty o.remaining)).sum := by
      intro os
      induction os with
      | nil => rfl
      | cons o os ih =>
        simp only [makerFills, List.filterMap_cons, List.filter_cons, fillRule] at ih ⊢
        by_cases hit : hits t o.side o.price = true
        · simp only [hit, if_true, Option.map_some, fillSum, List.map_cons, List.sum_cons, ih]
        · simp only [hit, Bool.false_eq_true, if_false, Option.map_none, ih]
    rw [this]; simp only [hit]; omega
  · generalize hit = l
    induction l with
    | nil => simp
    | cons o l ih =>
      simp only [List.map_cons, List.sum_cons, List.length_cons]
      have : smaller t.qty o.remaining ≤ t.qty := by unfold smaller; split <;> omega
      have e : t.qty * ((l.length + 1 : Nat) : Int) = t.qty * l.length + t.qty := by
        rw [Int.natCast_add, Int.mul_add]; simp
      omega

/-- Two orders hit, one missed. -/
example : Ex.last Ex.lin [.update (.bba ⟨Ex.d 100, Ex.d 101, 1⟩), .limit .buy (Ex.d 95) (Ex.d 2) 0,
    .limit .buy (Ex.d 96) (Ex.d 1) 0, .limit .buy (Ex.d 80) (Ex.d 2) 0]
    (.update (.trade ⟨2, Ex.d 90, Ex.d 2, .sell⟩))
    (fun s s' r => Ex.isOk r && decide (
      fillSum (fills s'.log) - fillSum (fills s.log) = Ex.d 3 ∧
      (s.active.filter (fun o => hits ⟨2, Ex.d 90, Ex.d 2, .sell⟩ o.side o.price)).length = 2))
    = true := by decide +kernel

/-- The trade quantity does not bound the total: a trade of 2 fills 4. -/
theorem C37_volume_exceeded : ∃ (c : Cfg) (s s' : State) (t : Trade) (ups : List LimitUpdate),
    Reachable c s ∧ step c s (.update (.trade t)) = .ok (s', .update (.ok ups)) ∧
    fillSum (fills s'.log) - fillSum (fills s.log) > t.qty := by
  have h : Ex.last Ex.lin [.update (.bba ⟨Ex.d 100, Ex.d 101, 1⟩),
      .limit .buy (Ex.d 95) (Ex.d 2) 0, .limit .buy (Ex.d 96) (Ex.d 2) 0]
      (.update (.trade ⟨2, Ex.d 90, Ex.d 2, .sell⟩))
      (fun s s' r => (match r with | .update (.ok _) => true | _ => false) &&
        decide (fillSum (fills s'.log) - fillSum (fills s.log) > Ex.d 2)) = true := by
    decide +kernel
  obtain ⟨s, s', r, hr, hs, hp⟩ := Ex.last_reach h
  simp only [Bool.and_eq_true, decide_eq_true_eq] at hp
  obtain ⟨h1, h2⟩ := hp
  split at h1
  · next ups => exact ⟨_, s, s', _, ups, hr, hs, h2⟩
  · simp at h1

/-! ## C39 -/

/-- C39: the returned order updates (also kept in the exchange) are exactly the reports of the
fills, in the order of the active orders. -/
theorem C39_reports (c : Cfg) (s s' : State) (u : UpdateArg) (ups : List LimitUpdate)
    (hr : Reachable c s) (h : step c s (.update u) = .ok (s', .update (.ok ups))) :
    ups = reports c.env u s.active ∧ s'.updates = ups := by
  obtain ⟨_, h1, h2, _⟩ := update_spec hr.inv h
  exact ⟨h1, h2.trans h1.symm⟩

/-- C39, update by update: `FullyFilled` is reported exactly for the orders that left the book,
`PartiallyFilled` carries the state of an order that is still active. -/
theorem C39_reported_orders (c : Cfg) (s s' : State) (u : UpdateArg) (ups : List LimitUpdate)
    (hr : Reachable c s) (h : step c s (.update u) = .ok (s', .update (.ok ups))) :
    (∀ f, .fullyFilled f ∈ ups → (∀ o' ∈ s'.active, o'.id ≠ f.id) ∧
      ∃ o ∈ s.active, updateTime u = some f.tsExecuted ∧
        f = ⟨o.uid, o.side, o.price, 0, o.id, o.ts, f.tsExecuted, o.price,
          o.filledQuantity + o.remaining⟩) ∧
    (∀ o', .partiallyFilled o' ∈ ups → o' ∈ s'.active ∧
      ∃ o ∈ s.active, LaterState o o' ∧ o'.remaining < o.remaining) ∧
    (∀ o ∈ s.active, (∀ o' ∈ s'.active, o'.id ≠ o.id) → ∃ f, .fullyFilled f ∈ ups ∧ f.id = o.id) := by
  obtain ⟨hu, _⟩ := C39_reports c s s' u ups hr h
  obtain ⟨h1, h2, _⟩ := C38_every_order c s s' u ups hr h
  have ht : ∃ ts, updateTime u = some ts := by
    simp only [step, bind_ok] at h
    obtain ⟨u', hb, _⟩ := h
    exact ⟨_, build_ts hb⟩
  obtain ⟨ts, ht⟩ := ht
  have hmem : ∀ x, x ∈ ups ↔ ∃ o ∈ s.active, ∃ q, fillRule u o = some q ∧
      report c.env ts o q = x := by
    intro x
    rw [hu, reports, List.mem_filterMap]
    constructor
    · rintro ⟨o, ho, hx⟩
      cases hf : fillRule u o with
      | none => simp [hf] at hx
      | some q => simp [hf, ht] at hx; exact ⟨o, ho, q, hf, hx⟩
    · rintro ⟨o, ho, q, hf, hx⟩
      exact ⟨o, ho, by simp [hf, ht, hx]⟩
  refine ⟨fun f hf => ?_, fun o' ho' => ?_, fun o ho hno => ?_⟩
  · obtain ⟨o, ho, q, hq, hx⟩ := (hmem _).1 hf
    unfold report at hx
    split at hx
    · next he =>
      simp only [LimitUpdate.fullyFilled.injEq] at hx
      subst hx
      exact ⟨(h2 o ho q hq).2.2.2.2 he, o, ho, ht, rfl⟩
    · simp at hx
  · obtain ⟨o, ho, q, hq, hx⟩ := (hmem _).1 ho'
    obtain ⟨k1, k2, _, k4, _⟩ := h2 o ho q hq
    unfold report at hx
    split at hx
    · simp at hx
    · next he =>
      simp only [LimitUpdate.partiallyFilled.injEq] at hx
      subst hx
      refine ⟨k4 (by omega), o, ho, ?_, by simp [filledBy]; omega⟩
      simp [LaterState, filledBy, Limit.filledQuantity]; omega
  · cases hf : fillRule u o with
    | none => exact absurd rfl (hno o (h1 o ho hf))
    | some q =>
      obtain ⟨k1, k2, _, k4, _⟩ := h2 o ho q hf
      have he : q = o.remaining := by
        by_cases hlt : q < o.remaining
        · exact absurd rfl (hno (filledBy c.env o q) (k4 hlt))
        · omega
      refine ⟨⟨o.uid, o.side, o.price, 0, o.id, o.ts, ts, o.price,
        o.filledQuantity + o.remaining⟩, (hmem _).2 ⟨o, ho, q, hf, ?_⟩, rfl⟩
      simp [report, he]

/-- A candle completes one order that was partially filled before and one that was not. -/
example : Ex.last Ex.lin Ex.ops2 (.update (.candle ⟨Ex.d 96, Ex.d 97, Ex.d 90, Ex.d 120, 3⟩))
    (fun _ s' r => decide (r = .update (.ok
      [.fullyFilled ⟨1, .sell, Ex.d 110, 0, 1, 1, 3, Ex.d 110, Ex.d 3⟩,
       .fullyFilled ⟨2, .buy, Ex.d 95, 0, 2, 1, 3, Ex.d 95, Ex.d 2⟩]) ∧ s'.active = [])) = true := by
  decide +kernel

/-! ## C40 -/

/-- Apply a sequence of fills (quantity, time) to an order; the result of each fill is kept. -/
def fillAll (scale : Int) : Limit → List (Int × Int) → Res (Limit × List (Option FilledLimit))
  | o, [] => .ok (o, [])
  | o, (q, ts) :: rest => do
    let r ← o.fill scale q ts
    let r' ← fillAll scale r.1 rest
    .ok (r'.1, r.2 :: r'.2)

/-- Sum of the quantities of a sequence of fills. -/
def qtySum : List (Int × Int) → Int
  | [] => 0
  | x :: xs => x.1 + qtySum xs

theorem fillAll_aux (scale : Int) : ∀ (l : List (Int × Int)) (o o' : Limit)
    (rs : List (Option FilledLimit)), 0 < o.remaining → 0 ≤ o.filledQuantity →
    fillAll scale o l = .ok (o', rs) →
    o'.filledQuantity = o.filledQuantity + qtySum l ∧
    o'.remaining = o.remaining - qtySum l ∧ 0 ≤ o'.remaining ∧
    (0 < o'.remaining → ∀ r ∈ rs, r = none) ∧
    (o'.remaining = 0 → ∃ l0 q ts, l = l0 ++ [(q, ts)] ∧
      rs = List.replicate l0.length none ++ [some ⟨o.uid, o.side, o.price, 0, o.id, o.ts, ts,
        o.price, o.filledQuantity + o.remaining⟩]) := by
  intro l
  induction l with
  | nil =>
    intro o o' rs hr _ h
    simp only [fillAll, ok_inj, Prod.mk.injEq] at h
    obtain ⟨rfl, rfl⟩ := h
    exact ⟨by simp [qtySum], by simp [qtySum], by omega, by simp, by omega⟩
  | cons x l ih =>
    obtain ⟨q, ts⟩ := x
    intro o o' rs hr hc h
    simp only [fillAll, bind_ok, ok_inj, Prod.mk.injEq] at h
    obtain ⟨⟨o1, r1⟩, h1, ⟨o2, rs2⟩, h2, rfl, rfl⟩ := h
    have key : o1.filledQuantity = o.filledQuantity + q ∧ o1.remaining = o.remaining - q ∧
        0 < q ∧ 0 ≤ o1.remaining ∧ o1.uid = o.uid ∧ o1.side = o.side ∧ o1.price = o.price ∧
        o1.id = o.id ∧ o1.ts = o.ts ∧
        ((0 < o1.remaining ∧ r1 = none) ∨ (o1.remaining = 0 ∧ r1 = some ⟨o.uid, o.side, o.price, 0,
          o.id, o.ts, ts, o.price, o.filledQuantity + o.remaining⟩)) := by
      simp only [Limit.fill, bind_ok, assertP_ok] at h1
      obtain ⟨_, hle, _, hq, h1⟩ := h1
      cases hfq : o.fq with
      | unfilled =>
        simp only [hfq] at h1
        split at h1
        · next he =>
          simp only [ok_inj, Prod.mk.injEq] at h1; obtain ⟨rfl, rfl⟩ := h1
          simp [Limit.filledQuantity, hfq, he]; omega
        · next he =>
          simp only [ok_inj, Prod.mk.injEq] at h1; obtain ⟨rfl, rfl⟩ := h1
          simp [Limit.filledQuantity, hfq]; omega
      | filled cum avg =>
        simp only [hfq, bind_ok] at h1
        obtain ⟨avg', _, h1⟩ := h1
        split at h1
        · next he =>
          simp only [ok_inj, Prod.mk.injEq] at h1; obtain ⟨rfl, rfl⟩ := h1
          have : q = o.remaining := by omega
          simp [Limit.filledQuantity, hfq, this]; omega
        · next he =>
          simp only [ok_inj, Prod.mk.injEq] at h1; obtain ⟨rfl, rfl⟩ := h1
          simp [Limit.filledQuantity, hfq]; omega
    obtain ⟨k1, k2, k3, k4, k5, k6, k7, k8, k9, k10⟩ := key
    rcases k10 with ⟨hp, rfl⟩ | ⟨hz, rfl⟩
    · obtain ⟨i1, i2, i3, i4, i5⟩ := ih o1 o2 rs2 hp (by omega) h2
      refine ⟨by simp only [qtySum]; omega, by simp only [qtySum]; omega, i3, fun hr2 r hr => ?_,
        fun hz => ?_⟩
      · simp only [List.mem_cons] at hr
        rcases hr with rfl | hr
        · rfl
        · exact i4 hr2 r hr
      · obtain ⟨l0, q', ts', e1, e2⟩ := i5 hz
        refine ⟨(q, ts) :: l0, q', ts', by simp [e1], ?_⟩
        simp only [e2, List.length_cons, List.replicate_succ, List.cons_append, k5, k6, k7, k8, k9]
        have : o1.filledQuantity + o1.remaining = o.filledQuantity + o.remaining := by omega
        rw [this]
    · cases l with
      | nil =>
        simp only [fillAll, ok_inj, Prod.mk.injEq] at h2; obtain ⟨rfl, rfl⟩ := h2
        exact ⟨by simp only [qtySum]; omega, by simp only [qtySum]; omega, k4,
          fun hh => by simp only at hh; omega, fun _ => ⟨[], q, ts, by simp, by simp⟩⟩
      | cons y l =>
        obtain ⟨q2, ts2⟩ := y
        simp only [fillAll, bind_ok, Limit.fill, assertP_ok] at h2
        obtain ⟨_, ⟨_, hle, _, hgt, _⟩, _⟩ := h2
        omega

/-- C40 for a sequence of fills of an unfilled order: filled plus remaining is the original
quantity; while something remains no fill reports completion; when the sum reaches the
original quantity exactly the last fill does, with the original quantity, the limit price and
its own time. -/
theorem C40_fill_sequence (scale : Int) (o o' : Limit) (l : List (Int × Int))
    (rs : List (Option FilledLimit)) (hq : 0 < o.remaining) (hu : o.fq = .unfilled)
    (h : fillAll scale o l = .ok (o', rs)) :
    o'.filledQuantity + o'.remaining = o.remaining ∧ o'.filledQuantity = qtySum l ∧
    (qtySum l < o.remaining → ∀ r ∈ rs, r = none) ∧
    (qtySum l = o.remaining → ∃ l0 q ts, l = l0 ++ [(q, ts)] ∧
      rs = List.replicate l0.length none ++ [some ⟨o.uid, o.side, o.price, 0, o.id, o.ts, ts,
        o.price, o.remaining⟩]) ∧ qtySum l ≤ o.remaining := by
  have hz : o.filledQuantity = 0 := by simp [Limit.filledQuantity, hu]
  obtain ⟨h1, h2, h3, h4, h5⟩ := fillAll_aux scale l o o' rs hq (by omega) h
  refine ⟨by omega, by omega, fun hlt => h4 (by omega), fun he => ?_, by omega⟩
  have := h5 (by omega)
  rwa [hz, Int.zero_add] at this

example : (match fillAll 100000 ⟨7, .buy, 9500000, 300000, 2, 1, .unfilled⟩
      [(100000, 5), (150000, 6), (50000, 8)] with
    | .ok (o, rs) => decide (o.remaining = 0 ∧
        rs = [none, none, some ⟨7, .buy, 9500000, 0, 2, 1, 8, 9500000, 300000⟩])
    | .error _ => false) = true := by decide +kernel

/-- C40 along a history: every `FullyFilled` report is about an order accepted earlier and
carries its ids, side, limit price and quantity as accepted, and the time of the update. -/
theorem C40_full_reports (c : Cfg) (ops : List Op) (s s' : State) (tr : List (Op × Resp))
    (u : UpdateArg) (ups : List LimitUpdate) (f : FilledLimit)
    (h : history c (State.init c) ops = .ok (s, tr))
    (hs : step c s (.update u) = .ok (s', .update (.ok ups))) (hf : .fullyFilled f ∈ ups) :
    ∃ p ∈ tr.filterMap accepted, updateTime u = some f.tsExecuted ∧
      f = ⟨p.uid, p.side, p.price, 0, p.id, p.ts, f.tsExecuted, p.price, p.remaining⟩ := by
  have hr : Reachable c s := ⟨ops, history_run h⟩
  obtain ⟨_, o, ho, ht, he⟩ := (C39_reported_orders c s s' u ups hr hs).1 f hf
  obtain ⟨_, hh⟩ := C13_active_orders c ops s tr h
  obtain ⟨_, _, _, _, p, hp, ⟨l1, l2, l3, l4, l5, _⟩, hl⟩ := hh o ho
  refine ⟨p, hp, ht, ?_⟩
  rw [he, l1, l2, l3, l4, l5, hl]

/-- An order filled in two parts: the second update reports it as accepted. -/
example : Ex.last Ex.lin (Ex.ops1 ++ [.update (.trade ⟨2, Ex.d 94, Ex.d 1, .sell⟩)])
    (.update (.trade ⟨3, Ex.d 94, Ex.d 9, .sell⟩)) (fun s s' r => decide (
      s.active.length = 2 ∧ s'.active.length = 1 ∧ (match r with
        | .update (.ok ups) => ups.any (fun x => match x with
          | .fullyFilled f => decide (f.side = .buy ∧ f.filledQty = Ex.d 2 ∧ f.tsExecuted = 3)
          | _ => false)
        | _ => false) = true)) = true := by decide +kernel

/-! ## C41 -/

/-- C41: the average price of a partially filled order never exceeds its
limit price and is not negative; after the first fill it equals the limit price. -/
theorem C41_average_price (c : Cfg) (ops : List Op) (s : State)
    (h : run c (State.init c) ops = .ok s) :
    (∀ o ∈ s.active, ∀ cum avg, o.fq = .filled cum avg → 0 ≤ avg ∧ avg ≤ o.price) ∧
    (∀ (u : UpdateArg) (s' : State) (ups : List LimitUpdate) (o : Limit) (q : Int),
      step c s (.update u) = .ok (s', .update (.ok ups)) → o ∈ s.active → o.fq = .unfilled →
      fillRule u o = some q → q < o.remaining →
      ∃ o' ∈ s'.active, o'.id = o.id ∧ o'.fq = .filled q o.price) := by
  refine ⟨?_, fun u s' ups o q hst ho hu hf hlt => ?_⟩
  · have hchk : ∀ {s s' : State} {a : UpdateArg} {u : Update}, Inv c s →
        a.build c.env.debug = .ok u → checkActive c s u = .ok s' →
        (∀ o ∈ s.active, ∀ cum avg, o.fq = .filled cum avg → 0 ≤ avg ∧ avg ≤ o.price) →
        (∀ o ∈ s'.active, ∀ cum avg, o.fq = .filled cum avg → 0 ≤ avg ∧ avg ≤ o.price) := by
      intro s s' a u hi hb hst hp o' ho' cum avg hfq
      obtain ⟨hperm, _, _, hq, _⟩ := checkActive_spec hb hi hst
      rw [hperm.mem_iff, List.mem_filterMap] at ho'
      obtain ⟨o, ho, hs⟩ := ho'
      have w := hi.orders o ho
      unfold survivor at hs
      split at hs
      · simp at hs; subst hs; exact hp o ho cum avg hfq
      · next q hf =>
        obtain ⟨q1, q2⟩ := hq o ho q hf
        split at hs
        · simp at hs
        · simp only [Option.some.injEq] at hs; subst hs
          simp only [filledBy, FilledQty.filled.injEq] at hfq ⊢
          rw [← hfq.2]
          unfold avgAfter
          split
          · have := w.price; omega
          · next cum0 avg0 hfq0 =>
            obtain ⟨a1, a2⟩ := hp o ho cum0 avg0 hfq0
            have hc := w.cum
            simp only [Limit.filledQuantity, hfq0] at hc
            have := w.price
            exact ⟨(weighted_bounds c.env a1 (by omega) hc (by omega) (by omega)).1,
              weighted_le c.env a1 (by omega) hc (by omega) (by omega) a2 (by omega)⟩
    exact run_active_induct (P := fun o => ∀ cum avg, o.fq = .filled cum avg →
      0 ≤ avg ∧ avg ≤ o.price) (fun o hu cum avg hf => by rw [hu] at hf; simp at hf) hchk h
  · have hr : Reachable c s := ⟨ops, h⟩
    have := ((C38_every_order c s s' u ups hr hst).2.1 o ho q hf).2.2.2.1 hlt
    exact ⟨_, this, rfl, by simp [filledBy, Limit.filledQuantity, hu, avgAfter]⟩

/-- C41, further fills: each partial fill increases the shortfall of the average price, weighted
by the filled quantity, by less than the filled quantity plus two units (all numbers are scaled by
`e.scale`; on a fill of ten contracts the loss of average price is at most 1.2 units in the last
place). -/
theorem C41_drift_bound (c : Cfg) (s s' : State) (u : UpdateArg) (ups : List LimitUpdate)
    (o : Limit) (q cum avg : Int) (hr : Reachable c s)
    (h : step c s (.update u) = .ok (s', .update (.ok ups))) (ho : o ∈ s.active)
    (hfq : o.fq = .filled cum avg) (hf : fillRule u o = some q) (hlt : q < o.remaining) :
    ∃ o' ∈ s'.active, ∃ avg', o'.id = o.id ∧ o'.price = o.price ∧
      o'.fq = .filled (cum + q) avg' ∧
      (o.price - avg') * (cum + q) < (o.price - avg) * cum + (cum + q) + 2 * c.env.scale := by
  obtain ⟨q1, _, _, hmem, _⟩ := (C38_every_order c s s' u ups hr h).2.1 o ho q hf
  refine ⟨_, hmem hlt, avgAfter c.env o q, rfl, rfl, ?_, ?_⟩
  · simp [filledBy, Limit.filledQuantity, hfq]
  · have w := hr.inv.orders o ho
    obtain ⟨ops, hrun⟩ := hr
    obtain ⟨a1, a2⟩ := (C41_average_price c ops s hrun).1 o ho cum avg hfq
    have hc := w.cum
    have hp := w.price
    simp only [Limit.filledQuantity, hfq] at hc
    simp only [avgAfter, hfq]
    have b := (weighted_bounds c.env a1 (Int.le_of_lt hp) hc (Int.le_of_lt q1) (by omega)).2.2
    have e1 := Int.sub_mul o.price (weighted c.env avg cum o.price q) (cum + q)
    have e2 := Int.sub_mul o.price avg cum
    have e3 := Int.mul_add o.price cum q
    omega

/-- A second partial fill, with drift. -/
example : Ex.last Ex.fine [.update (.bba ⟨Ex.d 100, Ex.d 101, 1⟩),
      .limit .buy 9500001 (Ex.d 2) 0, .update (.trade ⟨2, Ex.d 90, 1, .sell⟩)]
      (.update (.trade ⟨3, Ex.d 90, 1, .sell⟩))
      (fun s s' r => Ex.isOk r && decide (
        s.active = [⟨0, .buy, 9500001, Ex.d 2 - 1, 0, 1, .filled 1 9500001⟩] ∧
        s'.active = [⟨0, .buy, 9500001, Ex.d 2 - 2, 0, 1, .filled 2 9500000⟩])) =
      true := by decide +kernel

/-- The average price is not the limit price: two fills of one unit in the last place each at
95.00001 leave an average price of 95. -/
theorem C41_average_drifts : ∃ (c : Cfg) (s : State) (o : Limit) (cum avg : Int),
    Reachable c s ∧ o ∈ s.active ∧ o.fq = .filled cum avg ∧ avg < o.price := by
  have h : Ex.after Ex.fine [.update (.bba ⟨Ex.d 100, Ex.d 101, 1⟩),
      .limit .buy 9500001 (Ex.d 2) 0, .update (.trade ⟨2, Ex.d 90, 1, .sell⟩),
      .update (.trade ⟨3, Ex.d 90, 1, .sell⟩)]
      (fun s => decide (s.active = [⟨0, .buy, 9500001, Ex.d 2 - 2, 0, 1, .filled 2 9500000⟩])) =
      true := by decide +kernel
  obtain ⟨s, hr, hp⟩ := Ex.after_reach h
  simp only [decide_eq_true_eq] at hp
  exact ⟨_, s, _, 2, 9500000, hr, by rw [hp]; exact List.mem_singleton.2 rfl, rfl, by decide⟩

/-! ## C42 -/

/-- C42: the fills an update reports are one per filled resting order, on its side and exactly
at its limit price, as maker fills. -/
theorem C42_limit_fills (c : Cfg) (s s' : State) (u : UpdateArg) (ups : List LimitUpdate)
    (hr : Reachable c s) (h : step c s (.update u) = .ok (s', .update (.ok ups))) :
    fills s'.log = (makerFills u s.active).reverse ++ fills s.log :=
  (update_spec hr.inv h).2.2.2.1

/-- C42, fees: with non-negative rates the fees charged (paid or outstanding) grow by exactly
the maker fee of each of these fills, and by the taker fee of a market order. -/
theorem C42_fees (c : Cfg) (s s' : State) (op : Op) (r : Resp) (hr : Reachable c s)
    (hm : 0 ≤ c.spec.feeMaker) (ht : 0 ≤ c.spec.feeTaker) (h : step c s op = .ok (s', r)) :
    (∀ u ups, op = .update u → r = .update (.ok ups) →
      s'.feesPaid + s'.pos.outstandingFees = s.feesPaid + s.pos.outstandingFees +
        ((makerFills u s.active).map
          (fun f => share c.env (value c.env f.qty f.price) c.spec.feeMaker)).sum) ∧
    (∀ side qty uid o, op = .market side qty uid → r = .market (.ok o) →
      fills s'.log = ⟨false, side, touchPrice s.ms side, qty⟩ :: fills s.log ∧
      s'.feesPaid + s'.pos.outstandingFees = s.feesPaid + s.pos.outstandingFees +
        share c.env (value c.env qty (touchPrice s.ms side)) c.spec.feeTaker) := by
  obtain ⟨ops, hrun⟩ := hr
  have hr : Reachable c s := ⟨ops, hrun⟩
  obtain ⟨ops', hrun'⟩ := hr.step h
  have f := C04_fee_schedule c ops s hrun hm ht
  have f' := C04_fee_schedule c ops' s' hrun' hm ht
  refine ⟨?_, ?_⟩
  · rintro u ups rfl rfl
    rw [f', f, C42_limit_fills c s s' u ups hr h]
    have key : ∀ l : List Fill, (∀ x ∈ l, x.maker = true) → ∀ rest,
        feeSum c (l.reverse ++ rest) = feeSum c rest + (l.map
          (fun f => share c.env (value c.env f.qty f.price) c.spec.feeMaker)).sum := by
      intro l
      induction l with
      | nil => intro _ rest; simp
      | cons x xs ih =>
        intro hx rest
        rw [List.reverse_cons, List.append_assoc, ih (fun y hy => hx y (by simp [hy]))]
        simp [feeSum, Fill.fee, hx x (by simp)]; omega
    refine key _ (fun x hx => ?_) _
    simp only [makerFills, List.mem_filterMap, Option.map_eq_some_iff] at hx
    obtain ⟨o, _, q, _, rfl⟩ := hx
    rfl
  · rintro side qty uid o rfl rfl
    have hfl : fills s'.log = ⟨false, side, touchPrice s.ms side, qty⟩ :: fills s.log :=
      (C21_market_order c s s' hr side qty uid o h).2.1
    refine ⟨hfl, ?_⟩
    rw [f', f, hfl]
    simp [feeSum, Fill.fee]; omega

/-- The candle of `ops3` fills the resting buy of 2 at 95: maker fee 0.038. -/
example : Ex.last Ex.lin Ex.ops2 (.update (.candle ⟨Ex.d 96, Ex.d 97, Ex.d 90, Ex.d 99, 3⟩))
    (fun s s' _ => decide (makerFills (.candle ⟨Ex.d 96, Ex.d 97, Ex.d 90, Ex.d 99, 3⟩) s.active =
        [⟨true, .buy, Ex.d 95, Ex.d 2⟩] ∧
      s'.feesPaid + s'.pos.outstandingFees = s.feesPaid + s.pos.outstandingFees + 3800)) =
    true := by decide +kernel

end Lfest
