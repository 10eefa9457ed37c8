import Verif.Props.Matching

/-!
# Candles fill at least as much as the trades they summarise: C90
-/

namespace Lfest

open Spec

/-- The open quantities after an update. -/
theorem update_open {c : Cfg} {s s' : State} {u : UpdateArg} {ups} (hr : Reachable c s)
    (h : step c s (.update u) = .ok (s', .update (.ok ups))) :
    (∀ o ∈ s.active, openQty s' o.id = o.remaining - (fillRule u o).getD 0) ∧
    (∀ id, (∀ o ∈ s.active, o.id ≠ id) → openQty s' id = 0) := by
  obtain ⟨u1, u2⟩ := update_openQty hr.inv h
  have hn := (hr.step h).inv.nodup
  refine ⟨fun o ho => ?_, fun id hno => openQty_of_not (u2 id hno)⟩
  rcases u1 o ho with ⟨o', ho', hid, _, _, hrem⟩ | ⟨hno, hfull⟩
  · rw [← hid, openQty_of_mem hn ho', hrem]
  · rw [openQty_of_not hno, hfull]; simp

/-- If every order is filled by at least as much, no order has more left. -/
theorem open_mono {c : Cfg} {s s1 s2 : State} {u v : UpdateArg} {ups1 ups2} (hr : Reachable c s)
    (h1 : step c s (.update u) = .ok (s1, .update (.ok ups1)))
    (h2 : step c s (.update v) = .ok (s2, .update (.ok ups2)))
    (hle : ∀ o ∈ s.active, (fillRule u o).getD 0 ≤ (fillRule v o).getD 0) :
    ∀ id, openQty s2 id ≤ openQty s1 id := by
  obtain ⟨a1, a2⟩ := update_open hr h1
  obtain ⟨b1, b2⟩ := update_open hr h2
  intro id
  by_cases hex : ∃ o ∈ s.active, o.id = id
  · obtain ⟨o, ho, rfl⟩ := hex
    rw [a1 o ho, b1 o ho]
    have := hle o ho
    omega
  · have hno : ∀ o ∈ s.active, o.id ≠ id := fun o ho he => hex ⟨o, ho, he⟩
    rw [a2 id hno, b2 id hno]; exact Int.le_refl _

theorem hits_in_range {t : Trade} {k : Candle} {o : Limit} (h1 : k.low ≤ t.price)
    (h2 : t.price ≤ k.high) (h : hits t o.side o.price = true) (x : Int) (hx : x ≤ o.remaining) :
    x ≤ (fillRule (.candle k) o).getD 0 := by
  unfold hits at h
  simp only [fillRule]
  cases hs : o.side <;> rw [hs] at h <;> simp only [decide_eq_true_eq] at h <;> simp only
  · rw [if_pos (by omega)]; exact hx
  · rw [if_pos (by omega)]; exact hx

theorem candle_fill_nonneg {k : Candle} {o : Limit} (h : 0 < o.remaining) :
    0 ≤ (fillRule (.candle k) o).getD 0 := by
  simp only [fillRule]
  cases o.side <;> simp only <;> split <;> simp <;> omega

/-- C90: feed a list of trades, or instead one candle whose range contains their prices. If neither
liquidates, the candle leaves no order with more open quantity than the trades. -/
theorem C90_candle_covers_trades (c : Cfg) (s s1 s2 : State) (ts : List Trade) (k : Candle)
    (ups : List LimitUpdate) (tr : List (Op × Resp)) (hr : Reachable c s)
    (hq : ∀ t ∈ ts, 0 < t.qty) (hin : ∀ t ∈ ts, k.low ≤ t.price ∧ t.price ≤ k.high)
    (h1 : step c s (.update (.candle k)) = .ok (s1, .update (.ok ups)))
    (h2 : history c s (ts.map (fun t => .update (.trade t))) = .ok (s2, tr))
    (hok : ∀ x ∈ tr, ∃ ups, x.2 = .update (.ok ups)) :
    ∀ id, openQty s1 id ≤ openQty s2 id := by
  obtain ⟨k1, k2⟩ := replay_openQty c ts s s2 tr hr hq h2 hok
  obtain ⟨a1, a2⟩ := update_open hr h1
  intro id
  by_cases hex : ∃ o ∈ s.active, o.id = id
  · obtain ⟨o, ho, rfl⟩ := hex
    have hrem := (hr.inv.orders o ho).rem
    rw [k1 o ho, a1 o ho]
    have : smaller (tradeSum (ts.filter (fun t => hits t o.side o.price))) o.remaining ≤
        (fillRule (.candle k) o).getD 0 := by
      by_cases he : ts.filter (fun t => hits t o.side o.price) = []
      · have := candle_fill_nonneg (k := k) hrem
        rw [he, show smaller (tradeSum []) o.remaining = 0 from if_pos (Int.le_of_lt hrem)]
        exact this
      · obtain ⟨t, ht⟩ := List.exists_mem_of_ne_nil _ he
        rw [List.mem_filter] at ht
        exact hits_in_range (hin t ht.1).1 (hin t ht.1).2 ht.2 _ (by unfold smaller; split <;> omega)
    omega
  · have hno : ∀ o ∈ s.active, o.id ≠ id := fun o ho he => hex ⟨o, ho, he⟩
    rw [k2 id hno, a2 id hno]; exact Int.le_refl _

/-- Three resting orders; the trades fill one of them in part, the candle two completely. -/
def Ex.rangeTrades : List Trade :=
  [⟨2, Ex.d 112, Ex.d 1, .buy⟩, ⟨3, Ex.d 109, Ex.d 7, .buy⟩, ⟨4, Ex.d 94, Ex.d 2, .buy⟩]

example : Ex.last Ex.lin Ex.ops1 (.update (.candle ⟨Ex.d 100, Ex.d 101, Ex.d 94, Ex.d 112, 4⟩))
      (fun s s1 r => Ex.isOk r && match history Ex.lin s (Ex.rangeTrades.map (fun t => .update (.trade t))) with
        | .ok (s2, tr) => tr.all (fun x => Ex.isOk x.2) &&
          decide (openQty s1 1 = 0 ∧ openQty s2 1 = Ex.d 2 ∧ openQty s1 2 = 0 ∧ openQty s2 2 = Ex.d 2)
        | .error _ => false) = true := by decide +kernel

/-- C90: the same for a smart candle made of these trades. -/
theorem C90_candle_covers_smart_candle (c : Cfg) (s s1 s2 : State) (ts : List Trade) (b : Bba)
    (pf : PriceFilter) (k : Candle) (ups1 ups2 : List LimitUpdate) (hr : Reachable c s)
    (hin : ∀ t ∈ ts, k.low ≤ t.price ∧ t.price ≤ k.high)
    (h1 : step c s (.update (.candle k)) = .ok (s1, .update (.ok ups1)))
    (h2 : step c s (.update (.smart ts b pf)) = .ok (s2, .update (.ok ups2))) :
    ∀ id, openQty s1 id ≤ openQty s2 id := by
  refine open_mono hr h2 h1 fun o ho => ?_
  have hrem := (hr.inv.orders o ho).rem
  rw [show fillRule (.smart ts b pf) o = if ts.filter (fun t => hits t o.side o.price) = [] then none
    else some (smaller (tradeSum (ts.filter (fun t => hits t o.side o.price))) o.remaining) from rfl]
  split
  · exact candle_fill_nonneg hrem
  · next he =>
    obtain ⟨t, ht⟩ := List.exists_mem_of_ne_nil _ he
    rw [List.mem_filter] at ht
    exact hits_in_range (hin t ht.1).1 (hin t ht.1).2 ht.2 _
      (by simp only [Option.getD_some, smaller]; split <;> omega)

/-- C90: a candle with a wider range leaves no order with more open quantity. -/
theorem C90_wider_candle (c : Cfg) (s s1 s2 : State) (k k' : Candle) (ups1 ups2 : List LimitUpdate)
    (hr : Reachable c s) (hlow : k'.low ≤ k.low) (hhigh : k.high ≤ k'.high)
    (h1 : step c s (.update (.candle k)) = .ok (s1, .update (.ok ups1)))
    (h2 : step c s (.update (.candle k')) = .ok (s2, .update (.ok ups2))) :
    ∀ id, openQty s2 id ≤ openQty s1 id := by
  refine open_mono hr h1 h2 fun o ho => ?_
  have hrem := (hr.inv.orders o ho).rem
  simp only [fillRule]
  cases o.side <;> simp only <;> split <;> split <;> simp <;> omega

/-- C90: a trade on the same side with a larger quantity, at a price that goes at least as far,
leaves no order with more open quantity. -/
theorem C90_larger_trade (c : Cfg) (s s1 s2 : State) (t t' : Trade) (ups1 ups2 : List LimitUpdate)
    (hr : Reachable c s) (hs : t'.side = t.side) (hq : t.qty ≤ t'.qty)
    (hp : match t.side with
      | .buy => t.price ≤ t'.price
      | .sell => t'.price ≤ t.price)
    (h1 : step c s (.update (.trade t)) = .ok (s1, .update (.ok ups1)))
    (h2 : step c s (.update (.trade t')) = .ok (s2, .update (.ok ups2))) :
    ∀ id, openQty s2 id ≤ openQty s1 id := by
  have pos : ∀ o ∈ s.active, hits t' o.side o.price = true → 0 < t'.qty := by
    intro o ho hh
    obtain ⟨_, k, _⟩ := C38_every_order c s s2 (.trade t') ups2 hr h2
    have := (k o ho (smaller t'.qty o.remaining) (by simp only [fillRule, hh, if_true])).1
    have hrem := (hr.inv.orders o ho).rem
    simp only [smaller] at this
    split at this <;> omega
  refine open_mono hr h1 h2 fun o ho => ?_
  have hrem := (hr.inv.orders o ho).rem
  have hit : hits t o.side o.price = true → hits t' o.side o.price = true := by
    unfold hits
    cases o.side <;> cases hts : t.side <;> rw [hts] at hp hs <;>
      simp only [decide_eq_true_eq] <;> rintro ⟨h, h'⟩ <;> first | (cases h; done) | skip
    all_goals exact ⟨hs, by simp only at hp; omega⟩
  simp only [fillRule]
  by_cases hh : hits t o.side o.price = true
  · rw [if_pos hh, if_pos (hit hh)]
    simp only [Option.getD_some, smaller]; split <;> split <;> omega
  · rw [if_neg hh]
    by_cases hh' : hits t' o.side o.price = true
    · have := pos o ho hh'
      rw [if_pos hh']
      simp only [Option.getD_some, Option.getD_none, smaller]; split <;> omega
    · rw [if_neg hh']; exact Int.le_refl _

example : Ex.last Ex.lin Ex.ops1 (.update (.trade ⟨2, Ex.d 112, Ex.d 1, .buy⟩))
      (fun s s1 r => Ex.isOk r && match step Ex.lin s (.update (.trade ⟨2, Ex.d 113, Ex.d 2, .buy⟩)) with
        | .ok (s2, r2) => Ex.isOk r2 && decide (openQty s1 1 = Ex.d 2 ∧ openQty s2 1 = Ex.d 1)
        | .error _ => false) = true := by decide +kernel

/-- C90: a candle touches the same orders as the trades if its low is the price of a sell and its
high the price of a buy among them; only the quantities can differ. -/
theorem C90_same_orders (c : Cfg) (s s1 s2 : State) (ts : List Trade) (k : Candle)
    (ups : List LimitUpdate) (tr : List (Op × Resp)) (hr : Reachable c s)
    (hq : ∀ t ∈ ts, 0 < t.qty) (hin : ∀ t ∈ ts, k.low ≤ t.price ∧ t.price ≤ k.high)
    (hlow : ∃ t ∈ ts, t.side = .sell ∧ t.price = k.low)
    (hhigh : ∃ t ∈ ts, t.side = .buy ∧ t.price = k.high)
    (h1 : step c s (.update (.candle k)) = .ok (s1, .update (.ok ups)))
    (h2 : history c s (ts.map (fun t => .update (.trade t))) = .ok (s2, tr))
    (hok : ∀ x ∈ tr, ∃ ups, x.2 = .update (.ok ups)) :
    ∀ o ∈ s.active, (openQty s1 o.id < o.remaining ↔ openQty s2 o.id < o.remaining) := by
  obtain ⟨k1, _⟩ := replay_openQty c ts s s2 tr hr hq h2 hok
  obtain ⟨a1, _⟩ := update_open hr h1
  intro o ho
  have hrem := (hr.inv.orders o ho).rem
  have hcov := C90_candle_covers_trades c s s1 s2 ts k ups tr hr hq hin h1 h2 hok o.id
  refine ⟨fun h => ?_, fun h => by omega⟩
  rw [a1 o ho] at h
  rw [k1 o ho]
  have hpos : ∀ l : List Trade, (∀ t ∈ l, 0 < t.qty) → ∀ t ∈ l, 0 < tradeSum l := by
    intro l; induction l with
    | nil => simp
    | cons x xs ih =>
      intro hx t ht
      have h1 := hx x (by simp)
      simp only [tradeSum]
      cases xs with
      | nil => simp only [tradeSum]; omega
      | cons y ys =>
        have := ih (fun t ht => hx t (by simp [ht])) y (by simp)
        omega
  obtain ⟨t, ht, hh⟩ : ∃ t ∈ ts, hits t o.side o.price = true := by
    simp only [fillRule] at h
    cases hs : o.side <;> rw [hs] at h <;> simp only at h <;> split at h
    · next hb =>
      obtain ⟨t, ht, e1, e2⟩ := hlow
      exact ⟨t, ht, by simp only [hits, decide_eq_true_eq]; exact ⟨e1, by omega⟩⟩
    · simp at h
    · next hb =>
      obtain ⟨t, ht, e1, e2⟩ := hhigh
      exact ⟨t, ht, by simp only [hits, decide_eq_true_eq]; exact ⟨e1, by omega⟩⟩
    · simp at h
  have := hpos (ts.filter (fun t => hits t o.side o.price))
    (fun t ht => hq t (List.mem_filter.1 ht).1) t (List.mem_filter.2 ⟨ht, hh⟩)
  unfold smaller
  split <;> omega

example : Ex.last Ex.lin Ex.ops1 (.update (.candle ⟨Ex.d 100, Ex.d 101, Ex.d 94, Ex.d 112, 4⟩))
      (fun s s1 r => Ex.isOk r && match history Ex.lin s
          ([⟨2, Ex.d 112, Ex.d 1, .buy⟩, ⟨4, Ex.d 94, Ex.d 1, .sell⟩].map
            (fun t => .update (.trade t))) with
        | .ok (s2, tr) => tr.all (fun x => Ex.isOk x.2) &&
          decide (openQty s1 1 = 0 ∧ openQty s2 1 = Ex.d 2 ∧ openQty s1 2 = 0 ∧ openQty s2 2 = Ex.d 1)
        | .error _ => false) = true := by decide +kernel

/-- Without such trades the candle touches orders no trade reached: the buy at 95 is filled by a
candle whose low was a buyer's trade. -/
theorem C90_untouched_order_filled : ∃ (c : Cfg) (s s1 s2 : State) (t : Trade) (k : Candle) (o : Limit)
    (ups1 ups2 : List LimitUpdate), Reachable c s ∧ o ∈ s.active ∧ k.low = t.price ∧ t.price ≤ k.high ∧
    step c s (.update (.candle k)) = .ok (s1, .update (.ok ups1)) ∧
    step c s (.update (.trade t)) = .ok (s2, .update (.ok ups2)) ∧
    openQty s1 o.id = 0 ∧ openQty s2 o.id = o.remaining := by
  obtain ⟨s, hr, h⟩ := Ex.after_reach (c := Ex.lin) (ops := Ex.ops1) (p := fun s =>
    match s.active.find? (fun o => o.id == 2), step Ex.lin s (.update (.candle ⟨Ex.d 100, Ex.d 101, Ex.d 94, Ex.d 100, 4⟩)),
        step Ex.lin s (.update (.trade ⟨4, Ex.d 94, Ex.d 2, .buy⟩)) with
    | some o, .ok (s1, .update (.ok _)), .ok (s2, .update (.ok _)) =>
      decide (openQty s1 o.id = 0 ∧ openQty s2 o.id = o.remaining)
    | _, _, _ => false) (by decide +kernel)
  split at h
  · next o s1 u1 s2 u2 h1 h2 h3 =>
    simp only [decide_eq_true_eq] at h
    exact ⟨Ex.lin, s, s1, s2, ⟨4, Ex.d 94, Ex.d 2, .buy⟩, ⟨Ex.d 100, Ex.d 101, Ex.d 94, Ex.d 100, 4⟩,
      o, u1, u2, hr, List.mem_of_find?_eq_some h1, rfl, by decide, h2, h3, h.1, h.2⟩
  · simp at h

end Lfest
