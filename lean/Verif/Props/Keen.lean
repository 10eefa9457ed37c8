import Verif.SpecKeen
import Verif.Props.Cut
import Verif.Props.Margin
import Verif.Props.Orders

/-!
# C127: better prices are filled no later, smaller orders are accepted
-/

namespace Lfest
open Spec

/-! ## Better prices -/

/-- At least as much volume; `none` is without limit. -/
def noMore : Option Int → Option Int → Prop
  | _, none => True
  | none, some _ => False
  | some a, some b => a ≤ b

theorem noMore.plus {a b a' b' : Option Int} (h : noMore a b) (h' : noMore a' b') :
    noMore (Spec.plus a a') (Spec.plus b b') := by
  cases a <;> cases b <;> cases a' <;> cases b' <;> simp_all [noMore, Spec.plus] <;> omega

theorem hits_keen {t : Trade} {side : Side} {p q : Int} (hk : atLeastAsKeen side p q)
    (h : hits t side q = true) : hits t side p = true := by
  cases side <;> simp only [hits, atLeastAsKeen, decide_eq_true_eq] at * <;>
    exact ⟨h.1, by omega⟩

theorem tradeSum_keen {side : Side} {p q : Int} (hk : atLeastAsKeen side p q) :
    ∀ ts : List Trade, (∀ t ∈ ts, 0 ≤ t.qty) →
      tradeSum (ts.filter (fun t => hits t side q)) ≤ tradeSum (ts.filter (fun t => hits t side p))
  | [], _ => Int.le_refl _
  | t :: ts, h => by
    have ih := tradeSum_keen hk ts (fun x hx => h x (by simp [hx]))
    have ht := h t (by simp)
    simp only [List.filter_cons]
    cases hq : hits t side q with
    | true => simp only [hits_keen hk hq, if_true, tradeSum]; omega
    | false =>
      simp only [Bool.false_eq_true, if_false]
      split
      · simp only [tradeSum]; omega
      · exact ih

theorem through_keen {u : UpdateArg} {o p : Limit} (hb : BuiltIn u) (hq : badQuantity u = false)
    (hs : p.side = o.side) (hk : atLeastAsKeen o.side p.price o.price) :
    noMore (through u o) (through u p) := by
  cases u with
  | custom k => exact hb.elim
  | bba b => simp [through, atLeast0, noMore]
  | trade t =>
    simp only [through, hs, atLeast0, noMore, badQuantity, decide_eq_false_iff_not] at hq ⊢
    by_cases h : hits t o.side o.price = true
    · rw [if_pos h, if_pos (hits_keen hk h)]; exact Int.le_refl _
    · rw [if_neg h]; split <;> split <;> (try split) <;> omega
  | candle k =>
    simp only [through, hs]
    cases ho : o.side <;> simp only [ho, atLeastAsKeen] at hk ⊢ <;> split <;> split <;>
      simp_all [noMore, atLeast0] <;> omega
  | smart ts b pf =>
    have := tradeSum_keen hk ts (by
      simp only [badQuantity] at hq
      intro t ht
      have := hq
      grind)
    simp only [through, hs, atLeast0, noMore]
    split <;> split <;> omega

theorem volume_keen {o p : Limit} (hs : p.side = o.side) (hk : atLeastAsKeen o.side p.price o.price) :
    ∀ us : List UpdateArg, (∀ u ∈ us, BuiltIn u ∧ badQuantity u = false) →
      noMore (volumeThrough o us) (volumeThrough p us)
  | [], _ => Int.le_refl 0
  | u :: us, hb =>
    (through_keen (hb u (by simp)).1 (hb u (by simp)).2 hs hk).plus
      (volume_keen hs hk us (fun x hx => hb x (by simp [hx])))

/-- C127: if the same market updates are matched in two histories, the order at the better price is
filled at least as far: no less of it is filled if it is at least as large, and no more of it is open
if it is at most as large. -/
theorem C127_better_prices_first (c : Cfg) (s s' t t' : State) (hs : Reachable c s)
    (ht : Reachable c t) (o p : Limit) (ho : o ∈ s.active) (hp : p ∈ t.active)
    (hside : p.side = o.side) (hk : atLeastAsKeen o.side p.price o.price)
    (ops ops' : List Op) (tr tr' : List (Op × Resp)) (h : history c s ops = .ok (s', tr))
    (h' : history c t ops' = .ok (t', tr')) (hw : ∀ x ∈ tr, withdraws o.id x = false)
    (hw' : ∀ x ∈ tr', withdraws p.id x = false)
    (hsame : tr.filterMap matched = tr'.filterMap matched)
    (hb : ∀ u ∈ tr.filterMap matched, BuiltIn u ∧ badQuantity u = false) :
    (o.remaining ≤ p.remaining →
      o.remaining - openQty s' o.id ≤ p.remaining - openQty t' p.id) ∧
    (p.remaining ≤ o.remaining → openQty t' p.id ≤ openQty s' o.id) := by
  rw [C103_waiting c s s' hs o ho ops tr h hw, C103_waiting c t t' ht p hp ops' tr' h' hw']
  have hv := volume_keen hside hk _ hb
  rw [← passed_matched, hsame, ← passed_matched] at hv
  have r1 := (hs.inv.orders o ho).rem
  have r2 := (ht.inv.orders p hp).rem
  cases h1 : passed o tr with
  | none =>
    cases h2 : passed p tr' with
    | none => simp only [left]; omega
    | some b => rw [h1, h2] at hv; exact hv.elim
  | some a =>
    have ha := passed_nonneg h1
    cases h2 : passed p tr' with
    | none => simp only [left]; split <;> omega
    | some b =>
      rw [h1, h2] at hv
      simp only [noMore] at hv
      simp only [left]
      split <;> split <;> omega

/-- Non-vacuity: a bid of ten at 90 and a bid of ten at 95 see the same two trades; the first is
filled by one of them, the second by both. -/
example :
    let us : List UpdateArg := [.trade ⟨2, Ex.d 92, Ex.d 4, .sell⟩, .trade ⟨3, Ex.d 89, Ex.d 3, .sell⟩]
    let look := fun price quantity => Ex.onward Ex.lin [.update (.bba ⟨Ex.d 99, Ex.d 100, 1⟩),
        .limit .buy price (Ex.d 10) 0] (us.map .update) (fun s s' tr =>
      match s.active with
      | [o] => tr.all (fun x => !withdraws o.id x) && decide (tr.filterMap matched = us ∧
          o.side = .buy ∧ o.price = price ∧ openQty s' o.id = quantity)
      | _ => false)
    look (Ex.d 90) (Ex.d 7) = true ∧ look (Ex.d 95) (Ex.d 3) = true ∧
    atLeastAsKeen .buy (Ex.d 95) (Ex.d 90) ∧ ∀ u ∈ us, BuiltIn u ∧ badQuantity u = false := by
  refine ⟨by decide +kernel, by decide +kernel, by decide, ?_⟩
  intro u hu
  simp only [List.mem_cons, List.not_mem_nil, or_false] at hu
  rcases hu with rfl | rfl <;> exact ⟨trivial, by decide⟩

/-! ## Smaller orders -/

/-- The second of two orders is for at least as much on the same terms. -/
def Outgrows (y : Limit × Limit) : Prop :=
  y.2.side = y.1.side ∧ y.2.price = y.1.price ∧ 0 < y.1.price ∧ 0 ≤ y.1.remaining ∧
    y.1.remaining ≤ y.2.remaining

theorem qtyOf_grows {side : Side} {x x' : Limit × Nat} (hp : x'.1.price = x.1.price)
    (hi : x'.2 = x.2) : ∀ (l : List (Limit × Limit)) (n : Nat), (∀ y ∈ l, Outgrows y) →
    qtyOf (((l.map Prod.fst).zipIdx n).filter (fun y => before side y x)) ≤
      qtyOf (((l.map Prod.snd).zipIdx n).filter (fun y => before side y x'))
  | [], _, _ => Int.le_refl _
  | y :: l, n, h => by
    have ih := qtyOf_grows (side := side) hp hi l (n + 1) (fun z hz => h z (by simp [hz]))
    obtain ⟨_, hy, _, _, hr⟩ := h y (by simp)
    have hb : before side (y.2, n) x' = before side (y.1, n) x := by simp only [before, hp, hi, hy]
    simp only [List.map_cons, List.zipIdx_cons, List.filter_cons, hb] at ih ⊢
    split
    · simp only [qtyOf, List.map_cons, List.sum_cons] at ih ⊢; omega
    · exact ih

theorem total_grows {e : Env} {side : Side} {k : Int} (L : List (Limit × Limit))
    (hL : ∀ y ∈ L, Outgrows y) : ∀ (l : List (Limit × Limit)) (n : Nat), (∀ y ∈ l, Outgrows y) →
    (((l.map Prod.fst).zipIdx n).map
      (fun x => value e (uncovered side k (L.map Prod.fst).zipIdx x) x.1.price)).sum ≤
    (((l.map Prod.snd).zipIdx n).map
      (fun x => value e (uncovered side k (L.map Prod.snd).zipIdx x) x.1.price)).sum
  | [], _, _ => Int.le_refl _
  | y :: l, n, h => by
    have ih := total_grows (e := e) (side := side) (k := k) L hL l (n + 1)
      (fun z hz => h z (by simp [hz]))
    obtain ⟨_, h1, h2, h3, h4⟩ := h y (by simp)
    simp only [List.map_cons, List.zipIdx_cons, List.sum_cons] at ih ⊢
    refine Int.add_le_add ?_ ih
    rw [h1]
    refine value_mono h2 (clip_nonneg h3) ?_
    have := qtyOf_grows (side := side) (x := (y.1, n)) (x' := (y.2, n)) h1 rfl L 0 hL
    exact clip_mono h3 (by dsimp only; omega) h4

theorem sideValue_grows {e : Env} {side : Side} {k : Int} (l : List (Limit × Limit))
    (h : ∀ y ∈ l, Outgrows y) :
    sideValue e side k (l.map Prod.fst) ≤ sideValue e side k (l.map Prod.snd) := by
  have e1 : (l.map Prod.fst).filter (fun o => o.side == side) =
      (l.filter (fun y => y.1.side == side)).map Prod.fst := by
    rw [List.filter_map]; rfl
  have e2 : (l.map Prod.snd).filter (fun o => o.side == side) =
      (l.filter (fun y => y.1.side == side)).map Prod.snd := by
    rw [List.filter_map]
    congr 1
    exact List.filter_congr (fun y hy => by simp only [Function.comp, (h y hy).1])
  unfold sideValue
  rw [e1, e2]
  have h' : ∀ y ∈ l.filter (fun y => y.1.side == side), Outgrows y :=
    fun y hy => h y (List.mem_filter.1 hy).1
  exact total_grows _ h' _ 0 h'

/-- More of the last order needs no less margin. -/
theorem marginReq_grows {c : Cfg} {os : List Limit} {o o' : Limit} {pos : Int}
    (hi : 0 ≤ c.spec.initMarginReq) (hg : GoodOrders os) (h : Outgrows (o, o')) :
    marginReq c (os ++ [o]) pos ≤ marginReq c (os ++ [o']) pos := by
  have h' : ∀ y ∈ os.map (fun x => (x, x)) ++ [(o, o')], Outgrows y := fun y hy => by
    simp only [List.mem_append, List.mem_map, List.mem_singleton] at hy
    rcases hy with ⟨x, hx, rfl⟩ | rfl
    · exact ⟨rfl, rfl, (hg x hx).1, (hg x hx).2, Int.le_refl _⟩
    · exact h
  have hb := fun side k => sideValue_grows (e := c.env) (side := side) (k := k) _ h'
  simp only [List.map_append, List.map_map, Function.comp_def, List.map_cons, List.map_nil,
    List.map_id'] at hb
  have hgo : GoodOrders (os ++ [o]) := fun x hx => by
    rcases List.mem_append.1 hx with hx | hx
    · exact hg x hx
    · simp only [List.mem_singleton] at hx; rw [hx]; exact ⟨h.2.2.1, h.2.2.2.1⟩
  refine share_mono hi ?_ (larger_mono (hb _ _) (hb _ _))
  have h1 := sideValue_nonneg (e := c.env) (side := .buy) (k := larger (-pos) 0) hgo
  have h2 := sideValue_nonneg (e := c.env) (side := .sell) (k := larger pos 0) hgo
  rw [larger]
  split <;> assumption

/-- C127: if a limit order is accepted, so is every smaller one in its place that the quantity filter
allows, and it reserves no more margin. -/
theorem C127_smaller_limit_orders (c : Cfg) (s s' : State) (side : Side) (price q q' : Int)
    (uid uid' : Nat) (o : Limit) (hc : soundConfig c) (hr : Reachable c s) (hline : inLine c s)
    (h : step c s (.limit side price q uid) = .ok (s', .limit (.ok o)))
    (h0 : 0 < q') (hle : q' ≤ q) (hok : quantityOk c.spec.quantityFilter q') :
    ∃ s'' o', step c s (.limit side price q' uid') = .ok (s'', .limit (.ok o')) ∧
      s''.acct.balance .orderMargin ≤ s'.acct.balance .orderMargin ∧
      s'.acct.balance .wallet ≤ s''.acct.balance .wallet := by
  obtain ⟨s'', r, h'⟩ := C66_submit c s side price q' uid' hc hr hline
  obtain ⟨hq0, hp0, hi, hi1, hcap⟩ := hc
  have d := (C59_limit_order_decision c s s' side price q uid _ _ hr hcap h rfl)
  obtain ⟨k1, k2, k3, k4, k5, k6, k7⟩ := d.1.1 ⟨o, rfl⟩
  have ho := d.2 o rfl
  have hg : GoodOrders s.active := fun x hx =>
    ⟨(hr.inv.orders x hx).price, Int.le_of_lt (hr.inv.orders x hx).rem⟩
  have hm := marginReq_grows (pos := s.pos.quantity) hi hg
    (o := ⟨uid', side, price, q', s.nextId, s.ms.ts, .unfilled⟩)
    (o' := ⟨uid, side, price, q, s.nextId, s.ms.ts, .unfilled⟩)
    ⟨rfl, rfl, k1, Int.le_of_lt h0, hle⟩
  have d' := (C59_limit_order_decision c s s'' side price q' uid' _ _ hr hcap h' rfl)
  obtain ⟨o', rfl⟩ := d'.1.2 ⟨k1, h0, hok, k4, Int.le_trans hm k5, k6, k7⟩
  have ho' := d'.2 o' rfl
  obtain ⟨a1, a2, a3, a4⟩ := C25_after_limit c s s' side price q uid o hr hcap h
  obtain ⟨b1, b2, b3, b4⟩ := C25_after_limit c s s'' side price q' uid' o' hr hcap h'
  rw [a1, ho] at a3 a4
  rw [b1, ho'] at b3 b4
  have hge : marginReq c s.active s.pos.quantity ≤
      marginReq c (s.active ++ [⟨uid', side, price, q', s.nextId, s.ms.ts, .unfilled⟩])
        s.pos.quantity := C26_adding_never_lowers c _ _ _ hi (fun x hx => by
    rcases List.mem_append.1 hx with hx | hx
    · exact hg x hx
    · simp only [List.mem_singleton] at hx; rw [hx]; exact ⟨k1, Int.le_of_lt h0⟩)
  unfold inLine at hline
  refine ⟨s'', o', h', ?_⟩
  unfold Spec.abs at a3 a4 b3 b4
  split at a3 <;> split at b3 <;> omega

/-- C127: if a market order is executed, so is every smaller one in its place that the quantity filter
allows, if the call returns. -/
theorem C127_smaller_market_orders (c : Cfg) (s s' s'' : State) (side : Side) (q q' : Int)
    (uid uid' : Nat) (f : FilledMarket) (r : Resp) (hc : soundConfig c) (hr : Reachable c s)
    (hfee : 0 ≤ c.spec.feeTaker) (hp : 0 < touchPrice s.ms side)
    (h : step c s (.market side q uid) = .ok (s', .market (.ok f)))
    (h0 : 0 < q') (hle : q' ≤ q) (hok : quantityOk c.spec.quantityFilter q')
    (h' : step c s (.market side q' uid') = .ok (s'', r)) :
    ∃ f', r = .market (.ok f') := by
  obtain ⟨_, _, hi, _⟩ := hc
  obtain ⟨_, _, ha⟩ := (C60_market_order_decision c s s' side q uid _ hr h).1 ⟨f, rfl⟩
  refine (C60_market_order_decision c s s'' side q' uid' r hr h').2 ⟨h0, hok, ?_⟩
  have hn : ∀ a b : Int, 0 ≤ a → a ≤ b →
      needed c a (touchPrice s.ms side) ≤ needed c b (touchPrice s.ms side) := fun a b ha hb =>
    Int.add_le_add
      (share_mono hi (value_nonneg _ ha (Int.le_of_lt hp)) (value_mono hp ha hb))
      (share_mono hfee (value_nonneg _ ha (Int.le_of_lt hp)) (value_mono hp ha hb))
  unfold marketAllowed at ha ⊢
  dsimp only at ha ⊢
  split
  · rename_i hz
    rw [if_pos hz] at ha
    exact Int.le_trans (hn _ _ (Int.le_of_lt h0) hle) ha
  · rename_i hz
    rw [if_neg hz] at ha
    split
    · trivial
    · rw [if_neg (by omega)] at ha
      exact Int.le_trans (hn _ _ (by omega) (by omega)) ha

/-- Non-vacuity: a limit order for three and one for one; a market order that turns a long position
into a short one, and one that only reduces it. -/
example : Ex.last Ex.lin Ex.ops2 (.limit .buy (Ex.d 90) (Ex.d 3) 0) (fun s _ r =>
      Ex.isOk r && decide (s.acct.balance .orderMargin = marginReq Ex.lin s.active s.pos.quantity ∧
        s.active ≠ [])) = true ∧
    Ex.last Ex.lin Ex.ops2 (.limit .buy (Ex.d 90) (Ex.d 1) 0) (fun _ _ r => Ex.isOk r) = true ∧
    quantityOk Ex.lin.spec.quantityFilter (Ex.d 1) ∧
    Ex.last Ex.lin [.update (.bba ⟨Ex.d 99, Ex.d 100, 1⟩), .market .buy (Ex.d 2) 0]
      (.market .sell (Ex.d 3) 0) (fun s s' r => Ex.isOk r && decide (0 < s.pos.quantity ∧
        s'.pos.quantity < 0 ∧ 0 < touchPrice s.ms .sell)) = true ∧
    Ex.last Ex.lin [.update (.bba ⟨Ex.d 99, Ex.d 100, 1⟩), .market .buy (Ex.d 2) 0]
      (.market .sell (Ex.d 1) 0) (fun _ s' r => Ex.isOk r && decide (0 < s'.pos.quantity)) = true := by
  refine ⟨by decide +kernel, by decide +kernel, ?_, by decide +kernel, by decide +kernel⟩
  unfold quantityOk within onGrid; decide +kernel

end Lfest
