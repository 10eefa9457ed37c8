import Verif.SpecLots
import Verif.Props.WindDown
import Verif.Props.Audit

/-!
# C145: whole lots and admissible prices
-/

namespace Lfest

open Spec Lots

theorem submitLimit_filters {c : Cfg} {s s' : State} {o : NewLimit} {p : Limit}
    (h : submitLimit c s o = .ok (s', .ok p)) :
    quantityOk c.spec.quantityFilter o.qty ∧
    priceOk c.env c.spec.priceFilter o.price (s.ms.mid c.scale) := by
  rcases submitLimit_cases h with ⟨_, _, _, e⟩ | ⟨h1, ⟨_, _, _, e⟩ | ⟨h2, _⟩⟩
  · cases e
  · cases e
  · exact ⟨(quantity_ok h1).1 rfl, (price_ok h2).1 rfl⟩

/-- What a call can do to the fills and the active orders. -/
inductive Turn (c : Cfg) (s s' : State) (op : Op) : Prop
  | matched (u : UpdateArg) (h : op = .update u ∨ op = .checkActive u)
      (h1 : s'.active.Perm (s.active.filterMap (survivor c.env u)))
      (h2 : fills s'.log = (makerFills u s.active).reverse ++ fills s.log)
  | closed (u : UpdateArg) (h : op = .update u) (h1 : s'.active = s.active)
      (h2 : fills s'.log = closingFill s.pos (quotesAfter s.ms u) :: fills s.log)
  | taken (side : Side) (q : Int) (uid : Nat) (h : op = .market side q uid) (h1 : s'.active = s.active)
      (h2 : fills s'.log = ⟨false, side, touchPrice s.ms side, q⟩ :: fills s.log)
      (h3 : quantityOk c.spec.quantityFilter q)
  | quiet (h1 : ∀ o ∈ s'.active, o ∈ s.active ∨ (quantityOk c.spec.quantityFilter o.remaining ∧
      o.filledQuantity = 0 ∧ Admissible c.spec.priceFilter o.price)) (h2 : fills s'.log = fills s.log)

theorem turn {c : Cfg} {s s' : State} {op : Op} {r : Resp} (hr : Reachable c s)
    (hst : step c s op = .ok (s', r)) : Turn c s s' op := by
  have hi := hr.inv
  rcases step_cases hst with ⟨u, u', x, rfl, hb, hu, rfl⟩ | ⟨u, u', rfl, hb, hu, rfl⟩ |
    ⟨err, rfl, rfl⟩ |
    ⟨side, q, uid, x, rfl, _, _, rfl⟩ | ⟨side, p, q, uid, x, rfl, _, _, hsub, rfl⟩ |
    ⟨i, side, p, q, uid, x, rfl, _, _, hamend, rfl⟩ | ⟨b, x, rfl, _, rfl⟩
  · cases x with
    | ok ups =>
      obtain ⟨h1, _, _, h4, _⟩ := update_spec hi hst
      exact .matched u (.inl rfl) h1 h4
    | error err =>
      obtain ⟨_, h2, h3, _⟩ := C30_liquidation_flattens c s s' u err hr hst
      exact .closed u rfl h3 h2
  · obtain ⟨h1, _, h3, _⟩ := checkActive_spec hb hi hu
    exact .matched u (.inr rfl) h1 h3
  · exact .quiet (fun o ho => .inl ho) rfl
  · cases x with
    | ok f =>
      obtain ⟨h1, h2, _, h3, _⟩ := C21_market_order c s s' hr side q uid f hst
      have hq := ((C60_market_order_decision c s s' side q uid _ hr hst).1 ⟨f, rfl⟩).2.1
      exact .taken side q uid rfl h3 h2 hq
    | error err =>
      obtain ⟨h1, _⟩ := C17_rejected_market c s s' side q uid err hst
      have h2 := C03_quiet_calls c s s' _ _ hst (by simp [Spec.quiet])
      exact .quiet (fun o ho => .inl (by rw [h1] at ho; exact ho)) h2
  · have h2 := C03_quiet_calls c s s' _ _ hst (by simp [Spec.quiet])
    cases x with
    | ok n =>
      obtain ⟨h0, h1, _⟩ := C18_accepted_limit c s s' hr side p q uid n hst
      obtain ⟨k1, k2⟩ := submitLimit_filters hsub
      refine .quiet (fun o ho => ?_) h2
      rw [h1] at ho
      rcases List.mem_append.1 ho with ho | ho
      · exact .inl ho
      · rw [List.mem_singleton.1 ho, h0]
        exact .inr ⟨k1, rfl, k2.1, k2.2.1, k2.2.2.1⟩
    | error err =>
      obtain ⟨h1, _⟩ := C17_rejected_limit c s s' hr side p q uid err hst
      exact .quiet (fun o ho => .inl (by rw [h1] at ho; exact ho)) h2
  · have h2 := C03_quiet_calls c s s' _ _ hst (by simp [Spec.quiet])
    refine .quiet ?_ h2
    by_cases hex : ∃ old ∈ s.active, old.id = i
    · obtain ⟨old, hold, rfl⟩ := hex
      obtain ⟨_, h3, h4, _⟩ := C20_amend c s s' hr old hold side p q uid x hst
      cases x with
      | ok n =>
        obtain ⟨_, h5, _, h6⟩ := h3 n rfl
        intro o ho
        rcases List.mem_cons.1 (h6.mem_iff.1 ho) with rfl | ho
        · right
          rcases amendLimit_cases hamend with ⟨_, _, e⟩ | ⟨o1, total, hg, ht, ⟨_, e, _⟩ | ⟨_, k⟩⟩
          · cases e
          · cases e
          · rcases k with ⟨_, _, e⟩ | ⟨s1, y, _, hs⟩
            · cases e
            · obtain ⟨k1, k2⟩ := submitLimit_filters hs
              have hget : s.active.getById old.id = some old := find_by_id hi.nodup hold
              rw [hget] at hg
              cases hg
              have hrem : old.remaining + (q - total) = o.remaining := by
                rw [h5]
                show _ = q - old.filledQuantity
                unfold Limit.totalQuantity at ht
                simp only [bind_ok, ok_inj] at ht
                obtain ⟨_, _, ht⟩ := ht
                unfold Limit.filledQuantity
                cases hfq : old.fq <;> rw [hfq] at ht <;> simp only at ht ⊢ <;> omega
              have hpr : o.price = p := by rw [h5]
              refine ⟨by rw [← hrem]; exact k1, by rw [h5]; rfl, ?_⟩
              rw [hpr]
              exact ⟨k2.1, k2.2.1, k2.2.2.1⟩
        · exact .inl (List.mem_filter.1 ho).1
      | error err =>
        exact fun o ho => .inl (List.mem_filter.1 ((h4 err rfl).mem_iff.1 ho)).1
    · obtain ⟨rfl, _⟩ := C20_amend_unknown c s s' i
        (fun o ho e => hex ⟨o, ho, e⟩) side p q uid x hst
      exact fun o ho => .inl ho
  · have h2 := C03_quiet_calls c s s' _ _ hst (by simp [Spec.quiet])
    refine .quiet ?_ h2
    cases x with
    | ok y =>
      obtain ⟨⟨a, z, h1, _, _, h3⟩, _⟩ := C19_cancel_removes c s s' b y hst
      intro w hw
      left
      rw [h1]
      rcases List.mem_append.1 (h3.mem_iff.1 hw) with h | h
      · exact List.mem_append_left _ h
      · exact List.mem_append_right _ (List.mem_cons_of_mem _ h)
    | error err =>
      have := ((C19_cancel_errors c s s' b _ hst).2 err rfl).1
      rw [this]
      exact fun o ho => .inl ho

/-! ### Lots -/

theorem lots_sum {t : Int} : ∀ xs : List Trade, (∀ x ∈ xs, t ∣ x.qty) → t ∣ tradeSum xs
  | [], _ => Int.dvd_zero _
  | x :: xs, h => Int.dvd_add (h x List.mem_cons_self)
      (lots_sum xs (fun y hy => h y (List.mem_cons_of_mem _ hy)))

theorem lots_smaller {t a b : Int} (ha : t ∣ a) (hb : t ∣ b) : t ∣ smaller a b := by
  unfold smaller; split <;> assumption

theorem lookup_mem {k : Nat} {q : Int} : ∀ {l : List (Nat × Int)}, l.lookup k = some q → (k, q) ∈ l
  | [], h => by cases h
  | (a, b) :: l, h => by
    rw [List.lookup_cons] at h
    split at h
    · next he => cases h; rw [beq_iff_eq.1 he]; exact List.mem_cons_self
    · exact List.mem_cons_of_mem _ (lookup_mem h)

/-- A market of whole lots fills whole lots of whole lots. -/
theorem lots_fill {t : Int} {u : UpdateArg} {o : Limit} {q : Int} (hu : wholeLots t u)
    (ho : t ∣ o.remaining) (h : fillRule u o = some q) : t ∣ q := by
  cases u with
  | bba b => cases h
  | trade x =>
    simp only [fillRule] at h
    split at h
    · cases h; exact lots_smaller hu ho
    · cases h
  | candle k =>
    simp only [fillRule] at h
    split at h <;> split at h <;> cases h <;> exact ho
  | smart xs b pf =>
    simp only [fillRule] at h
    split at h
    · cases h
    · cases h
      exact lots_smaller (lots_sum _ (fun x hx => hu x (List.mem_filter.1 hx).1)) ho
  | custom k =>
    simp only [fillRule] at h
    split at h
    · exact hu _ (lookup_mem h)
    · cases h

theorem lots_net {t : Int} : ∀ fs : List Fill, (∀ f ∈ fs, t ∣ f.qty) → t ∣ netBought fs
  | [], _ => Int.dvd_zero _
  | f :: fs, h => by
    have h1 := h f List.mem_cons_self
    refine Int.dvd_add ?_ (lots_net fs (fun y hy => h y (List.mem_cons_of_mem _ hy)))
    unfold Fill.signed
    split
    · exact h1
    · exact Int.dvd_neg.2 h1

theorem lots_order {f : QuantityFilter} (hmin : f.tickSize ∣ f.minQuantity.getD 0) {q : Int}
    (h : quantityOk f q) : f.tickSize ∣ q := by
  have := Int.dvd_add h.2.2 hmin
  rwa [Int.sub_add_cancel] at this

theorem lots_step {c : Cfg} {s s' : State} {op : Op} {r : Resp} (hr : Reachable c s)
    (hmin : c.spec.quantityFilter.tickSize ∣ c.spec.quantityFilter.minQuantity.getD 0)
    (hop : lotCall c.spec.quantityFilter.tickSize op) (hst : step c s op = .ok (s', r))
    (h1 : ∀ o ∈ s.active, c.spec.quantityFilter.tickSize ∣ o.remaining ∧
      c.spec.quantityFilter.tickSize ∣ o.filledQuantity)
    (h2 : ∀ f ∈ fills s.log, c.spec.quantityFilter.tickSize ∣ f.qty) :
    (∀ o ∈ s'.active, c.spec.quantityFilter.tickSize ∣ o.remaining ∧
      c.spec.quantityFilter.tickSize ∣ o.filledQuantity) ∧
    ∀ f ∈ fills s'.log, c.spec.quantityFilter.tickSize ∣ f.qty := by
  cases turn hr hst with
  | matched u h k1 k2 =>
    have hu : wholeLots c.spec.quantityFilter.tickSize u := by
      rcases h with rfl | rfl <;> exact hop
    constructor
    · intro o' ho'
      obtain ⟨o, ho, hs⟩ := List.mem_filterMap.1 (k1.mem_iff.1 ho')
      obtain ⟨g1, g2⟩ := h1 o ho
      unfold survivor at hs
      split at hs
      · cases hs; exact ⟨g1, g2⟩
      · next q hf =>
        have hq := lots_fill hu g1 hf
        split at hs
        · cases hs
        · cases hs
          exact ⟨Int.dvd_sub g1 hq, Int.dvd_add g2 hq⟩
    · intro f hf
      rw [k2] at hf
      rcases List.mem_append.1 hf with hf | hf
      · rw [List.mem_reverse] at hf
        obtain ⟨o, ho, hs⟩ := List.mem_filterMap.1 hf
        cases hq : fillRule u o with
        | none => rw [hq] at hs; cases hs
        | some q =>
          rw [hq] at hs
          cases hs
          exact lots_fill hu (h1 o ho).1 hq
      · exact h2 f hf
  | closed u h k1 k2 =>
    refine ⟨by rw [k1]; exact h1, fun f hf => ?_⟩
    rw [k2] at hf
    rcases List.mem_cons.1 hf with rfl | hf
    · obtain ⟨ops, ho⟩ := hr
      have hp := (C06_position_quantity c ops s ho).1
      have hd := lots_net _ h2
      rw [← hp] at hd
      unfold closingFill
      split
      · exact hd
      · exact Int.dvd_neg.2 hd
    · exact h2 f hf
  | taken side q uid h k1 k2 k3 =>
    refine ⟨by rw [k1]; exact h1, fun f hf => ?_⟩
    rw [k2] at hf
    rcases List.mem_cons.1 hf with rfl | hf
    · exact lots_order hmin k3
    · exact h2 f hf
  | quiet k1 k2 =>
    refine ⟨fun o ho => ?_, by rw [k2]; exact h2⟩
    rcases k1 o ho with ho | ⟨g1, g2, _⟩
    · exact h1 o ho
    · exact ⟨lots_order hmin g1, by rw [g2]; exact Int.dvd_zero _⟩

/-- C145: if the market only trades multiples of the step size of the quantity filter, then so does
the account. After every history the open and the filled part of every active order, every fill and
the position are multiples of the step size. The minimum quantity, if any, is a multiple itself, as
the constructor of the filter demands. -/
theorem C145_whole_lots (c : Cfg) (ops : List Op) (s : State) (tr : List (Op × Resp))
    (hmin : c.spec.quantityFilter.tickSize ∣ c.spec.quantityFilter.minQuantity.getD 0)
    (hops : ∀ op ∈ ops, lotCall c.spec.quantityFilter.tickSize op)
    (h : history c (State.init c) ops = .ok (s, tr)) :
    (∀ o ∈ s.active, c.spec.quantityFilter.tickSize ∣ o.remaining ∧
      c.spec.quantityFilter.tickSize ∣ o.filledQuantity) ∧
    (∀ f ∈ fills s.log, c.spec.quantityFilter.tickSize ∣ f.qty) ∧
    c.spec.quantityFilter.tickSize ∣ s.pos.quantity := by
  have key : ∀ (ops : List Op) (s s' : State) (tr : List (Op × Resp)), Reachable c s →
      (∀ op ∈ ops, lotCall c.spec.quantityFilter.tickSize op) →
      (∀ o ∈ s.active, c.spec.quantityFilter.tickSize ∣ o.remaining ∧
        c.spec.quantityFilter.tickSize ∣ o.filledQuantity) →
      (∀ f ∈ fills s.log, c.spec.quantityFilter.tickSize ∣ f.qty) →
      history c s ops = .ok (s', tr) →
      (∀ o ∈ s'.active, c.spec.quantityFilter.tickSize ∣ o.remaining ∧
        c.spec.quantityFilter.tickSize ∣ o.filledQuantity) ∧
      ∀ f ∈ fills s'.log, c.spec.quantityFilter.tickSize ∣ f.qty := by
    intro ops
    induction ops with
    | nil =>
      intro s s' tr _ _ h1 h2 h
      simp only [history, ok_inj, Prod.mk.injEq] at h
      obtain ⟨rfl, rfl⟩ := h
      exact ⟨h1, h2⟩
    | cons op ops ih =>
      intro s s' tr hr ha h1 h2 h
      simp only [history, bind_ok, ok_inj, Prod.mk.injEq] at h
      obtain ⟨⟨s1, r⟩, k1, ⟨s2, tr2⟩, k2, rfl, rfl⟩ := h
      obtain ⟨g1, g2⟩ := lots_step hr hmin (ha op List.mem_cons_self) k1 h1 h2
      exact ih s1 s2 tr2 (hr.step k1) (fun x hx => ha x (List.mem_cons_of_mem _ hx)) g1 g2 k2
  obtain ⟨g1, g2⟩ := key ops _ s tr ⟨[], rfl⟩ hops (by intro o ho; cases ho)
    (by intro f hf; cases hf) h
  refine ⟨g1, g2, ?_⟩
  rw [(C06_position_quantity c ops s (history_run h)).1]
  exact lots_net _ g2

/-- C145, the consequence: on such a market a position within the bounds of the quantity filter, any
position if there are no bounds, is a quantity the filter allows. So it can be closed with one market
order and liquidated (C96, C30): neither can fail for the step size. -/
theorem C145_closable (c : Cfg) (ops : List Op) (s : State) (tr : List (Op × Resp))
    (hmin : c.spec.quantityFilter.tickSize ∣ c.spec.quantityFilter.minQuantity.getD 0)
    (hops : ∀ op ∈ ops, lotCall c.spec.quantityFilter.tickSize op)
    (h : history c (State.init c) ops = .ok (s, tr)) (hpos : s.pos ≠ .neutral)
    (hb : within c.spec.quantityFilter.minQuantity c.spec.quantityFilter.maxQuantity
      (Spec.abs s.pos.quantity)) :
    quantityOk c.spec.quantityFilter (Spec.abs s.pos.quantity) := by
  have hd := (C145_whole_lots c ops s tr hmin hops h).2.2
  have h0 : s.pos.quantity ≠ 0 := by
    obtain ⟨k1, _, _, k2⟩ := C06_position_quantity c ops s (history_run h)
    rw [k1]
    exact fun e => hpos (k2.1 e)
  refine ⟨?_, hb, ?_⟩
  · unfold Spec.abs; split <;> omega
  · refine Int.dvd_sub ?_ hmin
    unfold Spec.abs
    split
    · exact hd
    · exact Int.dvd_neg.2 hd

/-! ### Prices -/

/-- C145, the prices of limit orders: whatever the market does, every resting order and every fill of
a limit order has a price that the price filter allows. -/
theorem C145_maker_prices (c : Cfg) (s : State) (hr : Reachable c s) :
    (∀ o ∈ s.active, Admissible c.spec.priceFilter o.price) ∧
    ∀ f ∈ fills s.log, f.maker = true → Admissible c.spec.priceFilter f.price := by
  have key : ∀ (ops : List Op) (s s' : State), Reachable c s →
      (∀ o ∈ s.active, Admissible c.spec.priceFilter o.price) →
      (∀ f ∈ fills s.log, f.maker = true → Admissible c.spec.priceFilter f.price) →
      run c s ops = .ok s' →
      (∀ o ∈ s'.active, Admissible c.spec.priceFilter o.price) ∧
      ∀ f ∈ fills s'.log, f.maker = true → Admissible c.spec.priceFilter f.price := by
    intro ops
    induction ops with
    | nil =>
      intro s s' _ h1 h2 h
      simp only [run, ok_inj] at h
      subst h
      exact ⟨h1, h2⟩
    | cons op ops ih =>
      intro s s' hr h1 h2 h
      simp only [run, bind_ok] at h
      obtain ⟨⟨s1, r⟩, k1, k2⟩ := h
      refine ih s1 s' (hr.step k1) ?_ ?_ k2
      · intro o' ho'
        cases turn hr k1 with
        | matched u h g1 g2 =>
          obtain ⟨o, ho, hs⟩ := List.mem_filterMap.1 (g1.mem_iff.1 ho')
          have : o'.price = o.price := by
            unfold survivor at hs
            split at hs
            · cases hs; rfl
            · split at hs
              · cases hs
              · cases hs; rfl
          rw [this]
          exact h1 o ho
        | closed u h g1 g2 => rw [g1] at ho'; exact h1 o' ho'
        | taken side q uid h g1 g2 g3 => rw [g1] at ho'; exact h1 o' ho'
        | quiet g1 g2 =>
          rcases g1 o' ho' with ho | ⟨_, _, ho⟩
          · exact h1 o' ho
          · exact ho
      · intro f hf hm
        cases turn hr k1 with
        | matched u h g1 g2 =>
          rw [g2] at hf
          rcases List.mem_append.1 hf with hf | hf
          · rw [List.mem_reverse] at hf
            obtain ⟨o, ho, hs⟩ := List.mem_filterMap.1 hf
            cases hq : fillRule u o with
            | none => rw [hq] at hs; cases hs
            | some q =>
              rw [hq] at hs
              cases hs
              exact h1 o ho
          · exact h2 f hf hm
        | closed u h g1 g2 =>
          rw [g2] at hf
          rcases List.mem_cons.1 hf with rfl | hf
          · exfalso
            revert hm
            unfold closingFill
            split <;> simp
          · exact h2 f hf hm
        | taken side q uid h g1 g2 g3 =>
          rw [g2] at hf
          rcases List.mem_cons.1 hf with rfl | hf
          · cases hm
          · exact h2 f hf hm
        | quiet g1 g2 => rw [g2] at hf; exact h2 f hf hm
  obtain ⟨ops, h⟩ := hr
  exact key ops _ s ⟨[], rfl⟩ (by intro o ho; cases ho) (by intro f hf; cases hf) h

theorem priced_fills {c : Cfg} {ops : List Op} {s : State}
    (hops : ∀ u, .update u ∈ ops → ∀ p ∈ quotesOf u, 0 < p → Admissible c.spec.priceFilter p)
    (h : run c (State.init c) ops = .ok s) :
    ∀ f ∈ fills s.log, Admissible c.spec.priceFilter f.price := by
  have quotes : ∀ (u : UpdateArg) (m : MarketState),
      (∀ p ∈ quotesOf u, 0 < p → Admissible c.spec.priceFilter p) →
      (0 < m.bid → Admissible c.spec.priceFilter m.bid) →
      (0 < m.ask → Admissible c.spec.priceFilter m.ask) →
      (0 < (quotesAfter m u).1 → Admissible c.spec.priceFilter (quotesAfter m u).1) ∧
      (0 < (quotesAfter m u).2 → Admissible c.spec.priceFilter (quotesAfter m u).2) := by
    intro u m hq hb ha
    cases u with
    | bba b => exact ⟨hq _ (by simp [quotesOf, quotesAfter]), hq _ (by simp [quotesOf, quotesAfter])⟩
    | trade x => exact ⟨hb, ha⟩
    | candle k => exact ⟨hq _ (by simp [quotesOf, quotesAfter]), hq _ (by simp [quotesOf, quotesAfter])⟩
    | smart xs b pf => exact ⟨hq _ (by simp [quotesOf, quotesAfter]), hq _ (by simp [quotesOf, quotesAfter])⟩
    | custom k =>
      cases hk : k.market with
      | none => simp only [quotesAfter, hk]; exact ⟨hb, ha⟩
      | some x =>
        simp only [quotesAfter, hk]
        exact ⟨hq _ (by simp [quotesOf, hk]), hq _ (by simp [quotesOf, hk])⟩
  have key : ∀ (ops : List Op) (s s' : State), Reachable c s →
      (∀ u, .update u ∈ ops → ∀ p ∈ quotesOf u, 0 < p → Admissible c.spec.priceFilter p) →
      (0 < s.ms.bid → Admissible c.spec.priceFilter s.ms.bid) →
      (0 < s.ms.ask → Admissible c.spec.priceFilter s.ms.ask) →
      (∀ f ∈ fills s.log, Admissible c.spec.priceFilter f.price) →
      run c s ops = .ok s' → ∀ f ∈ fills s'.log, Admissible c.spec.priceFilter f.price := by
    intro ops
    induction ops with
    | nil =>
      intro s s' _ _ _ _ h2 h
      simp only [run, ok_inj] at h
      subst h
      exact h2
    | cons op ops ih =>
      intro s s' hr ho hb ha h2 h
      simp only [run, bind_ok] at h
      obtain ⟨⟨s1, r⟩, k1, k2⟩ := h
      have hr1 := hr.step k1
      have hm : (0 < s1.ms.bid → Admissible c.spec.priceFilter s1.ms.bid) ∧
          (0 < s1.ms.ask → Admissible c.spec.priceFilter s1.ms.ask) := by
        by_cases hu : ∃ u, op = .update u
        · obtain ⟨u, rfl⟩ := hu
          have hq := (C43_update c s s1 u r hr k1).2.2
          have := quotes u s.ms (ho u List.mem_cons_self) hb ha
          rw [← hq] at this
          exact this
        · rw [C43_other_calls c s s1 op r hr (fun u e => hu ⟨u, e⟩) k1]
          exact ⟨hb, ha⟩
      refine ih s1 s' hr1 (fun u hu => ho u (List.mem_cons_of_mem _ hu)) hm.1 hm.2 ?_ k2
      intro f hf
      by_cases hmk : f.maker = true
      · exact (C145_maker_prices c s1 hr1).2 f hf hmk
      · have hpos := (hr1.fill_price f hf).1
        cases turn hr k1 with
        | matched u h g1 g2 =>
          rw [g2] at hf
          rcases List.mem_append.1 hf with hf | hf
          · exfalso
            rw [List.mem_reverse] at hf
            obtain ⟨o, _, hs⟩ := List.mem_filterMap.1 hf
            cases hq : fillRule u o with
            | none => rw [hq] at hs; cases hs
            | some q => rw [hq] at hs; cases hs; exact hmk rfl
          · exact h2 f hf
        | closed u h g1 g2 =>
          rw [g2] at hf
          rcases List.mem_cons.1 hf with rfl | hf
          · subst h
            have := quotes u s.ms (ho u List.mem_cons_self) hb ha
            revert hpos
            unfold closingFill
            split
            · exact fun hpos => this.1 hpos
            · exact fun hpos => this.2 hpos
          · exact h2 f hf
        | taken side q uid h g1 g2 g3 =>
          rw [g2] at hf
          rcases List.mem_cons.1 hf with rfl | hf
          · cases side with
            | buy => exact ha hpos
            | sell => exact hb hpos
          · exact h2 f hf
        | quiet g1 g2 => rw [g2] at hf; exact h2 f hf
  exact key ops _ s ⟨[], rfl⟩ hops (fun h => by cases h) (fun h => by cases h)
    (by intro f hf; cases hf) h

/-- C145, all prices: if the quotes of all market updates are prices that the filter allows, then so is
the price of every fill, also of market orders and liquidations. -/
theorem C145_all_prices (c : Cfg) (ops : List Op) (s : State)
    (hops : ∀ u, .update u ∈ ops → ∀ p ∈ quotesOf u, Admissible c.spec.priceFilter p)
    (h : run c (State.init c) ops = .ok s) :
    ∀ f ∈ fills s.log, Admissible c.spec.priceFilter f.price :=
  priced_fills (fun u hu p hp _ => hops u hu p hp) h

/-- C145, debug builds: they check the prices of quotes, trades and candles, so there every fill has a
price that the filter allows, provided the minimum price is on the grid, as the constructor of the
filter demands, and the maximum price is not zero, which updates take for no maximum. Smart candles and updates of the user's own type answer for themselves. -/
theorem C145_debug_prices (c : Cfg) (ops : List Op) (s : State) (hd : c.env.debug = true)
    (hmin : c.spec.priceFilter.tickSize ∣ c.spec.priceFilter.minPrice.getD 0)
    (hmax : c.spec.priceFilter.maxPrice ≠ some 0)
    (hops : ∀ u, .update u ∈ ops → (∀ xs b f, u ≠ .smart xs b f) ∧ ∀ k, u ≠ .custom k)
    (h : run c (State.init c) ops = .ok s) :
    ∀ f ∈ fills s.log, Admissible c.spec.priceFilter f.price := by
  refine priced_fills (fun u hu p hp hpos => ?_) h
  have hok : updateOk c.spec.priceFilter u := by
    have : ∀ (ops : List Op) (s0 : State), .update u ∈ ops → run c s0 ops = .ok s →
        updateOk c.spec.priceFilter u := by
      intro ops
      induction ops with
      | nil => intro _ h; cases h
      | cons op ops ih =>
        intro s0 hu h
        simp only [run, bind_ok] at h
        obtain ⟨⟨s1, r⟩, k1, k2⟩ := h
        rcases List.mem_cons.1 hu with rfl | hu
        · exact C62_accepted_are_valid c s0 s1 u r hd k1
        · exact ih s1 hu k2
    exact this ops _ hu h
  obtain ⟨h1, h2⟩ := hops u hu
  have grid : updatePrice c.spec.priceFilter p → Admissible c.spec.priceFilter p :=
    fun hg => ⟨hpos, ⟨fun m hm => by rcases hg.1 m hm with h | h <;> omega,
      fun m hm => by
        rcases hg.2.1 m hm with h | h
        · exact absurd (h ▸ hm) hmax
        · exact h⟩, Int.dvd_sub hg.2.2 hmin⟩
  cases u with
  | bba b =>
    simp only [quotesOf, List.mem_cons, List.not_mem_nil, or_false] at hp
    rcases hp with rfl | rfl
    · exact grid hok.1
    · exact grid hok.2.1
  | trade x => cases hp
  | candle k =>
    simp only [quotesOf, List.mem_cons, List.not_mem_nil, or_false] at hp
    rcases hp with rfl | rfl
    · exact grid hok.1.1
    · exact grid hok.1.2.1
  | smart xs b f => exact absurd rfl (h1 xs b f)
  | custom k => exact absurd rfl (h2 k)

/-- Both kinds of orders, partial fills by trades of whole contracts, an amendment and a liquidation. -/
example : (∀ op ∈ Ex.audited, lotCall Ex.linR.spec.quantityFilter.tickSize op) ∧
    (∀ u, .update u ∈ Ex.audited → ∀ p ∈ quotesOf u, Admissible Ex.linR.spec.priceFilter p) ∧
    Ex.linR.spec.quantityFilter.tickSize ∣ Ex.linR.spec.quantityFilter.minQuantity.getD 0 := by
  refine ⟨?_, ?_, by decide +kernel⟩
  · simp only [Ex.audited, List.forall_mem_cons, lotCall, wholeLots, true_and]
    refine ⟨by decide +kernel, by decide +kernel, by simp⟩
  · intro u hu
    simp only [Ex.audited, List.mem_cons, Op.update.injEq, reduceCtorEq, false_or, List.not_mem_nil,
      or_false] at hu
    rcases hu with rfl | rfl | rfl | rfl | rfl <;> decide +kernel

example : (match history Ex.linR (State.init Ex.linR) Ex.audited with
    | .ok (s, _) => decide ((fills s.log).length = 5 ∧ (fills s.log).any (fun f => f.maker))
    | .error _ => false) = true := by decide +kernel

/-- C145, the condition is needed: on a market that trades half a step, an account that only orders whole
steps comes to hold half a step, and the quantity filter does not allow that. -/
theorem C145_half_a_step : ∃ (c : Cfg) (ops : List Op) (s : State) (tr : List (Op × Resp)),
    history c (State.init c) ops = .ok (s, tr) ∧
    c.spec.quantityFilter.tickSize ∣ c.spec.quantityFilter.minQuantity.getD 0 ∧
    ¬ c.spec.quantityFilter.tickSize ∣ s.pos.quantity := by
  let ops : List Op := [.update (.bba ⟨Ex.d 100, Ex.d 101, 1⟩), .limit .buy (Ex.d 99) (Ex.d 3) 1,
    .update (.trade ⟨2, Ex.d 98, 500, .sell⟩)]
  have w : (match history Ex.lin (State.init Ex.lin) ops with
    | .ok (s, _) => decide (¬ Ex.lin.spec.quantityFilter.tickSize ∣ s.pos.quantity)
    | .error _ => false) = true := by decide +kernel
  split at w
  · next s tr h1 => exact ⟨Ex.lin, ops, s, tr, h1, by decide +kernel, of_decide_eq_true w⟩
  · cases w

/-- C145, the quotes must be admissible too: release builds trade at any quotes. -/
theorem C145_odd_quotes : ∃ (c : Cfg) (s : State) (f : Fill), Reachable c s ∧ f ∈ fills s.log ∧
    ¬ Admissible c.spec.priceFilter f.price := by
  let ops : List Op := [.update (.bba ⟨Ex.d 100, Ex.d 101 + 1, 1⟩), .market .buy (Ex.d 1) 1]
  have w : (match run Ex.linR (State.init Ex.linR) ops with
    | .ok s => decide (fills s.log = [⟨false, .buy, Ex.d 101 + 1, Ex.d 1⟩] ∧
        ¬ Admissible Ex.linR.spec.priceFilter (Ex.d 101 + 1))
    | .error _ => false) = true := by decide +kernel
  split at w
  · next s h1 =>
    obtain ⟨h2, h3⟩ := of_decide_eq_true w
    exact ⟨Ex.linR, s, _, ⟨ops, h1⟩, by rw [h2]; exact List.mem_cons_self, h3⟩
  · cases w

end Lfest
