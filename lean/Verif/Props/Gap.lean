import Verif.Lemmas.Gap
import Verif.Lemmas.Leverage
import Verif.Props.Tracker

/-!
# Markets without large gaps: C125
-/

namespace Lfest

open Spec

/-- A fill that closes the position. -/
theorem fill_closed {c : Cfg} {l : Ledger} {f : Fill} (hq : f.qty = opposing l.qty f.side)
    (hp : 0 < f.qty) : (l.fill c f).qty = 0 := by
  have hz : l.qty ≠ 0 := by
    intro h; rw [h] at hq; cases hs : f.side <;> simp [hs, opposing, larger] at hq <;> omega
  have hdir : ¬ ((0 < l.qty ∧ f.side = .buy) ∨ (l.qty < 0 ∧ f.side = .sell)) := by
    rintro (⟨h, hs⟩ | ⟨h, hs⟩) <;> simp only [hs, opposing, larger] at hq <;> split at hq <;> omega
  simp only [Ledger.fill]
  rw [if_neg hz, if_neg hdir]
  dsimp only
  unfold Fill.signed
  cases hs : f.side <;> simp only [hs, opposing, larger] at hq ⊢ <;> split at hq <;> omega

/-- A position is within its maintenance margin at the present quotes and was opened with a cushion,
and no order at rest would close it beyond its liquidation price. -/
structure Steady (c : Cfg) (g d : Int) (s : State) : Prop where
  long : 0 < s.pos.quantity → cushion c g d true ∧ longLimit c s.pos.entryPrice ≤ s.ms.bid ∧
    ∀ o ∈ s.active, longLimit c s.pos.entryPrice ≤ o.price
  short : s.pos.quantity < 0 → cushion c g d false ∧ s.ms.ask ≤ shortLimit c s.pos.entryPrice ∧
    ∀ o ∈ s.active, o.price ≤ shortLimit c s.pos.entryPrice
  large : s.pos.quantity ≠ 0 → 6 * c.env.scale ≤ s.pos.entryPrice * d ∧
    6 * c.env.scale ≤ value c.env (Spec.abs s.pos.quantity) s.pos.entryPrice * d

theorem Steady.flat {c : Cfg} {g d : Int} {s : State} (hq : s.pos.quantity = 0) :
    Steady c g d s := ⟨fun h => by omega, fun h => by omega, fun h => absurd hq h⟩

/-- Calls that leave the position alone. -/
theorem Steady.same {c : Cfg} {g d : Int} {s s' : State} (h : Steady c g d s)
    (hq : s'.pos.quantity = s.pos.quantity) (he : s'.pos.entryPrice = s.pos.entryPrice)
    (hl : 0 < s.pos.quantity → longLimit c s.pos.entryPrice ≤ s'.ms.bid)
    (hs : s.pos.quantity < 0 → s'.ms.ask ≤ shortLimit c s.pos.entryPrice)
    (ho : ∀ o ∈ s'.active, (∃ x ∈ s.active, x.price = o.price) ∨
      (0 < s.pos.quantity → longLimit c s.pos.entryPrice ≤ o.price) ∧
      (s.pos.quantity < 0 → o.price ≤ shortLimit c s.pos.entryPrice)) : Steady c g d s' := by
  refine ⟨?_, ?_, ?_⟩
  · rw [hq, he]
    intro hp
    refine ⟨(h.long hp).1, hl hp, fun o hm => ?_⟩
    rcases ho o hm with ⟨x, hx, e⟩ | e
    · rw [← e]; exact (h.long hp).2.2 x hx
    · exact e.1 hp
  · rw [hq, he]
    intro hp
    refine ⟨(h.short hp).1, hs hp, fun o hm => ?_⟩
    rcases ho o hm with ⟨x, hx, e⟩ | e
    · rw [← e]; exact (h.short hp).2.2 x hx
    · exact e.2 hp
  · rw [hq, he]; exact h.large

/-- A fill that opens a position. -/
theorem Steady.opened {c : Cfg} {g d : Int} {s s' : State} {f : Fill} (hn : s.pos.quantity = 0)
    (hpos : 0 < f.qty) (hb : (Ref.view c s').book = (Ref.view c s).book.fill c f)
    (hm : mayOpen c g d (s'.ms.bid, s'.ms.ask) f.side f.price f.qty)
    (ho : ∀ x ∈ s'.active, match f.side with
        | .buy => longLimit c f.price ≤ x.price
        | .sell => x.price ≤ shortLimit c f.price) : Steady c g d s' := by
  rw [Ledger.fill, if_pos (show (Ref.view c s).book.qty = 0 from hn)] at hb
  have q' : s'.pos.quantity = f.signed := congrArg Ledger.qty hb
  have e' : s'.pos.entryPrice = f.price := congrArg Ledger.entry hb
  obtain ⟨c1, c2, c3, c4⟩ := hm
  have hab : Spec.abs f.signed = f.qty := by
    unfold Fill.signed Spec.abs
    cases f.side <;> simp only <;> split <;> omega
  refine ⟨?_, ?_, ?_⟩
  · rw [q', e']
    intro hp
    cases hs : f.side with
    | buy =>
      simp only [hs, decide_true] at c1 c2 ho
      exact ⟨c1, c2, ho⟩
    | sell => simp only [Fill.signed, hs] at hp; omega
  · rw [q', e']
    intro hp
    cases hs : f.side with
    | buy => simp only [Fill.signed, hs] at hp; omega
    | sell =>
      simp only [hs, reduceCtorEq, decide_false] at c1 c2 ho
      exact ⟨c1, c2, ho⟩
  · rw [q', e', hab]; exact fun _ => ⟨c3, c4⟩

/-- Where the orders come from. -/
theorem Ref.limitOrder_orders (c : Cfg) (x : Ref.Exchange) (side : Side) (p q : Int) (uid : Nat) :
    ∀ o ∈ (x.limitOrder c side p q uid).1.orders, o ∈ x.orders ∨
      (o.price = p ∧ Ref.crossing x.market side p = false) := by
  simp only [Ref.Exchange.limitOrder]
  intro o
  split
  · exact .inl
  · split
    · exact .inl
    · split
      · exact .inl
      · split
        · exact .inl
        · rename_i hx
          split
          · exact .inl
          · intro hm
            rcases List.mem_append.1 hm with hm | hm
            · exact .inl hm
            · simp only [List.mem_singleton] at hm
              exact .inr ⟨by rw [hm], Bool.eq_false_iff.2 hx⟩

theorem Ref.cancel_orders (c : Cfg) (x : Ref.Exchange) (b : CancelBy) :
    (∀ o ∈ (x.cancel c b).1.orders, o ∈ x.orders) ∧ (x.cancel c b).1.market = x.market := by
  unfold Ref.Exchange.cancel
  split
  · exact ⟨fun _ h => h, rfl⟩
  · exact ⟨fun _ h => mem_takeOut h, rfl⟩

/-- A new exit order is on the right side of the liquidation price. -/
theorem exit_price {c : Cfg} {g d : Int} {s : State} {side : Side} {p q : Int} {rest : List Limit}
    (hwf : PosWF s.pos) (h : Steady c g d s) (k : fits c s rest side p q)
    (hx : Ref.crossing s.ms side p = false) :
    (0 < s.pos.quantity → longLimit c s.pos.entryPrice ≤ p) ∧
    (s.pos.quantity < 0 → p ≤ shortLimit c s.pos.entryPrice) := by
  obtain ⟨_, ⟨hn, _⟩ | ⟨hq, ho, _⟩⟩ := k
  · have := hwf.flat_iff.1 hn
    constructor <;> intro _ <;> omega
  · constructor
    · intro hp
      have := (h.long hp).2.1
      cases side with
      | buy => simp only [opposing, larger] at ho; split at ho <;> omega
      | sell =>
        simp only [Ref.crossing, decide_eq_false_iff_not] at hx
        omega
    · intro hp
      have := (h.short hp).2.1
      cases side with
      | buy =>
        simp only [Ref.crossing, decide_eq_false_iff_not] at hx
        omega
      | sell => simp only [opposing, larger] at ho; split at ho <;> omega

/-- The orders that survive an update have the prices they had. -/
theorem survivor_price {e : Env} {a : UpdateArg} {os os' : List Limit}
    (h : os'.Perm (os.filterMap (survivor e a))) :
    ∀ o ∈ os', ∃ x ∈ os, x.price = o.price := by
  intro o ho
  obtain ⟨x, hx, e⟩ := List.mem_filterMap.1 (h.mem_iff.1 ho)
  refine ⟨x, hx, ?_⟩
  unfold survivor at e
  split at e
  · simp only [Option.some.injEq] at e; rw [e]
  · split at e
    · cases e
    · simp only [Option.some.injEq] at e; rw [← e]; rfl

/-- The fills of an update. -/
theorem Steady.fills {c : Cfg} {g d : Int} {s s' : State} {a : UpdateArg} (hr : Reachable c s)
    (hr' : Reachable c s') (hs : Duo c s) (h : Steady c g d s) (hw : wholeFills a s.active)
    (hl : 0 < s.pos.quantity → longLimit c s.pos.entryPrice ≤ s'.ms.bid)
    (hh : s.pos.quantity < 0 → s'.ms.ask ≤ shortLimit c s.pos.entryPrice)
    (kc : opensCalmly c g d s (s'.ms.bid, s'.ms.ask) a)
    (hp : s'.active.Perm (s.active.filterMap (survivor c.env a)))
    (he : Spec.fills s'.log = (makerFills a s.active).reverse ++ Spec.fills s.log) :
    Steady c g d s' := by
  have hb : (Ref.view c s').book = (makerFills a s.active).foldl (Ledger.fill c) (Ref.view c s).book := by
    rw [Duo.book hr', Duo.book hr, he, ledger_foldl]
  have hwf : PosWF s.pos := hr.linv.wf
  have h1 : (makerFills a s.active).length ≤ 1 := by
    by_cases hn : s.pos = .neutral
    · exact (kc hn).1
    · rcases (hs.pair.held hn).2.2 with e | ⟨o, e, _⟩
      · simp [e, makerFills]
      · rw [e]
        exact Nat.le_trans (List.length_filterMap_le _ _) (Nat.le_refl 1)
  have hpr := survivor_price hp
  rcases hs.atMostOne hw h1 with ⟨e1, _⟩ | ⟨o, ho, hfr, e1⟩
  · rw [e1] at hb
    exact h.same (congrArg Ledger.qty hb) (congrArg Ledger.entry hb) hl hh
      (fun o ho => .inl (hpr o ho))
  · rw [e1] at hb
    simp only [List.foldl_cons, List.foldl_nil] at hb
    obtain ⟨_, p2, _⟩ := hs.pair.orders o ho
    by_cases hn : s.pos = .neutral
    · obtain ⟨m1, _, m3⟩ := (kc hn).2 o ho hfr
      refine Steady.opened (hwf.flat_iff.1 hn) p2 hb m1 (fun x hx => ?_)
      obtain ⟨y, hy, e⟩ := hpr x hx
      have := m3 y hy
      rw [← e]
      exact this
    · exact Steady.flat ((congrArg Ledger.qty hb).trans
        (fill_closed (show o.remaining = _ from (hs.exit hn ho).2) p2))

/-- The invariant holds across calls. -/
theorem Steady.step {c : Cfg} {g d : Int} {s s' : State} {op : Op} {r : Resp} (hc : soundConfig c)
    (hr : Reachable c s) (hs : Duo c s) (h : Steady c g d s) (k : bracket c s op)
    (kc : calm c g d s op) (hst : Lfest.step c s op = .ok (s', r)) : Steady c g d s' := by
  have hwf : PosWF s.pos := hr.linv.wf
  have hr' := hr.step hst
  have e := C65_every_call c s s' op r hc.2.2.2.2 hr hst
  have eb : ((Ref.view c s).call c op).1.book = (Ref.view c s').book := by rw [e]
  have eo : ((Ref.view c s).call c op).1.orders = s'.active := by rw [e]; rfl
  have hq0 : (Ref.view c s).book.qty = s.pos.quantity := rfl
  have hl := fun hp => (h.long hp).2.1
  have hh := fun hp => (h.short hp).2.1
  cases op with
  | update a =>
    obtain ⟨_, _, hw, _⟩ := k
    obtain ⟨k1, k2⟩ := kc
    have hms := (C43_update c s s' a r hr hst).2.2
    simp only [Ref.Exchange.call, Prod.mk.injEq] at e
    obtain ⟨_, er⟩ := e
    cases hx : ((Ref.view c s).update c a).2 with
    | ok ups =>
      rw [hx] at er
      rw [← er] at hst
      have hus := update_spec hr.inv hst
      have hbr : ¬ breach c s.pos (quotesAfter s.ms a) := fun hb => by
        have := (C29_liquidation_iff_breach c s s' a _ hr hst).1.2 hb
        simp at this
      rw [← hms] at hbr k2
      simp only [breach, not_or, not_and, Int.not_lt] at hbr
      exact h.fills hr hr' hs hw hbr.1 hbr.2 k2 hus.1 hus.2.2.2.1
    | error err =>
      refine Steady.flat ((congrArg Ledger.qty eb).symm.trans ?_)
      simp only [Ref.Exchange.call, Ref.Exchange.update] at hx ⊢
      split at hx
      · rename_i hu
        rw [if_pos hu]
        simp only [Ref.Exchange.underwater, decide_eq_true_eq] at hu
        simp only [Ref.Exchange.fill]
        by_cases hq : 0 < (Ref.view c s).book.qty
        · rw [if_pos hq]
          exact fill_closed (by simp only [opposing, larger]; split <;> omega) hq
        · rw [if_neg hq]
          exact fill_closed (by simp only [opposing, larger]; split <;> omega) (by dsimp only; omega)
      · cases hx
  | checkActive a =>
    obtain ⟨_, _, _, hw⟩ := k
    have hms := C43_other_calls c s s' _ r hr (by intro u; simp) hst
    simp only [Lfest.step, bind_ok, ok_inj, Prod.mk.injEq] at hst
    obtain ⟨u, hbu, s2, h2, rfl, _⟩ := hst
    have hcs := checkActive_spec hbu hr.inv h2
    simp only [calm] at kc
    rw [← hms] at kc hl hh
    exact h.fills hr hr' hs hw hl hh kc hcs.1 hcs.2.2.1
  | market side q uid =>
    obtain ⟨ka, k1, k2, k3, _⟩ := k
    have hms := C43_other_calls c s s' _ r hr (by intro u; simp) hst
    have hkeep : (Ref.view c s').book = (Ref.view c s).book →
        ((Ref.view c s).call c (.market side q uid)).1.orders = s.active → Steady c g d s' :=
      fun hb ho => h.same (congrArg Ledger.qty hb) (congrArg Ledger.entry hb)
        (by rw [hms]; exact hl) (by rw [hms]; exact hh) (fun o hm => by
          rw [← eo, ho] at hm; exact .inl ⟨o, hm, rfl⟩)
    simp only [Ref.Exchange.call] at eb eo hkeep
    by_cases hq : q ≤ 0
    · rw [if_pos hq] at eb hkeep; exact hkeep eb.symm rfl
    rw [if_neg hq] at eb eo hkeep
    simp only [Ref.Exchange.marketOrder] at eb eo hkeep
    split at eb
    · rename_i hqe; simp only [hqe] at hkeep; exact hkeep eb.symm rfl
    · rename_i hqe
      simp only [hqe] at eo hkeep
      split at eb
      · rename_i haf
        rw [if_pos haf] at eo
        have eo : s'.active = s.active := eo.symm
        simp only [Ref.Exchange.fill] at eb
        by_cases hn : s.pos = .neutral
        · simp only [calm, if_pos hn] at kc
          rw [← hms] at kc
          refine Steady.opened (f := ⟨false, side, touchPrice s'.ms side, q⟩) (hwf.flat_iff.1 hn)
            (by dsimp only; omega) (by rw [hms]; exact eb.symm) kc (fun x hx => ?_)
          rw [eo, ka] at hx
          cases hx
        · simp only [calm, if_neg hn] at kc
          refine Steady.flat ((congrArg Ledger.qty eb).symm.trans
            (fill_closed ?_ (by dsimp only; omega)))
          rcases k2 with k2 | k2
          · exact absurd k2 hn
          · rw [hq0, kc]
            exact (opposing_eq_abs k2).symm
      · rename_i haf
        rw [if_neg haf] at hkeep
        exact hkeep eb.symm rfl
  | cancel b =>
    have hms := C43_other_calls c s s' _ r hr (by intro u; simp) hst
    simp only [Ref.Exchange.call, Ref.cancel_book] at eb
    simp only [Ref.Exchange.call] at eo
    refine h.same (congrArg Ledger.qty eb).symm (congrArg Ledger.entry eb).symm
      (by rw [hms]; exact hl) (by rw [hms]; exact hh) (fun o hm => .inl ⟨o, ?_, rfl⟩)
    rw [← eo] at hm
    exact (Ref.cancel_orders c (Ref.view c s) b).1 o hm
  | limit side p q uid =>
    have hms := C43_other_calls c s s' _ r hr (by intro u; simp) hst
    have hb : (Ref.view c s').book = (Ref.view c s).book := by
      rw [← eb]
      simp only [Ref.Exchange.call]
      split
      · rfl
      · split
        · rfl
        · exact Ref.limitOrder_book ..
    refine h.same (congrArg Ledger.qty hb) (congrArg Ledger.entry hb)
      (by rw [hms]; exact hl) (by rw [hms]; exact hh) (fun o hm => ?_)
    rw [← eo] at hm
    simp only [Ref.Exchange.call] at hm
    split at hm
    · exact .inl ⟨o, hm, rfl⟩
    · split at hm
      · exact .inl ⟨o, hm, rfl⟩
      · rcases Ref.limitOrder_orders c _ _ _ _ _ o hm with hm | ⟨rfl, hx⟩
        · exact .inl ⟨o, hm, rfl⟩
        · exact .inr (exit_price hwf h k hx)
  | amend id side p q uid =>
    have hms := C43_other_calls c s s' _ r hr (by intro u; simp) hst
    have hb : (Ref.view c s').book = (Ref.view c s).book := by
      rw [← eb]
      simp only [Ref.Exchange.call]
      split
      · rfl
      · split
        · rfl
        · simp only [Ref.Exchange.amend]
          split
          · rfl
          · split
            · exact Ref.cancel_book ..
            · rw [Ref.limitOrder_book, Ref.cancel_book]
    refine h.same (congrArg Ledger.qty hb) (congrArg Ledger.entry hb)
      (by rw [hms]; exact hl) (by rw [hms]; exact hh) (fun o hm => ?_)
    rw [← eo] at hm
    simp only [Ref.Exchange.call] at hm
    split at hm
    · exact .inl ⟨o, hm, rfl⟩
    · split at hm
      · exact .inl ⟨o, hm, rfl⟩
      · simp only [Ref.Exchange.amend] at hm
        obtain ⟨hco, hcm⟩ := Ref.cancel_orders c (Ref.view c s) (.orderId id)
        split at hm
        · exact .inl ⟨o, hm, rfl⟩
        · rename_i old hf
          split at hm
          · exact .inl ⟨o, hco o hm, rfl⟩
          · rcases Ref.limitOrder_orders c _ _ _ _ _ o hm with hm | ⟨rfl, hx⟩
            · exact .inl ⟨o, hco o hm, rfl⟩
            · rw [hcm] at hx
              have hid : old.id = id := by simpa using List.find?_some hf
              exact .inr (exit_price hwf h (k ⟨old, List.mem_of_find?_eq_some hf, hid⟩) hx)

/-- A position with a cushion is covered by its margin at a price that is at most the fraction `g`
beyond its liquidation price. -/
theorem Steady.covered {c : Cfg} {g d : Int} {s : State} {B P : Int} (hc : soundConfig c)
    (h0 : 0 ≤ c.spec.feeTaker) (h1 : c.spec.feeTaker ≤ c.env.scale)
    (hm0 : 0 ≤ c.spec.maintenanceMargin) (hm1 : c.spec.maintenanceMargin ≤ c.env.scale)
    (hg0 : 0 ≤ g) (hg1 : g ≤ c.env.scale) (hd : 0 ≤ d) (hs : Duo c s)
    (h : Steady c g d s) (hn : s.pos.quantity ≠ 0) (hb : 0 < P)
    (hlo : 0 < s.pos.quantity → longLimit c s.pos.entryPrice ≤ B ∧
      B * (c.env.scale - g) ≤ P * c.env.scale)
    (hhi : s.pos.quantity < 0 → B ≤ shortLimit c s.pos.entryPrice ∧
      P * c.env.scale ≤ B * (c.env.scale + g)) :
    0 ≤ leftOver c s P c.spec.feeTaker := by
  have hS := scale_pos c.env
  obtain ⟨hE, hV⟩ := h.large hn
  have hE0 : 0 < s.pos.entryPrice := Int.pos_of_mul_pos_left (b := d) (by omega) (by
    rcases Int.lt_or_eq_of_le hd with h | h
    · exact h
    · rw [← h] at hE; simp at hE; omega)
  have hQ : 0 < Spec.abs s.pos.quantity := by unfold Spec.abs; split <;> omega
  have hVn : 0 ≤ value c.env (Spec.abs s.pos.quantity) s.pos.entryPrice :=
    value_nonneg _ (Int.le_of_lt hQ) (Int.le_of_lt hE0)
  have hc' := hc
  obtain ⟨_, _, hi0, hi1, _⟩ := hc
  have sf := Duo.safe (price := P) hc' hs hb h0
  rw [show c.scale = c.env.scale from rfl] at sf
  by_cases hp : 0 < s.pos.quantity
  · obtain ⟨hl, g1⟩ := hlo hp
    have hcu := (h.long hp).1
    have t := (tdiv_bounds (x := s.pos.entryPrice * (c.env.scale - c.spec.maintenanceMargin))
      (Int.mul_nonneg (by omega) (by omega)) hS).2.1
    have hlow := gap_low hS hg0 hg1 (E := s.pos.entryPrice) (m := c.spec.maintenanceMargin)
      (B := B) (P := P) (by
        have : longLimit c s.pos.entryPrice * c.env.scale ≤ B * c.env.scale :=
          Int.mul_le_mul_of_nonneg_right hl (by omega)
        unfold longLimit at this
        rw [Int.add_mul]; omega) g1
    simp only [cushion] at hcu
    cases hk : c.env.kind with
    | linear =>
      simp only [hk] at hcu
      refine sf.1 (by simp only [boundedLoss, hk]; omega) ?_
      have v := tdiv_bounds (x := Spec.abs s.pos.quantity * s.pos.entryPrice)
        (Int.mul_nonneg (by omega) (by omega)) hS
      have n := tdiv_bounds (x := Spec.abs s.pos.quantity * P)
        (Int.mul_nonneg (by omega) (by omega)) hS
      simp only [value, hk] at hV ⊢
      exact gap_linear_long hS hi1 h0 h1 hQ hE0 hd hlow hcu v.1 (by rw [Int.add_mul]; omega) hE hV
    | inverse =>
      simp only [hk] at hcu
      refine sf.2 (by simp only [boundedLoss, hk]; omega) ?_
      have v := tdiv_bounds (x := Spec.abs s.pos.quantity * c.env.scale)
        (Int.mul_nonneg (by omega) (by omega)) hE0
      have n := tdiv_bounds (x := Spec.abs s.pos.quantity * c.env.scale)
        (Int.mul_nonneg (by omega) (by omega)) hb
      simp only [value, hk] at hV ⊢
      exact gap_inverse_long hS hi0 hi1 hm0 hm1 hg0 hg1 h0 hQ hE0 hb hd hlow hcu v.1
        (by rw [Int.add_mul]; omega) n.1 hE hV
  · obtain ⟨hl, g2⟩ := hhi (by omega)
    have hcu := (h.short (by omega)).1
    have t := (tdiv_bounds (x := s.pos.entryPrice * (c.env.scale + c.spec.maintenanceMargin))
      (Int.mul_nonneg (by omega) (by omega)) hS).1
    have hhigh := gap_high hS hg0 (E := s.pos.entryPrice) (m := c.spec.maintenanceMargin)
      (B := B) (P := P) (by
        have : B * c.env.scale ≤ shortLimit c s.pos.entryPrice * c.env.scale :=
          Int.mul_le_mul_of_nonneg_right hl (by omega)
        unfold shortLimit at this
        omega) g2
    simp only [cushion] at hcu
    cases hk : c.env.kind with
    | linear =>
      simp only [hk] at hcu
      refine sf.2 (by simp only [boundedLoss, hk]; omega) ?_
      have v := tdiv_bounds (x := Spec.abs s.pos.quantity * s.pos.entryPrice)
        (Int.mul_nonneg (by omega) (by omega)) hS
      have n := tdiv_bounds (x := Spec.abs s.pos.quantity * P)
        (Int.mul_nonneg (by omega) (by omega)) hS
      simp only [value, hk] at hV ⊢
      exact gap_linear_short hS hi0 hi1 h0 hQ hE0 hd hhigh hcu (by rw [Int.add_mul]; omega) v.1
        n.1 hV
    | inverse =>
      simp only [hk] at hcu
      refine sf.1 (by simp only [boundedLoss, hk]; omega) ?_
      have v := tdiv_bounds (x := Spec.abs s.pos.quantity * c.env.scale)
        (Int.mul_nonneg (by omega) (by omega)) hE0
      have n := tdiv_bounds (x := Spec.abs s.pos.quantity * c.env.scale)
        (Int.mul_nonneg (by omega) (by omega)) hb
      simp only [value, hk] at hV hVn ⊢
      exact gap_inverse_short hS hi1 hm0 hg0 h0 h1 hQ hE0 hb hVn hd hhigh hcu v.1
        (by rw [Int.add_mul]; omega) hV

/-- Under the invariant, calm calls lose no more than the margin. -/
theorem Steady.within {c : Cfg} {g d : Int} {s : State} {op : Op} (hc : soundConfig c)
    (hmk : c.spec.feeMaker ≤ c.spec.feeTaker)
    (h0 : 0 ≤ c.spec.feeTaker) (h1 : c.spec.feeTaker ≤ c.env.scale)
    (hm0 : 0 ≤ c.spec.maintenanceMargin) (hm1 : c.spec.maintenanceMargin ≤ c.env.scale)
    (hg0 : 0 ≤ g) (hg1 : g ≤ c.env.scale) (hd : 0 ≤ d) (hk0 : 0 ≤ c.spec.feeMaker)
    (hr : Reachable c s) (hs : Duo c s)
    (h : Steady c g d s) (k : bracket c s op) (kc : calm c g d s op) :
    withinMargin c s op := by
  have hflat : s.pos = .neutral ↔ s.pos.quantity = 0 := hr.linv.wf.flat_iff
  have hstill : ∀ x : Int, 0 < x → x * (c.env.scale - g) ≤ x * c.env.scale ∧
      x * c.env.scale ≤ x * (c.env.scale + g) := fun x hx => by
    have := Int.mul_nonneg (Int.le_of_lt hx) hg0
    constructor <;> grind
  have hpaid : ∀ q a, opensCalmly c g d s q a → paidFills c s a := fun q a ko => by
    by_cases hn : s.pos = .neutral
    · exact ⟨(ko hn).1, fun o ho hf => by rw [if_pos hn]; exact ((ko hn).2 o ho hf).2.1⟩
    · refine ⟨?_, fun o ho hf => ?_⟩
      · rcases (hs.pair.held hn).2.2 with e | ⟨o, e, _⟩
        · simp [e, makerFills]
        · rw [e]
          exact Nat.le_trans (List.length_filterMap_le _ _) (Nat.le_refl 1)
      · rw [if_neg hn]
        obtain ⟨p1, _⟩ := hs.pair.orders o ho
        have hcv := h.covered (B := o.price) (P := o.price) hc h0 h1 hm0 hm1 hg0 hg1 hd hs
          (fun e => hn (hflat.2 e)) p1
          (fun hp => ⟨(h.long hp).2.2 o ho, (hstill _ p1).1⟩)
          (fun hp => ⟨(h.short hp).2.2 o ho, (hstill _ p1).2⟩)
        have hv := value_nonneg c.env (q := Spec.abs s.pos.quantity) (p := o.price)
          (by unfold Spec.abs; split <;> omega) (Int.le_of_lt p1)
        have hf : share c.env (value c.env (Spec.abs s.pos.quantity) o.price) c.spec.feeMaker ≤
            share c.env (value c.env (Spec.abs s.pos.quantity) o.price) c.spec.feeTaker :=
          tdiv_mono (scale_pos c.env) (Int.mul_nonneg hv hk0) (Int.mul_le_mul_of_nonneg_left hmk hv)
        unfold leftOver at hcv ⊢
        omega
  cases op with
  | update a =>
    refine ⟨hpaid _ a kc.2, fun hb => ?_⟩
    have hn : s.pos.quantity ≠ 0 := by
      rcases hb with ⟨h, _⟩ | ⟨h, _⟩ <;> omega
    have hnn : s.pos ≠ .neutral := fun e => hn (hflat.1 e)
    have hl := hs.live (.inl hnn)
    have hpos : 0 < (quotesAfter s.ms a).1 ∧ 0 < (quotesAfter s.ms a).2 := by
      rcases quotes_positive (ms := s.ms) k.1.2.2 with e | e
      · rw [e]; exact hl
      · exact e
    obtain ⟨n1, n2⟩ := kc.1 hnn
    unfold exitPrice
    split
    · rename_i hp
      exact h.covered (B := s.ms.bid) hc h0 h1 hm0 hm1 hg0 hg1 hd hs hn hpos.1
        (fun hp => ⟨(h.long hp).2.1, n1⟩) (fun hq => by omega)
    · exact h.covered (B := s.ms.ask) hc h0 h1 hm0 hm1 hg0 hg1 hd hs hn hpos.2
        (fun hq => by omega) (fun hp => ⟨(h.short hp).2.1, n2⟩)
  | checkActive a => exact hpaid _ a kc
  | market side q uid =>
    intro hn
    have hl := hs.live (.inl hn)
    simp only [calm, if_neg hn] at kc
    have hn : s.pos.quantity ≠ 0 := fun e => hn (hflat.2 e)
    refine ⟨kc, ?_⟩
    unfold exitPrice
    split
    · exact h.covered (B := s.ms.bid) hc h0 h1 hm0 hm1 hg0 hg1 hd hs hn hl.1
        (fun hp => ⟨(h.long hp).2.1, (hstill _ hl.1).1⟩) (fun hq => by omega)
    · exact h.covered (B := s.ms.ask) hc h0 h1 hm0 hm1 hg0 hg1 hd hs hn hl.2
        (fun hq => by omega) (fun hp => ⟨(h.short hp).2.1, (hstill _ hl.2).2⟩)
  | cancel b => trivial
  | limit side p q uid => trivial
  | amend id side p q uid => trivial

/-- C125: with market and limit orders that open a position on margin or close it, a strategy never
panics and never owes money on a market whose quotes, while there is a position, move against it by no
more than `g` from one update to the next, if the margin left beyond the maintenance margin covers
such a move and the fee. Liquidation then always comes in time. -/
theorem C125_no_gaps (c : Cfg) (ops : List Op) (g slack : Int) (hc : soundConfig c)
    (hstart : 0 ≤ c.start) (hmk : 0 ≤ c.spec.feeMaker)
    (hmt : c.spec.feeMaker ≤ c.spec.feeTaker)
    (h0 : 0 ≤ c.spec.feeTaker) (h1 : c.spec.feeTaker ≤ c.env.scale)
    (hm0 : 0 ≤ c.spec.maintenanceMargin) (hm1 : c.spec.maintenanceMargin ≤ c.env.scale)
    (hg0 : 0 ≤ g) (hg1 : g ≤ c.env.scale) (hslack : 0 ≤ slack)
    (hf : bracketed c (State.init c) ops)
    (hcalm : ∀ pre op suf s, ops = pre ++ op :: suf → run c (State.init c) pre = .ok s →
      calm c g slack s op) :
    ∃ s, run c (State.init c) ops = .ok s ∧ 0 ≤ s.acct.balance .wallet ∧
      s.pos.outstandingFees ≤ s.acct.balance .wallet := by
  refine C123_within_margin c ops hc hstart hmk h0 hf ?_
  suffices h : ∀ (ops : List Op) (s : State), Reachable c s → Duo c s →
      Steady c g slack s → bracketed c s ops →
      (∀ pre op suf s', ops = pre ++ op :: suf → run c s pre = .ok s' → calm c g slack s' op) →
      ∀ pre op suf s', ops = pre ++ op :: suf → run c s pre = .ok s' → withinMargin c s' op from
    h ops _ ⟨[], rfl⟩ (Duo.init c) (Steady.flat rfl) hf hcalm
  intro ops
  induction ops with
  | nil => intro s _ _ _ _ _ pre op suf s' e; simp at e
  | cons o ops ih =>
    intro s hr hs h hf hcalm pre op suf s' e hrun
    have k := hcalm [] o ops s rfl rfl
    cases pre with
    | nil =>
      simp only [List.nil_append, List.cons.injEq] at e
      simp only [run, ok_inj] at hrun
      rw [← hrun, ← e.1]
      exact h.within hc hmt h0 h1 hm0 hm1 hg0 hg1 hslack hmk hr hs hf.1 k
    | cons x pre =>
      simp only [List.cons_append, List.cons.injEq] at e
      obtain ⟨rfl, e⟩ := e
      simp only [run, bind_ok] at hrun
      obtain ⟨⟨s1, r⟩, e1, e2⟩ := hrun
      have hs1 : Duo c s1 := Duo.run hc [o] s s1 hr hs ⟨hf.1, fun _ _ _ => trivial⟩ (by
        simp only [run, e1, bind, Except.bind])
      have h' := h.step hc hr hs hf.1 k e1
      exact ih s1 (hr.step e1) hs1 h' (hf.2 s1 r e1) (fun pre o' suf s' e h =>
        hcalm (o :: pre) o' suf s' (by simp [e]) (by simp only [run, e1, bind, Except.bind, h]))
        pre op suf s' e e2

/-- A long position of three times the balance, with a fifth of its value as margin, falls by a few
percent at a time until it is liquidated; a short one rises until it is liquidated; another one is
closed. -/
def Ex.gradual : List Op :=
  [.update (.bba ⟨Ex.d 99, Ex.d 100, 1⟩), .market .buy (Ex.d 30) 0,
   .update (.bba ⟨Ex.d 95, Ex.d 96, 2⟩), .update (.bba ⟨Ex.d 91, Ex.d 92, 3⟩),
   .update (.bba ⟨Ex.d 87, Ex.d 88, 4⟩), .update (.bba ⟨Ex.d 50, Ex.d 51, 5⟩),
   .market .sell (Ex.d 20) 1, .update (.bba ⟨Ex.d 52, Ex.d 53, 6⟩),
   .update (.bba ⟨Ex.d 54, Ex.d 55, 7⟩), .update (.bba ⟨Ex.d 55, Ex.d 57, 8⟩),
   .market .sell (Ex.d 10) 2, .update (.bba ⟨Ex.d 53, Ex.d 54, 9⟩), .market .buy (Ex.d 10) 3]

example : soundConfig Ex.margined ∧ 0 ≤ Ex.margined.start ∧
    0 < Ex.margined.spec.feeTaker ∧ Ex.margined.spec.feeTaker ≤ Ex.margined.env.scale ∧
    bracketed Ex.margined (State.init Ex.margined) Ex.gradual ∧
    (∀ pre op suf s, Ex.gradual = pre ++ op :: suf →
      run Ex.margined (State.init Ex.margined) pre = .ok s → calm Ex.margined 5000 1000 s op) ∧
    Ex.after Ex.margined Ex.gradual (fun s => decide (
      (fills s.log).reverse.map (fun f => (f.side, f.price)) = [(.buy, Ex.d 100), (.sell, Ex.d 87),
        (.sell, Ex.d 50), (.buy, Ex.d 57), (.sell, Ex.d 55), (.buy, Ex.d 54)])) = true :=
  ⟨by unfold soundConfig; decide, by decide, by decide, by decide,
    Ex.brackets_sound (by decide +kernel),
    fun pre op suf s e h => of_decide_eq_true (Ex.each_sound
      (p := fun s op => decide (calm Ex.margined 5000 1000 s op)) (by decide +kernel) pre op suf s e h),
    by decide +kernel⟩

/-- A position opened by a bid, closed by the offer next to it; a short one opened by an offer, whose
exit is moved and then taken back, before it is liquidated. -/
def Ex.patient : List Op :=
  [.update (.bba ⟨Ex.d 99, Ex.d 100, 1⟩), .limit .buy (Ex.d 98) (Ex.d 20) 0,
   .limit .sell (Ex.d 101) (Ex.d 20) 1, .update (.trade ⟨2, Ex.d 97, Ex.d 20, .sell⟩),
   .update (.bba ⟨Ex.d 96, Ex.d 97, 3⟩), .update (.trade ⟨4, Ex.d 102, Ex.d 30, .buy⟩),
   .limit .sell (Ex.d 100) (Ex.d 10) 2, .update (.candle ⟨Ex.d 100, Ex.d 101, Ex.d 100, Ex.d 101, 5⟩),
   .limit .buy (Ex.d 95) (Ex.d 10) 3, .amend 3 .buy (Ex.d 97) (Ex.d 10) 3,
   .cancel (.orderId 4), .update (.bba ⟨Ex.d 104, Ex.d 105, 6⟩),
   .update (.bba ⟨Ex.d 108, Ex.d 109, 7⟩), .update (.bba ⟨Ex.d 110, Ex.d 111, 8⟩)]

example : Ex.margined.spec.feeMaker ≤ Ex.margined.spec.feeTaker ∧
    bracketed Ex.margined (State.init Ex.margined) Ex.patient ∧
    (∀ pre op suf s, Ex.patient = pre ++ op :: suf →
      run Ex.margined (State.init Ex.margined) pre = .ok s → calm Ex.margined 5000 1000 s op) ∧
    Ex.after Ex.margined Ex.patient (fun s => decide (s.pos = .neutral ∧
      (fills s.log).reverse.map (fun f => (f.maker, f.side, f.price)) =
        [(true, .buy, Ex.d 98), (true, .sell, Ex.d 101), (true, .sell, Ex.d 100),
          (false, .buy, Ex.d 111)])) = true :=
  ⟨by decide, Ex.brackets_sound (by decide +kernel),
    fun pre op suf s e h => of_decide_eq_true (Ex.each_sound
      (p := fun s op => decide (calm Ex.margined 5000 1000 s op)) (by decide +kernel) pre op suf s e h),
    by decide +kernel⟩

/-- The same in inverse contracts. -/
def Ex.marginedInverse : Cfg :=
  { Ex.inv with spec := { Ex.inv.spec with initMarginReq := 20000, maintenanceMargin := 10000 } }

example : soundConfig Ex.marginedInverse ∧
    bracketed Ex.marginedInverse (State.init Ex.marginedInverse) Ex.gradual ∧
    (∀ pre op suf s, Ex.gradual = pre ++ op :: suf →
      run Ex.marginedInverse (State.init Ex.marginedInverse) pre = .ok s →
      calm Ex.marginedInverse 5000 1000 s op) :=
  ⟨by unfold soundConfig; decide, Ex.brackets_sound (by decide +kernel),
    fun pre op suf s e h => of_decide_eq_true (Ex.each_sound
      (p := fun s op => decide (calm Ex.marginedInverse 5000 1000 s op))
      (by decide +kernel) pre op suf s e h)⟩

/-- C125, sharpness: the market must not jump. With the same margins and the same orders, one jump
past the margin of a position makes the exchange panic. -/
theorem C125_jump_panics : ∃ (c : Cfg) (g slack : Int) (ops : List Op), soundConfig c ∧
    0 ≤ c.start ∧ 0 ≤ c.spec.feeMaker ∧ c.spec.feeMaker ≤ c.spec.feeTaker ∧
    0 ≤ c.spec.feeTaker ∧ c.spec.feeTaker ≤ c.env.scale ∧
    0 ≤ c.spec.maintenanceMargin ∧ c.spec.maintenanceMargin ≤ c.env.scale ∧
    0 < g ∧ g ≤ c.env.scale ∧ 0 ≤ slack ∧ bracketed c (State.init c) ops ∧
    (∀ pre op suf s, ops = pre ++ op :: suf → run c (State.init c) pre = .ok s →
      (match op with | .update _ => True | _ => calm c g slack s op)) ∧
    run c (State.init c) ops = .error .walletNegative :=
  ⟨Ex.margined, 5000, 1000,
    [.update (.bba ⟨Ex.d 99, Ex.d 100, 1⟩), .market .buy (Ex.d 40) 0,
      .update (.bba ⟨Ex.d 70, Ex.d 71, 2⟩), .update (.trade ⟨3, Ex.d 70, Ex.d 1, .buy⟩)],
    by unfold soundConfig; decide, by decide, by decide, by decide, by decide, by decide, by decide,
    by decide, by decide, by decide, by decide, Ex.brackets_sound (by decide +kernel),
    fun pre op suf s e h => by
      have := Ex.each_sound (p := fun s op => match op with
        | .update _ => true
        | op => decide (calm Ex.margined 5000 1000 s op)) (by decide +kernel) pre op suf s e h
      cases op <;> first | trivial | exact of_decide_eq_true this,
    by decide +kernel⟩

end Lfest
