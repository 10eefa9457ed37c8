import Verif.Lemmas.Prices
import Verif.Examples

/-!
# Entry prices, cost basis, profit and loss, mirrored positions (C08, C09, C48, C49)
-/

namespace Lfest

open Spec

/-! ## C08 -/

/-- C08: the weighted price of two fills exists, is never above the larger price, never above
the exact mean, and below the exact mean by less than `1 + 2*10^D/(w0+w1)`. -/
theorem C08_weighted_price (e : Env) (p0 w0 p1 w1 : Int) (hp0 : 0 < p0) (hp1 : 0 < p1)
    (hw0 : 0 < w0) (hw1 : 0 < w1) :
    ∃ p, newWeightedPrice e.scale p0 w0 p1 w1 = .ok p ∧ 0 ≤ p ∧ p ≤ larger p0 p1 ∧
      p * (w0 + w1) ≤ p0 * w0 + p1 * w1 ∧
      p0 * w0 + p1 * w1 < (p + 1) * (w0 + w1) + 2 * e.scale := by
  obtain ⟨h1, h2, h3⟩ := weighted_bounds e (p0 := p0) (p1 := p1) (w0 := w0) (w1 := w1)
    (by omega) (by omega) (by omega) (by omega) (by omega)
  refine ⟨_, weighted_total (by omega), h1, ?_, h2, ?_⟩
  · apply weighted_le <;> (try simp only [larger]) <;> (try split) <;> omega
  · rw [Int.add_mul, Int.one_mul]; omega

/-- 5 at 101 and 3 at 97.3 average to 99.6125. -/
example : newWeightedPrice Ex.lin.env.scale (Ex.d 101) (Ex.d 5) 9730000 (Ex.d 3) = .ok 9961250 := by
  decide +kernel

/-- C08: the entry price of a position is never above every price the account traded at. -/
theorem C08_entry_price_bounded (c : Cfg) (s : State) (top : Int) (hr : Reachable c s)
    (ht : ∀ f ∈ fills s.log, f.price ≤ top) (hpos : s.pos ≠ .neutral) :
    0 ≤ s.pos.entryPrice ∧ s.pos.entryPrice ≤ top := by
  refine ⟨hr.entry_nonneg, ?_⟩
  have h1 := hr.linv.ledger
  have he : s.pos.entryPrice = (Spec.ledger c (fills s.log)).entry := by
    have := congrArg Ledger.entry h1; simpa [ledgerOf, State.core] using this
  have hq : s.pos.quantity = (Spec.ledger c (fills s.log)).qty := by
    have := congrArg Ledger.qty h1; simpa [ledgerOf, State.core] using this
  rw [he]
  have hne : (Spec.ledger c (fills s.log)).qty ≠ 0 := fun h0 =>
    hpos (quantity_zero hr.linv.wf (by rw [hq, h0]))
  have hp := hr.fill_price
  generalize fills s.log = fs at *
  clear he hq h1
  induction fs with
  | nil => simp [Spec.ledger, Ledger.empty] at hne
  | cons f fs ih =>
    have hf := hp f (by simp)
    have hft := ht f (by simp)
    have hge := ledger_entry c fs (fun g hg => by have := hp g (by simp [hg]); omega)
    have ih := ih (fun g hg => ht g (by simp [hg])) 
    simp only [Spec.ledger] at hne ⊢
    generalize Spec.ledger c fs = l at *
    simp only [Ledger.fill] at hne ⊢
    split
    · exact hft
    · next hl =>
      have ih := ih hl (fun g hg => hp g (by simp [hg]))
      have ha : 0 < Spec.abs l.qty := by unfold Spec.abs; split <;> omega
      split
      · simp only
        exact weighted_le _ hge (by omega) (by omega) (by omega) (by omega) ih hft
      · next hd =>
        rw [if_neg hl, if_neg hd] at hne
        simp only at hne ⊢
        split
        · exact ih
        · next h1 =>
          split
          · next h2 =>
            exfalso
            apply hne
            revert h2 hd
            unfold Spec.abs Fill.signed
            cases f.side <;> simp <;> split <;> omega
          · exact hft

/-- Two purchases at 101 and 97: the entry price 99.6 lies in between. -/
example : Ex.after Ex.lin [.update (.bba ⟨Ex.d 100, Ex.d 101, 1⟩), .market .buy (Ex.d 3) 0,
      .update (.bba ⟨Ex.d 96, Ex.d 97, 1⟩), .market .buy (Ex.d 2) 0]
    (fun s => decide (s.pos.entryPrice = 9940000)) = true := by decide +kernel

/-! ## C09 -/

/-- C09: in a linear contract, the cost basis after an enlarging fill is the cost basis before
plus the value of the fill, or a little less: the difference is less than
`1 + (new quantity)/10^D` units in the last place. -/
theorem C09_linear_cost_basis (c : Cfg) (s s' : State) (op : Op) (r : Resp) (f : Fill)
    (hk : c.env.kind = .linear) (hr : Reachable c s) (hst : step c s op = .ok (s', r))
    (hf : fills s'.log = f :: fills s.log) (hen : enlarges s.pos f.side) :
    ∃ cost cost', s.pos.totalCost c.env = .ok cost ∧ s'.pos.totalCost c.env = .ok cost' ∧
      cost' ≤ cost + value c.env f.qty f.price ∧
      (cost + value c.env f.qty f.price - cost' - 1) * c.env.scale < Spec.abs s'.pos.quantity := by
  obtain ⟨g, a, a', hg, _, _, hc, _⟩ := (hr.core hst).one_fill (by simp [State.core, hf])
  have : g = f := by
    have := hg.symm.trans hf
    simp [State.core] at this; exact this
  subst this
  have hw : PosWF s.pos := hr.linv.wf
  have he := hr.entry_nonneg
  obtain ⟨hq, hw', hl, _⟩ := changePosition_ledger (k := 0) hw hc
  have hfp := (hr.step hst).fill_price g (by rw [hf]; simp)
  have h1 := congrArg Ledger.qty hl
  have h2 := congrArg Ledger.entry hl
  simp only [State.core] at hw' h1 h2
  refine ⟨_, _, totalCost_eq hk hw, totalCost_eq hk hw', ?_⟩
  have hen : opposing s.pos.quantity g.side = 0 := hen
  by_cases h0 : s.pos.quantity = 0
  · rw [fill_open c g (by exact h0)] at h1 h2
    simp only [ledgerOf] at h1 h2
    rw [h0, h2, h1]
    have ha : Spec.abs g.signed = g.qty := by
      unfold Spec.abs Fill.signed; cases g.side <;> simp only <;> split <;> omega
    have hs := scale_pos c.env
    have hz : Spec.abs 0 = 0 := rfl
    simp only [ha, hz, Int.le_refl, value_zero, Int.zero_add, Int.sub_self]
    refine ⟨trivial, ?_⟩
    rw [show (0 - 1 : Int) = -1 from rfl, Int.neg_mul, Int.one_mul]; omega
  · have hd : (0 < s.pos.quantity ∧ g.side = .buy) ∨ (s.pos.quantity < 0 ∧ g.side = .sell) := by
      cases hsd : g.side <;> simp only [hsd, opposing, larger] at hen <;> split at hen <;>
        simp <;> omega
    rw [fill_enlarge c (by exact h0) (by exact hd)] at h1 h2
    simp only [ledgerOf] at h1 h2
    have ha : Spec.abs s'.pos.quantity = Spec.abs s.pos.quantity + g.qty := by
      rw [h1]; unfold Spec.abs Fill.signed
      rcases hd with ⟨h, hd⟩ | ⟨h, hd⟩ <;> simp only [hd] <;> split <;> split <;> omega
    have hp : 0 < Spec.abs s.pos.quantity := by unfold Spec.abs; split <;> omega
    rw [ha, h2]
    exact cost_weighted hk he hfp.1 hp hq

/-- Buying 3 at 101 and 2 at 97: total cost 303 + 194 = 497. -/
example : Ex.last Ex.lin [.update (.bba ⟨Ex.d 100, Ex.d 101, 1⟩), .market .buy (Ex.d 3) 0,
      .update (.bba ⟨Ex.d 96, Ex.d 97, 1⟩)] (.market .buy (Ex.d 2) 0)
    (fun s s' _ => decide (enlarges s.pos .buy ∧
      fills s'.log = ⟨false, .buy, Ex.d 97, Ex.d 2⟩ :: fills s.log ∧
      s.pos.totalCost Ex.lin.env = .ok (Ex.d 303) ∧
      s'.pos.totalCost Ex.lin.env = .ok (Ex.d 497))) = true := by decide +kernel

/-- C09: in an inverse contract, where the cost of `q` contracts at price `p` is `q/p`, the cost
basis after an enlarging fill is never above the cost basis before plus the value of the fill, up
to rounding: with `Q` the new quantity and `E` the new entry price,
`cost' < (cost + value + 2) * (1 + 1/E + 2*10^D/(Q*E))`. -/
theorem C09_inverse_cost_basis (c : Cfg) (s s' : State) (op : Op) (r : Resp) (f : Fill)
    (cost cost' : Int)
    (hk : c.env.kind = .inverse) (hr : Reachable c s) (hst : step c s op = .ok (s', r))
    (hf : fills s'.log = f :: fills s.log) (hen : enlarges s.pos f.side)
    (h0 : s.pos.totalCost c.env = .ok cost) (h1 : s'.pos.totalCost c.env = .ok cost') :
    cost' * s'.pos.entryPrice * Spec.abs s'.pos.quantity <
      (cost + value c.env f.qty f.price + 2) *
        ((s'.pos.entryPrice + 1) * Spec.abs s'.pos.quantity + 2 * c.env.scale) := by
  obtain ⟨g, a, a', hg, _, _, hc, _⟩ := (hr.core hst).one_fill (by simp [State.core, hf])
  have : g = f := by
    have := hg.symm.trans hf
    simp [State.core] at this; exact this
  subst this
  have hw : PosWF s.pos := hr.linv.wf
  have he := hr.entry_nonneg
  obtain ⟨hq, hw', hl, _⟩ := changePosition_ledger (k := 0) hw hc
  have hfp := (hr.step hst).fill_price g (by rw [hf]; simp)
  have l1 := congrArg Ledger.qty hl
  have l2 := congrArg Ledger.entry hl
  simp only [State.core] at hw' l1 l2
  obtain ⟨e0, n0⟩ := totalCost_inverse hk hw h0
  obtain ⟨e1, n1⟩ := totalCost_inverse hk hw' h1
  have he' := (hr.step hst).entry_nonneg
  have hs := scale_pos c.env
  have hen : opposing s.pos.quantity g.side = 0 := hen
  by_cases hz : s.pos.quantity = 0
  · rw [fill_open c g (by exact hz)] at l1 l2
    simp only [ledgerOf] at l1 l2
    have ha : Spec.abs g.signed = g.qty := by
      unfold Spec.abs Fill.signed; cases g.side <;> simp only <;> split <;> omega
    rw [hz, show Spec.abs 0 = 0 from rfl, value_zero] at e0
    rw [l1, l2, ha] at e1
    rw [l1, l2, ha, e0, ← e1, Int.zero_add]
    have hv := value_nonneg c.env (q := g.qty) (p := g.price) (by omega) (by omega)
    rw [← e1] at hv
    have hpq := Int.mul_pos hfp.1 hq
    have hvpq := Int.mul_nonneg hv (Int.le_of_lt hpq)
    have hvq := Int.mul_nonneg hv (Int.le_of_lt hq)
    have hvs := Int.mul_nonneg hv (Int.le_of_lt hs)
    grind
  · have hd : (0 < s.pos.quantity ∧ g.side = .buy) ∨ (s.pos.quantity < 0 ∧ g.side = .sell) := by
      cases hsd : g.side <;> simp only [hsd, opposing, larger] at hen <;> split at hen <;>
        simp <;> omega
    rw [fill_enlarge c (by exact hz) (by exact hd)] at l1 l2
    simp only [ledgerOf] at l1 l2
    have ha : Spec.abs s'.pos.quantity = Spec.abs s.pos.quantity + g.qty := by
      rw [l1]; unfold Spec.abs Fill.signed
      rcases hd with ⟨h, hd⟩ | ⟨h, hd⟩ <;> simp only [hd] <;> split <;> split <;> omega
    have hp : 0 < Spec.abs s.pos.quantity := by unfold Spec.abs; split <;> omega
    have hne : s'.pos.quantity ≠ 0 := by intro h; rw [h] at ha; simp [Spec.abs] at ha; omega
    have := n0 hz
    have h3 := n1 hne
    rw [e1, e0, ha, l2]
    rw [l2] at h3 he'
    exact cost_weighted_inverse hk (by omega) hfp.1 hp hq (by omega)

/-- Buying 1000 at 100 (cost 10) and 1000 at 200 (cost 5): the cost basis is 13.33333. -/
example : Ex.last Ex.inv [.update (.bba ⟨Ex.d 99, Ex.d 100, 1⟩), .market .buy (Ex.d 1000) 0,
      .update (.bba ⟨Ex.d 199, Ex.d 200, 1⟩)] (.market .buy (Ex.d 1000) 0)
    (fun s s' _ => decide (fills s'.log = ⟨false, .buy, Ex.d 200, Ex.d 1000⟩ :: fills s.log ∧
      enlarges s.pos .buy ∧ s.pos.totalCost Ex.inv.env = .ok (Ex.d 10) ∧
      s'.pos.totalCost Ex.inv.env = .ok 1333333 ∧ s'.pos.entryPrice = Ex.d 150)) = true := by
  decide +kernel

/-- The cost basis of an inverse contract can be lower by far more than rounding: after buying 1000 at 100 (cost 10) and 1000 at 200 (cost 5), the cost basis is 13.33333, not
15. -/
theorem C09_inverse_cost_basis_lost : ∃ c s s' op r f cost cost', c.env.kind = .inverse ∧
    Reachable c s ∧ step c s op = .ok (s', r) ∧ fills s'.log = f :: fills s.log ∧
    enlarges s.pos f.side ∧ s.pos.totalCost c.env = .ok cost ∧
    s'.pos.totalCost c.env = .ok cost' ∧ cost = Ex.d 10 ∧ value c.env f.qty f.price = Ex.d 5 ∧
    cost' = 1333333 := by
  have h : Ex.last Ex.inv [.update (.bba ⟨Ex.d 99, Ex.d 100, 1⟩), .market .buy (Ex.d 1000) 0,
      .update (.bba ⟨Ex.d 199, Ex.d 200, 1⟩)] (.market .buy (Ex.d 1000) 0)
    (fun s s' _ => decide (fills s'.log = ⟨false, .buy, Ex.d 200, Ex.d 1000⟩ :: fills s.log ∧
      enlarges s.pos .buy ∧ s.pos.totalCost Ex.inv.env = .ok (Ex.d 10) ∧
      s'.pos.totalCost Ex.inv.env = .ok 1333333 ∧
      value Ex.inv.env (Ex.d 1000) (Ex.d 200) = Ex.d 5)) = true := by decide +kernel
  obtain ⟨s, s', r, hr, hst, h⟩ := Ex.last_reach h
  obtain ⟨h1, h2, h3, h4, h5⟩ := of_decide_eq_true h
  exact ⟨Ex.inv, s, s', _, r, _, _, _, rfl, hr, hst, h1, h2, h3, h4, rfl, h5, rfl⟩

/-! ## C48 -/

/-- C48: there is no profit or loss at the entry price. -/
theorem C48_zero_at_entry (e : Env) (entry q : Int) (he : 0 < entry) :
    pnl e entry entry q = .ok 0 := by
  rw [pnl_total (by omega) (by omega)]
  unfold Spec.pnl; split <;> simp

/-- C48: a short position makes exactly the opposite of what a long position makes. -/
theorem C48_antisymmetric (e : Env) (entry exit q v : Int) (h : pnl e entry exit q = .ok v) :
    pnl e entry exit (-q) = .ok (-v) := pnl_neg_ok h

/-- C48: for positive prices there is always a result, it never falls with the exit price for
a long position and never rises for a short position. -/
theorem C48_monotone (e : Env) (entry x y q : Int) (he : 0 < entry) (hx : 0 < x) (hxy : x ≤ y) :
    ∃ v w, pnl e entry x q = .ok v ∧ pnl e entry y q = .ok w ∧
      (0 ≤ q → v ≤ w) ∧ (q ≤ 0 → w ≤ v) := by
  refine ⟨_, _, pnl_total (by omega) (by omega), pnl_total (by omega) (by omega), ?_, ?_⟩
  · intro hq; exact pnl_mono hq hx hxy
  · intro hq
    have := pnl_mono (e := e) (entry := entry) (q := -q) (by omega) hx hxy
    rw [pnl_neg, pnl_neg] at this; omega

/-- C48: a long position gains exactly when the exit price is above the entry price, up to
rounding: a profit implies a higher exit price, a loss a lower one. -/
theorem C48_sign (e : Env) (entry exit q v : Int) (he : 0 < entry) (hx : 0 < exit) (hq : 0 < q)
    (h : pnl e entry exit q = .ok v) : (0 < v → entry < exit) ∧ (v < 0 → exit < entry) := by
  have hz := C48_zero_at_entry e entry q he
  constructor
  · intro hv
    apply Int.lt_of_not_ge; intro hle
    obtain ⟨a, b, ha, hb, hm, _⟩ := C48_monotone e entry exit entry q he hx hle
    rw [ha] at h; rw [hb] at hz; cases h; cases hz
    have := hm (by omega); omega
  · intro hv
    apply Int.lt_of_not_ge; intro hle
    obtain ⟨a, b, ha, hb, hm, _⟩ := C48_monotone e entry entry exit q he he hle
    rw [hb] at h; rw [ha] at hz; cases h; cases hz
    have := hm (by omega); omega

/-- C48: the unrealised profit of a position is valued at the bid for a long and at the ask for
a short position, never falls with the bid and never rises with the ask. -/
theorem C48_unrealized (c : Cfg) (s : State) (bid ask bid' ask' v v' : Int) (hr : Reachable c s)
    (hb : 0 < bid) (h : s.pos.unrealizedPnl c.env bid ask = .ok v)
    (h' : s.pos.unrealizedPnl c.env bid' ask' = .ok v') :
    (v = if 0 < s.pos.quantity then Spec.pnl c.env s.pos.entryPrice bid s.pos.quantity
         else Spec.pnl c.env s.pos.entryPrice ask s.pos.quantity) ∧
    (bid ≤ bid' → ask' ≤ ask → 0 < ask' → v ≤ v') := by
  have hw := hr.linv.wf
  have hz : ∀ x y, Spec.pnl c.env x y 0 = 0 := by
    intro x y; unfold Spec.pnl; split <;> simp [value_zero]
  cases hp : s.pos with
  | neutral =>
    rw [hp] at h h'
    simp only [Position.unrealizedPnl, ok_inj] at h h'
    subst h h'
    simp [Position.quantity, hz]
  | long p =>
    rw [hp] at h h'
    have hq : 0 < p.qty := by simpa [hp, PosWF, State.core] using hw
    simp only [Position.unrealizedPnl, Inner.unrealizedPnl] at h h'
    have := pnl_ok h; have := pnl_ok h'; subst_vars
    simp only [Position.quantity, Position.entryPrice, hq, if_true, true_and]
    intro h1 _ _
    exact pnl_mono (by omega) hb h1
  | short p =>
    rw [hp] at h h'
    have hq : 0 < p.qty := by simpa [hp, PosWF, State.core] using hw
    simp only [Position.unrealizedPnl, Inner.unrealizedPnl, bind_ok, ok_inj] at h h'
    obtain ⟨x, h, rfl⟩ := h
    obtain ⟨y, h', rfl⟩ := h'
    have := pnl_ok h; have := pnl_ok h'; subst_vars
    have hn : ¬ 0 < -p.qty := by omega
    simp only [Position.quantity, Position.entryPrice, hn, if_false, pnl_neg, true_and]
    intro _ h1 h2
    have := pnl_mono (e := c.env) (entry := p.entry) (q := p.qty) (by omega) h2 h1
    omega

/-- A long position of 5 from 101: 5 down at a bid of 100, 45 up at a bid of 110; in the inverse
contract, 1010 contracts from 101 to 202 earn 5. -/
example : Ex.after Ex.lin [.update (.bba ⟨Ex.d 100, Ex.d 101, 1⟩), .market .buy (Ex.d 5) 0]
    (fun s => decide (s.pos.unrealizedPnl Ex.lin.env (Ex.d 100) (Ex.d 101) = .ok (Ex.d (-5)) ∧
      s.pos.unrealizedPnl Ex.lin.env (Ex.d 110) (Ex.d 111) = .ok (Ex.d 45))) = true ∧
    pnl Ex.inv.env (Ex.d 101) (Ex.d 202) (Ex.d 1010) = .ok (Ex.d 5) := by decide +kernel

/-! ## C49 -/

/-- C49: a fill on the mirrored position goes through exactly when it does on the position,
and gives the mirrored position; margin, fees and order margin move alike, the profit
received from the counterparty (the treasury) is the opposite, and the wallet takes up the
difference. -/
theorem C49_fill_mirror (e : Env) (imr : Int) (a : Accounts) (pos pos' : Position)
    (q price fees : Int) (side : Side) (hs : a.debitSum = a.creditSum) :
    (∃ a', changePosition e imr a pos q price side fees = .ok (pos', a')) ↔
    (∃ b, changePosition e imr a (mirror pos) q price (opposite side) fees =
      .ok (mirror pos', b)) := by
  constructor
  · rintro ⟨a', h⟩
    obtain ⟨b, hb, _⟩ := changePosition_mirror hs h
    exact ⟨b, hb⟩
  · rintro ⟨b, h⟩
    obtain ⟨a', ha, _⟩ := changePosition_mirror hs h
    rw [mirror_mirror, mirror_mirror, opposite_opposite] at ha
    exact ⟨a', ha⟩

/-- C49, the balances: see `C49_fill_mirror`. -/
theorem C49_balances (e : Env) (imr : Int) (a a' b : Accounts) (pos pos' posm : Position)
    (q price fees : Int) (side : Side) (hs : a.debitSum = a.creditSum)
    (h : changePosition e imr a pos q price side fees = .ok (pos', a'))
    (hm : changePosition e imr a (mirror pos) q price (opposite side) fees = .ok (posm, b)) :
    posm = mirror pos' ∧
    b.balance .orderMargin = a'.balance .orderMargin ∧
    b.balance .positionMargin = a'.balance .positionMargin ∧
    b.balance .exchangeFee = a'.balance .exchangeFee ∧
    b.balance .treasury - a.balance .treasury = -(a'.balance .treasury - a.balance .treasury) ∧
    b.balance .wallet + b.balance .treasury = a'.balance .wallet + a'.balance .treasury := by
  obtain ⟨b', hb, m⟩ := changePosition_mirror hs h
  rw [hm] at hb; cases hb
  exact ⟨rfl, m.order, m.margin, m.fee, m.profit, m.total⟩

/-- C49: the same market order is accepted on one side if and only if it is accepted on the other
side next to the mirrored position, with the same balances and the same price. -/
theorem C49_market_order (c : Cfg) (s s' t : State) (side : Side) (q : Int) (uid : Nat)
    (f : FilledMarket) (hr : Reachable c s) (hpos : t.pos = mirror s.pos) (hacct : t.acct = s.acct)
    (hprice : touchPrice t.ms (opposite side) = touchPrice s.ms side)
    (hst : step c s (.market side q uid) = .ok (s', .market (.ok f))) :
    ∃ t' g, step c t (.market (opposite side) q uid) = .ok (t', .market (.ok g)) ∧
      t'.pos = mirror s'.pos ∧ t'.feesPaid = s'.feesPaid ∧
      t'.acct.balance .positionMargin = s'.acct.balance .positionMargin ∧
      equity t' - equity s + (t'.feesPaid - s.feesPaid) =
        -(equity s' - equity s + (s'.feesPaid - s.feesPaid)) := by
  have hsum := hr.linv.sums
  rcases step_cases hst with ⟨_, _, _, he, _⟩ | ⟨_, _, he, _⟩ | ⟨err, _, he⟩ |
    ⟨_, _, _, _, he, hq, h, hx⟩ | ⟨_, _, _, _, x, he, _⟩ | ⟨_, _, _, _, _, _, he, _⟩ | ⟨_, _, he, _⟩
  all_goals try (cases he)
  cases hx
  rcases submitMarket_cases h with ⟨_, _, _, he⟩ | ⟨h1, ⟨_, _, _, he⟩ | ⟨h2, _, hp, pos', a', hc, rfl, he⟩⟩
  · cases he
  · cases he
  simp only at hc h2 hp
  obtain ⟨b, hb, m⟩ := changePosition_mirror hsum hc
  have hfee : ∀ p, Fill.fee c ⟨false, opposite side, p, q⟩ = Fill.fee c ⟨false, side, p, q⟩ := fun _ => rfl
  have key : ∃ t' g, step c t (.market (opposite side) q uid) = .ok (t', .market (.ok g)) ∧
      t'.pos = mirror pos' ∧ t'.acct = b := by
    have hnew : NewMarket.new (opposite side) q uid = .ok ⟨uid, opposite side, q⟩ := by
      simp [NewMarket.new]; omega
    obtain ⟨t', g, hsub, h3, h4⟩ := submitMarket_accept (c := c) (s := t)
      (o := ⟨uid, opposite side, q⟩) (pos' := mirror pos') (a' := b) h1
      (by simp only [hpos, hacct, hprice, checkMarket_mirror]; exact h2) hq
      (by simp only [hprice]; exact hp) (by simp only [hpos, hacct, hprice, hfee]; exact hb)
    refine ⟨t', g, ?_, h3, h4⟩
    simp only [step, hnew, bind_ok]
    exact ⟨_, hsub, rfl⟩
  obtain ⟨t', g, hst', hp', ha'⟩ := key
  refine ⟨t', g, hst', hp', ?_, ?_, ?_⟩
  · simp only [State.feesPaid, ha', m.fee]
  · simp only [ha', m.margin]
  · have z1 := hr.zero_sum
    have z2 := (hr.step hst).zero_sum
    simp only [equity, State.feesPaid, ha', m.order, m.margin, m.fee] at *
    have m1 := m.profit
    have m2 := m.total
    simp only [State.core] at m1
    omega

/-- A purchase of 5 at 101 from a flat account and a sale of 5 at 101 from a flat account; and
closing them at 110 gives 45 one way and takes 45 the other. -/
example : Ex.after Ex.lin [.update (.bba ⟨Ex.d 100, Ex.d 101, 1⟩), .market .buy (Ex.d 5) 0,
      .update (.bba ⟨Ex.d 110, Ex.d 111, 1⟩), .market .sell (Ex.d 5) 0]
      (fun s => decide (equity s = Ex.d 1045 - s.feesPaid ∧ s.feesPaid = 63300)) = true ∧
    Ex.after Ex.lin [.update (.bba ⟨Ex.d 101, Ex.d 102, 1⟩), .market .sell (Ex.d 5) 0,
      .update (.bba ⟨Ex.d 109, Ex.d 110, 1⟩), .market .buy (Ex.d 5) 0]
      (fun s => decide (equity s = Ex.d 955 - s.feesPaid ∧ s.feesPaid = 63300)) = true := by
  decide +kernel

end Lfest
