import Verif.Props.Ledger
import Verif.Props.Risk
import Verif.Props.Calls
import Verif.Props.Opposed
import Verif.Lemmas.Split

/-!
# C143: what the unrealised profit promises

`Position.unrealizedPnl` is `position().unrealized_pnl(bid, ask)`.
-/

namespace Lfest
open Spec

/-- The unrealised profit is the profit of holding the position from its entry price to the price at which it
would be closed. -/
theorem unrealized_ok {e : Env} {pos : Position} {b a u : Int} (hw : PosWF pos)
    (h : pos.unrealizedPnl e b a = .ok u) :
    u = Spec.pnl e pos.entryPrice (exitPrice pos.quantity (b, a)) pos.quantity := by
  cases pos with
  | neutral =>
    simp only [Position.unrealizedPnl, ok_inj] at h
    simp only [Position.quantity, Spec.pnl, value_zero]
    rw [← h]; cases e.kind <;> rfl
  | long p =>
    have hw : 0 < p.qty := hw
    have e1 : exitPrice (Position.long p).quantity (b, a) = b := if_pos hw
    rw [e1]
    exact pnl_ok h
  | short p =>
    have hw : 0 < p.qty := hw
    have e1 : exitPrice (Position.short p).quantity (b, a) = a :=
      if_neg (by simp only [Position.quantity]; omega)
    simp only [Position.unrealizedPnl, bind_ok, ok_inj] at h
    obtain ⟨v, hv, rfl⟩ := h
    rw [e1, show (Position.short p).quantity = -p.qty from rfl, spec_pnl_neg]
    have := pnl_ok hv
    rw [this]; rfl

theorem market_fills {c : Cfg} {s s' : State} {side : Side} {q : Int} {uid : Nat} {f : FilledMarket}
    (hr : Reachable c s) (h : step c s (.market side q uid) = .ok (s', .market (.ok f))) :
    fills s'.log = ⟨false, side, touchPrice s.ms side, q⟩ :: fills s.log := by
  rw [step_calls hr.inv hr.linv.wf h]
  simp [calls, takerCalls, fills]

theorem bought {c : Cfg} {s : State} (h : Reachable c s) : s.pos.quantity = netBought (fills s.log) := by
  obtain ⟨ops, hr⟩ := h
  exact (C06_position_quantity c ops s hr).1

theorem exit_touch {q : Int} {side : Side} (h : 0 < q ∧ side = .sell ∨ q < 0 ∧ side = .buy) (ms : MarketState) :
    touchPrice ms side = exitPrice q (ms.bid, ms.ask) := by
  rcases h with ⟨h, rfl⟩ | ⟨h, rfl⟩
  · rw [exitPrice, if_pos h]; rfl
  · rw [exitPrice, if_neg (by omega)]; rfl

theorem signed_abs (q : Int) : (if 0 < q then Spec.abs q else -Spec.abs q) = q := by
  unfold Spec.abs; split <;> split <;> omega

theorem settles {c : Cfg} {s s' : State} {op : Op} {r : Resp} {f : Fill} (hs : Reachable c s)
    (h : step c s op = .ok (s', r)) (hf : fills s'.log = f :: fills s.log) 
    (hd : 0 < s.pos.quantity ∧ f.side = .sell ∨ s.pos.quantity < 0 ∧ f.side = .buy)
    (hq : f.qty ≤ Spec.abs s.pos.quantity) :
    equity s' + s'.feesPaid = equity s + s.feesPaid +
      Spec.pnl c.env s.pos.entryPrice f.price (if 0 < s.pos.quantity then f.qty else -f.qty) ∧
    s'.feesPaid = s.feesPaid + (if 0 < s.pos.outstandingFees + f.fee c then s.pos.outstandingFees + f.fee c else 0) := by
  obtain ⟨h1, h2, h3, h4⟩ := C10_reduce_settles c s s' op r f hs h hf hd hq
  refine ⟨?_, h4⟩
  simp only [equity]
  omega

/-- C143: whoever closes a position with a market order gets the profit that `unrealized_pnl` shows at the
quotes, less the fees: those outstanding and that of the order, unless rebates exceed them. -/
theorem C143_close (c : Cfg) (s s' : State) (side : Side) (q : Int) (uid : Nat) (f : FilledMarket) (u : Int)
    (hr : Reachable c s) (h : step c s (.market side q uid) = .ok (s', .market (.ok f)))
    (hd : 0 < s.pos.quantity ∧ side = .sell ∨ s.pos.quantity < 0 ∧ side = .buy) (hq : q = Spec.abs s.pos.quantity)
    (hu : s.pos.unrealizedPnl c.env s.ms.bid s.ms.ask = .ok u) :
    s'.pos = .neutral ∧ equity s' = equity s + u - (s'.feesPaid - s.feesPaid) ∧
    let due := s.pos.outstandingFees +
      share c.env (value c.env q (exitPrice s.pos.quantity (s.ms.bid, s.ms.ask))) c.spec.feeTaker
    s'.feesPaid - s.feesPaid = if 0 < due then due else 0 := by
  have hf := market_fills hr h
  obtain ⟨a1, a2⟩ := settles hr h hf hd (by simp only; omega)
  have hn := ((C07_entry_price c s s' _ _ _ hr h hf).2.2 hd).2.1 hq
  have hw : PosWF s.pos := hr.linv.wf
  have hu := unrealized_ok hw hu
  have ht := exit_touch hd s.ms
  simp only [hq, signed_abs, ht] at a1
  simp only [Fill.fee, ht, Bool.false_eq_true, if_false] at a2
  refine ⟨hn, by omega, ?_⟩
  simp only
  omega

/-- C143: the same if the position is liquidated, at the quotes of the update. -/
theorem C143_liquidation (c : Cfg) (s s' : State) (a : UpdateArg) (err : Error) (u : Int)
    (hr : Reachable c s) (h : step c s (.update a) = .ok (s', .update (.error err)))
    (hu : s.pos.unrealizedPnl c.env (quotesAfter s.ms a).1 (quotesAfter s.ms a).2 = .ok u) :
    s'.pos = .neutral ∧ equity s' = equity s + u - (s'.feesPaid - s.feesPaid) ∧
    let due := s.pos.outstandingFees + share c.env (value c.env (Spec.abs s.pos.quantity)
      (exitPrice s.pos.quantity (quotesAfter s.ms a))) c.spec.feeTaker
    s'.feesPaid - s.feesPaid = if 0 < due then due else 0 := by
  obtain ⟨hn, hf, _⟩ := C30_liquidation_flattens c s s' a err hr h
  have hw : PosWF s.pos := hr.linv.wf
  have hu : u = Spec.pnl c.env s.pos.entryPrice (exitPrice s.pos.quantity (quotesAfter s.ms a)) s.pos.quantity :=
    unrealized_ok hw hu
  have hp := ((hr.step h).fill_price _ (by rw [hf]; exact List.mem_cons_self ..)).2
  unfold closingFill at hf hp
  by_cases hq : 0 < s.pos.quantity
  · rw [if_pos hq] at hf
    have ha : Spec.abs s.pos.quantity = s.pos.quantity := by unfold Spec.abs; split <;> omega
    obtain ⟨a1, a2⟩ := settles hr h hf (.inl ⟨hq, rfl⟩) (by simp only; omega)
    have e : exitPrice s.pos.quantity (quotesAfter s.ms a) = (quotesAfter s.ms a).1 := if_pos hq
    rw [if_pos hq] at a1
    simp only [Fill.fee, Bool.false_eq_true, if_false] at a1 a2
    rw [← e] at a1 a2
    rw [ha]
    exact ⟨hn, by omega, by simp only; omega⟩
  · rw [if_neg hq] at hf hp
    simp only at hp
    have ha : Spec.abs s.pos.quantity = -s.pos.quantity := by unfold Spec.abs; split <;> omega
    obtain ⟨a1, a2⟩ := settles hr h hf (.inr ⟨by omega, rfl⟩) (by simp only; omega)
    have e : exitPrice s.pos.quantity (quotesAfter s.ms a) = (quotesAfter s.ms a).2 := if_neg hq
    rw [if_neg hq] at a1
    simp only [Fill.fee, Bool.false_eq_true, if_false, Int.neg_neg] at a1 a2
    rw [← e] at a1 a2
    rw [ha]
    exact ⟨hn, by omega, by simp only; omega⟩

/-- C143: a market order that closes part of a position turns that part of the unrealised profit into realised
profit. Nothing is gained or lost but fees, up to one unit in the last place. -/
theorem C143_part (c : Cfg) (s s' : State) (side : Side) (q : Int) (uid : Nat) (f : FilledMarket) (u u' : Int)
    (hr : Reachable c s) (h : step c s (.market side q uid) = .ok (s', .market (.ok f)))
    (hd : 0 < s.pos.quantity ∧ side = .sell ∨ s.pos.quantity < 0 ∧ side = .buy) (hq : q < Spec.abs s.pos.quantity)
    (hu : s.pos.unrealizedPnl c.env s.ms.bid s.ms.ask = .ok u)
    (hu' : s'.pos.unrealizedPnl c.env s.ms.bid s.ms.ask = .ok u') :
    Spec.abs ((equity s' + s'.feesPaid + u') - (equity s + s.feesPaid + u)) ≤ 1 := by
  have hf := market_fills hr h
  have hr' := hr.step h
  obtain ⟨a1, _⟩ := settles hr h hf hd (by simp only; omega)
  have hent := ((C07_entry_price c s s' _ _ _ hr h hf).2.2 hd).1 hq
  have hqty : s'.pos.quantity = s.pos.quantity + Fill.signed ⟨false, side, touchPrice s.ms side, q⟩ := by
    rw [bought hr', bought hr, hf]; simp only [netBought]; omega
  have hw : PosWF s.pos := hr.linv.wf
  have hw' : PosWF s'.pos := hr'.linv.wf
  have hu := unrealized_ok hw hu
  have hu' := unrealized_ok hw' hu'
  have ht := exit_touch hd s.ms
  obtain ⟨hp, hq0⟩ := hr'.fill_price _ (by rw [hf]; exact List.mem_cons_self ..)
  simp only at hp hq0
  have he := hr.entry_nonneg
  rw [ht] at hp
  simp only [ht] at a1
  rw [hent] at hu'
  rcases hd with ⟨hd, rfl⟩ | ⟨hd, rfl⟩
  · have ha : Spec.abs s.pos.quantity = s.pos.quantity := by unfold Spec.abs; split <;> omega
    simp only [Fill.signed] at hqty
    have e1 : exitPrice s'.pos.quantity (s.ms.bid, s.ms.ask) = s.ms.bid := if_pos (by omega)
    have e2 : exitPrice s.pos.quantity (s.ms.bid, s.ms.ask) = s.ms.bid := if_pos hd
    rw [e2] at hp a1 hu
    rw [e1] at hu'
    rw [if_pos hd] at a1
    have v1 := value_parts c.env (a := q) (b := s'.pos.quantity) (by omega) (by omega) (Int.le_of_lt hp)
    have v2 := value_parts c.env (a := q) (b := s'.pos.quantity) (by omega) (by omega) he
    rw [show q + s'.pos.quantity = s.pos.quantity by omega] at v1 v2
    unfold Spec.pnl at a1 hu hu'
    unfold Spec.abs
    cases hk : c.env.kind <;> simp only [hk] at a1 hu hu' <;> split <;> omega
  · have ha : Spec.abs s.pos.quantity = -s.pos.quantity := by unfold Spec.abs; split <;> omega
    simp only [Fill.signed] at hqty
    have e1 : exitPrice s'.pos.quantity (s.ms.bid, s.ms.ask) = s.ms.ask := if_neg (by omega)
    have e2 : exitPrice s.pos.quantity (s.ms.bid, s.ms.ask) = s.ms.ask := if_neg (by omega)
    rw [e2] at hp a1 hu
    rw [e1] at hu'
    rw [if_neg (by omega)] at a1
    have v1 := value_parts c.env (a := q) (b := -s'.pos.quantity) (by omega) (by omega) (Int.le_of_lt hp)
    have v2 := value_parts c.env (a := q) (b := -s'.pos.quantity) (by omega) (by omega) he
    rw [show q + -s'.pos.quantity = -s.pos.quantity by omega] at v1 v2
    simp only [value_neg] at v1 v2
    unfold Spec.pnl at a1 hu hu'
    simp only [value_neg] at a1
    unfold Spec.abs
    cases hk : c.env.kind <;> simp only [hk] at a1 hu hu' <;> split <;> omega

/-- C143: a position that was just opened with a market order shows the spread as a loss, and no profit. -/
theorem C143_fresh (c : Cfg) (s s' : State) (side : Side) (q : Int) (uid : Nat) (f : FilledMarket) (u : Int)
    (hr : Reachable c s) (h : step c s (.market side q uid) = .ok (s', .market (.ok f)))
    (hn : s.pos = .neutral) (hs : 0 < s.ms.bid ∧ s.ms.bid ≤ s.ms.ask)
    (hu : s'.pos.unrealizedPnl c.env s.ms.bid s.ms.ask = .ok u) :
    equity s' = equity s ∧ u ≤ 0 ∧
    u = (match c.env.kind with
      | .linear => value c.env q s.ms.bid - value c.env q s.ms.ask
      | .inverse => value c.env q s.ms.ask - value c.env q s.ms.bid) := by
  have hf := market_fills hr h
  have hr' := hr.step h
  have hz : s.pos.quantity = 0 := by rw [hn]; rfl
  have hent := (C07_entry_price c s s' _ _ _ hr h hf).1 hz
  have hqty : s'.pos.quantity = Fill.signed ⟨false, side, touchPrice s.ms side, q⟩ := by
    rw [bought hr', hf]; simp only [netBought]; rw [← bought hr]; omega
  have hw' : PosWF s'.pos := hr'.linv.wf
  have hu := unrealized_ok hw' hu
  obtain ⟨_, hq0⟩ := hr'.fill_price _ (by rw [hf]; exact List.mem_cons_self ..)
  simp only at hq0 hent
  have heq : equity s' = equity s := by
    obtain ⟨ops, h0⟩ := hr
    obtain ⟨ops', h0'⟩ := hr'
    have k := C02_equity c ops s h0
    have k' := C02_equity c ops' s' h0'
    have q := (C07_position_is_ledger c ops s h0).1
    rw [hf] at k'
    simp only [ledger, Ledger.fill, if_pos (show (ledger c (fills s.log)).qty = 0 by omega)] at k'
    omega
  refine ⟨heq, ?_⟩
  rw [hent, hqty] at hu
  have key : u = (match c.env.kind with
      | .linear => value c.env q s.ms.bid - value c.env q s.ms.ask
      | .inverse => value c.env q s.ms.ask - value c.env q s.ms.bid) := by
    cases side
    · rw [show Fill.signed ⟨false, .buy, touchPrice s.ms .buy, q⟩ = q from rfl,
        show exitPrice q (s.ms.bid, s.ms.ask) = s.ms.bid from if_pos hq0] at hu
      exact hu
    · rw [show Fill.signed ⟨false, .sell, touchPrice s.ms .sell, q⟩ = -q from rfl,
        show exitPrice (-q) (s.ms.bid, s.ms.ask) = s.ms.ask from if_neg (by omega),
        show touchPrice s.ms .sell = s.ms.bid from rfl] at hu
      simp only [Spec.pnl, value_neg] at hu
      rw [hu]; cases c.env.kind <;> simp only <;> omega
  refine ⟨?_, key⟩
  rw [key]
  have hS := scale_pos c.env
  cases hk : c.env.kind with
  | linear =>
    have := tdiv_mono hS (Int.mul_nonneg (by omega) (by omega))
      (Int.mul_le_mul_of_nonneg_left hs.2 (Int.le_of_lt hq0))
    simp only [value, hk]
    omega
  | inverse =>
    have := tdiv_anti (x := q * c.env.scale) (Int.mul_nonneg (by omega) (by omega)) hs.1 hs.2
    simp only [value, hk]
    omega

/-- C143: `unrealized_pnl` panics exactly if it has to divide by zero: for a position in an inverse contract, if the
price to close at is zero or the entry price was rounded to zero. -/
theorem C143_defined (c : Cfg) (s : State) (bid ask : Int) (hr : Reachable c s) :
    (∃ u, s.pos.unrealizedPnl c.env bid ask = .ok u) ↔
      c.env.kind = .linear ∨ s.pos = .neutral ∨
        (s.pos.entryPrice ≠ 0 ∧ exitPrice s.pos.quantity (bid, ask) ≠ 0) := by
  have hw : PosWF s.pos := hr.linv.wf
  have key : ∀ (p : Inner) (x : Int), 0 < p.qty →
      ((∃ u, p.unrealizedPnl c.env x = .ok u) ↔ c.env.kind = .linear ∨ (p.entry ≠ 0 ∧ x ≠ 0)) := by
    intro p x hq
    unfold Inner.unrealizedPnl pnl
    rw [if_neg (by omega)]
    cases hk : c.env.kind with
    | linear => simp [convert, hk, bind, Except.bind]
    | inverse =>
      simp only [bind_ok, ok_inj, convert, hk, ddiv_ok]
      constructor
      · rintro ⟨u, a, ⟨h1, _⟩, b, ⟨h2, _⟩, _⟩
        exact .inr ⟨h1, h2⟩
      · rintro (h | ⟨h1, h2⟩)
        · cases h
        · exact ⟨_, _, ⟨h1, rfl⟩, _, ⟨h2, rfl⟩, rfl⟩
  cases hp : s.pos with
  | neutral => simp [Position.unrealizedPnl]
  | long p =>
    rw [hp] at hw
    have e1 : exitPrice (Position.long p).quantity (bid, ask) = bid := if_pos hw
    rw [e1]
    simpa [Position.unrealizedPnl, Position.entryPrice] using key p bid hw
  | short p =>
    rw [hp] at hw
    have hw : 0 < p.qty := hw
    have e1 : exitPrice (Position.short p).quantity (bid, ask) = ask :=
      if_neg (by simp only [Position.quantity]; omega)
    rw [e1]
    have := key p ask hw
    simp only [Position.unrealizedPnl, Position.entryPrice, bind_ok, ok_inj, reduceCtorEq, false_or]
    rw [← this]
    constructor
    · rintro ⟨u, v, h, _⟩; exact ⟨v, h⟩
    · rintro ⟨v, h⟩; exact ⟨-v, v, h, rfl⟩

/-! ## The hypotheses are met -/

/-- Long 3 at 101 with quotes 100 / 101, the unrealised loss is 3. Closing at market costs 3 and the fees, of which
0.1818 are outstanding. -/
example : Ex.last Ex.lin Ex.ops2 (.market .sell (Ex.d 3) 0) (fun s s' r => Ex.isOk r &&
    decide (s.pos.quantity = Ex.d 3 ∧ s.pos.unrealizedPnl Ex.lin.env s.ms.bid s.ms.ask = .ok (-(Ex.d 3)) ∧
      s'.pos = .neutral ∧ equity s' = equity s - Ex.d 3 - (s'.feesPaid - s.feesPaid) ∧
      s'.feesPaid - s.feesPaid = s.pos.outstandingFees + 18000)) = true := by decide +kernel

/-- Closing only 1 of 3. -/
example : Ex.last Ex.lin Ex.ops2 (.market .sell (Ex.d 1) 0) (fun s s' r => Ex.isOk r &&
    decide (s.pos.quantity = Ex.d 3 ∧ s'.pos.unrealizedPnl Ex.lin.env s.ms.bid s.ms.ask = .ok (-(Ex.d 2)))) = true := by
  decide +kernel

/-- An inverse contract, long 1010 at 101 and liquidated at a bid of 50. -/
example : Ex.last Ex.inv [.update (.bba ⟨Ex.d 100, Ex.d 101, 1⟩), .market .buy (Ex.d 1010) 0]
    (.update (.bba ⟨Ex.d 50, Ex.d 51, 2⟩)) (fun s s' r => decide (r = .update (.error (.risk .liquidate)) ∧
      s.pos.unrealizedPnl Ex.inv.env (Ex.d 50) (Ex.d 51) = .ok (-1020000) ∧
      equity s' = equity s - 1020000 - (s'.feesPaid - s.feesPaid))) = true := by decide +kernel

/-- Opened at 101, it shows the spread as a loss of 0.1. -/
example : Ex.last Ex.inv [.update (.bba ⟨Ex.d 100, Ex.d 101, 1⟩)] (.market .buy (Ex.d 1010) 0)
    (fun s s' r => Ex.isOk r && decide (s.pos = .neutral ∧
      s'.pos.unrealizedPnl Ex.inv.env s.ms.bid s.ms.ask = .ok (-10000) ∧ equity s' = equity s)) = true := by
  decide +kernel

end Lfest
