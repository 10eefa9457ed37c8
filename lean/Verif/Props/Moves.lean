import Verif.SpecMoves
import Verif.Props.Cash
import Verif.Props.Orders
import Verif.Props.Matching
import Verif.Props.Risk
import Verif.Props.Tracker

/-!
# C128: profit comes from moves of the price while a position is held, and from better fills
-/

namespace Lfest
open Spec

theorem fillsBetween_eq {s s' : State} {new : List Fill} (h : fills s'.log = new ++ fills s.log) :
    fillsBetween s s' = new := by
  simp [fillsBetween, h]

theorem step_fillsBetween {c : Cfg} {s s' : State} {op : Op} {r : Resp}
    (h : step c s op = .ok (s', r)) : fills s'.log = fillsBetween s s' ++ fills s.log := by
  obtain ⟨new, e, _⟩ := (step_core (st := false) (by simp) h).suffix
  have e : fills s'.log = new ++ fills s.log := e
  rw [fillsBetween_eq e, e]

/-- Profit, cost and the value of the position at its entry price -/
def drift (c : Cfg) (fs : List Fill) : Int :=
  (ledger c fs).realised * c.scale + spent fs - (ledger c fs).qty * (ledger c fs).entry

theorem drift_append {c : Cfg} (hk : c.env.kind = .linear) (fs : List Fill) :
    ∀ new : List Fill, (∀ f ∈ new ++ fs, 0 < f.price ∧ 0 < f.qty) →
      drift c (new ++ fs) - drift c fs ≤ profitRounding c (new ++ fs) - profitRounding c fs ∧
      drift c fs - drift c (new ++ fs) ≤ profitRounding c (new ++ fs) - profitRounding c fs
  | [], _ => by simp
  | f :: new, hall => by
    have ih := drift_append hk fs new (fun g hg => hall g (List.mem_cons_of_mem _ hg))
    obtain ⟨hp, hq⟩ := hall f (by simp)
    have h := cash_step hk (ledger_entry c (new ++ fs)
      (fun g hg => hall g (List.mem_cons_of_mem _ hg))) hp hq
    simp only [drift, List.cons_append, profitRounding, spent] at ih h ⊢
    rw [← ledger_qty c (f :: (new ++ fs))]
    simp only [ledger] at h ⊢
    omega

theorem gain_drift {c : Cfg} {s : State} (hr : Reachable c s) (p : Int) :
    gainAt c s p = drift c (fills s.log) + s.pos.quantity * p - spent (fills s.log) := by
  obtain ⟨ops, h⟩ := hr
  have hl := (run_linv h).ledger
  have e1 : s.pos.quantity = (ledger c (fills s.log)).qty := by
    have := congrArg Ledger.qty hl; simpa [ledgerOf, State.core] using this
  have e2 : s.pos.entryPrice = (ledger c (fills s.log)).entry := by
    have := congrArg Ledger.entry hl; simpa [ledgerOf, State.core] using this
  have e3 : equity s - c.start + s.feesPaid = (ledger c (fills s.log)).realised := by
    have := (C02_equity c ops s h).1; omega
  simp only [gainAt, drift]
  rw [e1, e2, e3]
  grind

theorem spent_join (xs ys : List Fill) : spent (xs ++ ys) = spent xs + spent ys := by
  induction xs with
  | nil => simp [spent]
  | cons f fs ih => simp only [List.cons_append, spent, ih]; omega

theorem netBought_join (xs ys : List Fill) :
    netBought (xs ++ ys) = netBought xs + netBought ys := by
  induction xs with
  | nil => simp [netBought]
  | cons f fs ih => simp only [List.cons_append, netBought, ih]; omega

theorem pos_netBought {c : Cfg} {s : State} (hr : Reachable c s) :
    s.pos.quantity = netBought (fills s.log) := by
  obtain ⟨ops, h⟩ := hr
  exact (C06_position_quantity c ops s h).1

theorem moves_telescope {c : Cfg} (mark : State → Int) :
    ∀ (ops : List Op) {s s' : State}, Reachable c s → run c s ops = .ok s' →
      fromMoves c mark s ops + fromFills c mark s ops =
        s'.pos.quantity * mark s' - spent (fills s'.log) -
          (s.pos.quantity * mark s - spent (fills s.log)) ∧
      ∃ new, fills s'.log = new ++ fills s.log
  | [], s, s', _, h => by
    simp only [run, ok_inj] at h
    subst h
    exact ⟨by simp [fromMoves, fromFills], [], rfl⟩
  | op :: ops, s, s', hr, h => by
    simp only [run, bind_ok] at h
    obtain ⟨⟨s1, r⟩, h1, h⟩ := h
    have hr1 := hr.step h1
    obtain ⟨ih, new, en⟩ := moves_telescope mark ops hr1 h
    have e := step_fillsBetween h1
    refine ⟨?_, new ++ fillsBetween s s1, by rw [en, e]; simp⟩
    simp only [fromMoves, fromFills, h1]
    rw [← spent_at]
    have q1 := pos_netBought hr1
    rw [e, netBought_join, ← pos_netBought hr] at q1
    have x1 : spent (fills s1.log) = spent (fillsBetween s s1) + spent (fills s.log) := by
      rw [e, spent_join]
    generalize spent (fillsBetween s s1) = a at *
    generalize netBought (fillsBetween s s1) = b at *
    generalize mark s1 = m at *
    rw [x1, q1] at ih
    grind

/-- C128: in a linear contract what the account gains before fees over any calls, valued at any mark,
is the sum over the calls of position times move of the mark, plus the sum over the fills of quantity
times distance of the fill from the mark, up to rounding at the fills in between. Without a fill there
is no rounding. -/
theorem C128_attribution (c : Cfg) (mark : State → Int) (ops : List Op) (s s' : State)
    (hk : c.env.kind = .linear) (hr : Reachable c s) (h : run c s ops = .ok s') :
    Spec.abs (gainAt c s' (mark s') - gainAt c s (mark s) -
      (fromMoves c mark s ops + fromFills c mark s ops)) ≤
      profitRounding c (fills s'.log) - profitRounding c (fills s.log) := by
  obtain ⟨e, new, en⟩ := moves_telescope mark ops hr h
  have hr' : Reachable c s' := by
    obtain ⟨first, h0⟩ := hr
    exact ⟨first ++ ops, (run_append h0).trans h⟩
  have hd := drift_append hk (fills s.log) new (en ▸ hr'.fill_price)
  rw [← en] at hd
  rw [gain_drift hr', gain_drift hr, e]
  unfold Spec.abs
  split <;> omega

/-- The mid price, rounded down -/
def Ex.middle (s : State) : Int := (s.ms.bid + s.ms.ask) / 2

/-- Non-vacuity: the history of C68 makes 42 from moves of the mid price (9 and 12 while long, 21 while
short) and loses 7 by filling at the touch: 35. -/
example : Ex.after Ex.linR Ex.cash (fun s => decide (
    fromMoves Ex.linR Ex.middle (State.init Ex.linR) Ex.cash = Ex.d 42 * Ex.linR.scale ∧
    fromFills Ex.linR Ex.middle (State.init Ex.linR) Ex.cash = -(Ex.d 7) * Ex.linR.scale ∧
    gainAt Ex.linR s (Ex.middle s) = Ex.d 35 * Ex.linR.scale)) = true := by decide +kernel

/-! ## Accounts that only take -/

theorem taker_step {c : Cfg} {s s' : State} {op : Op} {r : Resp} (hr : Reachable c s)
    (ha : s.active = []) (ht : takesOnly op) (h : step c s op = .ok (s', r)) :
    s'.active = [] ∧ ∀ f ∈ fillsBetween s s', 0 < f.qty ∧ f.price = touchPrice s'.ms f.side := by
  have hr' := hr.step h
  constructor
  · refine List.eq_nil_iff_forall_not_mem.2 (fun o ho => ?_)
    rcases step_active hr.inv h ho with ⟨p, hp, _⟩ | ha'
    · rw [ha] at hp; cases hp
    · cases op <;> simp_all [accepted, takesOnly]
  intro f hf
  refine ⟨(hr'.fill_price f (by rw [step_fillsBetween h]; simp [hf])).2, ?_⟩
  have none : fills s'.log = fills s.log → False := fun e => by
    rw [fillsBetween_eq (new := []) e] at hf; cases hf
  cases op with
  | limit => exact ht.elim
  | amend => exact ht.elim
  | cancel b => exact (none (C03_quiet_calls c s s' _ r h trivial)).elim
  | update u =>
    obtain ⟨_, _, x, _, _, _, hx⟩ | ⟨_, _, hx, _⟩ | ⟨err, rfl, _⟩ | ⟨_, _, _, _, hx, _⟩ |
      ⟨_, _, _, _, _, hx, _⟩ | ⟨_, _, _, _, _, _, hx, _⟩ | ⟨_, _, hx, _⟩ := step_cases h
    · cases x with
      | ok ups =>
        subst hx
        refine (none ?_).elim
        rw [(update_spec hr.inv h).2.2.2.1, ha]
        rfl
      | error err =>
        subst hx
        have e := (C30_liquidation_flattens c s s' u err hr h).2.1
        rw [fillsBetween_eq (new := [closingFill s.pos (quotesAfter s.ms u)]) e] at hf
        simp only [List.mem_singleton] at hf
        obtain ⟨_, _, hq⟩ := C43_update c s s' u _ hr h
        rw [← hq] at hf
        subst hf
        unfold closingFill
        split <;> rfl
    · cases hx
    · exact (none rfl).elim
    · cases hx
    · cases hx
    · cases hx
    · cases hx
  | checkActive u =>
    simp only [step, bind_ok, ok_inj, Prod.mk.injEq] at h
    obtain ⟨u', hb, s1, h1, rfl, rfl⟩ := h
    refine (none ?_).elim
    rw [(checkActive_spec hb hr.inv h1).2.2.1, ha]
    rfl
  | market side q uid =>
    obtain ⟨_, _, x, hx, _⟩ | ⟨_, _, hx, _⟩ | ⟨err, rfl, _⟩ | ⟨_, _, _, x, hx, _, hm, rfl⟩ |
      ⟨_, _, _, _, _, hx, _⟩ | ⟨_, _, _, _, _, _, hx, _⟩ | ⟨_, _, hx, _⟩ := step_cases h
    · cases hx
    · cases hx
    · exact (none rfl).elim
    · cases x with
      | error err => exact (none (C03_quiet_calls c s s' _ _ h trivial)).elim
      | ok f' =>
        have k := C21_market_order c s s' hr side q uid f' h
        rw [fillsBetween_eq (new := [⟨false, side, touchPrice s.ms side, q⟩]) k.2.1] at hf
        simp only [List.mem_singleton] at hf
        subst hf
        rw [k.2.2.2.2.2.1]
    · cases hx
    · cases hx
    · cases hx

theorem betweenQuotes_tail {c : Cfg} {mark : State → Int} {s s1 : State} {op : Op} {ops : List Op}
    {r : Resp} (h : betweenQuotes c mark s (op :: ops)) (h1 : step c s op = .ok (s1, r)) :
    betweenQuotes c mark s1 ops := fun first rest t e ht =>
  h (op :: first) rest t (by rw [e]; rfl) (by simp only [run, h1, bind, Except.bind]; exact ht)

theorem neverLarger_tail {c : Cfg} {q : Int} {s s1 : State} {op : Op} {ops : List Op}
    {r : Resp} (h : neverLarger c q s (op :: ops)) (h1 : step c s op = .ok (s1, r)) :
    neverLarger c q s1 ops := fun first rest t e ht =>
  h (op :: first) rest t (by rw [e]; rfl) (by simp only [run, h1, bind, Except.bind]; exact ht)

theorem fills_cost {ms : MarketState} {m : Int} (h1 : ms.bid ≤ m) (h2 : m ≤ ms.ask) :
    ∀ fs : List Fill, (∀ f ∈ fs, 0 < f.qty ∧ f.price = touchPrice ms f.side) →
      (fs.map (fun f => f.signed * (m - f.price))).sum ≤ 0
  | [], _ => by simp
  | f :: fs, h => by
    have ih := fills_cost h1 h2 fs (fun g hg => h g (by simp [hg]))
    obtain ⟨hq, hp⟩ := h f (by simp)
    simp only [List.map_cons, List.sum_cons]
    have : f.signed * (m - f.price) ≤ 0 := by
      rw [hp]
      cases hs : f.side <;> simp only [Fill.signed, hs, touchPrice]
      · exact Int.mul_nonpos_of_nonneg_of_nonpos (by omega) (by omega)
      · exact Int.mul_nonpos_of_nonpos_of_nonneg (by omega) (by omega)
    omega

theorem takers_cost {c : Cfg} {mark : State → Int} :
    ∀ (ops : List Op) {s s' : State}, Reachable c s → s.active = [] → (∀ op ∈ ops, takesOnly op) →
      betweenQuotes c mark s ops → run c s ops = .ok s' → fromFills c mark s ops ≤ 0
  | [], _, _, _, _, _, _, _ => Int.le_refl 0
  | op :: ops, s, s', hr, ha, ht, hb, h => by
    simp only [run, bind_ok] at h
    obtain ⟨⟨s1, r⟩, h1, h⟩ := h
    obtain ⟨k1, k2⟩ := taker_step hr ha (ht op (by simp)) h1
    have ih := takers_cost ops (hr.step h1) k1 (fun x hx => ht x (by simp [hx])) (betweenQuotes_tail hb h1) h
    obtain ⟨b1, b2⟩ := hb [op] ops s1 rfl (by simp only [run, h1, bind, Except.bind])
    have := fills_cost b1 b2 _ k2
    simp only [fromFills, h1]
    omega

theorem moves_bounded {c : Cfg} {mark : State → Int} {q : Int} :
    ∀ (ops : List Op) {s : State}, neverLarger c q s ops →
      fromMoves c mark s ops ≤ q * travelled c mark s ops
  | [], _, _ => by simp [fromMoves, travelled]
  | op :: ops, s, hn => by
    simp only [fromMoves, travelled]
    cases h1 : step c s op with
    | error p => simp
    | ok x =>
      obtain ⟨s1, r⟩ := x
      have ih := moves_bounded (mark := mark) ops (neverLarger_tail hn h1)
      have h0 := hn [] (op :: ops) s rfl rfl
      simp only
      rw [Int.mul_add]
      have : s.pos.quantity * (mark s1 - mark s) ≤ q * Spec.abs (mark s1 - mark s) := by
        generalize mark s1 - mark s = d
        generalize s.pos.quantity = x at *
        unfold Spec.abs at *
        split
        · rename_i hd
          exact Int.mul_le_mul_of_nonneg_right (by split at h0 <;> omega) hd
        · rename_i hd
          rw [show x * d = (-x) * (-d) by rw [Int.neg_mul_neg]]
          exact Int.mul_le_mul_of_nonneg_right (by split at h0 <;> omega) (by omega)
      omega

/-- C128, takers: an account without resting orders that submits none gains at most position times
move of the mark, summed over the calls, for every mark between the quotes; liquidations count. With
positions of at most `q` that is at most `q` times the way the mark has travelled. -/
theorem C128_takers_gain_only_from_moves (c : Cfg) (mark : State → Int) (ops : List Op)
    (s s' : State) (hk : c.env.kind = .linear) (hr : Reachable c s) (ha : s.active = [])
    (ht : ∀ op ∈ ops, takesOnly op) (hb : betweenQuotes c mark s ops)
    (h : run c s ops = .ok s') :
    let gain := gainAt c s' (mark s') - gainAt c s (mark s)
    let rounding := profitRounding c (fills s'.log) - profitRounding c (fills s.log)
    gain ≤ fromMoves c mark s ops + rounding ∧
    ∀ q, neverLarger c q s ops → gain ≤ q * travelled c mark s ops + rounding := by
  have e := C128_attribution c mark ops s s' hk hr h
  have k := takers_cost ops hr ha ht hb h
  have hle : ∀ x y : Int, Spec.abs x ≤ y → x ≤ y := fun x y hx => by
    unfold Spec.abs at hx; split at hx <;> omega
  have e := hle _ _ e
  refine ⟨by omega, fun q hq => ?_⟩
  have := moves_bounded (mark := mark) ops hq
  omega

/-- Non-vacuity: the same history submits no limit orders, its positions are never larger than four and
the mid price lies between the quotes throughout. It travels 113.5 in all. -/
example : (∀ op ∈ Ex.cash, takesOnly op) ∧
    betweenQuotes Ex.linR Ex.middle (State.init Ex.linR) Ex.cash ∧
    neverLarger Ex.linR (Ex.d 4) (State.init Ex.linR) Ex.cash ∧
    travelled Ex.linR Ex.middle (State.init Ex.linR) Ex.cash = Ex.d 227 / 2 := by
  have key : (List.range 10).all (fun n => Ex.after Ex.linR (Ex.cash.take n) (fun t =>
      decide (t.ms.bid ≤ Ex.middle t ∧ Ex.middle t ≤ t.ms.ask ∧
        Spec.abs t.pos.quantity ≤ Ex.d 4))) = true := by decide +kernel
  have key : ∀ first rest t, Ex.cash = first ++ rest →
      run Ex.linR (State.init Ex.linR) first = .ok t → t.ms.bid ≤ Ex.middle t ∧
        Ex.middle t ≤ t.ms.ask ∧ Spec.abs t.pos.quantity ≤ Ex.d 4 := by
    intro first rest t e h
    have hl : first.length < 10 := by
      have := congrArg List.length e
      rw [List.length_append] at this
      have : Ex.cash.length = 9 := rfl
      omega
    have hf : Ex.cash.take first.length = first := by rw [e]; simp
    have := List.all_eq_true.1 key first.length (List.mem_range.2 hl)
    rw [hf] at this
    simp only [Ex.after, h] at this
    exact of_decide_eq_true this
  refine ⟨?_, fun a b t e h => ⟨(key a b t e h).1, (key a b t e h).2.1⟩,
    fun a b t e h => (key a b t e h).2.2, by decide +kernel⟩
  intro op hop
  simp only [Ex.cash, Ex.q, List.mem_cons, List.not_mem_nil, or_false] at hop
  rcases hop with rfl | rfl | rfl | rfl | rfl | rfl | rfl | rfl | rfl <;> trivial

end Lfest
