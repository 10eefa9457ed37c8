import Verif.SpecReport
import Verif.Model.Report
import Verif.Props.Calls
import Verif.Props.Tracker
import Verif.Props.Trips

/-!
# The printed summary: C114
-/

namespace Lfest

open Spec

theorem firstNonZero_snoc (xs : List Int) (x : Int) :
    firstNonZero (xs ++ [x]) = if firstNonZero xs = 0 then x else firstNonZero xs := by
  induction xs with
  | nil => simp only [List.nil_append, firstNonZero]; split <;> simp_all
  | cons y ys ih =>
    simp only [List.cons_append, firstNonZero, ih]
    by_cases hy : y = 0
    · simp only [hy, if_true]
    · simp only [hy, if_false]

theorem firstNonZero_ne (xs : List Int) : firstNonZero xs ≠ 0 ↔ ∃ x ∈ xs, x ≠ 0 := by
  induction xs with
  | nil => simp [firstNonZero]
  | cons y ys ih =>
    simp only [firstNonZero]
    by_cases hy : y = 0
    · simp [hy, ih]
    · simp [hy]

theorem lastOne_snoc (xs : List Int) (x : Int) : lastOne (xs ++ [x]) = x := by
  simp [lastOne]

/-- What the tracker remembers of the updates. -/
theorem replay_marks {e : Env} {start : Int} : ∀ {l : List Event} {t : FullTracker},
    FullTracker.replay e start l = .ok t → t.walletStart = start ∧
    t.tsFirst = firstNonZero ((updatesIn l).reverse.map (·.ts)) ∧
    t.tsLast = lastOne ((updatesIn l).reverse.map (·.ts)) ∧
    t.priceFirst = firstNonZero ((updatesIn l).reverse.map (·.mid e.scale)) ∧
    t.priceLast = lastOne ((updatesIn l).reverse.map (·.mid e.scale)) := by
  intro l
  induction l with
  | nil =>
    intro t h; obtain ⟨_, rfl⟩ := new_ok (replay_nil h)
    simp [updatesIn, firstNonZero, lastOne]
  | cons ev l ih =>
    intro t h
    obtain ⟨t0, h0, h1⟩ := replay_cons h
    obtain ⟨i0, i1, i2, i3, i4⟩ := ih h0
    cases ev with
    | trade side p q => obtain ⟨_, rfl⟩ := handle_trade h1; exact ⟨i0, i1, i2, i3, i4⟩
    | limitFill b q => have := handle_limitFill h1; subst this; exact ⟨i0, i1, i2, i3, i4⟩
    | update ms =>
      simp only [FullTracker.handle, ok_inj] at h1
      subst h1
      have e : updatesIn (.update ms :: l) = ms :: updatesIn l := rfl
      simp only [e, List.reverse_cons, List.map_append, List.map_cons, List.map_nil,
        firstNonZero_snoc, lastOne_snoc, i0, i1, i3]
      simp
    | _ =>
      simp only [FullTracker.handle, ok_inj] at h1; subst h1; exact ⟨i0, i1, i2, i3, i4⟩

theorem report_cases {c : Cfg} {ops : List Op} {s : State} {start : Int} {t : FullTracker}
    (h : run c (State.init c) ops = .ok s)
    (ht : FullTracker.replay c.env start s.log = .ok t) :
    t.walletStart = start ∧
    t.tsFirst = firstNonZero ((observed ⟨0, 0, 0, 0⟩ ops).map (·.ts)) ∧
    t.tsLast = lastOne ((observed ⟨0, 0, 0, 0⟩ ops).map (·.ts)) ∧
    t.priceFirst = firstNonZero ((observed ⟨0, 0, 0, 0⟩ ops).map mid) ∧
    t.priceLast = lastOne ((observed ⟨0, 0, 0, 0⟩ ops).map mid) := by
  have hu := run_updates ops _ s ⟨[], rfl⟩ h
  simp only [State.init, MarketState.init] at hu
  have hnil : updatesIn [] = [] := rfl
  rw [hnil, List.append_nil] at hu
  have hm : (fun ms : MarketState => ms.mid c.env.scale) = mid := funext fun ms => mid_eq c ms
  have := replay_marks ht
  rw [hu, List.reverse_reverse, hm] at this
  exact this

/-- C114: the summary can be printed exactly if the market states seen so far allow it; otherwise
printing panics. -/
theorem C114_printing (c : Cfg) (ops : List Op) (s : State) (start : Int) (t : FullTracker)
    (h : run c (State.init c) ops = .ok s)
    (ht : FullTracker.replay c.env start s.log = .ok t) :
    (∃ r, t.report c.env = .ok r) ↔ summarises c start (observed ⟨0, 0, 0, 0⟩ ops) := by
  obtain ⟨e0, e1, e2, e3, e4⟩ := report_cases h ht
  have hmap : (∃ m ∈ observed ⟨0, 0, 0, 0⟩ ops, mid m ≠ 0) ↔ t.priceFirst ≠ 0 := by
    rw [e3, firstNonZero_ne]
    constructor
    · rintro ⟨m, hm, hx⟩; exact ⟨mid m, List.mem_map_of_mem hm, hx⟩
    · rintro ⟨x, hx, h0⟩
      obtain ⟨m, hm, rfl⟩ := List.mem_map.1 hx
      exact ⟨m, hm, h0⟩
  unfold summarises
  rw [hmap, ← e1, ← e2, ← e3, ← e4]
  simp only [FullTracker.report, FullTracker.buyAndHold, FullTracker.numTradingDays, e0]
  cases hk : c.env.kind with
  | linear =>
    simp only [convertBack, hk, ddiv]
    by_cases hp : t.priceFirst = 0
    · simp [hp, bind, Except.bind]
    · by_cases hd : t.tsFirst ≤ t.tsLast
      · obtain ⟨v, hv⟩ : ∃ v, pnl c.env t.priceFirst t.priceLast
            ((start * c.env.scale).tdiv t.priceFirst) = .ok v := by
          simp only [pnl, hk, convert_linear hk, bind, Except.bind]
          split <;> exact ⟨_, rfl⟩
        simp [hp, hd, assertP, hv, bind, Except.bind]
      · cases hv : pnl c.env t.priceFirst t.priceLast
            ((start * c.env.scale).tdiv t.priceFirst) <;>
        simp [hp, hd, assertP, hv, bind, Except.bind]
  | inverse =>
    simp only [convertBack, hk, contracts, dmul]
    by_cases hq : (start * t.priceFirst).tdiv c.env.scale = 0
    · by_cases hd : t.tsFirst ≤ t.tsLast <;> simp [hq, hd, assertP, pnl, bind, Except.bind]
    · have hp : t.priceFirst ≠ 0 := by
        intro h0; rw [h0] at hq; simp at hq
      by_cases hl : t.priceLast = 0
      · simp [hq, hp, hl, pnl, hk, convert, ddiv, bind, Except.bind]
      · by_cases hd : t.tsFirst ≤ t.tsLast <;>
        simp [hq, hp, hl, hd, assertP, pnl, hk, convert, ddiv, bind, Except.bind]

/-- C114: what is printed. The profit is that of C52, the volumes and the turnover are those of the
fills, the rest is stated from the market states seen. -/
theorem C114_contents (c : Cfg) (ops : List Op) (s : State) (start : Int) (t : FullTracker)
    (r : Report) (h : run c (State.init c) ops = .ok s)
    (ht : FullTracker.replay c.env start s.log = .ok t) (hr : t.report c.env = .ok r) :
    let seen := observed ⟨0, 0, 0, 0⟩ ops
    let first := firstNonZero (seen.map mid)
    let start' := firstNonZero (seen.map (·.ts))
    r.rpnl = t.rpnl ∧
    r.buyVolume = volume c .buy (fills s.log) ∧ r.sellVolume = volume c .sell (fills s.log) ∧
    r.turnover = r.buyVolume + r.sellVolume ∧
    r.buyAndHold = Spec.pnl c.env first (lastOne (seen.map mid)) (contracts c.env start first) ∧
    r.tradingDays = (lastOne (seen.map (·.ts)) - start').tdiv (24 * 60 * 60 * 1000000000) ∧
    r.fillRatio = t.fillRatio ∧ r.cancelRatio = t.cancelRatio := by
  intro seen first start'
  obtain ⟨e0, e1, e2, e3, e4⟩ := report_cases h ht
  obtain ⟨v1, v2, v3⟩ := C51_volumes c s start t ⟨ops, h⟩ (replay_start ht) ht
  simp only [FullTracker.report, bind_ok, ok_inj] at hr
  obtain ⟨hold, hh, days, hd, rfl⟩ := hr
  refine ⟨rfl, v1, v2, rfl, ?_, ?_, rfl, rfl⟩
  · simp only [FullTracker.buyAndHold, bind_ok, e0, e3, e4] at hh
    obtain ⟨q, hq, hp⟩ := hh
    have hq' : q = contracts c.env start first := by
      cases hk : c.env.kind
      · simp only [convertBack, hk, ddiv] at hq
        split at hq
        · simp at hq
        · simp only [ok_inj] at hq; simp only [contracts, hk]; exact hq.symm
      · simp only [convertBack, hk, dmul, ok_inj] at hq; simp only [contracts, hk]; exact hq.symm
    rw [hq'] at hp
    exact pnl_ok hp
  · simp only [FullTracker.numTradingDays, bind_ok, ok_inj, e1, e2] at hd
    obtain ⟨_, _, rfl⟩ := hd
    rfl

/-- C114: in the usual case, when there was an update, all times and mid prices are positive and the
last time is not before the first, the summary can be printed. -/
theorem C114_usual (c : Cfg) (ops : List Op) (s : State) (start : Int) (t : FullTracker)
    (first last : MarketState) (h : run c (State.init c) ops = .ok s)
    (ht : FullTracker.replay c.env start s.log = .ok t)
    (hf : (observed ⟨0, 0, 0, 0⟩ ops).head? = some first)
    (hl : (observed ⟨0, 0, 0, 0⟩ ops).getLast? = some last)
    (hp : ∀ m ∈ observed ⟨0, 0, 0, 0⟩ ops, 0 < m.ts ∧ 0 < mid m) (hle : first.ts ≤ last.ts) :
    ∃ r, t.report c.env = .ok r := by
  rw [C114_printing c ops s start t h ht]
  have hmf : first ∈ observed ⟨0, 0, 0, 0⟩ ops := List.mem_of_mem_head? hf
  have hml : last ∈ observed ⟨0, 0, 0, 0⟩ ops := List.mem_of_getLast? hl
  have hne := (hp first hmf).1
  refine ⟨?_, ?_⟩
  · have h1 : firstNonZero ((observed ⟨0, 0, 0, 0⟩ ops).map (·.ts)) = first.ts := by
      cases ho : observed ⟨0, 0, 0, 0⟩ ops with
      | nil => rw [ho] at hf; simp at hf
      | cons a l =>
        rw [ho] at hf; simp only [List.head?_cons, Option.some.injEq] at hf; subst hf
        simp only [List.map_cons, firstNonZero]
        rw [if_neg (by omega)]
    have h2 : lastOne ((observed ⟨0, 0, 0, 0⟩ ops).map (·.ts)) = last.ts := by
      simp [lastOne, List.getLast?_map, hl]
    rw [h1, h2]; exact hle
  · split
    · exact ⟨last, hml, by have := (hp last hml).2; omega⟩
    · refine .inr ?_
      have : lastOne ((observed ⟨0, 0, 0, 0⟩ ops).map mid) = mid last := by
        simp [lastOne, List.getLast?_map, hl]
      rw [this]; have := (hp last hml).2; omega

/-- C114, linear contracts: before the first market update printing the summary panics. -/
theorem C114_too_early (c : Cfg) (ops : List Op) (s : State) (start : Int) (t : FullTracker)
    (hk : c.env.kind = .linear) (h : run c (State.init c) ops = .ok s)
    (ht : FullTracker.replay c.env start s.log = .ok t)
    (hu : ∀ u, .update u ∉ ops) : ∃ p, t.report c.env = .error p := by
  have hno : observed ⟨0, 0, 0, 0⟩ ops = [] := by
    have : ∀ (l : List Op) (m : MarketState), (∀ u, .update u ∉ l) → observed m l = [] := by
      intro l
      induction l with
      | nil => intro m _; rfl
      | cons op l ih =>
        intro m hm
        have hl : ∀ u, .update u ∉ l := fun u hx => hm u (by simp [hx])
        cases op with
        | update u => exact absurd (by simp) (hm u)
        | _ => exact ih m hl
    exact this ops _ hu
  cases hr : t.report c.env with
  | error p => exact ⟨p, rfl⟩
  | ok r =>
    have := (C114_printing c ops s start t h ht).1 ⟨r, hr⟩
    rw [hno] at this
    simp [summarises, hk] at this

/-- Two days of quotes and a trade: the summary can be printed, and shows two days. -/
example : Ex.tracked Ex.lin (Ex.trades ++ [.update (.bba ⟨Ex.d 100, Ex.d 101, 172800000000002⟩)])
    (fun _ _ t => (t.report Ex.lin.env).toOption.elim false fun r => decide (r.tradingDays = 2 ∧
      r.rpnl = 2646580 ∧ r.turnover = 1037 * 100000)) = true := by decide +kernel

/-- In inverse contracts it can be printed at once. -/
example : Ex.tracked Ex.inv [] (fun _ _ t => (t.report Ex.inv.env).toOption.isSome) = true := by
  decide +kernel

end Lfest
