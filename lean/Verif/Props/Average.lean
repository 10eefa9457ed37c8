import Verif.SpecAverage
import Verif.Props.Cash

/-!
# C129: averaging the entry price costs longs and favours shorts of inverse contracts
-/

namespace Lfest
open Spec

theorem value_inverse {e : Env} (hk : e.kind = .inverse) (q p : Int) :
    value e q p = (q * e.scale).tdiv p := by
  simp only [value, hk]

/-- The arithmetic mean of two prices is no smaller than the harmonic mean. -/
theorem mean_le {w0 w1 p0 p1 : Int} (h0 : 0 ≤ w0) (h1 : 0 ≤ w1) :
    (w0 + w1) * (w0 + w1) * (p0 * p1) ≤ (w0 * p1 + w1 * p0) * (p0 * w0 + p1 * w1) := by
  have h : 0 ≤ w0 * w1 * ((p0 - p1) * (p0 - p1)) := by
    refine Int.mul_nonneg (Int.mul_nonneg h0 h1) ?_
    rcases Int.le_total 0 (p0 - p1) with h | h
    · exact Int.mul_nonneg h h
    · exact Int.mul_nonneg_of_nonpos_of_nonpos h h
  have : (w0 * p1 + w1 * p0) * (p0 * w0 + p1 * w1) - (w0 + w1) * (w0 + w1) * (p0 * p1) =
      w0 * w1 * ((p0 - p1) * (p0 - p1)) := by grind
  omega

/-- At a price no lower than the average the position is worth no more than its parts. -/
theorem value_average {e : Env} (hk : e.kind = .inverse) {w0 w1 p0 p1 p : Int} (h0 : 0 < w0)
    (h1 : 0 < w1) (hp0 : 0 < p0) (hp1 : 0 < p1) (hp : p0 * w0 + p1 * w1 ≤ p * (w0 + w1)) :
    value e (w0 + w1) p ≤ value e w0 p0 + value e w1 p1 + 1 := by
  have hs := scale_pos e
  simp only [value_inverse hk]
  have hm : 0 < p0 * w0 + p1 * w1 := Int.add_pos (Int.mul_pos hp0 h0) (Int.mul_pos hp1 h1)
  have hpp : 0 < p := by
    rcases Int.lt_or_le 0 p with h | h
    · exact h
    · have := Int.mul_nonpos_of_nonpos_of_nonneg h (show 0 ≤ w0 + w1 by omega)
      omega
  obtain ⟨n1, _, n0⟩ := tdiv_bounds (Int.mul_nonneg (show 0 ≤ w0 + w1 by omega) (Int.le_of_lt hs)) hpp
  obtain ⟨_, a2, _⟩ := tdiv_bounds (Int.mul_nonneg (Int.le_of_lt h0) (Int.le_of_lt hs)) hp0
  obtain ⟨_, b2, _⟩ := tdiv_bounds (Int.mul_nonneg (Int.le_of_lt h1) (Int.le_of_lt hs)) hp1
  generalize ((w0 + w1) * e.scale).tdiv p = n at *
  generalize (w0 * e.scale).tdiv p0 = a at *
  generalize (w1 * e.scale).tdiv p1 = b at *
  have hP : 0 < p0 * p1 := Int.mul_pos hp0 hp1
  have k1 : n * (p0 * w0 + p1 * w1) ≤ (w0 + w1) * (w0 + w1) * e.scale := by
    have x1 := Int.mul_le_mul_of_nonneg_left hp n0
    have x2 := Int.mul_le_mul_of_nonneg_right n1 (show 0 ≤ w0 + w1 by omega)
    grind
  have k2 : n * (p0 * p1) * (p0 * w0 + p1 * w1) ≤
      (w0 * p1 + w1 * p0) * e.scale * (p0 * w0 + p1 * w1) := by
    have x1 := Int.mul_le_mul_of_nonneg_right k1 (Int.le_of_lt hP)
    have x2 := Int.mul_le_mul_of_nonneg_right (mean_le (p0 := p0) (p1 := p1) (Int.le_of_lt h0)
      (Int.le_of_lt h1)) (Int.le_of_lt hs)
    grind
  have k3 := Int.le_of_mul_le_mul_right k2 hm
  have k4 : (w0 * p1 + w1 * p0) * e.scale < (a + b + 2) * (p0 * p1) := by
    have x1 := Int.mul_lt_mul_of_pos_right a2 hp1
    have x2 := Int.mul_lt_mul_of_pos_right b2 hp0
    grind
  have k5 := Int.lt_of_mul_lt_mul_right (Int.lt_of_le_of_lt k3 k4) (Int.le_of_lt hP)
  omega

/-- The price above the entry price in the allowance is no lower than the average. -/
theorem slack_price {e : Env} {w0 w1 p0 p1 : Int} (h0 : 0 < w0) (h1 : 0 < w1) (hp0 : 0 < p0)
    (hp1 : 0 < p1) :
    p0 * w0 + p1 * w1 ≤
      (weighted e p0 w0 p1 w1 + 2 + 2 * e.scale / (w0 + w1)) * (w0 + w1) := by
  obtain ⟨_, _, h⟩ := weighted_bounds e (Int.le_of_lt hp0) (Int.le_of_lt hp1) (Int.le_of_lt h0)
    (Int.le_of_lt h1) (by omega)
  generalize weighted e p0 w0 p1 w1 = E at *
  have hd : 2 * e.scale < (2 * e.scale / (w0 + w1) + 1) * (w0 + w1) :=
    Int.lt_ediv_add_one_mul_self _ (by omega)
  generalize 2 * e.scale / (w0 + w1) = k at *
  grind

theorem inverse_in_parts {e : Env} (hk : e.kind = .inverse) {a b p : Int} (ha : 0 ≤ a) (hb : 0 ≤ b)
    (hp : 0 ≤ p) : value e a p + value e b p ≤ value e (a + b) p := by
  have hs := scale_pos e
  simp only [value_inverse hk]
  rcases Int.lt_or_eq_of_le hp with hp | rfl
  · obtain ⟨a1, _, _⟩ := tdiv_bounds (Int.mul_nonneg ha (Int.le_of_lt hs)) hp
    obtain ⟨b1, _, _⟩ := tdiv_bounds (Int.mul_nonneg hb (Int.le_of_lt hs)) hp
    obtain ⟨_, c2, _⟩ := tdiv_bounds (Int.mul_nonneg (Int.add_nonneg ha hb) (Int.le_of_lt hs)) hp
    generalize (a * e.scale).tdiv p = x at *
    generalize (b * e.scale).tdiv p = y at *
    generalize ((a + b) * e.scale).tdiv p = z at *
    have : (x + y) * p < (z + 1) * p := by grind
    have := Int.lt_of_mul_lt_mul_right this (Int.le_of_lt hp)
    omega
  · simp

theorem slack_nonneg {c : Cfg} (hk : c.env.kind = .inverse) {q entry : Int} (hq : 0 ≤ q)
    (he : q ≠ 0 → 0 < entry) : 0 < averagingSlack c q entry := by
  have hs := scale_pos c.env
  rw [show c.env.scale = c.scale from rfl] at hs
  simp only [averagingSlack, value_inverse hk]
  rcases Int.lt_or_eq_of_le hq with h | rfl
  · have he := he (by omega)
    have : 0 ≤ 2 * c.scale / q := Int.ediv_nonneg (by omega) hq
    have := tdiv_anti (Int.mul_nonneg hq (Int.le_of_lt hs)) he
      (show entry ≤ entry + 2 + 2 * c.scale / q by omega)
    rw [show c.env.scale = c.scale from rfl]
    omega
  · simp

/-- A fill in the direction of the position -/
theorem basis_enlarged {c : Cfg} (hk : c.env.kind = .inverse) {w0 w1 p0 p1 : Int} (h0 : 0 < w0)
    (h1 : 0 < w1) (hp0 : 0 < p0) (hp1 : 0 < p1) :
    value c.env (w0 + w1) (weighted c.env p0 w0 p1 w1) ≤ value c.env w0 p0 + value c.env w1 p1 +
      averagingSlack c (w0 + w1) (weighted c.env p0 w0 p1 w1) := by
  have := value_average hk h0 h1 hp0 hp1 (slack_price (e := c.env) h0 h1 hp0 hp1)
  simp only [averagingSlack]
  rw [show c.env.scale = c.scale from rfl] at this
  omega

theorem onlyLong_tail {c : Cfg} {f : Fill} {fs : List Fill} (h : onlyLong c (f :: fs)) :
    onlyLong c fs := fun gs hg => h gs (hg.trans (List.suffix_cons f fs))

theorem onlyShort_tail {c : Cfg} {f : Fill} {fs : List Fill} (h : onlyShort c (f :: fs)) :
    onlyShort c fs := fun gs hg => h gs (hg.trans (List.suffix_cons f fs))

theorem long_basis {c : Cfg} (hk : c.env.kind = .inverse) :
    ∀ fs : List Fill, (∀ f ∈ fs, 0 < f.price ∧ 0 < f.qty) → onlyLong c fs →
      (ledger c fs).realised + value c.env (ledger c fs).qty (ledger c fs).entry ≤
        coins c fs + averagingRounding c fs
  | [], _, _ => by
    simp [ledger, Ledger.empty, coins, averagingRounding, value_inverse hk]
  | f :: fs, hall, hl => by
    have ih := long_basis hk fs (fun g hg => hall g (by simp [hg])) (onlyLong_tail hl)
    obtain ⟨hp, hq⟩ := hall f (by simp)
    have he0 := ledger_entry c fs (fun g hg => hall g (by simp [hg]))
    obtain ⟨n1, e1⟩ := hl (f :: fs) (List.suffix_refl _)
    obtain ⟨n0, e0⟩ := hl fs (List.suffix_cons f fs)
    have hsl := slack_nonneg hk (q := Spec.abs (netBought (f :: fs)))
      (entry := (ledger c (f :: fs)).entry) (by unfold Spec.abs; split <;> omega)
      (fun h => e1 (by unfold Spec.abs at h; split at h <;> omega))
    have habs : Spec.abs (netBought (f :: fs)) = netBought (f :: fs) := by
      unfold Spec.abs; split <;> omega
    simp only [coins, averagingRounding]
    rw [habs] at hsl ⊢
    rw [← ledger_qty c (f :: fs)] at hsl n1 ⊢
    rw [← ledger_qty c fs] at n0 e0
    simp only [ledger] at hsl n1 ⊢
    generalize ledger c fs = l at *
    by_cases h0 : l.qty = 0
    · rw [fill_open c f h0] at hsl n1 ⊢
      simp only [Fill.signed] at hsl n1 ⊢
      rw [h0] at ih
      simp only [value_inverse hk, Int.zero_mul, Int.zero_tdiv] at ih
      cases hs : f.side <;> simp only [hs] at hsl n1 ⊢ <;> omega
    · cases hs : f.side with
      | buy =>
        rw [fill_enlarge c h0 (.inl ⟨by omega, hs⟩)] at hsl n1 ⊢
        simp only [Fill.signed, hs, show Spec.abs l.qty = l.qty by unfold Spec.abs; split <;> omega]
        have := basis_enlarged hk (w0 := l.qty) (by omega) hq (e0 h0) hp
        omega
      | sell =>
        have hfill : (l.fill c f).qty = l.qty + f.signed ∧
            (l.fill c f).entry = (if f.qty < Spec.abs l.qty then l.entry else
              if f.qty = Spec.abs l.qty then 0 else f.price) ∧
            (l.fill c f).realised = l.realised + Spec.pnl c.env l.entry f.price
              (if 0 < l.qty then (if f.qty ≤ Spec.abs l.qty then f.qty else Spec.abs l.qty) else
                -(if f.qty ≤ Spec.abs l.qty then f.qty else Spec.abs l.qty)) := by
          simp only [Ledger.fill]; rw [if_neg h0, if_neg (by simp [hs]; omega)]; exact ⟨rfl, rfl, rfl⟩
        obtain ⟨f1, f2, f3⟩ := hfill
        rw [f1] at n1
        generalize averagingSlack c (l.fill c f).qty (l.fill c f).entry = sl at *
        rw [f1, f2, f3]
        simp only [Fill.signed, hs, show Spec.abs l.qty = l.qty by unfold Spec.abs; split <;> omega]
          at n1 ⊢
        rw [if_pos (show 0 < l.qty by omega), if_pos (show f.qty ≤ l.qty by omega)]
        simp only [Spec.pnl, hk]
        have v := inverse_in_parts hk (a := f.qty) (b := l.qty + -f.qty) (Int.le_of_lt hq) n1 he0
        rw [show f.qty + (l.qty + -f.qty) = l.qty by omega] at v
        split
        · omega
        · rename_i hlt
          have z : l.qty + -f.qty = 0 := by omega
          rw [z] at v ⊢
          simp only [value_inverse hk, Int.zero_mul, Int.zero_tdiv] at v ih ⊢
          omega

theorem short_basis {c : Cfg} (hk : c.env.kind = .inverse) :
    ∀ fs : List Fill, (∀ f ∈ fs, 0 < f.price ∧ 0 < f.qty) → onlyShort c fs →
      coins c fs - averagingRounding c fs ≤
        (ledger c fs).realised - value c.env (-(ledger c fs).qty) (ledger c fs).entry
  | [], _, _ => by
    simp [ledger, Ledger.empty, coins, averagingRounding, value_inverse hk]
  | f :: fs, hall, hl => by
    have ih := short_basis hk fs (fun g hg => hall g (by simp [hg])) (onlyShort_tail hl)
    obtain ⟨hp, hq⟩ := hall f (by simp)
    have he0 := ledger_entry c fs (fun g hg => hall g (by simp [hg]))
    obtain ⟨n1, e1⟩ := hl (f :: fs) (List.suffix_refl _)
    obtain ⟨n0, e0⟩ := hl fs (List.suffix_cons f fs)
    have hsl := slack_nonneg hk (q := Spec.abs (netBought (f :: fs)))
      (entry := (ledger c (f :: fs)).entry) (by unfold Spec.abs; split <;> omega)
      (fun h => e1 (by unfold Spec.abs at h; split at h <;> omega))
    have habs : Spec.abs (netBought (f :: fs)) = -netBought (f :: fs) := by
      unfold Spec.abs; split <;> omega
    simp only [coins, averagingRounding]
    rw [habs] at hsl ⊢
    rw [← ledger_qty c (f :: fs)] at hsl n1 ⊢
    rw [← ledger_qty c fs] at n0 e0
    simp only [ledger] at hsl n1 ⊢
    generalize ledger c fs = l at *
    by_cases h0 : l.qty = 0
    · rw [fill_open c f h0] at hsl n1 ⊢
      simp only [Fill.signed] at hsl n1 ⊢
      rw [h0] at ih
      simp only [value_inverse hk, Int.neg_zero, Int.zero_mul, Int.zero_tdiv] at ih
      cases hs : f.side <;> simp only [hs, Int.neg_neg] at hsl n1 ⊢ <;> omega
    · cases hs : f.side with
      | sell =>
        rw [fill_enlarge c h0 (.inr ⟨by omega, hs⟩)] at hsl n1 ⊢
        simp only [Fill.signed, hs, show Spec.abs l.qty = -l.qty by unfold Spec.abs; split <;> omega]
        have := basis_enlarged hk (w0 := -l.qty) (by omega) hq (e0 h0) hp
        rw [show -(l.qty + -f.qty) = -l.qty + f.qty by omega]
        omega
      | buy =>
        have hfill : (l.fill c f).qty = l.qty + f.signed ∧
            (l.fill c f).entry = (if f.qty < Spec.abs l.qty then l.entry else
              if f.qty = Spec.abs l.qty then 0 else f.price) ∧
            (l.fill c f).realised = l.realised + Spec.pnl c.env l.entry f.price
              (if 0 < l.qty then (if f.qty ≤ Spec.abs l.qty then f.qty else Spec.abs l.qty) else
                -(if f.qty ≤ Spec.abs l.qty then f.qty else Spec.abs l.qty)) := by
          simp only [Ledger.fill]; rw [if_neg h0, if_neg (by simp [hs]; omega)]; exact ⟨rfl, rfl, rfl⟩
        obtain ⟨f1, f2, f3⟩ := hfill
        rw [f1] at n1
        generalize averagingSlack c (-(l.fill c f).qty) (l.fill c f).entry = sl at *
        rw [f1, f2, f3]
        simp only [Fill.signed, hs, show Spec.abs l.qty = -l.qty by unfold Spec.abs; split <;> omega]
          at n1 ⊢
        rw [if_neg (show ¬ 0 < l.qty by omega), if_pos (show f.qty ≤ -l.qty by omega), pnl_neg]
        simp only [Spec.pnl, hk]
        have v := inverse_in_parts hk (a := f.qty) (b := -(l.qty + f.qty)) (Int.le_of_lt hq) (by omega) he0
        rw [show f.qty + -(l.qty + f.qty) = -l.qty by omega] at v
        split
        · omega
        · rename_i hlt
          have z : l.qty + f.qty = 0 := by omega
          rw [z] at v ⊢
          simp only [value_inverse hk, Int.neg_zero, Int.zero_mul, Int.zero_tdiv] at v ih ⊢
          omega

theorem realised_of {c : Cfg} {ops : List Op} {s : State} (h : run c (State.init c) ops = .ok s) :
    s.pos.quantity = (ledger c (fills s.log)).qty ∧
    s.pos.entryPrice = (ledger c (fills s.log)).entry ∧
    equity s - c.start + s.feesPaid = (ledger c (fills s.log)).realised := by
  have hl := (run_linv h).ledger
  refine ⟨?_, ?_, ?_⟩
  · have := congrArg Ledger.qty hl; simpa [ledgerOf, State.core] using this
  · have := congrArg Ledger.entry hl; simpa [ledgerOf, State.core] using this
  · have := (C02_equity c ops s h).1; omega

/-- C129, longs: an account in an inverse contract that is never short has gained before fees,
together with the value of its position at the entry price, no more than its fills have earned, up
to rounding. -/
theorem C129_longs_are_credited_no_more (c : Cfg) (ops : List Op) (s : State)
    (hk : c.env.kind = .inverse) (h : run c (State.init c) ops = .ok s)
    (hl : onlyLong c (fills s.log)) :
    equity s - c.start + s.feesPaid + value c.env s.pos.quantity s.pos.entryPrice ≤
      coins c (fills s.log) + averagingRounding c (fills s.log) := by
  have hr : Reachable c s := ⟨ops, h⟩
  obtain ⟨e1, e2, e3⟩ := realised_of h
  rw [e1, e2, e3]
  exact long_basis hk _ hr.fill_price hl

/-- C129, shorts: an account in an inverse contract that is never long has gained before fees, less
the value of its position at the entry price, no less than its fills have earned, up to rounding. -/
theorem C129_shorts_are_credited_no_less (c : Cfg) (ops : List Op) (s : State)
    (hk : c.env.kind = .inverse) (h : run c (State.init c) ops = .ok s)
    (hl : onlyShort c (fills s.log)) :
    coins c (fills s.log) - averagingRounding c (fills s.log) ≤
      equity s - c.start + s.feesPaid - value c.env (-s.pos.quantity) s.pos.entryPrice := by
  have hr : Reachable c s := ⟨ops, h⟩
  obtain ⟨e1, e2, e3⟩ := realised_of h
  rw [e1, e2, e3]
  exact short_basis hk _ hr.fill_price hl

theorem coins_standing {c : Cfg} (hk : c.env.kind = .inverse) {p : Int} (hp : 0 < p) :
    ∀ fs : List Fill, (∀ f ∈ fs, 0 < f.price ∧ 0 < f.qty) →
      (∀ f ∈ fs, (f.side = .buy → p ≤ f.price) ∧ (f.side = .sell → f.price ≤ p)) →
      coins c fs * p ≤ netBought fs * c.scale + p * fs.length
  | [], _, _ => by simp [coins, netBought]
  | f :: fs, hall, hs => by
    have ih := coins_standing hk hp fs (fun g hg => hall g (by simp [hg]))
      (fun g hg => hs g (by simp [hg]))
    obtain ⟨hx, hq⟩ := hall f (by simp)
    obtain ⟨hb, hl⟩ := hs f (by simp)
    have hsc := scale_pos c.env
    rw [show c.env.scale = c.scale from rfl] at hsc
    simp only [coins, netBought, Fill.signed, List.length_cons, value_inverse hk,
      show c.env.scale = c.scale from rfl]
    obtain ⟨b1, b2, b3⟩ := tdiv_bounds (Int.mul_nonneg (Int.le_of_lt hq) (Int.le_of_lt hsc)) hx
    generalize (f.qty * c.scale).tdiv f.price = v at *
    push_cast
    cases hside : f.side with
    | buy =>
      have := Int.mul_le_mul_of_nonneg_left (hb hside) b3
      simp only
      grind
    | sell =>
      have := Int.mul_le_mul_of_nonneg_left (hl hside) b3
      have := hl hside
      simp only
      grind

/-- C129, no free profit: an account that is never short, never bought below a price and never sold
above it has not gained anything by the time it is flat, up to rounding. -/
theorem C129_no_free_profit_for_longs (c : Cfg) (ops : List Op) (s : State) (p : Int)
    (hk : c.env.kind = .inverse) (h : run c (State.init c) ops = .ok s) (hf : s.pos = .neutral)
    (hl : onlyLong c (fills s.log)) (hp : 0 < p)
    (hs : ∀ f ∈ fills s.log, (f.side = .buy → p ≤ f.price) ∧ (f.side = .sell → f.price ≤ p)) :
    equity s - c.start + s.feesPaid ≤
      (fills s.log).length + averagingRounding c (fills s.log) := by
  have hr : Reachable c s := ⟨ops, h⟩
  have h1 := C129_longs_are_credited_no_more c ops s hk h hl
  have h2 := coins_standing hk hp _ hr.fill_price hs
  have h3 := (C06_position_quantity c ops s h).1
  rw [hf] at h1 h3
  rw [← h3] at h2
  simp only [Position.quantity, value_inverse hk, Int.zero_mul, Int.zero_tdiv, Int.zero_add] at h1 h2
  rw [Int.mul_comm] at h2
  have := Int.le_of_mul_le_mul_left h2 hp
  omega

/-- Two fills into a position, at quotes around 200 and around 120, and one out of it -/
def Ex.average (side back : Side) : List Op :=
  [Ex.q 200 201 1, .market side (Ex.d 1000) 1, Ex.q 120 121 2, .market side (Ex.d 1000) 2,
    .market back (Ex.d 2000) 0]

theorem suffix_three {α : Type} {x y z : α} {l : List α} (h : l <:+ [x, y, z]) :
    l = [x, y, z] ∨ l = [y, z] ∨ l = [z] ∨ l = [] := by
  simpa [List.suffix_cons_iff] using h

/-- Non-vacuity: the long has earned -3.42708 and is credited with -4.24430. -/
example : ∃ s, run Ex.invR (State.init Ex.invR) (Ex.average .buy .sell) = .ok s ∧
    s.pos = .neutral ∧ onlyLong Ex.invR (fills s.log) ∧
    coins Ex.invR (fills s.log) = -342708 ∧ averagingRounding Ex.invR (fills s.log) = 4 ∧
    equity s - Ex.invR.start + s.feesPaid = -424430 := by
  have h : Ex.after Ex.invR (Ex.average .buy .sell) (fun s => decide (s.pos = .neutral ∧
      fills s.log = [⟨false, .sell, Ex.d 120, Ex.d 2000⟩, ⟨false, .buy, Ex.d 121, Ex.d 1000⟩,
        ⟨false, .buy, Ex.d 201, Ex.d 1000⟩] ∧
      coins Ex.invR (fills s.log) = -342708 ∧ averagingRounding Ex.invR (fills s.log) = 4 ∧
      equity s - Ex.invR.start + s.feesPaid = -424430)) = true := by decide +kernel
  simp only [Ex.after] at h
  split at h
  · rename_i s hs
    simp only [decide_eq_true_eq] at h
    refine ⟨s, hs, h.1, fun gs hg => ?_, h.2.2⟩
    rw [h.2.1] at hg
    rcases suffix_three hg with rfl | rfl | rfl | rfl <;> decide +kernel
  · cases h

/-- Non-vacuity: the short has earned 3.19559 and is credited with 4.02892. -/
example : ∃ s, run Ex.invR (State.init Ex.invR) (Ex.average .sell .buy) = .ok s ∧
    s.pos = .neutral ∧ onlyShort Ex.invR (fills s.log) ∧
    coins Ex.invR (fills s.log) = 319559 ∧ averagingRounding Ex.invR (fills s.log) = 5 ∧
    equity s - Ex.invR.start + s.feesPaid = 402892 := by
  have h : Ex.after Ex.invR (Ex.average .sell .buy) (fun s => decide (s.pos = .neutral ∧
      fills s.log = [⟨false, .buy, Ex.d 121, Ex.d 2000⟩, ⟨false, .sell, Ex.d 120, Ex.d 1000⟩,
        ⟨false, .sell, Ex.d 200, Ex.d 1000⟩] ∧
      coins Ex.invR (fills s.log) = 319559 ∧ averagingRounding Ex.invR (fills s.log) = 5 ∧
      equity s - Ex.invR.start + s.feesPaid = 402892)) = true := by decide +kernel
  simp only [Ex.after] at h
  split at h
  · rename_i s hs
    simp only [decide_eq_true_eq] at h
    refine ⟨s, hs, h.1, fun gs hg => ?_, h.2.2⟩
    rw [h.2.1] at hg
    rcases suffix_three hg with rfl | rfl | rfl | rfl <;> decide +kernel
  · cases h

/-- Non-vacuity: two purchases and a sale at standing quotes lose the spread. -/
example : ∃ s, run Ex.invR (State.init Ex.invR) [Ex.q 100 101 1, .market .buy (Ex.d 1000) 0,
      .market .buy (Ex.d 500) 0, .market .sell (Ex.d 1500) 0] = .ok s ∧
    s.pos = .neutral ∧ onlyLong Ex.invR (fills s.log) ∧
    (∀ f ∈ fills s.log, (f.side = .buy → Ex.d 101 ≤ f.price) ∧
      (f.side = .sell → f.price ≤ Ex.d 101)) ∧
    equity s - Ex.invR.start + s.feesPaid = -14852 := by
  have h : Ex.after Ex.invR [Ex.q 100 101 1, .market .buy (Ex.d 1000) 0,
      .market .buy (Ex.d 500) 0, .market .sell (Ex.d 1500) 0] (fun s => decide (s.pos = .neutral ∧
      fills s.log = [⟨false, .sell, Ex.d 100, Ex.d 1500⟩, ⟨false, .buy, Ex.d 101, Ex.d 500⟩,
        ⟨false, .buy, Ex.d 101, Ex.d 1000⟩] ∧
      (∀ f ∈ fills s.log, (f.side = .buy → Ex.d 101 ≤ f.price) ∧
        (f.side = .sell → f.price ≤ Ex.d 101)) ∧
      equity s - Ex.invR.start + s.feesPaid = -14852)) = true := by decide +kernel
  simp only [Ex.after] at h
  split at h
  · rename_i s hs
    simp only [decide_eq_true_eq] at h
    refine ⟨s, hs, h.1, fun gs hg => ?_, h.2.2⟩
    rw [h.2.1] at hg
    rcases suffix_three hg with rfl | rfl | rfl | rfl <;> decide +kernel
  · cases h

/-- C129: in an inverse contract an account with a short position gains by selling and buying back at
standing quotes, after spread and fees. It is short 1000 from 200 and the quotes are 100 and 101.
Selling and buying back another 1000 leaves it short 1000 and makes more than 1.5 in balances and
unrealised profit, less fees owed: the entry price is now 150, and the difference of the values at
200 and at 150 is credited. -/
theorem C129_shorts_gain_by_wash_trades : ∃ s s1 s2 f g, Reachable Ex.invR s ∧
    (s.ms.bid, s.ms.ask) = (Ex.d 100, Ex.d 101) ∧ s.pos.quantity = -(Ex.d 1000) ∧
    step Ex.invR s (.market .sell (Ex.d 1000) 1) = .ok (s1, .market (.ok f)) ∧
    step Ex.invR s1 (.market .buy (Ex.d 1000) 2) = .ok (s2, .market (.ok g)) ∧
    s2.pos.quantity = s.pos.quantity ∧ s2.ms = s.ms ∧
    (let worth := fun t : State => equity t - t.pos.outstandingFees +
        Spec.pnl Ex.invR.env t.pos.entryPrice t.ms.ask t.pos.quantity
     worth s + 150000 < worth s2) := by
  have h : (match run Ex.invR (State.init Ex.invR) [Ex.q 200 201 1, .market .sell (Ex.d 1000) 0,
        Ex.q 100 101 2] with
      | .ok s => match step Ex.invR s (.market .sell (Ex.d 1000) 1) with
        | .ok (s1, .market (.ok _)) => match step Ex.invR s1 (.market .buy (Ex.d 1000) 2) with
          | .ok (s2, .market (.ok _)) => decide ((s.ms.bid, s.ms.ask) = (Ex.d 100, Ex.d 101) ∧
              s.pos.quantity = -(Ex.d 1000) ∧ s2.pos.quantity = s.pos.quantity ∧ s2.ms = s.ms ∧
              equity s - s.pos.outstandingFees + Spec.pnl Ex.invR.env s.pos.entryPrice s.ms.ask
                s.pos.quantity + 150000 < equity s2 - s2.pos.outstandingFees +
                  Spec.pnl Ex.invR.env s2.pos.entryPrice s2.ms.ask s2.pos.quantity)
          | _ => false
        | _ => false
      | .error _ => false) = true := by decide +kernel
  split at h
  · rename_i s hs
    split at h
    · rename_i s1 f h1
      split at h
      · rename_i s2 g h2
        obtain ⟨k1, k2, k3, k4, k5⟩ := of_decide_eq_true h
        exact ⟨s, s1, s2, f, g, ⟨_, hs⟩, k1, k2, h1, h2, k3, k4, k5⟩
      · cases h
    · cases h
  · cases h

end Lfest
