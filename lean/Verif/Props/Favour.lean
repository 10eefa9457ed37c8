import Verif.SpecFavour
import Verif.Props.Moves
import Verif.Props.Average

/-!
# C130: rounding the entry price down favours longs and costs shorts of linear contracts
-/

namespace Lfest
open Spec

/-- A fill that only reduces the position -/
theorem fill_reduce {c : Cfg} {l : Ledger} {f : Fill} (hq : 0 < f.qty)
    (h : (f.side = .sell ∧ f.qty ≤ l.qty) ∨ (f.side = .buy ∧ f.qty ≤ -l.qty)) :
    (l.fill c f).qty = l.qty + f.signed ∧
    (l.fill c f).qty * (l.fill c f).entry = (l.qty + f.signed) * l.entry ∧
    (l.fill c f).realised = l.realised + Spec.pnl c.env l.entry f.price (-f.signed) := by
  have h0 : l.qty ≠ 0 := by omega
  have hd : ¬ ((0 < l.qty ∧ f.side = .buy) ∨ (l.qty < 0 ∧ f.side = .sell)) := by
    rcases h with ⟨h1, h2⟩ | ⟨h1, h2⟩ <;> simp [h1] <;> omega
  simp only [Ledger.fill]
  rw [if_neg h0, if_neg hd]
  refine ⟨rfl, ?_, ?_⟩
  · simp only
    split
    · rfl
    · have : l.qty + f.signed = 0 := by
        unfold Spec.abs at *
        unfold Fill.signed
        rcases h with ⟨h1, h2⟩ | ⟨h1, h2⟩ <;> simp only [h1] <;> split at * <;> omega
      rw [this]; simp
  · simp only [Fill.signed]
    unfold Spec.abs
    rcases h with ⟨h1, h2⟩ | ⟨h1, h2⟩ <;> simp only [h1]
    · rw [if_pos (show 0 < l.qty by omega), if_pos (show 0 ≤ l.qty by omega), if_pos h2, Int.neg_neg]
    · rw [if_neg (show ¬ 0 < l.qty by omega), if_neg (show ¬ 0 ≤ l.qty by omega), if_pos h2]

theorem long_favour {c : Cfg} (hk : c.env.kind = .linear) :
    ∀ fs : List Fill, (∀ f ∈ fs, 0 < f.price ∧ 0 < f.qty) → neverShort fs →
      -(howMany .sell fs * c.scale) ≤ drift c fs
  | [], _, _ => by simp [drift, ledger, Ledger.empty, spent, howMany]
  | f :: fs, hall, hl => by
    have ih := long_favour hk fs (fun g hg => hall g (by simp [hg]))
      (fun gs hg => hl gs (hg.trans (List.suffix_cons f fs)))
    obtain ⟨hp, hq⟩ := hall f (by simp)
    have he0 := ledger_entry c fs (fun g hg => hall g (by simp [hg]))
    have n1 := hl (f :: fs) (List.suffix_refl _)
    have n0 := hl fs (List.suffix_cons f fs)
    simp only [netBought] at n1
    rw [← ledger_qty c] at n0 n1
    simp only [drift, ledger, spent, howMany] at ih n1 ⊢
    generalize howMany .sell fs = k at *
    generalize ledger c fs = l at *
    generalize spent fs = X at *
    cases hs : f.side with
    | buy =>
      simp only [reduceCtorEq, if_false, Int.zero_add]
      by_cases h0 : l.qty = 0
      · rw [fill_open c f h0]
        rw [h0, Int.zero_mul] at ih
        simp only
        omega
      · rw [fill_enlarge c h0 (.inl ⟨by omega, hs⟩)]
        have e1 : Spec.abs l.qty = l.qty := by unfold Spec.abs; split <;> omega
        obtain ⟨_, w2, _⟩ := weighted_bounds c.env he0 (Int.le_of_lt hp) n0 (Int.le_of_lt hq)
          (by omega)
        rw [e1]
        simp only [Fill.signed, hs]
        generalize weighted c.env l.entry l.qty f.price f.qty = E at *
        rw [Int.mul_comm (l.qty + f.qty) E, Int.mul_comm f.qty f.price]
        rw [Int.mul_comm l.qty l.entry] at ih
        omega
    | sell =>
      simp only [if_true]
      have hle : f.qty ≤ l.qty := by simp only [Fill.signed, hs] at n1; omega
      obtain ⟨f1, f2, f3⟩ := fill_reduce (c := c) hq (.inl ⟨hs, hle⟩)
      rw [f2, f3]
      have pb := (pnl_bounds hk he0 (Int.le_of_lt hp) (Int.le_of_lt hq)).2
      rw [show c.env.scale = c.scale from rfl] at pb
      simp only [Fill.signed, hs, Int.neg_neg]
      generalize Spec.pnl c.env l.entry f.price f.qty = y at *
      simp only [Int.add_mul, Int.mul_sub, Int.neg_mul] at *
      omega

theorem short_favour {c : Cfg} (hk : c.env.kind = .linear) :
    ∀ fs : List Fill, (∀ f ∈ fs, 0 < f.price ∧ 0 < f.qty) → neverLong fs →
      drift c fs ≤ howMany .buy fs * c.scale
  | [], _, _ => by simp [drift, ledger, Ledger.empty, spent, howMany]
  | f :: fs, hall, hl => by
    have ih := short_favour hk fs (fun g hg => hall g (by simp [hg]))
      (fun gs hg => hl gs (hg.trans (List.suffix_cons f fs)))
    obtain ⟨hp, hq⟩ := hall f (by simp)
    have he0 := ledger_entry c fs (fun g hg => hall g (by simp [hg]))
    have n1 := hl (f :: fs) (List.suffix_refl _)
    have n0 := hl fs (List.suffix_cons f fs)
    simp only [netBought] at n1
    rw [← ledger_qty c] at n0 n1
    simp only [drift, ledger, spent, howMany] at ih n1 ⊢
    generalize howMany .buy fs = k at *
    generalize ledger c fs = l at *
    generalize spent fs = X at *
    cases hs : f.side with
    | sell =>
      simp only [reduceCtorEq, if_false, Int.zero_add]
      by_cases h0 : l.qty = 0
      · rw [fill_open c f h0]
        rw [h0, Int.zero_mul] at ih
        simp only
        omega
      · rw [fill_enlarge c h0 (.inr ⟨by omega, hs⟩)]
        have e1 : Spec.abs l.qty = -l.qty := by unfold Spec.abs; split <;> omega
        obtain ⟨_, w2, _⟩ := weighted_bounds c.env (w0 := -l.qty) he0 (Int.le_of_lt hp) (by omega)
          (Int.le_of_lt hq) (by omega)
        rw [e1]
        simp only [Fill.signed, hs]
        generalize weighted c.env l.entry (-l.qty) f.price f.qty = E at *
        rw [show (l.qty + -f.qty) * E = -(E * (-l.qty + f.qty)) by grind, Int.neg_mul,
          Int.mul_comm f.qty f.price]
        rw [Int.mul_comm l.qty l.entry] at ih
        rw [Int.mul_neg l.entry] at w2
        omega
    | buy =>
      simp only [if_true]
      have hle : f.qty ≤ -l.qty := by simp only [Fill.signed, hs] at n1; omega
      obtain ⟨f1, f2, f3⟩ := fill_reduce (c := c) hq (.inr ⟨hs, hle⟩)
      rw [f2, f3]
      have pb := (pnl_bounds hk he0 (Int.le_of_lt hp) (Int.le_of_lt hq)).2
      rw [show c.env.scale = c.scale from rfl] at pb
      simp only [Fill.signed, hs, pnl_neg]
      generalize Spec.pnl c.env l.entry f.price f.qty = y at *
      simp only [Int.add_mul, Int.mul_sub, Int.neg_mul] at *
      omega

/-- C130, longs: a linear account that is never short has gained before fees, at every mark, no less
than its fills have gained at this mark, up to one unit per sale. However often the position has been
enlarged, averaging its entry price costs it nothing. -/
theorem C130_longs_lose_nothing_by_averaging (c : Cfg) (ops : List Op) (s : State) (p : Int)
    (hk : c.env.kind = .linear) (h : run c (State.init c) ops = .ok s)
    (hl : neverShort (fills s.log)) :
    ((fills s.log).map (fun f => f.signed * (p - f.price))).sum - howMany .sell (fills s.log) * c.scale ≤
      gainAt c s p := by
  have hr : Reachable c s := ⟨ops, h⟩
  have := long_favour hk _ hr.fill_price hl
  rw [gain_drift hr, ← spent_at, ← pos_netBought hr]
  omega

/-- C130, shorts: a linear account that is never long has gained before fees, at every mark, no more
than its fills have gained at this mark, up to one unit per purchase. -/
theorem C130_shorts_gain_nothing_by_averaging (c : Cfg) (ops : List Op) (s : State) (p : Int)
    (hk : c.env.kind = .linear) (h : run c (State.init c) ops = .ok s)
    (hl : neverLong (fills s.log)) :
    gainAt c s p ≤ ((fills s.log).map (fun f => f.signed * (p - f.price))).sum +
      howMany .buy (fills s.log) * c.scale := by
  have hr : Reachable c s := ⟨ops, h⟩
  have := short_favour hk _ hr.fill_price hl
  rw [gain_drift hr, ← spent_at, ← pos_netBought hr]
  omega

/-- C130, standing quotes: a linear account that is never long, never bought below a price and never
sold above it has gained at most one unit per purchase by the time it is flat. For one that is never
short this is false (`C69_rounding_pump`). -/
theorem C130_no_free_profit_for_shorts (c : Cfg) (ops : List Op) (s : State) (p : Int)
    (hk : c.env.kind = .linear) (h : run c (State.init c) ops = .ok s) (hf : s.pos = .neutral)
    (hl : neverLong (fills s.log))
    (hs : ∀ f ∈ fills s.log, (f.side = .buy → p ≤ f.price) ∧ (f.side = .sell → f.price ≤ p)) :
    equity s - c.start + s.feesPaid ≤ howMany .buy (fills s.log) := by
  have hr : Reachable c s := ⟨ops, h⟩
  have h1 := C130_shorts_gain_nothing_by_averaging c ops s p hk h hl
  have h2 := spent_lower (fun f hf => (hr.fill_price f hf).2) hs
  rw [← spent_at] at h1
  simp only [gainAt, hf, Position.quantity, Int.zero_mul, Int.add_zero] at h1
  have hsc : 0 < c.scale := scale_pos c.env
  exact Int.le_of_mul_le_mul_right (by omega) hsc

/-- One decimal place, release build -/
def Ex.coarse : Cfg := { Ex.tick with env := { Ex.tick.env with debug := false } }

/-- Non-vacuity: ten purchases and one sale at standing quotes cost the spread of 0.4; the account, never
short, gains 0.4. Ten sales and one purchase cost 0.4; the account, never long, loses 0.8. -/
example :
    (∃ s, run Ex.coarse (State.init Ex.coarse) ([.update (.bba ⟨11, 12, 1⟩)] ++
        List.replicate 10 (.market .buy 4 0) ++ [.market .sell 40 0]) = .ok s ∧
      neverShort (fills s.log) ∧ howMany .sell (fills s.log) = 1 ∧
      ((fills s.log).map (fun f : Fill => f.signed * (12 - f.price))).sum = -40 ∧
      gainAt Ex.coarse s 12 = 40) ∧
    (∃ s, run Ex.coarse (State.init Ex.coarse) ([.update (.bba ⟨11, 12, 1⟩)] ++
        List.replicate 10 (.market .sell 4 0) ++ [.market .buy 40 0]) = .ok s ∧
      s.pos = .neutral ∧ neverLong (fills s.log) ∧ howMany .buy (fills s.log) = 1 ∧
      (∀ f ∈ fills s.log, (f.side = .buy → 12 ≤ f.price) ∧ (f.side = .sell → f.price ≤ 12)) ∧
      ((fills s.log).map (fun f : Fill => f.signed * (12 - f.price))).sum = -40 ∧
      gainAt Ex.coarse s 12 = -80) := by
  have h1 : Ex.after Ex.coarse ([.update (.bba ⟨11, 12, 1⟩)] ++
      List.replicate 10 (.market .buy 4 0) ++ [.market .sell 40 0]) (fun s => decide (
      (∀ n ∈ List.range 12, 0 ≤ netBought ((fills s.log).drop n)) ∧ (fills s.log).length = 11 ∧ howMany .sell (fills s.log) = 1 ∧
      ((fills s.log).map (fun f : Fill => f.signed * (12 - f.price))).sum = -40 ∧
      gainAt Ex.coarse s 12 = 40)) = true := by decide +kernel
  have h2 : Ex.after Ex.coarse ([.update (.bba ⟨11, 12, 1⟩)] ++
      List.replicate 10 (.market .sell 4 0) ++ [.market .buy 40 0]) (fun s => decide (
      s.pos = .neutral ∧
      (∀ n ∈ List.range 12, netBought ((fills s.log).drop n) ≤ 0) ∧ (fills s.log).length = 11 ∧ howMany .buy (fills s.log) = 1 ∧
      (∀ f ∈ fills s.log, (f.side = .buy → 12 ≤ f.price) ∧ (f.side = .sell → f.price ≤ 12)) ∧
      ((fills s.log).map (fun f : Fill => f.signed * (12 - f.price))).sum = -40 ∧
      gainAt Ex.coarse s 12 = -80)) = true := by decide +kernel
  simp only [Ex.after] at h1 h2
  refine ⟨?_, ?_⟩
  · split at h1
    · rename_i s hs
      obtain ⟨k1, kl, k2⟩ := of_decide_eq_true h1
      exact ⟨s, hs, fun gs hg => by
        rw [List.suffix_iff_eq_drop.1 hg]
        exact k1 _ (List.mem_range.2 (by omega)), k2⟩
    · cases h1
  · split at h2
    · rename_i s hs
      obtain ⟨k0, k1, kl, k2⟩ := of_decide_eq_true h2
      exact ⟨s, hs, k0, fun gs hg => by
        rw [List.suffix_iff_eq_drop.1 hg]
        exact k1 _ (List.mem_range.2 (by omega)), k2⟩
    · cases h2

end Lfest
