import Verif.Lemmas.MachineTracker
import Verif.Props.Traded
import Verif.Examples

/-!
# C101: the account statistics on bounded integers

The statistics of `FullAccountTracker` add up amounts of the exchange's integer type. On integers
from `-w` to `w` they are exact or stop with `overflow`, and they do not overflow within the limits
of C79.
-/

namespace Lfest

open Spec

/-- C101: whatever the width of the integers, the statistics kept on them, and the values read off
them, are those kept on unbounded integers, unless a result does not fit. -/
theorem C101_exact_unless_overflow (w : Int) (e : Env) (start : Int) (record : List Event)
    (t : FullTracker) :
    (Mach.trackerReplay w e start record = .error .overflow ∨
      Mach.trackerReplay w e start record = FullTracker.replay e start record) ∧
    (Mach.turnover w t = .error .overflow ∨ Mach.turnover w t = .ok t.turnover) ∧
    (Mach.rpnl w t = .error .overflow ∨ Mach.rpnl w t = .ok t.rpnl) ∧
    (Mach.buyVolumeRatio w e t = .error .overflow ∨
      Mach.buyVolumeRatio w e t = t.buyVolumeRatio e) ∧
    (Mach.buyAndHold w e t = .error .overflow ∨ Mach.buyAndHold w e t = t.buyAndHold e) :=
  ⟨Mach.agree_replay record, Mach.agree_chk, Mach.agree_chk, Mach.agree_ratio,
    Mach.agree_buyAndHold⟩

/-- C101: within the limits of C79 the statistics of a history do not overflow, nor do turnover,
realised profit and buy volume ratio read off them. -/
theorem C101_no_overflow {w P : Int} {c : Cfg} {ops : List Op} {s : State} {start : Int}
    (hfit : Fits c w P (ops.map asked).sum (ops.map submissions).sum)
    (hops : ∀ op ∈ ops, Within w P op) (hs : run c (State.init c) ops = .ok s)
    (h0 : 0 < start) (h1 : start ≤ c.start) :
    ∃ t, FullTracker.replay c.env start s.log = .ok t ∧
      Mach.trackerReplay w c.env start s.log = .ok t ∧
      Mach.turnover w t = .ok t.turnover ∧ Mach.rpnl w t = .ok t.rpnl ∧
      Mach.buyVolumeRatio w c.env t = t.buyVolumeRatio c.env := by
  have hQ := Mach.sum_map_nonneg Mach.asked_nonneg ops
  have hn := Mach.sum_map_nonneg Mach.submissions_nonneg ops
  have hl := Mach.limits_of_fits hfit hQ hn
  obtain ⟨hs0, hK, hP, hQK, hst, hX⟩ := hl.basics
  obtain ⟨hq, hpos⟩ := Mach.trades_fills hs
  have hh := hl.harmless ops (State.init c) s 0 0 (.init hfit.price hfit.start) (by omega)
    (by omega) hops hs hpos (by simp [State.init])
  have hvol := C100_volume c ops s hs
  have hmul := Int.mul_le_mul_of_nonneg_right hvol hK
  rw [Int.mul_assoc] at hmul
  have hmoney := hl.money
  have hnX := Int.mul_nonneg hl.count hX
  have hwq : Mach.tradeQty s.log * unitValue c P ≤ w * c.env.scale := by rw [hq]; omega
  have hwc : c.start ≤ w := by
    refine Int.le_of_mul_le_mul_right ?_ hs0
    omega
  obtain ⟨hno, hvols⟩ := Mach.replay_noov (start := start) hl.rates.toRate hl.price2
    (by have := hl.start; omega : w - c.start ≤ w) s.log hh hwq
  obtain ⟨t, ht, _⟩ := Reachable.tracks (start := start) ⟨ops, hs⟩ h0
  change FullTracker.replay c.env start s.log = .ok t at ht
  have hm := (Mach.agree_replay (w := w) s.log).resolve_left hno
  obtain ⟨v1, v2, v3⟩ := hvols t ht
  have hsum : t.buyVolume + t.sellVolume ≤ w :=
    Int.le_of_mul_le_mul_right (Int.le_trans v3 hwq) hs0
  have hlast := Mach.lastSum_fit (by omega : 0 ≤ w - c.start) hh
  rw [← replay_lastSum ht] at hlast
  have hws : t.walletStart = start := (replay_counts ht).2.2.2
  have hin : Mach.In w (t.buyVolume + t.sellVolume) := ⟨by omega, hsum⟩
  refine ⟨t, ht, hm.trans ht, ?_, ?_, ?_⟩
  · exact Mach.agree_chk.resolve_left (Mach.noov_chk hin)
  · refine Mach.agree_chk.resolve_left (Mach.noov_chk ?_)
    obtain ⟨l1, l2⟩ := hlast
    exact ⟨by omega, by omega⟩
  · refine Mach.agree_ratio.resolve_left ?_
    unfold Mach.buyVolumeRatio
    refine Mach.noov_assert_bind (by simp) fun _ => Mach.noov_assert_bind (by simp) fun _ =>
      Mach.noov_chk_bind hin ?_
    split
    · exact Mach.noov_ok
    · refine Mach.noov_any (Mach.noov_ddiv fun x hx => ?_) fun _ => Mach.noov_ok
      have hsc := hl.scale2
      have hc : c.env.scale = c.scale := rfl
      have hsc' : 2 * c.env.scale ≤ w := hsc
      unfold ddiv at hx
      split at hx
      · cases hx
      · next hne =>
        simp only [ok_inj] at hx
        subst hx
        have hb := Int.mul_nonneg v1 (Int.le_of_lt hs0)
        have hs2 := Int.mul_nonneg v2 (Int.le_of_lt hs0)
        have htot : 0 < t.buyVolume + t.sellVolume := by omega
        rw [Int.tdiv_eq_ediv_of_nonneg hb]
        have hle := Int.ediv_le_ediv htot (by rw [Int.add_mul]; omega :
          t.buyVolume * c.env.scale ≤ (t.buyVolume + t.sellVolume) * c.env.scale)
        rw [Int.mul_ediv_cancel_left _ (by omega)] at hle
        have hge := Int.ediv_nonneg hb (Int.le_of_lt htot)
        exact ⟨by omega, by omega⟩

/-- Non-vacuity: eighteen decimal digits suffice for the statistics of `ops3`. -/
example : Fits Ex.lin (10 ^ 18) (Ex.d 200) (Ex.ops3.map asked).sum (Ex.ops3.map submissions).sum ∧
    (∀ op ∈ Ex.ops3, Within (10 ^ 18) (Ex.d 200) op) ∧
    Ex.after Ex.lin Ex.ops3 (fun s =>
      match Mach.trackerReplay (10 ^ 18) Ex.lin.env Ex.lin.start s.log with
      | .ok t => decide (0 < t.buyVolume ∧ 0 < t.sellVolume ∧ t.rpnl = 0)
      | .error _ => false) = true :=
  ⟨by constructor <;> decide +kernel, by decide +kernel, by decide +kernel⟩

/-- Ten times leverage. -/
def Ex.lev : Cfg := { Ex.lin with spec := { Ex.lin.spec with
  initMarginReq := 10000, maintenanceMargin := 5000 } }

/-- Quotes 100 / 101, then `n` times: buy nine contracts and sell them again. -/
def Ex.bounces : Nat → List Op
  | 0 => [.update (.bba ⟨Ex.d 100, Ex.d 101, 1⟩)]
  | n + 1 => Ex.bounces n ++ [.market .buy (Ex.d 9) 1, .market .sell (Ex.d 9) 2]

/-- C101: the limits cannot be those of the account alone. With ten times leverage, 32 bits hold
everything the exchange itself computes in this history, and the turnover overflows. -/
theorem C101_statistics_overflow_first : ∃ c ops s,
    Mach.run (2 ^ 31 - 1) c (State.init c) ops = .ok s ∧
    Mach.trackerReplay (2 ^ 31 - 1) c.env c.start s.log = .error .overflow := by
  have h : (match Mach.run (2 ^ 31 - 1) Ex.lev (State.init Ex.lev) (Ex.bounces 25) with
    | .ok s => decide (Mach.trackerReplay (2 ^ 31 - 1) Ex.lev.env Ex.lev.start s.log =
        .error .overflow)
    | .error _ => false) = true := by decide +kernel
  split at h
  · next s h1 => exact ⟨Ex.lev, _, s, h1, of_decide_eq_true h⟩
  · cases h

/-- C101: buy-and-hold is not covered: the contracts the starting balance would have bought at a tiny
first price need not fit, although the history is within the limits. -/
theorem C101_buy_and_hold_overflows : ∃ c w P ops s t,
    Fits c w P (ops.map asked).sum (ops.map submissions).sum ∧ (∀ op ∈ ops, Within w P op) ∧
    run c (State.init c) ops = .ok s ∧ Mach.trackerReplay w c.env c.start s.log = .ok t ∧
    Mach.buyAndHold w c.env t = .error .overflow := by
  have h : (match run Ex.fine (State.init Ex.fine) [.update (.bba ⟨1, 2, 1⟩)] with
    | .ok s => match Mach.trackerReplay (10 ^ 12) Ex.fine.env Ex.fine.start s.log with
      | .ok t => decide (Mach.buyAndHold (10 ^ 12) Ex.fine.env t = .error .overflow)
      | .error _ => false
    | .error _ => false) = true := by decide +kernel
  split at h
  · next s h1 =>
    split at h
    · next t h2 =>
      exact ⟨Ex.fine, 10 ^ 12, Ex.d 100, _, s, t, by constructor <;> decide +kernel,
        by decide +kernel, h1, h2, of_decide_eq_true h⟩
    · cases h
  · cases h

end Lfest
