import Verif.Props.Tracker
import Verif.Lemmas.Ratios

/-!
# Ratios reported by the tracker: C72
-/

namespace Lfest

open Spec

/-- C72: `buy_volume_ratio()` never panics. It is absent exactly if the value of all fills is
zero. Otherwise it is the value of the buys over the value of all fills, rounded down to a
representable number between zero and one. -/
theorem C72_buy_volume_ratio (c : Cfg) (s : State) (start : Int) (t : FullTracker)
    (hr : Reachable c s) (h0 : 0 < start)
    (ht : FullTracker.replay c.env start s.log = .ok t) :
    let b := volume c .buy (fills s.log)
    let n := ((fills s.log).map (fun f => value c.env f.qty f.price)).sum
    (n = 0 ∧ t.buyVolumeRatio c.env = .ok none) ∨
    (0 < n ∧ ∃ r, t.buyVolumeRatio c.env = .ok (some r) ∧ 0 ≤ r ∧ r ≤ c.env.scale ∧
      r * n ≤ b * c.env.scale ∧ b * c.env.scale < (r + 1) * n) := by
  intro b n
  obtain ⟨hb, hs, hn⟩ := C51_volumes c s start t hr h0 ht
  have hb0 : 0 ≤ t.buyVolume := hb ▸ volume_nonneg c .buy _ hr.fill_price
  have hs0 : 0 ≤ t.sellVolume := hs ▸ volume_nonneg c .sell _ hr.fill_price
  have hn' : t.buyVolume + t.sellVolume = n := hn
  have hb' : t.buyVolume = b := hb
  have hS := scale_pos c.env
  rw [FullTracker.buyVolumeRatio, hn']
  by_cases h : n = 0
  · left
    refine ⟨h, ?_⟩
    simp [assertP, hb0, hs0, h, bind, Except.bind]
  · right
    have hpos : 0 < n := by omega
    refine ⟨hpos, (b * c.env.scale).tdiv n, ?_, ?_⟩
    · have hb1 : 0 ≤ b := by omega
      simp [assertP, hb1, hs0, h, bind, Except.bind, ddiv, hb']
    · have hm : 0 ≤ b * c.env.scale := Int.mul_nonneg (by omega) (by omega)
      have hle : b * c.env.scale ≤ n * c.env.scale :=
        Int.mul_le_mul_of_nonneg_right (by omega) (by omega)
      rw [Int.tdiv_eq_ediv_of_nonneg hm]
      refine ⟨Int.ediv_nonneg hm (by omega), ?_, Int.ediv_mul_le _ (by omega), ?_⟩
      · apply Int.ediv_le_of_le_mul hpos
        rw [Int.mul_comm _ n]; exact hle
      · exact Int.lt_ediv_add_one_mul_self _ hpos

/-- C72: the share of limit orders that were filled and the share that were cancelled are both
absent exactly if no limit order was submitted. Otherwise both are at least zero and they add up
to at most one, and to exactly one if and only if none was rejected and none is active. -/
theorem C72_order_ratios (c : Cfg) (ops : List Op) (s : State) (tr : List (Op × Resp))
    (start : Int) (t : FullTracker) (h : history c (State.init c) ops = .ok (s, tr))
    (ht : FullTracker.replay c.env start s.log = .ok t) :
    (t.submittedLimit = 0 ∧ t.fillRatio = none ∧ t.cancelRatio = none) ∨
    (0 < t.submittedLimit ∧ ∃ f k, t.fillRatio = some f ∧ t.cancelRatio = some k ∧
      0 ≤ f ∧ 0 ≤ k ∧ f + k ≤ 1 ∧
      f * t.submittedLimit = t.fullyFilledLimit ∧ k * t.submittedLimit = t.cancelledLimit ∧
      (f + k = 1 ↔ (tr.map rejected).sum = 0 ∧ s.active = [])) := by
  have hc := (C50_limit_counters c ops s tr start t h ht).1
  simp only [FullTracker.fillRatio, FullTracker.cancelRatio, countRatio]
  by_cases h0 : t.submittedLimit = 0
  · left; simp [h0]
  · right
    have hle : t.fullyFilledLimit + t.cancelledLimit ≤ t.submittedLimit := by omega
    obtain ⟨h1, h2, h3⟩ := rat_ratio hle h0
    have hp : (0 : Rat) < t.submittedLimit := by exact_mod_cast Nat.pos_of_ne_zero h0
    have e1 : (t.fullyFilledLimit : Rat) / t.submittedLimit * t.submittedLimit
      = t.fullyFilledLimit := by grind
    have e2 : (t.cancelledLimit : Rat) / t.submittedLimit * t.submittedLimit
      = t.cancelledLimit := by grind
    refine ⟨by omega, _, _, by rw [if_neg h0], by rw [if_neg h0], h1, h2, h3, e1, e2, ?_⟩
    have key : (t.fullyFilledLimit : Rat) / t.submittedLimit
        + (t.cancelledLimit : Rat) / t.submittedLimit = 1 ↔
        t.fullyFilledLimit + t.cancelledLimit = t.submittedLimit := by
      constructor
      · intro hh
        have : (t.fullyFilledLimit : Rat) + t.cancelledLimit = t.submittedLimit := by
          rw [← e1, ← e2, ← Rat.add_mul, hh]; grind
        exact_mod_cast this
      · intro hh
        have : (t.fullyFilledLimit : Rat) + t.cancelledLimit = t.submittedLimit := by
          exact_mod_cast hh
        grind
    rw [key]
    constructor
    · intro hh
      exact ⟨by omega, List.eq_nil_of_length_eq_zero (by omega)⟩
    · rintro ⟨h4, h5⟩
      rw [h5] at hc
      simp at hc
      omega

/-- Two of three limit orders settled: one filled, one cancelled, one rejected. 5 bought at 101
and 2 at 95, 2 sold at 110 and 7 at 96. -/
example : Ex.tracked Ex.lin (Ex.ops3 ++ [.limit .buy (Ex.d 98) (Ex.d 1) 9]) (fun s tr t => decide
    (t.submittedLimit = 3 ∧ t.fullyFilledLimit = 1 ∧ t.cancelledLimit = 1 ∧
     (tr.map rejected).sum = 1 ∧ s.active = [] ∧
     t.fillRatio = some (1 / 3) ∧ t.cancelRatio = some (1 / 3) ∧
     t.buyVolumeRatio Ex.lin.env = .ok (some 43793))) = true := by
  decide +kernel

end Lfest
