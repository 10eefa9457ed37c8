import Verif.Model.Clock
import Verif.Lemmas.Tracker
import Verif.Examples

/-!
# C84: the sampling clock on 64 bit integers
-/

namespace Lfest
open Spec

theorem wrap64_eq {x : Int} (h : fits64 x) : wrap64 x = x := by
  unfold fits64 at h; unfold wrap64; rw [Int.bmod_def]; split <;> omega

theorem wrap64_large {n : Nat} (h1 : 9223372036854775808 ≤ n) (h2 : n < 18446744073709551616) :
    wrap64 n = (n : Int) - 18446744073709551616 := by
  unfold wrap64; rw [Int.bmod_def]; split <;> omega

theorem arith64_fits {debug : Bool} {x : Int} (h : fits64 x) : arith64 debug x = .ok x := if_pos h

theorem Clock.new_small (debug : Bool) {secs : Nat} (h : secs ≤ 9223372036) :
    Clock.new debug secs = .ok (Trigger.new (secs * 1000000000)) := by
  unfold Clock.new
  rw [wrap64_eq (by unfold fits64; omega), arith64_fits (by unfold fits64; omega)]; rfl

theorem Clock.ticks_exact (debug : Bool) : ∀ (ts : List Int) (t : Trigger), 0 ≤ t.interval →
    (t.init = true ∨ fits64 (t.last + t.interval)) →
    (∀ x ∈ ts, fits64 x ∧ fits64 (x + t.interval)) →
    ∃ bs, Clock.ticks debug t ts = .ok bs ∧ bs.length = ts.length ∧
      bs.count true = sampleCount t.interval t.due ts := by
  intro ts
  induction ts with
  | nil => intro t _ _ _; exact ⟨[], rfl, rfl, by simp [sampleCount]⟩
  | cons x ts ih =>
    intro t hi hl hx
    have hx0 := hx x (by simp)
    have hxs : ∀ y ∈ ts, fits64 y ∧ fits64 (y + t.interval) := fun y hy => hx y (by simp [hy])
    cases h0 : t.init with
    | true =>
      obtain ⟨bs, hb, hn, hc⟩ := ih { t with last := x, init := false } hi (.inr hx0.2) hxs
      refine ⟨true :: bs, ?_, by simp [hn], ?_⟩
      · simp only [Clock.ticks, Clock.fire, h0, if_true, bind, Except.bind, hb]
      · rw [List.count_cons_self, hc]
        simp [Trigger.due, h0, sampleCount, Nat.add_comm]
    | false =>
      have hl : fits64 (t.last + t.interval) := by
        rcases hl with hl | hl
        · rw [h0] at hl; cases hl
        · exact hl
      by_cases hd : t.last + t.interval ≤ x
      · obtain ⟨bs, hb, hn, hc⟩ := ih { t with last := t.last + t.interval } hi (.inr (by
          unfold fits64 at *; dsimp only; omega)) hxs
        refine ⟨true :: bs, ?_, by simp [hn], ?_⟩
        · have he : ({ interval := t.interval, last := t.last + t.interval, init := t.init } : Trigger)
              = { t with last := t.last + t.interval } := rfl
          simp only [Clock.ticks, Clock.fire, h0, Bool.false_eq_true, if_false, arith64_fits hl, bind,
            Except.bind, ge_iff_le, if_pos hd]
          rw [h0] at he hb
          rw [hb]
        · rw [List.count_cons_self, hc]
          simp [Trigger.due, h0, sampleCount, Nat.add_comm, hd]
      · obtain ⟨bs, hb, hn, hc⟩ := ih t hi (.inr hl) hxs
        refine ⟨false :: bs, ?_, by simp [hn], ?_⟩
        · simp only [Clock.ticks, Clock.fire, h0, Bool.false_eq_true, if_false, arith64_fits hl, bind,
            Except.bind, ge_iff_le, if_neg hd, hb]
        · rw [List.count_cons_of_ne (by simp), hc]
          simp [Trigger.due, h0, sampleCount, hd]

/-- C84: for an interval of at most 9223372036 seconds (292 years), and update times such that the
time of the next sample is a 64 bit number, nothing overflows and the clock of the code takes
exactly the samples of the exchange with unbounded time (C53), in debug and in release builds. -/
theorem C84_exact (c : Cfg) (ops : List Op) (s : State) (h : run c (State.init c) ops = .ok s)
    (hs : c.sampleSecs ≤ 9223372036)
    (ht : ∀ t ∈ times ops, -9223372036854775808 ≤ t ∧ t + interval c ≤ 9223372036854775807) :
    ∃ bs, Clock.samples c.env.debug c.sampleSecs (times ops) = .ok bs ∧
      bs.length = (times ops).length ∧ bs.count true = samplesIn s.log := by
  have hi : 0 ≤ interval c := by unfold interval; omega
  obtain ⟨bs, hb, hn, hc⟩ := Clock.ticks_exact c.env.debug (times ops)
    (Trigger.new (c.sampleSecs * 1000000000)) hi (.inl rfl) (fun x hx => by
      have := ht x hx
      change fits64 x ∧ fits64 (x + interval c)
      unfold fits64; omega)
  refine ⟨bs, ?_, hn, ?_⟩
  · unfold Clock.samples; rw [Clock.new_small _ hs]; exact hb
  · rw [hc, samplesIn_eq, (run_sampleNum ops _ s (Inv.init c) h).1]
    simp [State.init, sampleNum]

/-- C84: in a debug build, building an exchange panics for the other intervals, except for those
of almost 2^64 seconds. -/
theorem C84_new_panics (secs : Nat) (hs : secs < 18446744073709551616) :
    Clock.new true secs = .error .overflow ↔
      9223372036 < secs ∧ secs < 18446744073709551616 - 9223372036 := by
  unfold Clock.new
  by_cases h1 : secs ≤ 9223372036
  · rw [wrap64_eq (by unfold fits64; omega), arith64_fits (by unfold fits64; omega)]
    simp only [bind, Except.bind]
    constructor
    · intro h; cases h
    · omega
  by_cases h2 : secs < 9223372036854775808
  · rw [wrap64_eq (by unfold fits64; omega), arith64, if_neg (by unfold fits64; omega)]
    simp only [bind, Except.bind, if_true, true_iff]
    omega
  rw [wrap64_large (by omega) hs]
  by_cases h3 : secs < 18446744073709551616 - 9223372036
  · rw [arith64, if_neg (by unfold fits64; omega)]
    simp only [bind, Except.bind, if_true, true_iff]
    omega
  · rw [arith64_fits (by unfold fits64; omega)]
    simp only [bind, Except.bind]
    constructor
    · intro h; cases h
    · omega

theorem Clock.ticks_always (debug : Bool) : ∀ (ts : List Int) (t : Trigger), t.init = false →
    t.interval ≤ 0 → -9223372036854775808 ≤ t.last + ts.length * t.interval →
    t.last ≤ 9223372036854775807 → (∀ x ∈ ts, t.last ≤ x) →
    Clock.ticks debug t ts = .ok (List.replicate ts.length true) := by
  intro ts
  induction ts with
  | nil => intro t _ _ _ _ _; rfl
  | cons x ts ih =>
    intro t h0 hi hlow hm hx
    simp only [List.length_cons, Int.natCast_add, Int.natCast_one, Int.add_mul, Int.one_mul] at hlow
    have hn : (ts.length : Int) * t.interval ≤ 0 :=
      Int.mul_nonpos_of_nonneg_of_nonpos (by omega) hi
    have hfit : fits64 (t.last + t.interval) := by unfold fits64; omega
    have hd : t.last + t.interval ≤ x := by have := hx x (by simp); omega
    have := ih { t with last := t.last + t.interval } h0 hi (by dsimp only; omega)
      (by dsimp only; omega) (fun y hy => by have := hx y (by simp [hy]); dsimp only; omega)
    simp only [Clock.ticks, Clock.fire, h0, Bool.false_eq_true, if_false, arith64_fits hfit, bind,
      Except.bind, ge_iff_le, if_pos hd]
    rw [h0] at this
    rw [this]
    rfl

/-- C84 is false for the largest intervals: an interval of `2^64 - k` seconds, such as the largest
`u64`, is taken for `-k` seconds, and the exchange samples at every update instead of never. (Update
times that are not negative and do not go back, at most 9223372036 / k of them.) -/
theorem C84_never_is_always (debug : Bool) (k : Nat) (ts : List Int) (hk : 0 < k)
    (hk2 : k ≤ 9223372036) (hn : ts.length * k ≤ 9223372036) (hsort : ts.Pairwise (· ≤ ·))
    (ht : ∀ t ∈ ts, 0 ≤ t ∧ t ≤ 9223372036854775807) :
    Clock.samples debug (18446744073709551616 - k) ts = .ok (List.replicate ts.length true) := by
  unfold Clock.samples Clock.new
  rw [wrap64_large (by omega) (by omega),
    show ((18446744073709551616 - k : Nat) : Int) - 18446744073709551616 = -(k : Int) by omega,
    arith64_fits (by unfold fits64; omega)]
  simp only [bind, Except.bind]
  cases ts with
  | nil => rfl
  | cons x ts =>
    obtain ⟨h1, h2⟩ := List.pairwise_cons.mp hsort
    have hx := ht x (by simp)
    have := Clock.ticks_always debug ts ⟨-(k : Int) * 1000000000, x, false⟩ rfl (by dsimp only; omega)
      (by
        dsimp only
        have e : (ts.length : Int) * (-(k : Int) * 1000000000) =
            -(((ts.length * k : Nat) : Int) * 1000000000) := by
          rw [Int.natCast_mul, ← Int.mul_assoc, Int.mul_neg, Int.neg_mul]
        simp only [List.length_cons, Nat.add_mul, Nat.one_mul] at hn
        rw [e]
        omega)
      (by dsimp only; omega) h1
    simp only [Clock.ticks, Clock.fire, Trigger.new, if_true, bind, Except.bind]
    rw [this]
    rfl

/-- C84 is false in release builds beyond 292 years: the product wraps around, and a second update
at the same instant is sampled. In the exchange with unbounded time it is not. -/
theorem C84_release_wraps :
    Clock.samples false 9223372037 [5, 5] = .ok [true, true] ∧
      sampleCount (9223372037 * 1000000000) none [5, 5] = 1 := by decide +kernel

/-- An interval of one hour at today's time scale. -/
example : Ex.after Ex.lin [Ex.quoteAt 1700000000, Ex.quoteAt 1700001800, Ex.quoteAt 1700003600]
      (fun s => decide (samplesIn s.log = 2)) = true ∧
    Clock.samples true 3600 (times [Ex.quoteAt 1700000000, Ex.quoteAt 1700001800,
      Ex.quoteAt 1700003600]) = .ok [true, false, true] ∧ Ex.lin.sampleSecs ≤ 9223372036 ∧
    (∀ t ∈ times [Ex.quoteAt 1700000000, Ex.quoteAt 1700001800, Ex.quoteAt 1700003600],
      -9223372036854775808 ≤ t ∧ t + interval Ex.lin ≤ 9223372036854775807) := by
  decide +kernel

/-- The largest `u64`, three updates within a second. -/
example : Clock.samples true 18446744073709551615 [1700000000000000000, 1700000000000000001,
    1700000000000000001] = .ok [true, true, true] := by decide +kernel

/-- The bound on the update times is needed: near the end of the 64 bit range a debug build panics
when it computes the time of the next sample. -/
example : Clock.samples true 3600 [9223372036854775807, 9223372036854775807] = .error .overflow := by
  decide +kernel

end Lfest
