import Verif.Model.DRatio
import Verif.Props.Performance

/-!
# The discriminant ratio (C86)

All figures are those of exact arithmetic, see `Model/DRatio.lean`; `Q` is any estimator of a
quantile.
-/

namespace Lfest

open Spec

theorem sampledMarket_cons (e : Env) (ev : Event) (log : List Event) :
    sampledMarket e (ev :: log) = sampledMarket e log ++ match ev with
      | .sample _ mid => [((mid : Int) : ℝ) / e.scale]
      | _ => [] := by
  unfold sampledMarket sampledMids
  cases ev <;> simp

theorem quantiles_eq (e : Env) : ∀ log : List Event,
    Quantiles.replay e log = ⟨(sampled e log).getLast?, lnReturns (sampled e log),
      (sampledMarket e log).getLast?, lnReturns (sampledMarket e log)⟩
  | [] => by
    simp [Quantiles.replay, Quantiles.empty, sampled, sampledSums, sampledMarket, sampledMids,
      lnReturns]
  | ev :: log => by
    have ih := quantiles_eq e log
    rw [sampled_cons, sampledMarket_cons]
    have snoc : ∀ (xs : List ℝ) (y : ℝ), (match xs.getLast? with
        | none => lnReturns xs
        | some p => lnReturns xs ++ [Real.log (y / p)]) = lnReturns (xs ++ [y]) := by
      intro xs y
      rcases List.eq_nil_or_concat xs with h | ⟨ys, x, h⟩
      · simp [h, lnReturns]
      · simp only [List.concat_eq_append] at h
        subst h
        simp only [List.getLast?_append, List.getLast?_singleton, Option.some_or]
        rw [List.append_assoc, List.singleton_append, lnReturns_snoc]
    cases ev with
    | sample b m =>
      have h1 := snoc (sampled e log) (((b.sum : Int) : ℝ) / e.scale)
      have h2 := snoc (sampledMarket e log) ((m : ℝ) / e.scale)
      have hb : b.sum = b.wallet + b.positionMargin + b.orderMargin := rfl
      rw [hb] at h1
      simp only [Quantiles.replay, ih, Quantiles.sample, List.getLast?_append,
        List.getLast?_singleton, Option.some_or, hb]
      rw [← h1, ← h2]
      rfl
    | _ => simpa [Quantiles.replay] using ih

theorem samples_same (log : List Event) : (sampledMids log).length = (sampledSums log).length := by
  unfold sampledMids sampledSums
  induction log with
  | nil => rfl
  | cons ev log ih =>
    cases ev <;> simp_all

theorem lnReturns_nil (xs : List ℝ) : lnReturns xs = [] ↔ xs.length < 2 := by
  match xs with
  | [] => simp [lnReturns]
  | [_] => simp [lnReturns]
  | _ :: _ :: _ => simp [lnReturns]

/-- C86: there is a ratio exactly if at least two samples were taken, and it then compares the
return-to-VaR ratio of the account with that of the market. -/
theorem C86_formula (e : Env) (log : List Event) (Q : List ℝ → ℝ) :
    (Quantiles.replay e log).dRatio Q =
      if (sampledSums log).length < 2 then none
      else
        let user := rtv Q (lnReturns (sampled e log))
        let market := rtv Q (lnReturns (sampledMarket e log))
        some (1 + (user - market) / |market|) := by
  have h1 : lnReturns (sampled e log) = [] ↔ (sampledSums log).length < 2 := by
    rw [lnReturns_nil]; simp [sampled]
  have h2 : lnReturns (sampledMarket e log) = [] ↔ (sampledSums log).length < 2 := by
    rw [lnReturns_nil]; simp [sampledMarket, samples_same]
  rw [quantiles_eq]
  simp only [Quantiles.dRatio, histQuantile, histMean, h1, h2]
  split
  · rfl
  · rfl

/-- C86: whenever both ratios are numbers and that of the market is not zero, the d_ratio exceeds one exactly if the
account has the larger ratio, and equals one exactly if they are the same. -/
theorem C86_outperforms (e : Env) (log : List Event) (Q : List ℝ → ℝ) (d : ℝ)
    (hd : (Quantiles.replay e log).dRatio Q = some d)
    (_hq : Q (lnReturns (sampled e log)) ≠ 0)
    (hm : rtv Q (lnReturns (sampledMarket e log)) ≠ 0) :
    (1 < d ↔ rtv Q (lnReturns (sampledMarket e log)) < rtv Q (lnReturns (sampled e log))) ∧
    (d = 1 ↔ rtv Q (lnReturns (sampled e log)) = rtv Q (lnReturns (sampledMarket e log))) := by
  rw [C86_formula] at hd
  split at hd
  · simp at hd
  · obtain rfl := Option.some.inj hd
    have hp := abs_pos.2 hm
    constructor
    · rw [lt_add_iff_pos_right, div_pos_iff_of_pos_right hp, sub_pos]
    · rw [add_eq_left, div_eq_zero_iff, sub_eq_zero]
      exact ⟨fun h => h.resolve_right hp.ne', .inl⟩

/-- C86: the d_ratio is the quotient of the two ratios only if that of the market is positive. If it
is negative, the d_ratio is two less the quotient. -/
theorem C86_quotient (e : Env) (log : List Event) (Q : List ℝ → ℝ) (d : ℝ)
    (_hq : Q (lnReturns (sampled e log)) ≠ 0)
    (hd : (Quantiles.replay e log).dRatio Q = some d) :
    let user := rtv Q (lnReturns (sampled e log))
    let market := rtv Q (lnReturns (sampledMarket e log))
    (0 < market → d = user / market) ∧ (market < 0 → d = 2 - user / market) := by
  intro user market
  rw [C86_formula] at hd
  split at hd
  · simp at hd
  · obtain rfl := Option.some.inj hd
    constructor
    · intro h
      show 1 + (user - market) / |market| = _
      rw [_root_.abs_of_pos h]
      field_simp
      ring
    · intro h
      show 1 + (user - market) / |market| = _
      rw [_root_.abs_of_neg h]
      have := h.ne
      field_simp
      ring

/-- The market's ratio has the sign of its move from the first to the last sample. -/
theorem rtv_sign {e : Env} {xs : List Int} {Q : List ℝ → ℝ} (hpos : ∀ x ∈ xs, 0 < x)
    (hlen : 2 ≤ xs.length)
    (hq : Q (lnReturns (xs.map (fun x : Int => (x : ℝ) / e.scale))) ≠ 0) :
    let r := rtv Q (lnReturns (xs.map (fun x : Int => (x : ℝ) / e.scale)))
    (0 < r ↔ xs.head? < xs.getLast?) ∧ (r < 0 ↔ xs.getLast? < xs.head?) ∧
      (r = 0 ↔ xs.head? = xs.getLast?) := by
  intro r
  have hsc : (0 : ℝ) < e.scale := by exact_mod_cast scale_pos e
  cases xs with
  | nil => simp at hlen
  | cons x xs =>
    have hne : lnReturns ((x :: xs).map (fun x : Int => (x : ℝ) / e.scale)) ≠ [] := by
      rw [Ne, lnReturns_nil, List.length_map]; omega
    have hsum : (lnReturns ((x :: xs).map (fun x : Int => (x : ℝ) / e.scale))).sum =
        Real.log (((x :: xs).getLast (by simp) : ℤ) / (x : ℝ)) := by
      rw [List.map_cons, lnReturns_sum]
      · congr 1
        have h2 : ((((x : ℝ) / e.scale) ::
          xs.map (fun y : Int => (y : ℝ) / e.scale))).getLast (by simp) =
            (((x :: xs).getLast (by simp) : ℤ) : ℝ) / e.scale := by
          have := List.getLast_map (f := fun y : Int => (y : ℝ) / e.scale) (l := x :: xs)
            (by simp)
          simpa using this
        rw [h2, div_div_div_cancel_right₀ hsc.ne']
      · intro y hy
        have : y ∈ (x :: xs).map (fun y : Int => (y : ℝ) / e.scale) := by simpa using hy
        obtain ⟨z, hz, rfl⟩ := List.mem_map.1 this
        have : (0 : ℝ) < z := by exact_mod_cast hpos z hz
        exact div_pos this hsc
    have hn := length_pos hne
    have hx0 : (0 : ℝ) < x := by exact_mod_cast hpos x (by simp)
    have hz0 : 0 < (x :: xs).getLast (by simp) := hpos _ (List.getLast_mem _)
    have hh : (x :: xs).head? = some x := rfl
    have hl : (x :: xs).getLast? = some ((x :: xs).getLast (by simp)) :=
      List.getLast?_eq_some_getLast (by simp)
    have hr : r = Real.log (((x :: xs).getLast (by simp) : ℤ) / (x : ℝ)) /
        (lnReturns ((x :: xs).map (fun x : Int => (x : ℝ) / e.scale))).length /
        |Q (lnReturns ((x :: xs).map (fun x : Int => (x : ℝ) / e.scale)))| := by
      show rtv _ _ = _
      rw [rtv, hsum]
    rw [hr, hh, hl]
    have hqp := abs_pos.2 hq
    generalize (x :: xs).getLast _ = z at *
    have hz1 : (0 : ℝ) < z := by exact_mod_cast hz0
    have hqt : (0 : ℝ) < (z : ℝ) / x := div_pos hz1 hx0
    refine ⟨?_, ?_, ?_⟩
    · rw [div_pos_iff_of_pos_right hqp, div_pos_iff_of_pos_right hn, Real.log_pos_iff hqt.le,
        lt_div_iff₀ hx0, one_mul, Int.cast_lt]
      simp
    · rw [div_lt_iff₀ hqp, zero_mul, div_lt_iff₀ hn, zero_mul, Real.log_neg_iff hqt,
        div_lt_iff₀ hx0, one_mul, Int.cast_lt]
      simp
    · rw [div_eq_zero_iff, div_eq_zero_iff, Real.log_eq_zero]
      have h1 : (z : ℝ) / x ≠ 0 := hqt.ne'
      have h2 : (z : ℝ) / x ≠ -1 := by linarith
      simp only [h1, h2, hn.ne', hqp.ne', false_or, or_false]
      rw [div_eq_one_iff_eq hx0.ne', Int.cast_inj]
      simp [eq_comm]

/-- C86: the ratio of the market is zero, so that the code divides by zero, exactly if the first and
the last sampled mid price are the same. -/
theorem C86_undefined (e : Env) (log : List Event) (Q : List ℝ → ℝ)
    (hpos : ∀ x ∈ sampledMids log, 0 < x) (hlen : 2 ≤ (sampledMids log).length)
    (hq : Q (lnReturns (sampledMarket e log)) ≠ 0) :
    rtv Q (lnReturns (sampledMarket e log)) = 0 ↔
      (sampledMids log).head? = (sampledMids log).getLast? :=
  (rtv_sign (e := e) (Q := Q) hpos hlen hq).2.2

/-- C86: an account whose sampled balances are proportional to the sampled mid prices has a d_ratio
of one, whichever way the market goes. -/
theorem C86_market_has_one (e : Env) (log : List Event) (Q : List ℝ → ℝ) (k : ℝ) (hk : k ≠ 0)
    (h : sampled e log = (sampledMarket e log).map (k * ·))
    (_hm : rtv Q (lnReturns (sampledMarket e log)) ≠ 0) (hlen : 2 ≤ (sampledSums log).length) :
    (Quantiles.replay e log).dRatio Q = some 1 := by
  rw [C86_formula, if_neg (by omega)]
  simp only [h, lnReturns_scale hk, sub_self, zero_div, add_zero]

/-- C86: what the sign of the d_ratio says about the profit of the account, while all sampled
balances are positive. In a market that rises from the first to the last sample the d_ratio is
positive exactly after a profit. In a market that falls it is above two exactly after a profit. -/
theorem C86_profit (c : Cfg) (s : State) (t : FullTracker) (Q : List ℝ → ℝ) (d : ℝ)
    (hu : c.spec.priceFilter.multiplierUp ≠ 0) (hr : Reachable c s)
    (hpos : ∀ x ∈ sampledSums s.log, 0 < x) (hmid : ∀ x ∈ sampledMids s.log, 0 < x)
    (ht : FullTracker.replay c.env c.start s.log = .ok t)
    (hq : Q (lnReturns (sampled c.env s.log)) ≠ 0)
    (hq' : Q (lnReturns (sampledMarket c.env s.log)) ≠ 0)
    (hd : (Quantiles.replay c.env s.log).dRatio Q = some d) :
    ((sampledMids s.log).head? < (sampledMids s.log).getLast? → (0 < d ↔ 0 < t.rpnl)) ∧
    ((sampledMids s.log).getLast? < (sampledMids s.log).head? → (2 < d ↔ 0 < t.rpnl)) := by
  have hlen : 2 ≤ (sampledSums s.log).length := by
    by_contra h
    rw [C86_formula, if_pos (by omega)] at hd
    simp at hd
  have hlen' : 2 ≤ (sampledMids s.log).length := by rw [samples_same]; exact hlen
  obtain ⟨m1, m2, _⟩ := rtv_sign (e := c.env) (Q := Q) hmid hlen' hq'
  have hne : lnReturns (sampled c.env s.log) ≠ [] := by
    rw [Ne, lnReturns_nil]; simp [sampled]; omega
  have hus : 0 < rtv Q (lnReturns (sampled c.env s.log)) ↔ 0 < t.rpnl := by
    rw [← (mean_sign hu hr hpos ht hne).1, rtv, div_pos_iff_of_pos_right (abs_pos.2 hq)]
    rfl
  obtain ⟨q1, q2⟩ := C86_quotient c.env s.log Q d hq hd
  constructor
  · intro h
    have hm : 0 < rtv Q (lnReturns (sampledMarket c.env s.log)) := m1.2 h
    rw [q1 hm, div_pos_iff_of_pos_right hm]
    exact hus
  · intro h
    have hm : rtv Q (lnReturns (sampledMarket c.env s.log)) < 0 := m2.2 h
    rw [q2 hm, ← hus]
    constructor
    · intro h2
      by_contra hn
      have := div_nonneg_of_nonpos (not_lt.1 hn) hm.le
      linarith
    · intro h2
      have := div_neg_of_pos_of_neg h2 hm
      linarith

/-- A short sale in a falling market, with a sample before and after it and one in between. -/
def Ex.opsShort : List Op :=
  [.update (.bba ⟨d 100, d 101, 1⟩), .market .sell (d 2) 0,
   .update (.bba ⟨d 90, d 91, 7200000000000⟩), .market .buy (d 2) 0,
   .update (.bba ⟨d 80, d 81, 14400000000000⟩)]

theorem Ex.shortRun : ∃ s t, Reachable lin s ∧
    FullTracker.replay lin.env lin.start s.log = .ok t ∧
    sampledSums s.log = [100000000, 100000000, 101777080] ∧
    sampledMids s.log = [10050000, 9050000, 8050000] := by
  have h : tracked lin opsShort (fun s _ _ =>
      decide (sampledSums s.log = [100000000, 100000000, 101777080] ∧
        sampledMids s.log = [10050000, 9050000, 8050000])) = true := by decide +kernel
  unfold tracked at h
  split at h
  · rename_i s tr hs
    split at h
    · rename_i t ht
      refine ⟨s, t, ⟨opsShort, ?_⟩, ht, of_decide_eq_true h⟩
      exact history_run hs
    · simp at h
  · simp at h

/-- On that run, with any estimator that is not zero there, the d_ratio exists, is above two and is
not the quotient of the two ratios, which is negative: the first sentence of the documentation of
`d_ratio` is false, its second sentence holds. -/
theorem C86_not_the_quotient : ∃ s, Reachable Ex.lin s ∧ ∀ Q : List ℝ → ℝ,
    Q (lnReturns (sampled Ex.lin.env s.log)) ≠ 0 →
    Q (lnReturns (sampledMarket Ex.lin.env s.log)) ≠ 0 →
    ∃ d, (Quantiles.replay Ex.lin.env s.log).dRatio Q = some d ∧ 2 < d ∧
      rtv Q (lnReturns (sampled Ex.lin.env s.log)) /
        rtv Q (lnReturns (sampledMarket Ex.lin.env s.log)) < 0 := by
  obtain ⟨s, t, hr, ht, hs, hm⟩ := Ex.shortRun
  refine ⟨s, hr, fun Q hq hq' => ?_⟩
  have hlen : 2 ≤ (sampledSums s.log).length := by rw [hs]; decide
  have hpos : ∀ x ∈ sampledSums s.log, 0 < x := by rw [hs]; decide
  have hmid : ∀ x ∈ sampledMids s.log, 0 < x := by rw [hm]; decide
  have hrp : 0 < t.rpnl := by
    obtain ⟨hw, hl⟩ := replay_last ht
    rw [FullTracker.rpnl, hw, hl, hs]; decide
  have hf : (sampledMids s.log).getLast? < (sampledMids s.log).head? := by
    rw [hm]; simp
  obtain ⟨d, hd⟩ : ∃ d, (Quantiles.replay Ex.lin.env s.log).dRatio Q = some d := by
    rw [C86_formula, if_neg (by omega)]; exact ⟨_, rfl⟩
  have h2 := ((C86_profit Ex.lin s t Q d (by decide) hr hpos hmid ht hq hq' hd).2 hf).2 hrp
  have hneg : rtv Q (lnReturns (sampledMarket Ex.lin.env s.log)) < 0 :=
    (rtv_sign (e := Ex.lin.env) (Q := Q) hmid (by rw [samples_same]; exact hlen) hq').2.1.2 hf
  have := (C86_quotient Ex.lin.env s.log Q d hq hd).2 hneg
  exact ⟨d, hd, h2, by linarith⟩

/-- `Ex.lin` without fees. -/
def Ex.free : Cfg := { lin with spec := { lin.spec with feeMaker := 0, feeTaker := 0 } }

/-- Everything is invested while the market rises by a tenth. -/
def Ex.opsInvested : List Op :=
  [.update (.bba ⟨d 99, d 101, 1⟩), .limit .buy (d 100) (d 10) 1,
   .update (.trade ⟨2, d 98, d 10, .sell⟩), .update (.bba ⟨d 109, d 111, 3⟩),
   .limit .sell (d 110) (d 10) 2, .update (.trade ⟨4, d 112, d 10, .buy⟩),
   .update (.bba ⟨d 109, d 111, 7200000000000⟩)]

/-- The hypotheses of `C86_market_has_one` are met by a run in which balance and market both gain
a tenth. -/
example : ∃ s, Reachable Ex.free s ∧
    sampled Ex.free.env s.log = (sampledMarket Ex.free.env s.log).map (10 * ·) ∧
    2 ≤ (sampledSums s.log).length ∧
    ∀ Q : List ℝ → ℝ, Q (lnReturns (sampledMarket Ex.free.env s.log)) ≠ 0 →
      rtv Q (lnReturns (sampledMarket Ex.free.env s.log)) ≠ 0 ∧
      (Quantiles.replay Ex.free.env s.log).dRatio Q = some 1 := by
  have h : Ex.tracked Ex.free Ex.opsInvested (fun s _ _ =>
      decide (sampledSums s.log = [100000000, 110000000] ∧
        sampledMids s.log = [10000000, 11000000])) = true := by decide +kernel
  unfold Ex.tracked at h
  split at h
  · rename_i s tr hs
    split at h
    · obtain ⟨h1, h2⟩ := of_decide_eq_true h
      have he : sampled Ex.free.env s.log = (sampledMarket Ex.free.env s.log).map (10 * ·) := by
        rw [sampled, sampledMarket, h1, h2]
        simp only [List.map_cons, List.map_nil, List.cons.injEq, and_true]
        constructor <;> push_cast <;> ring
      have hl : 2 ≤ (sampledSums s.log).length := by rw [h1]; decide
      refine ⟨s, ⟨Ex.opsInvested, history_run hs⟩, he, hl, fun Q hq => ?_⟩
      have hm : rtv Q (lnReturns (sampledMarket Ex.free.env s.log)) ≠ 0 := by
        rw [Ne, C86_undefined _ _ _ (by rw [h2]; decide) (by rw [h2]; decide) hq, h2]
        simp
      exact ⟨hm, C86_market_has_one _ _ Q 10 (by norm_num) he hm hl⟩
    · simp at h
  · simp at h

end Lfest
