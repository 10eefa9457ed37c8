import Verif.Lemmas.DRatioF64
import Verif.Props.DRatio
import Verif.Props.Sample32

/-!
# The discriminant ratio in floating point (C124)

`Q` and `M` are any estimators of a quantile and of a mean, `ln` is any logarithm, and `balF64` and
`midF64` any conversions of amounts to `f64`.
-/

namespace Lfest

open Spec

theorem sampledMids_cons (ev : Event) (log : List Event) :
    sampledMids (ev :: log) = sampledMids log ++ match ev with
      | .sample _ mid => [mid]
      | _ => [] := by
  unfold sampledMids
  cases ev <;> simp

theorem widen_same (x : F32) : x.widen = sameValue x := by cases x <;> rfl

theorem seenReturns_snoc (ln : F32 → F32) (toF64 : Int → ℚ) (xs : List Int) (y : Int) :
    (match xs.getLast?.map (fun b => F32.of (toF64 b)) with
      | none => seenReturns ln toF64 xs
      | some p => seenReturns ln toF64 xs ++ [(ln ((F32.of (toF64 y)).div p)).widen])
      = seenReturns ln toF64 (xs ++ [y]) := by
  rcases List.eq_nil_or_concat xs with h | ⟨ys, x, h⟩
  · simp [h, seenReturns, changes]
  · rw [List.concat_eq_append] at h
    subst h
    simp only [List.getLast?_append, List.getLast?_singleton, Option.some_or, Option.map_some]
    simp only [seenReturns]
    rw [List.append_assoc, List.singleton_append, changes_snoc, List.map_append, widen_same]
    rfl

/-- C124: the two histograms are given the returns between consecutive samples, in their order. -/
theorem C124_returns (ln : F32 → F32) (balF64 midF64 : Int → ℚ) : ∀ log : List Event,
    QuantilesF64.replay ln balF64 midF64 log =
      ⟨(sampledSums log).getLast?.map (fun b => F32.of (balF64 b)),
       seenReturns ln balF64 (sampledSums log),
       (sampledMids log).getLast?.map (fun b => F32.of (midF64 b)),
       seenReturns ln midF64 (sampledMids log)⟩
  | [] => by
    simp [QuantilesF64.replay, QuantilesF64.empty, sampledSums, sampledMids, seenReturns, changes]
  | ev :: log => by
    have ih := C124_returns ln balF64 midF64 log
    rw [sampledSums_cons, sampledMids_cons]
    cases ev with
    | sample b m =>
      have hb : b.sum = b.wallet + b.positionMargin + b.orderMargin := rfl
      simp only [QuantilesF64.replay, ih, QuantilesF64.sample, List.getLast?_append,
        List.getLast?_singleton, Option.some_or, Option.map_some, hb]
      rw [← seenReturns_snoc, ← seenReturns_snoc]
      try rfl
    | _ => simpa [QuantilesF64.replay] using ih

theorem seenReturns_nil (ln : F32 → F32) (toF64 : Int → ℚ) (xs : List Int) :
    seenReturns ln toF64 xs = [] ↔ xs.length < 2 := by
  match xs with
  | [] => simp [seenReturns, changes]
  | [_] => simp [seenReturns, changes]
  | _ :: _ :: _ => simp [seenReturns, changes]

/-- C124: there is a ratio exactly if at least two samples were taken. -/
theorem C124_exists (log : List Event) (ln : F32 → F32) (balF64 midF64 : Int → ℚ)
    (Q M : List F64 → F64) :
    ((QuantilesF64.replay ln balF64 midF64 log).dRatio Q M).isSome
      ↔ 2 ≤ (sampledSums log).length := by
  have h1 := seenReturns_nil ln balF64 (sampledSums log)
  have h2 := seenReturns_nil ln midF64 (sampledMids log)
  rw [samples_same] at h2
  rw [C124_returns]
  simp only [QuantilesF64.dRatio, histogram, h1, h2]
  by_cases h : (sampledSums log).length < 2
  · simp [h]
  · simp [h, not_lt.1 h]

/-- The ratio in terms of the figures it is made of. -/
theorem dRatio_figures {log : List Event} {ln : F32 → F32} {balF64 midF64 : Int → ℚ}
    {Q M : List F64 → F64}
    (f : Figures Q M (seenReturns ln balF64 (sampledSums log))
      (seenReturns ln midF64 (sampledMids log)))
    (h : 2 ≤ (sampledSums log).length) :
    (QuantilesF64.replay ln balF64 midF64 log).dRatio Q M =
      some ((F64.finite 1).add (((F64.of f.user).sub (F64.of f.market)).div (F64.of f.market).abs)) := by
  have h1 := seenReturns_nil ln balF64 (sampledSums log)
  have h2 := seenReturns_nil ln midF64 (sampledMids log)
  rw [samples_same] at h2
  rw [C124_returns]
  have hu : |f.userQuantile| ≠ 0 := abs_ne_zero.2 f.user_risk
  have hm : |f.marketQuantile| ≠ 0 := abs_ne_zero.2 f.market_risk
  simp only [QuantilesF64.dRatio, histogram, h1, h2, if_neg (not_lt.2 h), Option.bind_eq_bind,
    Option.bind_some, f.user_mean, f.user_quantile, f.market_mean, f.market_quantile, F64.abs,
    F64.div, if_neg hu, if_neg hm]
  rfl

theorem dRatio_some {log : List Event} {ln : F32 → F32} {balF64 midF64 : Int → ℚ}
    {Q M : List F64 → F64} {d : F64}
    (hd : (QuantilesF64.replay ln balF64 midF64 log).dRatio Q M = some d) :
    2 ≤ (sampledSums log).length :=
  (C124_exists log ln balF64 midF64 Q M).1 (by rw [hd]; rfl)

/-- C124: whatever is rounded on the way, a ratio above one, be it infinite, is only reported if the
account has the larger return-to-VaR ratio, and one below one only if the market has. -/
theorem C124_direction (log : List Event) (ln : F32 → F32) (balF64 midF64 : Int → ℚ)
    (Q M : List F64 → F64)
    (f : Figures Q M (seenReturns ln balF64 (sampledSums log))
      (seenReturns ln midF64 (sampledMids log)))
    (d : F64) (hd : (QuantilesF64.replay ln balF64 midF64 log).dRatio Q M = some d) :
    (MoreThan 1 d → f.market < f.user) ∧ (LessThan 1 d → f.user < f.market) := by
  have h := dRatio_figures f (dRatio_some hd)
  rw [hd] at h
  obtain rfl := Option.some.inj h
  exact ⟨fun h => sub_more (div_more (one_add_more h)),
    fun h => sub_less (div_less (one_add_less h))⟩

/-- C124: if the ratios are of moderate size, the result is a number, and as near to the exact
discriminant ratio as sixteen roundings would make it. -/
theorem C124_accuracy (log : List Event) (ln : F32 → F32) (balF64 midF64 : Int → ℚ)
    (Q M : List F64 → F64)
    (f : Figures Q M (seenReturns ln balF64 (sampledSums log))
      (seenReturns ln midF64 (sampledMids log)))
    (hf : f.Moderate)
    (d : F64) (hd : (QuantilesF64.replay ln balF64 midF64 log).dRatio Q M = some d) :
    ∃ v, d = .finite v ∧
      |v - (1 + (f.user - f.market) / |f.market|)| ≤ 1 / 2 ^ 49 * (1 + |f.user| / |f.market|) := by
  have h := dRatio_figures f (dRatio_some hd)
  rw [hd] at h
  obtain rfl := Option.some.inj h
  exact ratio_err hf.1 hf.2.1 hf.2.2

/-- C124: a lead of more than `2^-49` of the two ratios is reported as such. -/
theorem C124_noticed (log : List Event) (ln : F32 → F32) (balF64 midF64 : Int → ℚ)
    (Q M : List F64 → F64)
    (f : Figures Q M (seenReturns ln balF64 (sampledSums log))
      (seenReturns ln midF64 (sampledMids log)))
    (hf : f.Moderate)
    (d : F64) (hd : (QuantilesF64.replay ln balF64 midF64 log).dRatio Q M = some d) :
    (f.market + (|f.user| + |f.market|) / 2 ^ 49 < f.user → MoreThan 1 d) ∧
    (f.user + (|f.user| + |f.market|) / 2 ^ 49 < f.market → LessThan 1 d) := by
  obtain ⟨v, rfl, hv⟩ := C124_accuracy log ln balF64 midF64 Q M f hf d hd
  have hm : 0 < |f.market| := lt_of_lt_of_le (by positivity) hf.2.1
  have hv := abs_le.1 hv
  have e : 1 / 2 ^ 49 * (1 + |f.user| / |f.market|)
      = (|f.user| + |f.market|) / 2 ^ 49 / |f.market| := by
    field_simp
    ring
  rw [e] at hv
  constructor
  · intro h
    show 1 < v
    have := div_lt_div_of_pos_right (show (|f.user| + |f.market|) / 2 ^ 49 < f.user - f.market by
      linarith) hm
    linarith [hv.1]
  · intro h
    show v < 1
    have := div_lt_div_of_pos_right (show (|f.user| + |f.market|) / 2 ^ 49 < -(f.user - f.market) by
      linarith) hm
    rw [neg_div] at this
    linarith [hv.2]

/-- C124: equal ratios are reported as exactly one. -/
theorem C124_equal (log : List Event) (ln : F32 → F32) (balF64 midF64 : Int → ℚ)
    (Q M : List F64 → F64)
    (f : Figures Q M (seenReturns ln balF64 (sampledSums log))
      (seenReturns ln midF64 (sampledMids log)))
    (hf : f.Moderate) (he : f.user = f.market)
    (d : F64) (hd : (QuantilesF64.replay ln balF64 midF64 log).dRatio Q M = some d) :
    d = .finite 1 := by
  obtain ⟨v, rfl, _⟩ := C124_accuracy log ln balF64 midF64 Q M f hf d hd
  have hn : ¬ MoreThan 1 (.finite v) := fun h => by
    have := (C124_direction log ln balF64 midF64 Q M f _ hd).1 h
    linarith
  have hl : ¬ LessThan 1 (.finite v) := fun h => by
    have := (C124_direction log ln balF64 midF64 Q M f _ hd).2 h
    linarith
  congr 1
  exact le_antisymm (not_lt.1 hn) (not_lt.1 hl)

theorem changes_mem {x : Int × Int} : ∀ {l : List Int}, x ∈ changes l → x.1 ∈ l ∧ x.2 ∈ l
  | [], hx => by cases hx
  | [_], hx => by cases hx
  | a :: b :: l, hx => by
    simp only [changes, List.mem_cons] at hx
    rcases hx with rfl | hx
    · simp
    · have := changes_mem hx
      exact ⟨List.mem_cons_of_mem _ this.1, List.mem_cons_of_mem _ this.2⟩

/-- C124, what does not hold: there is no verdict on an account whose balance never moved by more
than `f32` can see, whatever the market did. The estimators only have to say that the mean and the
quantile of zeros are zero. -/
theorem C124_idle (e : Env) (log : List Event) (ln : F32 → F32) (balF64 midF64 : Int → ℚ)
    (Q M : List F64 → F64) (hc : Converts e balF64) (hl : LogSign ln)
    (hs : ∀ b ∈ sampledSums log, Sane e b)
    (hQ : ∀ l : List F64, (∀ x ∈ l, x = .finite 0) → l ≠ [] → Q l = .finite 0)
    (hM : ∀ l : List F64, (∀ x ∈ l, x = .finite 0) → l ≠ [] → M l = .finite 0)
    (hidle : ∀ x ∈ changes (sampledSums log), F32.of (balF64 x.1) = F32.of (balF64 x.2))
    (d : F64) (hd : (QuantilesF64.replay ln balF64 midF64 log).dRatio Q M = some d) : d = .nan := by
  have hlen := dRatio_some hd
  have h1 := seenReturns_nil ln balF64 (sampledSums log)
  have h2 := seenReturns_nil ln midF64 (sampledMids log)
  rw [samples_same] at h2
  have hall : ∀ x ∈ seenReturns ln balF64 (sampledSums log), x = .finite 0 := by
    intro x hx
    obtain ⟨p, hp, rfl⟩ := List.mem_map.1 hx
    obtain ⟨m1, m2⟩ := changes_mem hp
    obtain ⟨v, ev, _, _, _, _, hz⟩ := seen hc hl (hs _ m1) (hs _ m2)
    rw [ev, hz.2 (hidle _ hp)]
    rfl
  have hne : seenReturns ln balF64 (sampledSums log) ≠ [] := by rw [Ne, h1]; omega
  rw [C124_returns] at hd
  simp only [QuantilesF64.dRatio, histogram, h2, if_neg hne, if_neg (not_lt.2 hlen),
    Option.bind_eq_bind, Option.bind_some, hQ _ hall hne, hM _ hall hne, Option.some.injEq] at hd
  rw [← hd]
  have hzero : (F64.finite 0).div (F64.finite 0).abs = .nan := by simp [F64.abs, F64.div]
  have hsub : ∀ y : F64, F64.nan.sub y = .nan := by intro y; cases y <;> rfl
  have hdiv : ∀ y : F64, F64.nan.div y = .nan := by intro y; cases y <;> rfl
  rw [hzero, hsub, hdiv]
  rfl

/-- The largest value: the quantile 1.0. -/
def Ex.largest : List F64 → F64
  | [] => .nan
  | x :: xs => xs.foldl (fun a b => match a, b with
      | .finite u, .finite v => .finite (max u v)
      | _, _ => .nan) x

/-- The nearest double. -/
def Ex.nearest (a : Int) : ℚ := roundF64 ((a : ℚ) / Ex.lin.env.scale)

/-- Whether it is a number, and which. -/
def Ex.isFinite : F64 → Bool
  | .finite _ => true
  | _ => false

def Ex.value : F64 → ℚ
  | .finite v => v
  | _ => 0

theorem Ex.finite_value {x : F64} (h : Ex.isFinite x = true) : x = .finite (Ex.value x) := by
  cases x with
  | finite u => rfl
  | _ => cases h

/-- The short sale of C86 meets the hypotheses, and is well ahead of the market. -/
example : ∃ s, Reachable Ex.lin s ∧ ∃ f : Figures Ex.largest meanF64
      (seenReturns Ex.ln32 Ex.nearest (sampledSums s.log))
      (seenReturns Ex.ln32 Ex.nearest (sampledMids s.log)),
    f.Moderate ∧ f.market < 0 ∧ f.market + (|f.user| + |f.market|) / 2 ^ 49 < f.user ∧
    ∃ d, (QuantilesF64.replay Ex.ln32 Ex.nearest Ex.nearest s.log).dRatio Ex.largest meanF64
      = some d := by
  obtain ⟨s, t, hr, _, h1, h2⟩ := Ex.shortRun
  have hs : ((QuantilesF64.replay Ex.ln32 Ex.nearest Ex.nearest s.log).dRatio Ex.largest
      meanF64).isSome := by
    rw [C124_exists, h1]; decide
  refine ⟨s, hr, ?_⟩
  rw [h1, h2]
  refine ⟨⟨_, _, _, _, Ex.finite_value (x := meanF64 _) (by decide +kernel),
    Ex.finite_value (x := Ex.largest _) (by decide +kernel),
    Ex.finite_value (x := meanF64 _) (by decide +kernel),
    Ex.finite_value (x := Ex.largest _) (by decide +kernel),
    by decide +kernel, by decide +kernel⟩, ⟨by decide +kernel, by decide +kernel, by decide +kernel⟩,
    by decide +kernel, by decide +kernel, _, Option.eq_some_of_isSome hs⟩

/-- C124, what does not hold: an account can lose money in every sampling interval and have no
verdict, whatever the estimators, if those of zeros are zero. -/
theorem C124_loser : ∃ s, Reachable Ex.rich s ∧
    (∀ x ∈ (changes (sampledSums s.log)).drop 1, x.2 < x.1) ∧
    ∀ (midF64 : Int → ℚ) (Q M : List F64 → F64) (ln : F32 → F32), LogSign ln →
      (∀ l : List F64, (∀ x ∈ l, x = .finite 0) → l ≠ [] → Q l = .finite 0) →
      (∀ l : List F64, (∀ x ∈ l, x = .finite 0) → l ≠ [] → M l = .finite 0) →
      (QuantilesF64.replay ln (fun a => roundF64 ((a : ℚ) / Ex.rich.env.scale)) midF64 s.log).dRatio Q M
        = some .nan := by
  obtain ⟨s, t, hr, _, _, hs, hlose, hall⟩ := C106_blind
  have hc : Converts Ex.rich.env (fun a => roundF64 ((a : ℚ) / Ex.rich.env.scale)) := by
    apply converts_nearest
    have : Ex.rich.env.scale = 100000 := by decide +kernel
    rw [this]
    exact (show ((100000 : ℤ) : ℚ) ≤ 2 ^ 17 by norm_num).trans
      (pow_le_pow_right₀ (by norm_num) (by norm_num))
  refine ⟨s, hr, hlose, fun midF64 Q M ln hl hQ hM => ?_⟩
  have h32 := (replay32 (ln := ln)
    (toF64 := fun a => roundF64 ((a : ℚ) / Ex.rich.env.scale)) s.log).2.1
  rw [hall ln hl] at h32
  have hlen : (changes (sampledSums s.log)).length = 3 := by
    have := congrArg List.length h32
    simpa using this.symm
  have hsome : ((QuantilesF64.replay ln (fun a => roundF64 ((a : ℚ) / Ex.rich.env.scale)) midF64
      s.log).dRatio Q M).isSome := by
    rw [C124_exists]
    by_contra hcon
    have : seenReturns ln (fun a => roundF64 ((a : ℚ) / Ex.rich.env.scale)) (sampledSums s.log) = [] :=
      (seenReturns_nil _ _ _).2 (by omega)
    rw [seenReturns, List.map_eq_nil_iff] at this
    rw [this] at hlen
    cases hlen
  obtain ⟨d, hd⟩ := Option.isSome_iff_exists.1 hsome
  rw [hd]
  congr 1
  refine C124_idle Ex.rich.env s.log ln _ midF64 Q M hc hl hs hQ hM (fun x hx => ?_) d hd
  obtain ⟨m1, m2⟩ := changes_mem hx
  obtain ⟨v, ev, _, _, _, _, hz⟩ := seen hc hl (hs _ m1) (hs _ m2)
  apply hz.1
  have hmem : ln ((F32.of (roundF64 ((x.2 : ℚ) / Ex.rich.env.scale))).div
      (F32.of (roundF64 ((x.1 : ℚ) / Ex.rich.env.scale)))) ∈
      ([.finite 0, .finite 0, .finite 0] : List F32).reverse := by
    rw [h32]
    exact List.mem_map.2 ⟨x, hx, rfl⟩
  rw [ev] at hmem
  simpa using hmem

end Lfest
