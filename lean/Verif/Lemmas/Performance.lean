import Verif.SpecReal
import Verif.Model.Performance
import Verif.Lemmas.Moments

/-! Lemmas for C77. -/

namespace Lfest

open Spec

/-- Welford's recurrence over a list, oldest value first. -/
noncomputable def Welford.ofList (xs : List ℝ) : Welford := xs.foldl Welford.update .empty

theorem Welford.ofList_snoc (xs : List ℝ) (x : ℝ) :
    Welford.ofList (xs ++ [x]) = (Welford.ofList xs).update x := by
  simp [Welford.ofList]

theorem welford (xs : List ℝ) : (Welford.ofList xs).n = xs.length ∧
    (Welford.ofList xs).mean * xs.length = xs.sum ∧
    (Welford.ofList xs).s = (xs.map (· ^ 2)).sum - xs.length * (Welford.ofList xs).mean ^ 2 := by
  induction xs using List.reverseRecOn with
  | nil => simp [Welford.ofList, Welford.empty]
  | append_singleton xs x ih =>
    obtain ⟨h1, h2, h3⟩ := ih
    rw [Welford.ofList_snoc]
    generalize Welford.ofList xs = w at *
    have hn : ((xs.length : ℝ) + 1) ≠ 0 := by positivity
    refine ⟨by simp [Welford.update, h1], ?_, ?_⟩
    · simp only [Welford.update, List.length_append, List.length_singleton, List.sum_append,
        List.sum_singleton, h1]
      push_cast
      field_simp
      rw [← h2]; ring
    · simp only [Welford.update, List.length_append, List.length_singleton, List.map_append,
        List.sum_append, List.map_cons, List.map_nil, List.sum_singleton, h1, h3]
      push_cast
      field_simp
      ring

theorem welford_mean {xs : List ℝ} (h : xs ≠ []) :
    (Welford.ofList xs).mean = (statisticalMoments xs).mean := by
  have h0 := length_pos h
  have := (welford xs).2.1
  simp only [statisticalMoments]
  field_simp
  exact this

theorem welford_variance {xs : List ℝ} (h : xs ≠ []) :
    (Welford.ofList xs).variance = centralMoment (xs.sum / xs.length) 2 xs := by
  have h0 := length_pos h
  obtain ⟨h1, h2, h3⟩ := welford xs
  have hm : (Welford.ofList xs).mean = xs.sum / xs.length := by field_simp; exact h2
  have hne : xs.length ≠ 0 := by simpa using h
  simp only [Welford.variance, h1, if_neg hne, centralMoment, h3, hm]
  congr 1
  have key : ∀ (m : ℝ) (ys : List ℝ), (ys.map fun v => (v - m) ^ 2).sum =
      (ys.map (· ^ 2)).sum - 2 * m * ys.sum + ys.length * m ^ 2 := by
    intro m ys
    induction ys with
    | nil => simp
    | cons y ys ih =>
      rw [List.map_cons, List.sum_cons, ih]
      simp only [List.map_cons, List.sum_cons, List.length_cons]
      push_cast; ring
  rw [key]
  field_simp
  ring

theorem welford_std {xs : List ℝ} (h : xs ≠ []) :
    Real.sqrt (Welford.ofList xs).variance = (statisticalMoments xs).stdDev := by
  rw [welford_variance h, moments_eq]

theorem welford_var_std {xs : List ℝ} (h : xs ≠ []) :
    (Welford.ofList xs).variance = (statisticalMoments xs).stdDev ^ 2 := by
  rw [← welford_std h, Real.sq_sqrt]
  rw [welford_variance h]
  exact variance_nonneg _ _

theorem lnReturns_snoc (y : ℝ) : ∀ (xs : List ℝ) (x : ℝ),
    lnReturns (xs ++ [x, y]) = lnReturns (xs ++ [x]) ++ [Real.log (y / x)]
  | [], x => by simp [lnReturns]
  | [a], x => by simp [lnReturns]
  | a :: b :: rest, x => by
    have := lnReturns_snoc y (b :: rest) x
    simp only [List.cons_append, lnReturns] at this ⊢
    rw [this]

theorem sampled_cons (e : Env) (ev : Event) (log : List Event) :
    sampled e (ev :: log) = sampled e log ++ match ev with
      | .sample b _ => [((b.wallet + b.positionMargin + b.orderMargin : Int) : ℝ) / e.scale]
      | _ => [] := by
  unfold sampled sampledSums
  cases ev <;> simp

theorem replay_eq (e : Env) : ∀ log : List Event,
    Returns.replay e log = ⟨(sampled e log).getLast?, Welford.ofList (lnReturns (sampled e log)),
      Welford.ofList (losses (lnReturns (sampled e log)))⟩
  | [] => by
    simp [Returns.replay, Returns.empty, sampled, sampledSums, lnReturns, losses, Welford.ofList]
  | ev :: log => by
    have ih := replay_eq e log
    rw [sampled_cons]
    cases ev with
    | sample b m =>
      simp only [Returns.replay, ih]
      have hb : b.sum = b.wallet + b.positionMargin + b.orderMargin := rfl
      rcases List.eq_nil_or_concat (sampled e log) with h | ⟨xs, x, h⟩
      · simp [h, Returns.sample, lnReturns, hb]
      · simp only [List.concat_eq_append] at h
        rw [h]
        have := lnReturns_snoc (((b.sum : Int) : ℝ) / e.scale) xs x
        rw [hb] at this
        rw [List.append_assoc, List.singleton_append, this, Welford.ofList_snoc]
        simp only [Returns.sample, List.getLast?_append, List.getLast?_singleton,
          Option.some_or, hb]
        congr 1
        · unfold losses
          rw [List.filter_append]
          generalize Real.log _ = ret
          by_cases hr : ret < 0
          · simp only [List.filter_cons, List.filter_nil, hr, decide_true, if_true,
              Welford.ofList_snoc]
          · simp only [List.filter_cons, List.filter_nil, hr, decide_false, if_false,
              List.append_nil, Bool.false_eq_true]
    | _ => simpa [Returns.replay] using ih

/-- Logarithmic returns add up to the logarithm of the total growth. -/
theorem lnReturns_sum : ∀ (x : ℝ) (xs : List ℝ), (∀ y ∈ x :: xs, 0 < y) →
    (lnReturns (x :: xs)).sum = Real.log (((x :: xs).getLast (by simp)) / x)
  | x, [], h => by
    have := h x (by simp)
    simp [lnReturns, div_self this.ne']
  | x, y :: ys, h => by
    have hx := h x (by simp)
    have hy := h y (by simp)
    have ih := lnReturns_sum y ys (fun z hz => h z (by simp [List.mem_cons.1 hz]))
    have hl : 0 < (y :: ys).getLast (by simp) := h _ (List.mem_cons_of_mem _ (List.getLast_mem _))
    have hc : (x :: y :: ys).getLast (by simp) = (y :: ys).getLast (by simp) :=
      List.getLast_cons (by simp)
    rw [lnReturns, List.sum_cons, ih, hc]
    generalize (y :: ys).getLast _ = z at *
    rw [← Real.log_mul (div_pos hy hx).ne' (div_pos hl hy).ne']
    congr 1
    field_simp

theorem lnReturns_scale {k : ℝ} (hk : k ≠ 0) : ∀ xs : List ℝ,
    lnReturns (xs.map (k * ·)) = lnReturns xs
  | [] => rfl
  | [_] => rfl
  | a :: b :: rest => by
    have := lnReturns_scale hk (b :: rest)
    simp only [List.map_cons, lnReturns] at this ⊢
    rw [this, mul_div_mul_left _ _ hk]

end Lfest
