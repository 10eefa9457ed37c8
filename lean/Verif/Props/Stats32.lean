import Verif.SpecStats
import Verif.Lemmas.Stats32
import Verif.Props.Sample32

/-!
# C119: sharpe, sortino and kelly in single precision
-/

namespace Lfest
open Spec

deriving instance DecidableEq for F32

/-! ## The returns -/

theorem quotient_range {e : Env} {toF64 : Int → ℚ} (hc : Converts e toF64) {p b : Int}
    (hp : Sane e p) (hb : Sane e b) :
    ∃ x, (F32.of (toF64 b)).div (F32.of (toF64 p)) = .finite x ∧ 1 / 2 ^ 127 ≤ x ∧ x ≤ 2 ^ 127 := by
  obtain ⟨ep, p0, p1, p2, _⟩ := single_of hc hp
  obtain ⟨eb, b0, b1, b2, _⟩ := single_of hc hb
  rw [ep, eb]
  generalize roundF32 (toF64 p) = P at *
  generalize roundF32 (toF64 b) = B at *
  have hq1 : B / P ≤ 2 ^ 127 := by
    rw [div_le_iff₀ p0]
    have : (2 : ℚ) ^ 127 * (1 / 2 ^ 64) ≤ 2 ^ 127 * P := mul_le_mul_of_nonneg_left p1 (by norm_num)
    refine b2.trans (le_trans ?_ this)
    norm_num
  have hr1 := roundF32_le_pow 127 hq1
  have hr0 : 1 / 2 ^ 127 ≤ roundF32 (B / P) := by
    have hs : IsSingle (1 / 2 ^ 127) := ⟨1, -127, by norm_num, by norm_num, by norm_num⟩
    have : (1 : ℚ) / 2 ^ 127 ≤ B / P := by
      rw [le_div_iff₀ p0]
      have : (1 : ℚ) / 2 ^ 127 * P ≤ 1 / 2 ^ 127 * 2 ^ 63 :=
        mul_le_mul_of_nonneg_left p2 (by norm_num)
      refine this.trans (le_trans ?_ b1)
      norm_num
    have := roundF32_mono this
    rwa [roundF32_of_isSingle hs] at this
  refine ⟨roundF32 (B / P), ?_, hr0, hr1⟩
  simp only [F32.div, if_neg p0.ne']
  unfold F32.of
  rw [if_neg]
  rw [abs_of_nonneg (le_trans (by norm_num) hr0), not_le]
  exact lt_of_le_of_lt hr1 (by unfold f32Limit; norm_num)

theorem mem_changes : ∀ (l : List Int) (x : Int × Int), x ∈ changes l → x.1 ∈ l ∧ x.2 ∈ l := by
  intro l
  induction l with
  | nil => intro x hx; cases hx
  | cons a l ih =>
    intro x hx
    cases l with
    | nil => cases hx
    | cons b l =>
      rcases List.mem_cons.1 hx with rfl | hx
      · exact ⟨by simp, by simp⟩
      · have := ih x hx
        exact ⟨List.mem_cons_of_mem _ this.1, List.mem_cons_of_mem _ this.2⟩

theorem changes_length : ∀ l : List Int, (changes l).length ≤ l.length
  | [] => le_refl _
  | [_] => Nat.zero_le _
  | a :: b :: l => by
    have := changes_length (b :: l)
    simp only [changes, List.length_cons] at this ⊢
    omega

/-- All returns are moderate numbers; where the balance did not fall they are not negative, where it
did not rise they are not positive. -/
theorem returns_numbers {e : Env} {log : List Event} {ln : F32 → F32} {toF64 : Int → ℚ}
    (hc : Converts e toF64) (hl : LogSign ln) (hb : LogBounded ln)
    (hs : ∀ b ∈ sampledSums log, Sane e b) :
    ∃ vs : List ℚ, (Returns32.replay ln toF64 log).all = vs.map .finite ∧
      (∀ v ∈ vs, IsSingle v ∧ |v| ≤ 2 ^ 7) ∧ vs.length ≤ (sampledSums log).length ∧
      ((∀ x ∈ changes (sampledSums log), x.1 ≤ x.2) → ∀ v ∈ vs, 0 ≤ v) ∧
      ((∀ x ∈ changes (sampledSums log), x.2 ≤ x.1) → ∀ v ∈ vs, v ≤ 0) := by
  obtain ⟨_, h2, _⟩ := replay32 (ln := ln) (toF64 := toF64) log
  have h3 := congrArg List.reverse h2
  rw [List.reverse_reverse, ← List.map_reverse] at h3
  have hm := mem_changes (sampledSums log)
  have hlen := changes_length (sampledSums log)
  generalize changes (sampledSums log) = l at h3 hm hlen
  rw [h3]
  have key : ∀ x ∈ l, ∃ v, ln ((F32.of (toF64 x.2)).div (F32.of (toF64 x.1))) = .finite v ∧
      IsSingle v ∧ |v| ≤ 2 ^ 7 ∧ (x.1 ≤ x.2 → 0 ≤ v) ∧ (x.2 ≤ x.1 → v ≤ 0) := by
    intro x hx
    obtain ⟨m1, m2⟩ := hm x hx
    have s1 := hs _ m1
    have s2 := hs _ m2
    obtain ⟨v, hv, a1, a2, _⟩ := seen hc hl s1 s2
    obtain ⟨y, hy, r1, r2⟩ := quotient_range hc s1 s2
    obtain ⟨z, hz, z1, z2⟩ := hb y r1 r2
    rw [hy, hz] at hv
    injection hv with hv
    subst hv
    refine ⟨z, by rw [hy, hz], z1, by linarith, fun h => ?_, fun h => ?_⟩
    · by_contra hn; exact absurd (a1 (not_le.1 hn)) (not_lt.2 h)
    · by_contra hn; exact absurd (a2 (not_le.1 hn)) (not_lt.2 h)
  have hl2 : ∀ x ∈ l.reverse, x ∈ l := fun x hx => List.mem_reverse.1 hx
  have hlr : l.reverse.length ≤ (sampledSums log).length := by simpa using hlen
  have back : ∀ p : Int × Int → Prop, (∀ x ∈ l, p x) ↔ ∀ x ∈ l.reverse, p x := by
    intro p; simp
  rw [back, back]
  generalize (sampledSums log).length = N at *
  clear back hlen h2 h3 hm hs
  generalize l.reverse = r at *
  induction r generalizing N with
  | nil => exact ⟨[], rfl, by simp, Nat.zero_le _, by simp, by simp⟩
  | cons x r ih =>
    obtain ⟨v, hv, v1, v2, v3, v4⟩ := key x (hl2 x List.mem_cons_self)
    obtain ⟨vs, e1, e2, e3, e4, e5⟩ := ih (N - 1) (fun y hy => hl2 y (List.mem_cons_of_mem _ hy))
      (by simp only [List.length_cons] at hlr; omega)
    refine ⟨v :: vs, by simp [hv, e1], ?_, ?_, ?_, ?_⟩
    · intro w hw
      rcases List.mem_cons.1 hw with rfl | hw
      · exact ⟨v1, v2⟩
      · exact e2 w hw
    · simp only [List.length_cons] at hlr ⊢; omega
    · intro h w hw
      rcases List.mem_cons.1 hw with rfl | hw
      · exact v3 (h x List.mem_cons_self)
      · exact e4 (fun y hy => h y (List.mem_cons_of_mem _ hy)) w hw
    · intro h w hw
      rcases List.mem_cons.1 hw with rfl | hw
      · exact v4 (h x List.mem_cons_self)
      · exact e5 (fun y hy => h y (List.mem_cons_of_mem _ hy)) w hw

/-! ## Quotients of numbers -/

theorem variance_number {n : ℕ} {s : ℚ} (m : F32) (hn : n ≤ 2 ^ 64) (h0 : 0 ≤ s) (h1 : s ≤ 2 ^ 41) :
    ∃ v, (Welford32.mk n m (.finite s)).variance = .finite v ∧ 0 ≤ v ∧ (s = 0 → v = 0) := by
  unfold Welford32.variance
  split
  · exact ⟨0, rfl, le_refl _, fun _ => rfl⟩
  · next hz =>
    have k1 : 1 ≤ roundF32 n := roundF32_one_le (by
      have : 1 ≤ n := Nat.one_le_iff_ne_zero.2 hz
      exact_mod_cast this)
    have k0 : 0 < roundF32 n := by linarith
    have k2 : |(n : ℚ)| ≤ 2 ^ 64 := by rw [Nat.abs_cast]; exact_mod_cast hn
    have hq : |s / roundF32 n| ≤ 2 ^ 41 := by
      rw [abs_of_nonneg (div_nonneg h0 k0.le), div_le_iff₀ k0]
      nlinarith
    refine ⟨roundF32 (s / roundF32 n), ?_, roundF32_nonneg (div_nonneg h0 k0.le), fun h => ?_⟩
    · simp only [F32.of_small 64 (le_refl _) k2, F32.div, if_neg k0.ne', F32.of_small 41 (by norm_num) hq]
    · rw [h, zero_div, roundF32_zero]

theorem div_sign {m d : ℚ} (hd : 0 < d) :
    (F32.finite m).div (.finite d) ≠ .nan ∧
    (0 ≤ m → NotBelow0 ((F32.finite m).div (.finite d))) ∧
    (m ≤ 0 → NotAbove0 ((F32.finite m).div (.finite d))) := by
  simp only [F32.div, if_neg hd.ne', F32.of]
  split
  · next hlim =>
    refine ⟨by simp, fun h => ?_, fun h => ?_⟩
    · simp only [NotBelow0, decide_eq_false_iff_not, not_lt]
      exact div_nonneg h hd.le
    · simp only [NotAbove0, decide_eq_true_eq]
      rcases lt_or_eq_of_le h with h | h
      · exact div_neg_of_neg_of_pos h hd
      · rw [h, zero_div, roundF32_zero, abs_zero] at hlim
        exact absurd hlim (by unfold f32Limit; norm_num)
  · refine ⟨by simp, fun h => ?_, fun h => ?_⟩
    · exact roundF32_nonneg (div_nonneg h hd.le)
    · have := roundF32_mono (show m / d ≤ 0 from div_nonpos_of_nonpos_of_nonneg h hd.le)
      rwa [roundF32_zero] at this

/-- What is claimed of a figure: it is a number or infinite, not negative if `up`, not positive if
`down`. -/
def Figure (up down : Prop) (q : F32) : Prop :=
  q ≠ .nan ∧ (up → NotBelow0 q) ∧ (down → NotAbove0 q)

theorem figures {e : Env} {log : List Event} {ln sqrt : F32 → F32} {toF64 : Int → ℚ}
    (hc : Converts e toF64) (hl : LogSign ln) (hb : LogBounded ln) (hq : RootSign sqrt)
    (hs : ∀ b ∈ sampledSums log, Sane e b) (hn : (sampledSums log).length ≤ 2 ^ 64) :
    let r := Returns32.replay ln toF64 log
    let up := ∀ x ∈ changes (sampledSums log), x.1 ≤ x.2
    let down := ∀ x ∈ changes (sampledSums log), x.2 ≤ x.1
    (∃ k, r.kelly = some k ∧ Figure up down k) ∧
    (∀ q, r.sharpe sqrt = some q → Figure up down q) ∧
    (∀ q, r.sortino sqrt = some q → Figure up down q) := by
  intro r up down
  obtain ⟨vs, e1, e2, e3, e4, e5⟩ := returns_numbers hc hl hb hs
  have hneg : ∃ ws : List ℚ, r.neg = ws.map .finite ∧ (∀ v ∈ ws, IsSingle v ∧ |v| ≤ 2 ^ 7) ∧
      ws.length ≤ vs.length := by
    obtain ⟨_, _, h3⟩ := replay32 (ln := ln) (toF64 := toF64) log
    refine ⟨vs.filter (fun v => F32.below0 (.finite v)), ?_, ?_, List.length_filter_le _ _⟩
    · show (Returns32.replay ln toF64 log).neg = _
      rw [h3, e1, List.filter_map]; rfl
    · intro v hv; exact e2 v (List.mem_of_mem_filter hv)
  obtain ⟨ws, w1, w2, w3⟩ := hneg
  obtain ⟨m, s, f1, f2, f3, f4, f5, f6, f7, _⟩ := welford32 vs e2 (e3.trans hn)
  obtain ⟨m', s', g1, _, _, g4, g5, _, _, _⟩ := welford32 ws w2 (w3.trans (e3.trans hn))
  have hr : r.all = vs.map .finite := e1
  have mup : up → 0 ≤ m := by
    intro h
    by_cases hv : vs = []
    · rw [(f6 hv).1]
    · exact (f7 hv 0 (2 ^ 7) (fun v hv' => ⟨e4 h v hv', (abs_le.1 (e2 v hv').2).2⟩)).1
  have mdown : down → m ≤ 0 := by
    intro h
    by_cases hv : vs = []
    · rw [(f6 hv).1]
    · exact (f7 hv (-2 ^ 7) 0 (fun v hv' => ⟨(abs_le.1 (e2 v hv').2).1, e5 h v hv'⟩)).2
  have fig : ∀ d : ℚ, 0 < d → Figure up down ((F32.finite m).div (.finite d)) := by
    intro d hd
    obtain ⟨a, b, c⟩ := div_sign (m := m) hd
    exact ⟨a, fun h => b (mup h), fun h => c (mdown h)⟩
  have zero : Figure up down (.finite 0) := ⟨by simp, fun _ => le_refl _, fun _ => le_refl _⟩
  obtain ⟨v, v1, v2, _⟩ := variance_number (.finite m) (e3.trans hn) f4 f5
  obtain ⟨v', v1', v2', _⟩ := variance_number (.finite m') (w3.trans (e3.trans hn)) g4 g5
  refine ⟨?_, ?_, ?_⟩
  · simp only [Returns32.kelly, hr, f1, v1, F32.atLeast0, F32.is0]
    by_cases hv : v = 0
    · exact ⟨.finite 0, by simp [hv], zero⟩
    · refine ⟨(F32.finite m).div (.finite v), by simp [hv, v2], fig v ?_⟩
      exact lt_of_le_of_ne v2 (Ne.symm hv)
  · intro q hq'
    simp only [Returns32.sharpe, hr, f1, Welford32.last, v1] at hq'
    obtain ⟨y, y1, y2, y3⟩ := hq v v2
    by_cases hz : vs.length = 0
    · simp [hz] at hq'
    · simp only [if_neg hz, y1, F32.is0] at hq'
      by_cases hy : y = 0
      · simp [hy] at hq'
      · simp only [hy, decide_false, Bool.false_eq_true, if_false, Option.some.injEq] at hq'
        rw [← hq']
        exact fig y (lt_of_le_of_ne y2 (Ne.symm hy))
  · intro q hq'
    simp only [Returns32.sortino, hr, w1, f1, g1, Welford32.last, v1'] at hq'
    obtain ⟨y, y1, y2, y3⟩ := hq v' v2'
    by_cases hz : ws.length = 0
    · simp [hz] at hq'
    · simp only [if_neg hz, y1, F32.is0] at hq'
      by_cases hy : y = 0
      · simp [hy] at hq'
      · simp only [hy, decide_false, Bool.false_eq_true, if_false, Option.some.injEq] at hq'
        rw [← hq']
        exact fig y (lt_of_le_of_ne y2 (Ne.symm hy))

theorem least_of : ∀ vs : List ℚ, vs ≠ [] → ∃ x ∈ vs, ∀ y ∈ vs, x ≤ y
  | [], h => absurd rfl h
  | [a], _ => ⟨a, by simp, by simp⟩
  | a :: b :: l, _ => by
    obtain ⟨x, h1, h2⟩ := least_of (b :: l) (by simp)
    rcases le_total a x with h | h
    · exact ⟨a, by simp, by
        intro y hy; rcases List.mem_cons.1 hy with rfl | hy
        · exact le_refl _
        · exact h.trans (h2 y hy)⟩
    · exact ⟨x, List.mem_cons_of_mem _ h1, by
        intro y hy; rcases List.mem_cons.1 hy with rfl | hy
        · exact h
        · exact h2 y hy⟩

theorem greatest_of : ∀ vs : List ℚ, vs ≠ [] → ∃ x ∈ vs, ∀ y ∈ vs, y ≤ x
  | [], h => absurd rfl h
  | [a], _ => ⟨a, by simp, by simp⟩
  | a :: b :: l, _ => by
    obtain ⟨x, h1, h2⟩ := greatest_of (b :: l) (by simp)
    rcases le_total x a with h | h
    · exact ⟨a, by simp, by
        intro y hy; rcases List.mem_cons.1 hy with rfl | hy
        · exact le_refl _
        · exact (h2 y hy).trans h⟩
    · exact ⟨x, List.mem_cons_of_mem _ h1, by
        intro y hy; rcases List.mem_cons.1 hy with rfl | hy
        · exact h
        · exact h2 y hy⟩

/-! ## The claims -/

/-- C119: while the sampled balances are positive (and neither tiny nor huge), the assertion in
`kelly_leverage` holds, however the sums are rounded, and none of the three figures is NaN. -/
theorem C119_numbers (e : Env) (log : List Event) (ln sqrt : F32 → F32) (toF64 : Int → ℚ)
    (hc : Converts e toF64) (hl : LogSign ln) (hb : LogBounded ln) (hq : RootSign sqrt)
    (hs : ∀ b ∈ sampledSums log, Sane e b) (hn : (sampledSums log).length ≤ 2 ^ 64) :
    let r := Returns32.replay ln toF64 log
    (∃ k, r.kelly = some k ∧ k ≠ .nan) ∧
    (∀ q, r.sharpe sqrt = some q → q ≠ .nan) ∧ (∀ q, r.sortino sqrt = some q → q ≠ .nan) := by
  intro r
  obtain ⟨⟨k, h1, h2⟩, h3, h4⟩ := figures hc hl hb hq hs hn
  exact ⟨⟨k, h1, h2.1⟩, fun q h => (h3 q h).1, fun q h => (h4 q h).1⟩

/-- C119: if the balance never fell from one sample to the next, no figure is negative; if it never
rose, none is positive. -/
theorem C119_sign (e : Env) (log : List Event) (ln sqrt : F32 → F32) (toF64 : Int → ℚ)
    (hc : Converts e toF64) (hl : LogSign ln) (hb : LogBounded ln) (hq : RootSign sqrt)
    (hs : ∀ b ∈ sampledSums log, Sane e b) (hn : (sampledSums log).length ≤ 2 ^ 64) :
    let r := Returns32.replay ln toF64 log
    ((∀ x ∈ changes (sampledSums log), x.1 ≤ x.2) →
      (∀ q, r.sharpe sqrt = some q → NotBelow0 q) ∧ (∀ q, r.sortino sqrt = some q → NotBelow0 q) ∧
      ∀ k, r.kelly = some k → NotBelow0 k) ∧
    ((∀ x ∈ changes (sampledSums log), x.2 ≤ x.1) →
      (∀ q, r.sharpe sqrt = some q → NotAbove0 q) ∧ (∀ q, r.sortino sqrt = some q → NotAbove0 q) ∧
      ∀ k, r.kelly = some k → NotAbove0 k) := by
  intro r
  obtain ⟨⟨k, h1, h2⟩, h3, h4⟩ := figures hc hl hb hq hs hn
  have hk : ∀ k', r.kelly = some k' → k' = k := by
    intro k' h
    have h1' : r.kelly = some k := h1
    rw [h1'] at h
    exact (Option.some.inj h).symm
  exact ⟨fun h => ⟨fun q hq => (h3 q hq).2.1 h, fun q hq => (h4 q hq).2.1 h,
      fun k' hk' => by rw [hk k' hk']; exact h2.2.1 h⟩,
    fun h => ⟨fun q hq => (h3 q hq).2.2 h, fun q hq => (h4 q hq).2.2 h,
      fun k' hk' => by rw [hk k' hk']; exact h2.2.2 h⟩⟩

/-- C119: the mean return is never outside the range of the returns, and returns that are all the
same have no variance: no rounding makes up fluctuations. -/
theorem C119_mean (vs : List ℚ) (h : ∀ v ∈ vs, IsSingle v ∧ |v| ≤ 128) (hl : vs.length ≤ 2 ^ 64) :
    ∃ m v, (Welford32.ofList (vs.map .finite)).mean = .finite m ∧
      (Welford32.ofList (vs.map .finite)).variance = .finite v ∧ 0 ≤ v ∧
      (vs ≠ [] → (∃ x ∈ vs, x ≤ m) ∧ ∃ x ∈ vs, m ≤ x) ∧
      (∀ x, (∀ y ∈ vs, y = x) → v = 0) := by
  obtain ⟨m, s, f1, f2, f3, f4, f5, f6, f7, f8⟩ := welford32 vs (fun v hv => by
    obtain ⟨a, b⟩ := h v hv; exact ⟨a, by linarith⟩) hl
  obtain ⟨v, v1, v2, v3⟩ := variance_number (.finite m) hl f4 f5
  refine ⟨m, v, by rw [f1], by rw [f1]; exact v1, v2, fun hv => ⟨?_, ?_⟩, fun x hx => v3 (f8 x hx)⟩
  · by_contra hn
    push Not at hn
    obtain ⟨x, hx, hle⟩ := least_of vs hv
    have := (f7 hv x (2 ^ 7) (fun y hy => ⟨hle y hy, by
      have := (abs_le.1 (h y hy).2).2; linarith⟩)).1
    exact absurd (hn x hx) (not_lt.2 this)
  · by_contra hn
    push Not at hn
    obtain ⟨x, hx, hle⟩ := greatest_of vs hv
    have := (f7 hv (-2 ^ 7) x (fun y hy => ⟨by
      have := (abs_le.1 (h y hy).2).1; linarith, hle y hy⟩)).2
    exact absurd (hn x hx) (not_lt.2 this)

/-- C119: while the balance does not change, `sharpe` and `sortino` are undefined and
`kelly_leverage` is zero. -/
theorem C119_steady (e : Env) (log : List Event) (ln sqrt : F32 → F32) (toF64 : Int → ℚ)
    (hc : Converts e toF64) (hl : LogSign ln) (hb : LogBounded ln) (hq : RootSign sqrt)
    (hs : ∀ b ∈ sampledSums log, Sane e b) (hn : (sampledSums log).length ≤ 2 ^ 64)
    (h : ∀ x ∈ changes (sampledSums log), x.1 = x.2) :
    let r := Returns32.replay ln toF64 log
    r.sharpe sqrt = none ∧ r.sortino sqrt = none ∧ r.kelly = some (.finite 0) := by
  intro r
  obtain ⟨vs, e1, e2, e3, e4, e5⟩ := returns_numbers hc hl hb hs
  have hz : ∀ v ∈ vs, v = 0 := fun v hv =>
    le_antisymm (e5 (fun x hx => (h x hx).symm.le) v hv) (e4 (fun x hx => (h x hx).le) v hv)
  have hr : r.all = vs.map .finite := e1
  have hneg : r.neg = [] := by
    obtain ⟨_, _, h3⟩ := replay32 (ln := ln) (toF64 := toF64) log
    show (Returns32.replay ln toF64 log).neg = _
    rw [h3, e1, List.filter_eq_nil_iff]
    intro x hx
    obtain ⟨v, hv, rfl⟩ := List.mem_map.1 hx
    simp [F32.below0, hz v hv]
  obtain ⟨m, s, f1, f2, f3, f4, f5, f6, f7, f8⟩ := welford32 vs e2 (e3.trans hn)
  obtain ⟨v, v1, v2, v3⟩ := variance_number (.finite m) (e3.trans hn) f4 f5
  have hv : v = 0 := v3 (f8 0 hz)
  subst hv
  refine ⟨?_, ?_, ?_⟩
  · simp only [Returns32.sharpe, hr, f1, Welford32.last, v1]
    obtain ⟨y, y1, y2, y3⟩ := hq 0 (le_refl _)
    have hy := y3.2 rfl
    subst hy
    by_cases hl : vs.length = 0
    · simp [hl]
    · simp [hl, y1, F32.is0]
  · simp [Returns32.sortino, hneg, Welford32.ofList, Welford32.empty, Welford32.last]
  · simp [Returns32.kelly, hr, f1, v1, F32.atLeast0, F32.is0]

theorem nan_stays (xs : List F32) (x : F32) (h : (Welford32.ofList xs).s = .nan) :
    ((Welford32.ofList xs).update x).s = .nan := by
  simp only [Welford32.update, h]
  generalize (x.sub _).mul _ = y
  cases y <;> rfl

theorem count_positive (n : ℕ) :
    (∃ k, F32.of ((n + 1 : ℕ) : ℚ) = .finite k ∧ 0 < k) ∨ F32.of ((n + 1 : ℕ) : ℚ) = .inf false := by
  unfold F32.of
  split
  · right
    rw [decide_eq_false]
    rw [not_lt]; positivity
  · left
    have k1 : 1 ≤ roundF32 ((n + 1 : ℕ) : ℚ) := roundF32_one_le (by
      have : 1 ≤ n + 1 := by omega
      exact_mod_cast this)
    exact ⟨_, rfl, by linarith⟩

theorem nan_comes (w : Welford32) (x : F32) (hx : ∀ v, x ≠ .finite v) : (w.update x).s = .nan := by
  simp only [Welford32.update]
  suffices h : ((x.sub w.mean).mul
      (x.sub (w.mean.add ((x.sub w.mean).div (.of ((w.n + 1 : ℕ) : ℚ)))))) = .nan by
    rw [h]; cases w.s <;> rfl
  generalize w.mean = m
  cases x with
  | finite v => exact absurd rfl (hx v)
  | nan => cases m <;> rfl
  | inf a =>
    rcases count_positive w.n with ⟨k, hk, k0⟩ | hk
    · rw [hk]
      cases m with
      | finite m =>
        simp [F32.sub, F32.neg, F32.add, F32.div, F32.mul, not_lt.2 k0.le]
      | nan => rfl
      | inf b => cases a <;> cases b <;> simp [F32.sub, F32.neg, F32.add, F32.div, F32.mul, not_lt.2 k0.le]
    · rw [hk]
      cases m with
      | finite m => simp [F32.sub, F32.neg, F32.add, F32.div, F32.mul]
      | nan => rfl
      | inf b => cases a <;> cases b <;> simp [F32.sub, F32.neg, F32.add, F32.div, F32.mul]

/-- C119, what happens without positive balances: after one return that is not a number the assertion
in `kelly_leverage` fails, and `sharpe` is NaN, for good. -/
theorem C119_spoilt (r : Returns32) (sqrt : F32 → F32) (hq : sqrt .nan = .nan)
    (x : F32) (hx : x ∈ r.all) (hf : ∀ v, x ≠ .finite v) :
    r.kelly = none ∧ r.sharpe sqrt = some .nan := by
  have key : ∀ xs : List F32, x ∈ xs → (Welford32.ofList xs).s = .nan ∧ (Welford32.ofList xs).n ≠ 0 := by
    intro xs
    induction xs with
    | nil => intro h; cases h
    | cons y xs ih =>
      intro h
      refine ⟨?_, Nat.succ_ne_zero _⟩
      rcases List.mem_cons.1 h with rfl | h
      · exact nan_comes _ _ hf
      · exact nan_stays xs y (ih h).1
  obtain ⟨h1, h2⟩ := key r.all hx
  have hv : (Welford32.ofList r.all).variance = .nan := by
    unfold Welford32.variance
    rw [if_neg h2, h1]
    cases F32.of ((Welford32.ofList r.all).n : ℚ) <;> rfl
  refine ⟨by simp [Returns32.kelly, hv, F32.atLeast0], ?_⟩
  simp only [Returns32.sharpe, Welford32.last, if_neg h2, hv, hq, F32.is0]
  cases (Welford32.ofList r.all).mean <;> rfl

/-- Leverage ten, and a loss that takes exactly everything. -/
def Ex.ruin : Cfg :=
  { Ex.lin with start := 360864000, spec := { Ex.lin.spec with initMarginReq := 10000 } }

/-- C119, this happens: an account that has lost exactly everything is sampled, and from then on
`kelly_leverage` panics, for every logarithm with `ln 0 = -∞`. -/
theorem C119_ruin : ∃ s, Reachable Ex.ruin s ∧ sampledSums s.log = [360864000, 0] ∧
    ∀ ln, ln (.finite 0) = .inf true →
      (Returns32.replay ln (fun a => roundF64 ((a : ℚ) / Ex.ruin.env.scale)) s.log).kelly = none := by
  have h : Ex.after Ex.ruin [.update (.bba ⟨Ex.d 99, Ex.d 100, 1⟩), .market .buy (Ex.d 90) 0,
      .update (.bba ⟨Ex.d 60, Ex.d 61, 2⟩), .market .sell (Ex.d 90) 0,
      .update (.bba ⟨Ex.d 60, Ex.d 61, 3601000000000⟩)]
      (fun s => decide (sampledSums s.log = [360864000, 0])) = true := by decide +kernel
  obtain ⟨s, h1, h2⟩ := Ex.after_reach h
  simp only [decide_eq_true_eq] at h2
  refine ⟨s, h1, h2, fun ln hln => ?_⟩
  obtain ⟨_, hall, _⟩ := replay32 (ln := ln)
    (toF64 := fun a => roundF64 ((a : ℚ) / Ex.ruin.env.scale)) s.log
  rw [h2] at hall
  have e0 : (F32.of (roundF64 (((0 : ℤ) : ℚ) / Ex.ruin.env.scale))).div
      (F32.of (roundF64 (((360864000 : ℤ) : ℚ) / Ex.ruin.env.scale))) = .finite 0 := by
    decide +kernel
  simp only [changes, List.map_cons, List.map_nil, e0, hln] at hall
  refine (C119_spoilt _ id rfl (.inf true) ?_ (by intro v; simp)).1
  rw [← List.mem_reverse, hall]
  exact List.mem_cons_self

/-- C119, what does not hold: the sign of the mean, and so of all three figures, need not be that of
the sum of the returns. Here the sum is `-17 / 2^30`, and the mean seen is `1 / 2^27`. -/
theorem C119_wrong_sign : ∃ vs : List ℚ, (∀ v ∈ vs, roundF32 v = v ∧ |v| ≤ 1) ∧ vs.sum < 0 ∧
    ∃ m, (Welford32.ofList (vs.map .finite)).mean = .finite m ∧ 0 < m :=
  ⟨[11 / 64, 25 / 32, -17 / 2 ^ 30, -61 / 64], by decide +kernel, by decide +kernel, 1 / 2 ^ 27,
    by decide +kernel, by norm_num⟩

/-- The sign of the logarithm. -/
def Ex.lnSign : F32 → F32
  | .finite x => .finite (if x < 1 then -1 else if 1 < x then 1 else 0)
  | x => x

theorem Ex.lnSign_sign : LogSign Ex.lnSign := fun x _ => by
  refine ⟨_, rfl, ?_, ?_⟩
  · split
    · simp [*]
    · split <;> simp [*]
  · split
    · next h => simp only [not_lt.2 h.le, iff_false]; norm_num
    · split <;> simp [*]

theorem Ex.lnSign_bounded : LogBounded Ex.lnSign := fun x _ _ => by
  refine ⟨_, rfl, ?_, ?_⟩
  · split
    · exact IsSingle.neg isSingle_one
    · split
      · exact isSingle_one
      · exact isSingle_zero
  · split
    · norm_num
    · split <;> norm_num

theorem Ex.id_root : RootSign id := fun x hx => ⟨x, rfl, hx, Iff.rfl⟩

/-- Non-vacuity of C119_numbers and C119_sign: a history with four samples and two losses, for which
all three figures are defined or not as the losses say. -/
example : ∃ s, Reachable Ex.lin s ∧ sampledSums s.log = [100000000, 100000000, 99887940, 99775880] ∧
    (∀ b ∈ sampledSums s.log, Sane Ex.lin.env b) ∧ (sampledSums s.log).length ≤ 2 ^ 64 ∧
    Converts Ex.lin.env (fun a => roundF64 ((a : ℚ) / Ex.lin.env.scale)) ∧
    (∀ x ∈ changes (sampledSums s.log), x.2 ≤ x.1) ∧
    ∃ q k, (Returns32.replay Ex.lnSign (fun a => roundF64 ((a : ℚ) / Ex.lin.env.scale)) s.log).sharpe id
        = some (.finite q) ∧ q < 0 ∧
      (Returns32.replay Ex.lnSign (fun a => roundF64 ((a : ℚ) / Ex.lin.env.scale)) s.log).kelly
        = some (.finite k) ∧ k < 0 := by
  have h : Ex.after Ex.lin Ex.spend (fun s => decide (sampledSums s.log
      = [100000000, 100000000, 99887940, 99775880])) = true := by decide +kernel
  have hsc : (Ex.lin.env.scale : ℚ) = 100000 := by
    have : Ex.lin.env.scale = 100000 := by decide +kernel
    rw [this]; norm_num
  obtain ⟨s, h1, h2⟩ := Ex.after_reach h
  simp only [decide_eq_true_eq] at h2
  obtain ⟨_, hall, _⟩ := replay32 (ln := Ex.lnSign)
    (toF64 := fun a => roundF64 ((a : ℚ) / Ex.lin.env.scale)) s.log
  rw [h2] at hall
  refine ⟨s, h1, h2, ?_, by rw [h2]; decide, converts_nearest _ ?_, by rw [h2]; decide, ?_⟩
  · rw [h2]
    intro b hb
    simp only [List.mem_cons, List.not_mem_nil, or_false] at hb
    rcases hb with rfl | rfl | rfl | rfl <;> constructor <;> rw [hsc] <;> norm_num
  · rw [hsc]
    exact le_trans (show (100000 : ℚ) ≤ 2 ^ 17 by norm_num)
      (pow_le_pow_right₀ (by norm_num) (by norm_num))
  · have e : (Returns32.replay Ex.lnSign (fun a => roundF64 ((a : ℚ) / Ex.lin.env.scale)) s.log).all
        = [.finite (-1), .finite (-1), .finite 0] := by
      rw [← List.reverse_reverse (Returns32.replay _ _ _).all, hall]
      decide +kernel
    simp only [Returns32.sharpe, Returns32.kelly, e]
    exact ⟨-12582913 / 4194304, -12582913 / 4194304, by decide +kernel, by decide +kernel, by decide +kernel, by decide +kernel⟩

/-- Non-vacuity of C119_mean. -/
example : (∀ v ∈ [1 / 2, -1 / 4, (3 : ℚ)], IsSingle v ∧ |v| ≤ 128) := by
  intro v hv
  simp only [List.mem_cons, List.not_mem_nil, or_false] at hv
  rcases hv with rfl | rfl | rfl
  · exact ⟨⟨1, -1, by norm_num, by norm_num, by norm_num⟩, by norm_num⟩
  · exact ⟨⟨-1, -2, by norm_num, by norm_num, by norm_num⟩, by norm_num⟩
  · exact ⟨⟨3, 0, by norm_num, by norm_num, by norm_num⟩, by norm_num⟩

end Lfest
