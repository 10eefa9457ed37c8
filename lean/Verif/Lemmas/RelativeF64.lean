import Verif.Lemmas.VarianceF64

/-!
# Relative errors without underflow

Numbers `x` and `y` with `Near k x y` differ by the factor of at most `k` roundings.
-/

namespace Lfest
open Spec

/-- `x` and `y` differ by a factor between `(1 - ulp)^k` and its inverse. -/
def Near (k : ℕ) (x y : ℚ) : Prop := y * (1 - ulp) ^ k ≤ x ∧ x * (1 - ulp) ^ k ≤ y

theorem q_pos : 0 < 1 - ulp := by unfold ulp; norm_num

theorem q_le : 1 - ulp ≤ 1 := by linarith [ulp_pos]

theorem qk_pos (k : ℕ) : 0 < (1 - ulp) ^ k := pow_pos q_pos k

theorem qk_le (k : ℕ) : (1 - ulp) ^ k ≤ 1 := pow_le_one₀ q_pos.le q_le

theorem near_refl (x : ℚ) : Near 0 x x := by simp [Near]

theorem near_symm {k : ℕ} {x y : ℚ} (h : Near k x y) : Near k y x := ⟨h.2, h.1⟩

theorem near_trans {j k : ℕ} {x y z : ℚ} (h : Near j x y) (h' : Near k y z) : Near (j + k) x z := by
  constructor
  · rw [add_comm, pow_add, ← mul_assoc]
    exact le_trans (mul_le_mul_of_nonneg_right h'.1 (qk_pos j).le) h.1
  · rw [pow_add, ← mul_assoc]
    exact le_trans (mul_le_mul_of_nonneg_right h.2 (qk_pos k).le) h'.2

theorem near_weaken {j k : ℕ} {x y : ℚ} (h : Near j x y) (hjk : j ≤ k) (hx : 0 ≤ x) (hy : 0 ≤ y) :
    Near k x y := by
  have : (1 - ulp) ^ k ≤ (1 - ulp) ^ j := pow_le_pow_of_le_one q_pos.le q_le hjk
  exact ⟨le_trans (mul_le_mul_of_nonneg_left this hy) h.1,
    le_trans (mul_le_mul_of_nonneg_left this hx) h.2⟩

theorem near_add {k : ℕ} {x y x' y' : ℚ} (h : Near k x y) (h' : Near k x' y') :
    Near k (x + x') (y + y') :=
  ⟨by rw [add_mul]; exact add_le_add h.1 h'.1, by rw [add_mul]; exact add_le_add h.2 h'.2⟩

theorem near_mul {j k : ℕ} {x y x' y' : ℚ} (h : Near j x y) (h' : Near k x' y')
    (hx : 0 ≤ x) (hy : 0 ≤ y) (hx' : 0 ≤ x') (hy' : 0 ≤ y') : Near (j + k) (x * x') (y * y') := by
  constructor
  · calc y * y' * (1 - ulp) ^ (j + k) = (y * (1 - ulp) ^ j) * (y' * (1 - ulp) ^ k) := by
          rw [pow_add]; ring
      _ ≤ x * x' := mul_le_mul h.1 h'.1 (mul_nonneg hy' (qk_pos k).le) hx
  · calc x * x' * (1 - ulp) ^ (j + k) = (x * (1 - ulp) ^ j) * (x' * (1 - ulp) ^ k) := by
          rw [pow_add]; ring
      _ ≤ y * y' := mul_le_mul h.2 h'.2 (mul_nonneg hx' (qk_pos k).le) hy

theorem near_inv {k : ℕ} {x y : ℚ} (h : Near k x y) (hx : 0 < x) (hy : 0 < y) : Near k x⁻¹ y⁻¹ := by
  constructor
  · rw [inv_mul_le_iff₀ hy, ← div_eq_mul_inv, le_div_iff₀ hx, mul_comm]
    exact h.2
  · rw [inv_mul_le_iff₀ hx, ← div_eq_mul_inv, le_div_iff₀ hy, mul_comm]
    exact h.1

theorem near_div {j k : ℕ} {x y x' y' : ℚ} (h : Near j x y) (h' : Near k x' y')
    (hx : 0 ≤ x) (hy : 0 ≤ y) (hx' : 0 < x') (hy' : 0 < y') : Near (j + k) (x / x') (y / y') := by
  rw [div_eq_mul_inv, div_eq_mul_inv]
  exact near_mul h (near_inv h' hx' hy') hx hy (inv_pos.2 hx').le (inv_pos.2 hy').le

theorem near_pos {k : ℕ} {x y : ℚ} (h : Near k x y) (hx : 0 < x) : 0 < y :=
  lt_of_lt_of_le (mul_pos hx (qk_pos k)) h.2

theorem qk_ge (k : ℕ) : 1 - k / 2 ^ 53 ≤ (1 - ulp) ^ k := by
  have h : 1 + (k : ℚ) * (-ulp) ≤ (1 + -ulp) ^ k :=
    one_add_mul_le_pow (by unfold ulp; norm_num) k
  have e : 1 + (k : ℚ) * (-ulp) = 1 - k / 2 ^ 53 := by unfold ulp; ring
  rw [e, ← sub_eq_add_neg] at h
  exact h

theorem qk_half {k : ℕ} (hk : k ≤ 2 ^ 52) : 1 / 2 ≤ (1 - ulp) ^ k := by
  refine le_trans ?_ (qk_ge k)
  have : (k : ℚ) ≤ 2 ^ 52 := by exact_mod_cast hk
  have : (k : ℚ) / 2 ^ 53 ≤ 1 / 2 := by
    rw [div_le_iff₀ (by norm_num)]; norm_num at this ⊢; linarith
  linarith

theorem near_two {k : ℕ} {x y : ℚ} (h : Near k x y) (hk : k ≤ 2 ^ 52) (hx : 0 ≤ x) : x ≤ 2 * y := by
  have := mul_le_mul_of_nonneg_left (qk_half hk) hx
  have := h.2
  linarith

/-- The relative error as a number. -/
theorem near_error {k : ℕ} {x y : ℚ} (h : Near k x y) (hk : k ≤ 2 ^ 52) (hx : 0 ≤ x) (hy : 0 ≤ y) :
    |x - y| ≤ k / 2 ^ 52 * y := by
  have h1 := qk_ge k
  have h2 := near_two h hk hx
  have k0 : (0 : ℚ) ≤ k := Nat.cast_nonneg k
  have e : (k : ℚ) / 2 ^ 52 = 2 * (k / 2 ^ 53) := by ring
  rw [e]
  set t : ℚ := k / 2 ^ 53 with ht
  have t0 : 0 ≤ t := by rw [ht]; positivity
  have a := mul_le_mul_of_nonneg_left h1 hx
  have b := mul_le_mul_of_nonneg_left h1 hy
  have c := mul_le_mul_of_nonneg_left h2 t0
  have d := mul_nonneg t0 hy
  have := h.1
  have := h.2
  rw [abs_le]
  constructor <;> nlinarith

/-- Zero, or at least `2^e`. -/
def Low (e : ℤ) (x : ℚ) : Prop := x = 0 ∨ 2 ^ e ≤ x

theorem low_weaken {e f : ℤ} {x : ℚ} (h : Low e x) (hf : f ≤ e) : Low f x := by
  rcases h with h | h
  · exact .inl h
  · exact .inr (le_trans (zpow_le_zpow_right₀ (by norm_num) hf) h)

theorem low_mul {e f : ℤ} {x y : ℚ} (h : Low e x) (h' : Low f y) : Low (e + f) (x * y) := by
  rcases h with h | h
  · exact .inl (by rw [h, zero_mul])
  rcases h' with h' | h'
  · exact .inl (by rw [h', mul_zero])
  · refine .inr ?_
    rw [zpow_add₀ (by norm_num)]
    exact mul_le_mul h h' (by positivity) (le_trans (by positivity) h)

theorem low_nonneg {e : ℤ} {x : ℚ} (h : Low e x) : 0 ≤ x := by
  rcases h with h | h
  · rw [h]
  · exact le_trans (by positivity) h

theorem low_add {e : ℤ} {x y : ℚ} (h : Low e x) (h' : Low e y) : Low e (x + y) := by
  have h0 := low_nonneg h
  have h1 := low_nonneg h'
  rcases h with h | h
  · rw [h, zero_add]; exact h'
  · exact .inr (by linarith)

theorem low_div {e : ℤ} {x : ℚ} (h : Low e x) {n : ℕ} (hn : 0 < n) (hn2 : n < 2 ^ 50) :
    Low (e - 50) (x / n) := by
  have hn' : (0 : ℚ) < n := by exact_mod_cast hn
  rcases h with h | h
  · exact .inl (by rw [h, zero_div])
  · refine .inr ?_
    rw [le_div_iff₀ hn']
    refine le_trans ?_ h
    rw [zpow_sub₀ (by norm_num), div_mul_eq_mul_div, div_le_iff₀ (by positivity)]
    apply mul_le_mul_of_nonneg_left _ (by positivity)
    exact_mod_cast hn2.le

theorem isDouble_zpow {e : ℤ} (he : -1074 ≤ e) : IsDouble (2 ^ e) := ⟨1, e, by norm_num, he, by simp⟩

theorem low_round {e : ℤ} {x : ℚ} (h : Low e x) (he : -1074 ≤ e) : Low e (roundF64 x) := by
  rcases h with h | h
  · exact .inl (by rw [h, roundF64_zero])
  · have := roundF64_mono h
    rw [roundF64_of_isDouble (isDouble_zpow he)] at this
    exact .inr this

theorem near_round {x : ℚ} (h : Low (-1022) x) : Near 1 (roundF64 x) x := by
  have h0 := low_nonneg h
  rcases h with h | h
  · rw [h, roundF64_zero]; simp [Near]
  · have h1 := roundF64_rel (x := x) (by rw [abs_of_nonneg h0]; exact h)
    rw [abs_of_nonneg h0, abs_le] at h1
    have e : x / 2 ^ 53 = ulp * x := by unfold ulp; ring
    rw [e] at h1
    have hu := ulp_pos
    constructor
    · rw [pow_one]; linarith [h1.1]
    · rw [pow_one]
      have : roundF64 x ≤ x * (1 + ulp) := by linarith [h1.2]
      have := mul_le_mul_of_nonneg_right this q_pos.le
      have : x * (1 + ulp) * (1 - ulp) ≤ x := by
        have : 0 ≤ x * ulp ^ 2 := by positivity
        nlinarith
      linarith

/-- A computed number `x` that stands for `y`: at most `k` roundings, at least `2^lo` if not zero,
at most `2^up`. -/
structure Fl (k : ℕ) (lo : ℤ) (up : ℕ) (x y : ℚ) : Prop where
  near : Near k x y
  low : Low lo x
  up : x ≤ 2 ^ up
  exact : 0 ≤ y

theorem Fl.nonneg {k : ℕ} {lo : ℤ} {up : ℕ} {x y : ℚ} (h : Fl k lo up x y) : 0 ≤ x :=
  low_nonneg h.low

theorem fl_round {k : ℕ} {lo : ℤ} {up : ℕ} {x y : ℚ} (h : Fl k lo up x y) (hlo : -1022 ≤ lo)
    (hup : up ≤ 1000) : F64.of x = .finite (roundF64 x) ∧ Fl (k + 1) lo up (roundF64 x) y := by
  have hx : |x| ≤ 2 ^ up := by rw [abs_of_nonneg h.nonneg]; exact h.up
  refine ⟨of_finite (le_trans hx (pow_le_pow_right₀ (by norm_num) hup)), ?_, ?_, ?_, h.exact⟩
  · rw [add_comm]
    exact near_trans (near_round (low_weaken h.low hlo)) h.near
  · exact low_round h.low (by omega)
  · exact le_trans (le_abs_self _) (round_abs_le hx)

theorem fl_mul {j k : ℕ} {lo lo' : ℤ} {up up' : ℕ} {x y x' y' : ℚ} (h : Fl j lo up x y)
    (h' : Fl k lo' up' x' y') : Fl (j + k) (lo + lo') (up + up') (x * x') (y * y') :=
  ⟨near_mul h.near h'.near h.nonneg h.exact h'.nonneg h'.exact, low_mul h.low h'.low,
    pow_mul_le h.up h'.up h'.nonneg le_rfl, mul_nonneg h.exact h'.exact⟩

theorem fl_count {k : ℕ} {lo : ℤ} {up n : ℕ} {x y : ℚ} (h : Fl k lo up x y) (hn : 0 < n)
    (hn2 : n < 2 ^ 50) : Fl k (lo - 50) up (x / n) (y / n) := by
  have hn' : (0 : ℚ) < n := by exact_mod_cast hn
  have hn1 : (1 : ℚ) ≤ n := by exact_mod_cast hn
  refine ⟨?_, low_div h.low hn hn2, le_trans (div_le_self h.nonneg hn1) h.up,
    div_nonneg h.exact hn'.le⟩
  have := near_div h.near (near_refl _) h.nonneg h.exact hn' hn'
  rwa [add_zero] at this

theorem fl_sum {α : Type} {f g : α → ℚ} {k : ℕ} {lo : ℤ} {up : ℕ} (hlo : -1022 ≤ lo)
    (hup : up ≤ 900) (ws : List α) (hn : ws.length < 2 ^ 50)
    (h : ∀ w ∈ ws, Fl k lo up (f w) (g w)) :
    ∃ s, F64.sum ((ws.map f).map .finite) = .finite s ∧
      Fl (k + ws.length) lo (up + 52) s (ws.map g).sum := by
  have key : ∀ ws : List α, ws.length < 2 ^ 50 → (∀ w ∈ ws, Fl k lo up (f w) (g w)) →
      ∃ s, F64.sum ((ws.map f).map .finite) = .finite s ∧
        Near (k + ws.length) s (ws.map g).sum ∧ Near ws.length s (ws.map f).sum ∧ Low lo s ∧
        0 ≤ (ws.map g).sum := by
    intro ws
    induction ws using List.reverseRecOn with
    | nil =>
      intro _ _
      exact ⟨0, rfl, by simp [Near], by simp [Near], .inl rfl, by simp⟩
    | append_singleton ws w ih =>
      intro hn h
      simp only [List.map_append, List.map_cons, List.map_nil, List.sum_append, List.sum_cons,
        List.sum_nil, add_zero, List.length_append, List.length_cons, List.length_nil, zero_add]
        at hn ⊢
      obtain ⟨s, h1, h2, h3, h4, h5⟩ := ih (by omega) (fun x hx => h x (by simp [hx]))
      have hw := h w (by simp)
      have hF0 : 0 ≤ (ws.map f).sum :=
        sum_map_nonneg ws (fun v hv => (h v (by simp [hv])).nonneg)
      have hs0 := low_nonneg h4
      have hlow : Low lo (s + f w) := low_add h4 hw.low
      have hr := near_round (low_weaken hlow hlo)
      have hn1 : Near (ws.length) (s + f w) ((ws.map f).sum + f w) :=
        near_add h3 (near_weaken (near_refl _) (Nat.zero_le _) hw.nonneg hw.nonneg)
      have hn2 : Near (k + ws.length) (s + f w) ((ws.map g).sum + g w) :=
        near_add h2 (near_weaken hw.near (by omega) hw.nonneg hw.exact)
      have hbig : s + f w ≤ 2 ^ 1000 := by
        have a := near_two hn1 (by
          have : (2 : ℕ) ^ 50 ≤ 2 ^ 52 := by norm_num
          omega) (low_nonneg hlow)
        have b : (ws.map f).sum ≤ ws.length * 2 ^ up :=
          sum_le_count ws (fun v hv => (h v (by simp [hv])).up)
        have c : (ws.map f).sum + f w ≤ (ws.length + 1) * 2 ^ up := by
          have := hw.up; linarith
        have d : ((ws.length : ℚ) + 1) * 2 ^ up ≤ 2 ^ (950) := by
          apply pow_mul_le (a := 50) (b := 900) _ _ (by positivity) (by norm_num)
          · have : ((ws.length + 1 : ℕ) : ℚ) ≤ 2 ^ 50 := by exact_mod_cast hn.le
            push_cast at this; exact this
          · exact pow_le_pow_right₀ (by norm_num) hup
        have e : (2 : ℚ) * 2 ^ 950 ≤ 2 ^ 1000 := by
          rw [← pow_succ']; exact pow_le_pow_right₀ (by norm_num) (by norm_num)
        generalize (2 : ℚ) ^ 950 = A at *
        generalize (2 : ℚ) ^ 1000 = B at *
        linarith
      refine ⟨roundF64 (s + f w), ?_, ?_, ?_, low_round hlow (by omega), add_nonneg h5 hw.exact⟩
      · rw [sumF_append, h1]
        exact of_finite (by rw [abs_of_nonneg (low_nonneg hlow)]; exact hbig)
      · have := near_trans hr hn2
        rwa [show 1 + (k + ws.length) = k + (ws.length + 1) by omega] at this
      · have := near_trans hr hn1
        rwa [show 1 + ws.length = ws.length + 1 by omega] at this
  obtain ⟨s, h1, h2, h3, h4, h5⟩ := key ws hn h
  refine ⟨s, h1, h2, h4, ?_, h5⟩
  have hF0 : 0 ≤ (ws.map f).sum := sum_map_nonneg ws (fun v hv => (h v hv).nonneg)
  have a := near_two h3 (le_trans hn.le (by norm_num)) (low_nonneg h4)
  have b : (ws.map f).sum ≤ ws.length * 2 ^ up := sum_le_count ws (fun v hv => (h v hv).up)
  have c : (ws.length : ℚ) * 2 ^ up ≤ 2 ^ (50 + up) :=
    pow_mul_le (count_cast hn) le_rfl (by positivity) le_rfl
  have d : (2 : ℚ) * 2 ^ (50 + up) ≤ 2 ^ (up + 52) := by
    rw [← pow_succ']; exact pow_le_pow_right₀ (by norm_num) (by omega)
  linarith

end Lfest
