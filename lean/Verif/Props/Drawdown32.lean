import Verif.Lemmas.Drawdown32
import Verif.Props.Sample32

/-!
# C121: drawdowns in single precision
-/

namespace Lfest
open Spec

theorem last_map {f : Int → ℚ} {xs : List Int} (h : xs ≠ []) :
    (xs.map f).getLast?.getD 0 = f (xs.getLast?.getD 0) := by
  rw [List.getLast?_map, List.getLast?_eq_getLast_of_ne_nil h]; simp

/-- One fall of a series of amounts. -/
theorem fall32_of {e : Env} {toF64 : Int → ℚ} (hc : Converts e toF64) {xs : List Int} (hne : xs ≠ [])
    (hs : ∀ x ∈ xs, Sane e x) :
    ∃ v, fallsBy (xs.map (fun a => roundF32 (toF64 a))) v ∧ 0 ≤ v ∧ v ≤ 1 ∧
      (neverFalls xs → v = 0) ∧
      ((∀ a ∈ xs, ∀ b ∈ xs, roundF32 (toF64 a) = roundF32 (toF64 b)) → v = 0) ∧
      |v - fallFromPeak (scaled e.scale xs)| ≤ 1 / 2 ^ 21 := by
  have hS : (0 : ℚ) < e.scale := by exact_mod_cast scale_pos e
  have hm := maxOf_mem hne
  have hl : xs.getLast?.getD 0 ∈ xs := by
    rw [List.getLast?_eq_getLast_of_ne_nil hne]; exact List.getLast_mem hne
  obtain ⟨v, h1, h2, h3, h4, h5⟩ := fall_error hc (hs _ hm) (hs _ hl) (le_maxOf hl)
  have g1 : Monotone (fun a => roundF32 (toF64 a)) := fun a b hab => roundF32_mono (hc.1 _ _ hab)
  have g2 : Monotone (fun x : Int => (x : ℚ) / (e.scale : ℚ)) := fun a b hab =>
    div_le_div_of_nonneg_right (by exact_mod_cast hab) hS.le
  refine ⟨v, ?_, h2, h3, fun hn => h4 ?_, fun hh => h4 (hh _ hl _ hm), ?_⟩
  · rw [fallsBy, fall32, peak_map g1 hne, last_map hne]; exact h1
  · have : xs.getLast?.getD 0 = maxOf xs := le_antisymm (le_maxOf hl) (neverFalls_last hn _ hm)
    rw [this]
  · rw [fallFromPeak, scaled, peak_map g2 hne, last_map hne]; exact h5

theorem take_ne {xs : List Int} {n : ℕ} (hn : n < xs.length) : xs.take (n + 1) ≠ [] := by
  cases xs with
  | nil => simp at hn
  | cons x xs => simp

/-- The drawdown of a series of amounts. -/
theorem drawdown32 {e : Env} {toF64 : Int → ℚ} (hc : Converts e toF64) {D : List F32 → Option F32}
    (hD : IsDrawdown32 D) {xs : List Int} (hs : ∀ x ∈ xs, Sane e x) :
    ∃ d, (D (xs.map (fun a => F32.of (toF64 a)))).getD (.finite 0) = .finite d ∧ 0 ≤ d ∧ d ≤ 1 ∧
      (neverFalls xs → d = 0) ∧
      ((∀ a ∈ xs, ∀ b ∈ xs, roundF32 (toF64 a) = roundF32 (toF64 b)) → d = 0) ∧
      fallFromPeak (scaled e.scale xs) - 1 / 2 ^ 21 ≤ d ∧
      d ≤ deepestFall (scaled e.scale xs) + 1 / 2 ^ 21 := by
  by_cases hne : xs = []
  · subst hne
    refine ⟨0, by simp [hD.1], le_refl _, by norm_num, fun _ => rfl, fun _ => rfl, ?_, ?_⟩ <;>
      simp [fallFromPeak, deepestFall, scaled, peak]
  · have hmap : xs.map (fun a => F32.of (toF64 a))
        = (xs.map (fun a => roundF32 (toF64 a))).map .finite := by
      rw [List.map_map]
      exact List.map_congr_left fun a ha => (single_of hc (hs a ha)).1
    have hall : ∀ n < xs.length, ∃ v,
        fallsBy ((xs.map (fun a => roundF32 (toF64 a))).take (n + 1)) v ∧ 0 ≤ v ∧ v ≤ 1 ∧
        (neverFalls xs → v = 0) ∧
        ((∀ a ∈ xs, ∀ b ∈ xs, roundF32 (toF64 a) = roundF32 (toF64 b)) → v = 0) ∧
        |v - fallFromPeak ((scaled e.scale xs).take (n + 1))| ≤ 1 / 2 ^ 21 := by
      intro n hn
      obtain ⟨v, h1, h2, h3, h4, h5, h6⟩ := fall32_of hc (xs := xs.take (n + 1)) (take_ne hn)
        fun x hx => hs x (List.mem_of_mem_take hx)
      refine ⟨v, ?_, h2, h3, fun hn => h4 (neverFalls_take _ hn),
        fun hh => h5 fun a ha b hb => hh a (List.mem_of_mem_take ha) b (List.mem_of_mem_take hb), ?_⟩
      · rw [← List.map_take]; exact h1
      · rw [scaled, ← List.map_take]; exact h6
    obtain ⟨d, hd, hlo, w, ⟨n, hn, hw⟩, hhi⟩ := hD.2 (xs.map (fun a => roundF32 (toF64 a)))
      (by simpa using hne)
      (by
        intro x hx
        simp only [List.mem_map] at hx
        obtain ⟨a, ha, rfl⟩ := hx
        exact (single_of hc (hs a ha)).2.1)
      (by
        intro n hn
        rw [List.length_map] at hn
        obtain ⟨v, h1, _⟩ := hall n hn
        exact ⟨v, h1⟩)
    obtain ⟨v, h1, h2, h3, h4, h5, h6⟩ := fall32_of hc hne hs
    have hvd := hlo v h1
    rw [List.length_map] at hn
    obtain ⟨w', k1, k2, k3, k4, k5, k6⟩ := hall n hn
    have hww : w = w' := by
      rw [fallsBy] at hw k1
      rw [k1] at hw
      injection hw with hw
      exact hw.symm
    subst hww
    have hdeep := le_deepest (xs := scaled e.scale xs) (n := n) (by simpa [scaled] using hn)
    refine ⟨d, by rw [hmap, hd]; rfl, h2.trans hvd, hhi.trans k3, fun hh => ?_, fun hh => ?_, ?_, ?_⟩
    · exact le_antisymm (hhi.trans (k4 hh).le) (h2.trans hvd)
    · exact le_antisymm (hhi.trans (k5 hh).le) (h2.trans hvd)
    · have := (abs_le.1 h6).1
      linarith
    · have := (abs_le.1 k6).2
      linarith

theorem drawdowns32_eq (c : Cfg) (toF64 : Int → ℚ) (log : List Event) :
    Drawdowns32.replay c.env toF64 log = ⟨(sampledSums log).map (fun a => F32.of (toF64 a)),
      ((updatesIn log).reverse.map mid).map (fun a => F32.of (toF64 a))⟩ := by
  induction log with
  | nil => rfl
  | cons ev log ih =>
    rw [Drawdowns32.replay, ih, sampledSums_cons]
    cases ev with
    | update ms =>
      have : ms.mid c.env.scale = mid ms := mid_eq c ms
      simp [Drawdowns32.handle, updatesIn, this]
    | sample b m => simp [Drawdowns32.handle, updatesIn, UserBalances.sum]
    | _ => simp [Drawdowns32.handle, updatesIn]

/-- C121: the user's drawdown in `f32` is a number from zero to one, zero as long as the sampled
balances do not fall, and within `2^-21` of what exact arithmetic allows. -/
theorem C121_user (c : Cfg) (log : List Event) (D : List F32 → Option F32) (toF64 : Int → ℚ)
    (hD : IsDrawdown32 D) (hc : Converts c.env toF64) (hs : ∀ b ∈ sampledSums log, Sane c.env b) :
    let exact := (sampledSums log).map (fun x : Int => (x : ℚ) / c.env.scale)
    ∃ d, (Drawdowns32.replay c.env toF64 log).ofUser D = .finite d ∧ 0 ≤ d ∧ d ≤ 1 ∧
      (neverFalls (sampledSums log) → d = 0) ∧
      fallFromPeak exact - 1 / 2 ^ 21 ≤ d ∧ d ≤ deepestFall exact + 1 / 2 ^ 21 := by
  intro exact
  obtain ⟨d, h1, h2, h3, h4, _, h5, h6⟩ := drawdown32 hc hD hs
  exact ⟨d, by rw [drawdowns32_eq, Drawdowns32.ofUser]; exact h1, h2, h3, h4, h5, h6⟩

/-- C121: the same for the market's drawdown and the mid prices of all updates. -/
theorem C121_market (c : Cfg) (ops : List Op) (s : State) (D : List F32 → Option F32)
    (toF64 : Int → ℚ) (hD : IsDrawdown32 D) (hc : Converts c.env toF64)
    (h : run c (State.init c) ops = .ok s)
    (hs : ∀ ms ∈ observed ⟨0, 0, 0, 0⟩ ops, Sane c.env (mid ms)) :
    let mids := (observed ⟨0, 0, 0, 0⟩ ops).map mid
    let exact := mids.map (fun x : Int => (x : ℚ) / c.env.scale)
    ∃ d, (Drawdowns32.replay c.env toF64 s.log).ofMarket D = .finite d ∧ 0 ≤ d ∧ d ≤ 1 ∧
      (neverFalls mids → d = 0) ∧
      fallFromPeak exact - 1 / 2 ^ 21 ≤ d ∧ d ≤ deepestFall exact + 1 / 2 ^ 21 := by
  intro mids exact
  have hu := run_updates ops (State.init c) s ⟨[], rfl⟩ h
  have h0 : (State.init c).ms = ⟨0, 0, 0, 0⟩ := rfl
  have h1 : updatesIn (State.init c).log = [] := rfl
  rw [h0, h1, List.append_nil] at hu
  obtain ⟨d, h1, h2, h3, h4, _, h5, h6⟩ := drawdown32 hc hD (xs := mids) (by
    intro x hx
    simp only [mids, List.mem_map] at hx
    obtain ⟨ms, hm, rfl⟩ := hx
    exact hs ms hm)
  refine ⟨d, ?_, h2, h3, h4, h5, h6⟩
  rw [drawdowns32_eq, Drawdowns32.ofMarket, hu, List.reverse_reverse]
  exact h1

/-- As long as all fills were on the same side, the samples show the starting balance. -/
theorem one_side_samples {c : Cfg} {s : State} {side : Side} (hr : Reachable c s)
    (hf : ∀ f ∈ fills s.log, f.side = side) : ∀ y ∈ sampledSums s.log, y = c.start := by
  obtain ⟨ops, hrun⟩ := hr
  have hinv : LInv c s.core ∧ SampleInv c s.core :=
    (run_core (st := false) hrun).inv (fun _ _ => sample_inv)
      ⟨.init c, by intro y hy; simp [sampledSums, State.core, State.init] at hy⟩
  intro y hy
  obtain ⟨fs, h1, h2⟩ := hinv.2 y hy
  obtain ⟨e1, e2, _⟩ := ledger_one_side c side fs fun f hfm =>
    ⟨hf f (h1.subset hfm), hinv.1.pos f (h1.subset hfm)⟩
  rw [h2, e1, e2]; omega

/-- C121: unrealised losses are no drawdown in `f32` either. -/
theorem C121_unrealised (c : Cfg) (s : State) (side : Side) (D : List F32 → Option F32)
    (toF64 : Int → ℚ) (hD : IsDrawdown32 D) (hc : Converts c.env toF64) (hs : Sane c.env c.start)
    (hr : Reachable c s) (hf : ∀ f ∈ fills s.log, f.side = side) :
    (Drawdowns32.replay c.env toF64 s.log).ofUser D = .finite 0 := by
  have hall := one_side_samples hr hf
  obtain ⟨d, h1, _, _, _, h5, _⟩ := drawdown32 hc hD (xs := sampledSums s.log)
    fun x hx => by rw [hall x hx]; exact hs
  rw [drawdowns32_eq, Drawdowns32.ofUser, h1, h5 fun a ha b hb => by rw [hall a ha, hall b hb]]

/-- C121, what does not hold: that a loss shows. An account can lose money in every sampling
interval, and its drawdown is zero. -/
theorem C121_blind : ∃ s t, Reachable Ex.rich s ∧
    FullTracker.replay Ex.rich.env Ex.rich.start s.log = .ok t ∧ t.rpnl < 0 ∧
    (∀ b ∈ sampledSums s.log, Sane Ex.rich.env b) ∧
    (∀ x ∈ (changes (sampledSums s.log)).drop 1, x.2 < x.1) ∧
    ∀ D, IsDrawdown32 D →
      (Drawdowns32.replay Ex.rich.env (fun a => roundF64 ((a : ℚ) / Ex.rich.env.scale)) s.log).ofUser D
        = .finite 0 := by
  have h : Ex.tracked Ex.rich Ex.spend (fun s _ t => decide (t.rpnl < 0) &&
      decide (sampledSums s.log
        = [100000000000000, 100000000000000, 99999999887940, 99999999775880])) = true := by
    decide +kernel
  have e : (Ex.rich.env.scale : ℚ) = 100000 := by
    have : Ex.rich.env.scale = 100000 := by decide +kernel
    rw [this]; norm_num
  unfold Ex.tracked at h
  split at h
  · rename_i s tr hs
    split at h
    · rename_i t ht
      simp only [Bool.and_eq_true, decide_eq_true_eq] at h
      have hsane : ∀ b ∈ sampledSums s.log, Sane Ex.rich.env b := by
        rw [h.2]
        intro b hb
        simp only [List.mem_cons, List.not_mem_nil, or_false] at hb
        rcases hb with rfl | rfl | rfl | rfl <;> constructor <;> rw [e] <;> norm_num
      refine ⟨s, t, ⟨_, history_run hs⟩, ht, h.1, hsane, by rw [h.2]; decide, fun D hD => ?_⟩
      have hcv : Converts Ex.rich.env (fun a => roundF64 ((a : ℚ) / Ex.rich.env.scale)) :=
        converts_nearest _ (by
          rw [e]
          exact le_trans (show (100000 : ℚ) ≤ 2 ^ 17 by norm_num)
            (pow_le_pow_right₀ (by norm_num) (by norm_num)))
      obtain ⟨d, h1, _, _, _, h5, _⟩ := drawdown32 hcv hD hsane
      have hz : d = 0 := by
        apply h5
        have hb : ∀ a ∈ sampledSums s.log,
            roundF32 (roundF64 ((a : ℚ) / Ex.rich.env.scale)) = 10 ^ 9 := by
          rw [h.2]
          intro a ha
          simp only [List.mem_cons, List.not_mem_nil, or_false] at ha
          rcases ha with rfl | rfl | rfl | rfl <;> decide +kernel
        intro a ha b hb'
        rw [hb a ha, hb b hb']
      rw [drawdowns32_eq, Drawdowns32.ofUser, h1, hz]
    · cases h
  · cases h

/-! ### Both readings of the external drawdown are admissible -/

/-- The numbers among the values. -/
def F32.numbers (xs : List F32) : List ℚ :=
  xs.filterMap fun x => match x with | .finite v => some v | _ => none

theorem F32.numbers_map (xs : List ℚ) : F32.numbers (xs.map .finite) = xs := by
  induction xs with
  | nil => rfl
  | cons x xs ih =>
    simp only [F32.numbers, List.map_cons, List.filterMap_cons] at ih ⊢
    rw [ih]

/-- The value of a number. -/
def F32.value : F32 → ℚ
  | .finite v => v
  | _ => 0

/-- The present fall from the peak. -/
def Ex.present32 (xs : List F32) : Option F32 :=
  if xs.isEmpty then none else some (fall32 (F32.numbers xs))

theorem Ex.present32_ok : IsDrawdown32 Ex.present32 := by
  refine ⟨rfl, fun xs hne hpos hnum => ?_⟩
  have hl : xs.length - 1 < xs.length := by
    have := List.length_pos_iff.2 hne; omega
  obtain ⟨v, hv⟩ := hnum _ hl
  have hv2 := hv
  rw [show xs.length - 1 + 1 = xs.length by omega, List.take_length] at hv2
  refine ⟨v, ?_, fun w hw => ?_, v, ⟨_, hl, hv⟩, le_refl _⟩
  · unfold Ex.present32
    rw [if_neg (by simpa using hne), F32.numbers_map]
    exact congrArg some hv2
  · rw [fallsBy] at hw hv2
    rw [hv2] at hw
    injection hw with hw
    exact hw.ge

/-- The deepest fall so far. -/
def Ex.deepest32 (xs : List F32) : Option F32 :=
  if xs.isEmpty then none else
    let falls := (List.range xs.length).map fun n => (fall32 ((F32.numbers xs).take (n + 1))).value
    some (.finite (falls.foldl max (falls.headD 0)))

theorem foldl_max_mem : ∀ (xs : List ℚ) (x : ℚ), xs.foldl max x = x ∨ xs.foldl max x ∈ xs := by
  intro xs
  induction xs with
  | nil => intro x; exact .inl rfl
  | cons y ys ih =>
    intro x
    simp only [List.foldl_cons, List.mem_cons]
    rcases ih (max x y) with h | h
    · rcases max_choice x y with h2 | h2
      · left; rw [h, h2]
      · right; left; rw [h, h2]
    · exact .inr (.inr h)

theorem Ex.deepest32_ok : IsDrawdown32 Ex.deepest32 := by
  refine ⟨rfl, fun xs hne hpos hnum => ?_⟩
  have hl : xs.length - 1 < xs.length := by
    have := List.length_pos_iff.2 hne; omega
  have hex : Ex.deepest32 (xs.map .finite) = some (.finite
      (((List.range xs.length).map fun n => (fall32 (xs.take (n + 1))).value).foldl max
        (((List.range xs.length).map fun n => (fall32 (xs.take (n + 1))).value).headD 0))) := by
    unfold Ex.deepest32
    rw [if_neg (by simpa using hne), F32.numbers_map, List.length_map]
  refine ⟨_, hex, ?_, ?_⟩
  · intro v hv
    refine le_foldl_max.2 v (List.mem_map.2 ⟨xs.length - 1, List.mem_range.2 hl, ?_⟩)
    rw [show xs.length - 1 + 1 = xs.length by omega, List.take_length]
    rw [fallsBy] at hv
    rw [hv]; rfl
  · generalize hF : (List.range xs.length).map (fun n => (fall32 (xs.take (n + 1))).value) = F
    have hmem : F.foldl max (F.headD 0) ∈ F := by
      rcases foldl_max_mem F (F.headD 0) with h | h
      · rw [h]
        cases F with
        | nil =>
          simp only [List.map_eq_nil_iff, List.range_eq_nil] at hF
          omega
        | cons a F => simp
      · exact h
    rw [← hF] at hmem ⊢
    obtain ⟨n, hn, he⟩ := List.mem_map.1 hmem
    have hn := List.mem_range.1 hn
    obtain ⟨v, hv⟩ := hnum n hn
    refine ⟨v, ⟨n, hn, hv⟩, ?_⟩
    rw [fallsBy] at hv
    rw [← he, hv]
    exact le_refl v

/-- Non-vacuity: a thousand to start with, and a loss of a quarter. The drawdown is seen up to
`2^-21`. -/
example : ∃ s, Reachable Ex.lin s ∧ sampledSums s.log = [100000000, 100000000, 74954400] ∧
    (∀ b ∈ sampledSums s.log, Sane Ex.lin.env b) ∧
    ∃ d, (Drawdowns32.replay Ex.lin.env (fun a => roundF64 ((a : ℚ) / Ex.lin.env.scale)) s.log).ofUser
      Ex.deepest32 = .finite d ∧ |d - 250456 / 1000000| ≤ 1 / 2 ^ 21 := by
  have h : Ex.after Ex.lin [Ex.quoteAt 1, .market .buy (Ex.d 5) 0,
      .update (.bba ⟨Ex.d 51, Ex.d 52, 3700000000000⟩), .market .sell (Ex.d 5) 0,
      .update (.bba ⟨Ex.d 50, Ex.d 51, 7400000000000⟩)] (fun s => decide (sampledSums s.log
      = [100000000, 100000000, 74954400])) = true := by decide +kernel
  have hsc : (Ex.lin.env.scale : ℚ) = 100000 := by
    have : Ex.lin.env.scale = 100000 := by decide +kernel
    rw [this]; norm_num
  have hcv : Converts Ex.lin.env (fun a => roundF64 ((a : ℚ) / Ex.lin.env.scale)) :=
    converts_nearest _ (by
      rw [hsc]
      exact le_trans (show (100000 : ℚ) ≤ 2 ^ 17 by norm_num)
        (pow_le_pow_right₀ (by norm_num) (by norm_num)))
  unfold Ex.after at h
  split at h
  · rename_i s hs
    simp only [decide_eq_true_eq] at h
    have hsane : ∀ b ∈ sampledSums s.log, Sane Ex.lin.env b := by
      rw [h]
      intro b hb
      simp only [List.mem_cons, List.not_mem_nil, or_false] at hb
      rcases hb with rfl | rfl | rfl <;> constructor <;> rw [hsc] <;> norm_num
    refine ⟨s, ⟨_, hs⟩, h, hsane, ?_⟩
    obtain ⟨d, h1, _, _, _, h5, h6⟩ := C121_user Ex.lin s.log Ex.deepest32 _ Ex.deepest32_ok hcv hsane
    refine ⟨d, h1, ?_⟩
    rw [h, hsc] at h5 h6
    have e1 : fallFromPeak ([100000000, 100000000, 74954400].map (fun x : Int => (x : ℚ) / 100000))
        = 250456 / 1000000 := by decide +kernel
    have e2 : deepestFall ([100000000, 100000000, 74954400].map (fun x : Int => (x : ℚ) / 100000))
        = 250456 / 1000000 := by decide +kernel
    rw [e1] at h5
    rw [e2] at h6
    rw [abs_le]
    constructor <;> linarith
  · cases h

end Lfest
