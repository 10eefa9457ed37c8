import Verif.Model.Drawdown
import Verif.SpecDrawdown
import Verif.Props.Performance
import Mathlib.Tactic.Positivity
import Mathlib.Tactic.Linarith

/-!
# Drawdowns: C89
-/

namespace Lfest

open Spec

/-! ### Series -/

theorem foldl_max_le {α : Type} [LinearOrder α] {xs : List α} {x b : α} (hx : x ≤ b)
    (h : ∀ y ∈ xs, y ≤ b) : xs.foldl max x ≤ b := by
  induction xs generalizing x with
  | nil => exact hx
  | cons y ys ih => exact ih (max_le hx (h y (by simp))) fun z hz => h z (by simp [hz])

theorem le_foldl_max {α : Type} [LinearOrder α] {xs : List α} {x : α} :
    x ≤ xs.foldl max x ∧ ∀ y ∈ xs, y ≤ xs.foldl max x := by
  induction xs generalizing x with
  | nil => simp
  | cons y ys ih =>
    obtain ⟨h1, h2⟩ := ih (x := max x y)
    refine ⟨(le_max_left x y).trans h1, fun z hz => ?_⟩
    simp only [List.mem_cons] at hz
    rcases hz with rfl | hz
    · exact (le_max_right x z).trans h1
    · exact h2 z hz

theorem le_peak {xs : List Rat} : ∀ y ∈ xs, y ≤ peak xs := by
  cases xs with
  | nil => simp
  | cons x xs =>
    intro y hy
    simp only [List.mem_cons] at hy
    rcases hy with rfl | hy
    · exact le_foldl_max.1
    · exact le_foldl_max.2 y hy

theorem head_pos_peak {xs : List Rat} (h : 0 < xs.head?.getD 0) : 0 < peak xs := by
  cases xs with
  | nil => simp at h
  | cons x xs => exact lt_of_lt_of_le h le_foldl_max.1

theorem last_mem {xs : List Rat} (h : xs ≠ []) : xs.getLast?.getD 0 ∈ xs := by
  rw [List.getLast?_eq_getLast_of_ne_nil h]; exact List.getLast_mem h

theorem fall_nonneg {xs : List Rat} (h : 0 < xs.head?.getD 0) : 0 ≤ fallFromPeak xs := by
  have hne : xs ≠ [] := by rintro rfl; simp at h
  exact div_nonneg (sub_nonneg.2 (le_peak _ (last_mem hne))) (head_pos_peak h).le

theorem fall_le_one {xs : List Rat} (h : 0 < xs.head?.getD 0) (hp : ∀ x ∈ xs, 0 ≤ x) :
    fallFromPeak xs ≤ 1 := by
  have hne : xs ≠ [] := by rintro rfl; simp at h
  rw [fallFromPeak, div_le_one (head_pos_peak h)]
  have := hp _ (last_mem hne)
  linarith

theorem take_head {xs : List Rat} (n : Nat) : (xs.take (n + 1)).head? = xs.head? := by
  cases xs <;> simp

theorem deepest_le {xs : List Rat} {b : Rat} (hb : 0 ≤ b)
    (h : ∀ n < xs.length, fallFromPeak (xs.take (n + 1)) ≤ b) : deepestFall xs ≤ b := by
  refine foldl_max_le hb fun y hy => ?_
  simp only [List.mem_map, List.mem_range] at hy
  obtain ⟨n, hn, rfl⟩ := hy
  exact h n hn

theorem le_deepest {xs : List Rat} {n : Nat} (hn : n < xs.length) :
    fallFromPeak (xs.take (n + 1)) ≤ deepestFall xs :=
  le_foldl_max.2 _ (by simp only [List.mem_map, List.mem_range]; exact ⟨n, hn, rfl⟩)

/-- Both readings of the external drawdown are admissible: the deepest fall so far … -/
example : IsDrawdown (fun xs => if xs = [] then none else some (deepestFall xs)) := by
  refine ⟨by simp, fun xs hne h => ⟨_, by simp [hne], ?_, le_refl _⟩⟩
  have := le_deepest (xs := xs) (n := xs.length - 1)
    (by have := List.length_pos_iff.2 hne; omega)
  rwa [List.take_of_length_le (by omega)] at this

/-- … and the present fall. -/
example : IsDrawdown (fun xs => if xs = [] then none else some (fallFromPeak xs)) := by
  refine ⟨by simp, fun xs hne h => ⟨_, by simp [hne], le_refl _, ?_⟩⟩
  have := le_deepest (xs := xs) (n := xs.length - 1)
    (by have := List.length_pos_iff.2 hne; omega)
  rwa [List.take_of_length_le (by omega)] at this

theorem neverFalls_last : ∀ {xs : List Int}, neverFalls xs → ∀ x ∈ xs, x ≤ xs.getLast?.getD 0
  | [], _ => by simp
  | [a], _ => by simp
  | a :: b :: rest, ⟨h1, h2⟩ => by
    intro x hx
    have ih := neverFalls_last h2
    have hl : (a :: b :: rest).getLast?.getD 0 = (b :: rest).getLast?.getD 0 := by simp
    rw [hl]
    simp only [List.mem_cons] at hx
    rcases hx with rfl | hx
    · exact h1.trans (ih b (by simp))
    · exact ih x (by simpa using hx)

theorem neverFalls_take : ∀ {xs : List Int} (n : Nat), neverFalls xs → neverFalls (xs.take n)
  | [], n, _ => by simp [neverFalls]
  | [a], 0, _ => by simp [neverFalls]
  | [a], n + 1, _ => by simp [neverFalls]
  | a :: b :: rest, 0, _ => by simp [neverFalls]
  | a :: b :: rest, 1, _ => by simp [neverFalls]
  | a :: b :: rest, n + 2, ⟨h1, h2⟩ => by
    have := neverFalls_take (n + 1) h2
    simp only [List.take_succ_cons] at this ⊢
    exact ⟨h1, this⟩

/-- Amounts as fractions. -/
def scaled (k : Int) (xs : List Int) : List Rat := xs.map (fun x : Int => (x : Rat) / (k : Rat))

theorem fall_zero {k : Int} (hk : 0 < k) {xs : List Int} (h : neverFalls xs) :
    fallFromPeak (scaled k xs) = 0 := by
  have hk' : (0 : Rat) < (k : Rat) := by exact_mod_cast hk
  by_cases hne : xs = []
  · subst hne; simp [fallFromPeak, scaled, peak]
  have hl : (scaled k xs).getLast?.getD 0 = ((xs.getLast?.getD 0 : Int) : Rat) / k := by
    rw [List.getLast?_eq_getLast_of_ne_nil hne, scaled, List.getLast?_map,
      List.getLast?_eq_getLast_of_ne_nil hne]
    simp
  have hmem : (scaled k xs).getLast?.getD 0 ∈ scaled k xs := last_mem (by simpa [scaled] using hne)
  have hp : peak (scaled k xs) = (scaled k xs).getLast?.getD 0 := by
    refine le_antisymm ?_ (le_peak _ hmem)
    have hall : ∀ y ∈ scaled k xs, y ≤ (scaled k xs).getLast?.getD 0 := by
      intro y hy
      rw [hl]
      simp only [scaled, List.mem_map] at hy
      obtain ⟨x, hx, rfl⟩ := hy
      have := neverFalls_last h x hx
      exact div_le_div_of_nonneg_right (by exact_mod_cast this) hk'.le
    cases hx : scaled k xs with
    | nil => simp [peak]
    | cons y ys =>
      rw [hx] at hall
      exact foldl_max_le (hall y (by simp)) fun z hz => hall z (by simp [hz])
  rw [fallFromPeak, hp]; simp

theorem drawdown_zero {D : List Rat → Option Rat} (hD : IsDrawdown D) {k : Int} (hk : 0 < k)
    {xs : List Int} (h0 : xs = [] ∨ 0 < xs.head?.getD 0) (h : neverFalls xs) :
    (D (scaled k xs)).getD 0 = 0 := by
  have hk' : (0 : Rat) < (k : Rat) := by exact_mod_cast hk
  rcases h0 with rfl | h0
  · simp [scaled, hD.1]
  · have hne : xs ≠ [] := by rintro rfl; simp at h0
    have hhead : 0 < (scaled k xs).head?.getD 0 := by
      cases xs with
      | nil => simp at h0
      | cons x xs =>
        simp only [scaled, List.map_cons, List.head?_cons, Option.getD_some] at h0 ⊢
        exact div_pos (by exact_mod_cast h0) hk'
    obtain ⟨d, hd, h1, h2⟩ := hD.2 _ (by simpa [scaled] using hne) hhead
    rw [fall_zero hk h] at h1
    have : deepestFall (scaled k xs) ≤ 0 := by
      refine deepest_le (le_refl _) fun n _ => ?_
      have := fall_zero hk (neverFalls_take (n + 1) h)
      simp only [scaled, List.map_take] at this ⊢
      rw [this]
    rw [hd]
    exact le_antisymm (h2.trans this) h1

theorem drawdown_bounds {D : List Rat → Option Rat} (hD : IsDrawdown D) {k : Int} (hk : 0 < k)
    {xs : List Int} (h0 : xs = [] ∨ 0 < xs.head?.getD 0) :
    0 ≤ (D (scaled k xs)).getD 0 ∧
    ((∀ x ∈ xs, 0 ≤ x) → (D (scaled k xs)).getD 0 ≤ 1) := by
  have hk' : (0 : Rat) < (k : Rat) := by exact_mod_cast hk
  rcases h0 with rfl | h0
  · simp [scaled, hD.1]
  · have hne : xs ≠ [] := by rintro rfl; simp at h0
    have hhead : 0 < (scaled k xs).head?.getD 0 := by
      cases xs with
      | nil => simp at h0
      | cons x xs =>
        simp only [scaled, List.map_cons, List.head?_cons, Option.getD_some] at h0 ⊢
        exact div_pos (by exact_mod_cast h0) hk'
    obtain ⟨d, hd, h1, h2⟩ := hD.2 _ (by simpa [scaled] using hne) hhead
    rw [hd]
    refine ⟨(fall_nonneg hhead).trans h1, fun hp => h2.trans ?_⟩
    refine deepest_le (by norm_num) fun n _ => fall_le_one (by rwa [take_head]) fun x hx => ?_
    have := List.mem_of_mem_take hx
    simp only [scaled, List.mem_map] at this
    obtain ⟨y, hy, rfl⟩ := this
    exact div_nonneg (by exact_mod_cast hp y hy) hk'.le

/-! ### What the drawdowns are computed from -/

theorem drawdowns_eq (c : Cfg) (log : List Event) :
    Drawdowns.replay c.env log = ⟨scaled c.env.scale (sampledSums log),
      scaled c.env.scale ((updatesIn log).reverse.map mid)⟩ := by
  induction log with
  | nil => rfl
  | cons ev log ih =>
    have hs := sampledSums_append [ev] log
    simp only [List.reverse_cons, List.reverse_nil, List.nil_append, List.singleton_append] at hs
    rw [Drawdowns.replay, ih, hs]
    cases ev with
    | update ms =>
      have : ms.mid c.env.scale = mid ms := mid_eq c ms
      simp [Drawdowns.handle, updatesIn, scaled, sampleOf, this]
    | sample b m => simp [Drawdowns.handle, updatesIn, scaled, sampleOf, UserBalances.sum]
    | _ => simp [Drawdowns.handle, updatesIn, scaled, sampleOf]

/-- Every sampled sum is the starting balance plus the profit realised less the fees paid by the fills
up to the sample. -/
def SampleInv (c : Cfg) (x : Core) : Prop :=
  ∀ y ∈ sampledSums x.log, ∃ fs, fs <:+ fills x.log ∧
    y = c.start + (Spec.ledger c fs).realised - (Spec.ledger c fs).paid

theorem sample_inv {c : Cfg} {st : Bool} {x y : Core} (h : LInv c x ∧ SampleInv c x)
    (k : CoreStep c st x y) : LInv c y ∧ SampleInv c y := by
  refine ⟨h.1.step k, ?_⟩
  obtain ⟨hl, hs⟩ := h
  cases k with
  | event ev hev =>
    intro z hz
    have ha := sampledSums_append [ev]
    simp only [List.reverse_cons, List.reverse_nil, List.nil_append, List.singleton_append] at ha
    simp only [ha] at hz
    have he : [ev].filterMap sampleOf = [] := by
      cases ev <;> simp_all [plainEvent, sampleOf]
    rw [he, List.append_nil] at hz
    simp only [fills_plain hev]
    exact hs z hz
  | sample mid =>
    rename_i a p l
    intro z hz
    have ha := sampledSums_append [Event.sample (userBalances a) mid]
    simp only [List.reverse_cons, List.reverse_nil, List.nil_append, List.singleton_append] at ha
    simp only [ha] at hz
    simp only [fills_sample]
    simp only [List.mem_append] at hz
    rcases hz with hz | hz
    · exact hs z hz
    · simp only [List.filterMap_cons, sampleOf, List.filterMap_nil, List.mem_singleton] at hz
      refine ⟨fills l, List.suffix_rfl, ?_⟩
      have h1 := hl.sums
      have h2 : a.broker = ⟨0, 0⟩ := hl.broker
      have h3 := hl.ledger
      have h4 := congrArg Ledger.realised h3
      have h5 := congrArg Ledger.paid h3
      simp only [ledgerOf] at h4 h5
      rw [← h4, ← h5, hz]
      simp only [Accounts.debitSum, Accounts.creditSum, h2] at h1
      simp only [userBalances, Accounts.balance, Accounts.get, TAccount.net]
      omega
  | reserve v ht => exact hs
  | release v ht => exact hs
  | fill f full _ hc =>
    intro z hz
    have ha := sampledSums_append (fillReport f full).reverse
    simp only [List.reverse_reverse] at ha
    simp only [ha] at hz
    have he : (fillReport f full).reverse.filterMap sampleOf = [] := by
      unfold fillReport; split <;> simp [sampleOf]
    rw [he, List.append_nil] at hz
    obtain ⟨fs, h1, h2⟩ := hs z hz
    refine ⟨fs, ?_, h2⟩
    simp only [fills_report]
    exact h1.trans (List.suffix_cons f _)

/-- Fills on one side only: nothing is realised and no fees are paid. -/
theorem ledger_one_side (c : Cfg) (side : Side) : ∀ fs : List Fill,
    (∀ f ∈ fs, f.side = side ∧ 0 < f.qty) →
    (Spec.ledger c fs).realised = 0 ∧ (Spec.ledger c fs).paid = 0 ∧
    (match side with
      | .buy => 0 ≤ (Spec.ledger c fs).qty
      | .sell => (Spec.ledger c fs).qty ≤ 0)
  | [], _ => by cases side <;> simp [Spec.ledger, Ledger.empty]
  | f :: fs, h => by
    obtain ⟨i1, i2, i3⟩ := ledger_one_side c side fs fun g hg => h g (by simp [hg])
    obtain ⟨hf, hq⟩ := h f (by simp)
    simp only [Spec.ledger, Ledger.fill]
    cases side with
    | buy =>
      simp only at i3
      have hsg : f.signed = f.qty := by simp [Fill.signed, hf]
      split
      · exact ⟨i1, i2, by simp only [hsg]; omega⟩
      · rw [if_pos (.inl ⟨by omega, hf⟩)]
        exact ⟨i1, i2, by simp only [hsg]; omega⟩
    | sell =>
      simp only at i3
      have hsg : f.signed = -f.qty := by simp [Fill.signed, hf]
      split
      · exact ⟨i1, i2, by simp only [hsg]; omega⟩
      · rw [if_pos (.inr ⟨by omega, hf⟩)]
        exact ⟨i1, i2, by simp only [hsg]; omega⟩

theorem start_head {c : Cfg} {s : State} (hu : c.spec.priceFilter.multiplierUp ≠ 0) (hs : 0 < c.start)
    (hr : Reachable c s) : sampledSums s.log = [] ∨ 0 < (sampledSums s.log).head?.getD 0 := by
  rcases first_sample hu hr with h | h
  · exact .inl h.2
  · rw [h]; exact .inr hs

/-! ### The claims -/

/-- C89: the user's drawdown is computed from the balances at the sampling times, the market's from
the mid prices of all updates, in their order. -/
theorem C89_values (c : Cfg) (ops : List Op) (s : State) (h : run c (State.init c) ops = .ok s) :
    Drawdowns.replay c.env s.log =
      ⟨(sampledSums s.log).map (fun x : Int => (x : Rat) / c.env.scale),
       (observed ⟨0, 0, 0, 0⟩ ops).map (fun ms => ((mid ms : Int) : Rat) / c.env.scale)⟩ := by
  have hu := run_updates ops (State.init c) s ⟨[], rfl⟩ h
  have h0 : (State.init c).ms = ⟨0, 0, 0, 0⟩ := rfl
  have h1 : updatesIn (State.init c).log = [] := rfl
  rw [h0, h1, List.append_nil] at hu
  rw [drawdowns_eq, hu]
  simp [scaled]

/-- C89: the user's drawdown is not negative, and not above one unless a sampled balance was negative.
It is zero until the sampled balances fall for the first time. -/
theorem C89_user (c : Cfg) (s : State) (D : List Rat → Option Rat) (hD : IsDrawdown D)
    (hu : c.spec.priceFilter.multiplierUp ≠ 0) (hs : 0 < c.start) (hr : Reachable c s) :
    let dd := (Drawdowns.replay c.env s.log).ofUser D
    0 ≤ dd ∧ ((∀ x ∈ sampledSums s.log, 0 ≤ x) → dd ≤ 1) ∧
    (neverFalls (sampledSums s.log) → dd = 0) := by
  intro dd
  have hk : 0 < c.env.scale := scale_pos c.env
  have h0 := start_head hu hs hr
  have he : dd = (D (scaled c.env.scale (sampledSums s.log))).getD 0 := by
    show Drawdowns.ofUser D _ = _
    rw [drawdowns_eq, Drawdowns.ofUser]
  have hb := drawdown_bounds hD hk h0
  rw [he]
  exact ⟨hb.1, hb.2, drawdown_zero hD hk h0⟩

/-- C89: unrealised losses are no drawdown. As long as all fills were on the same side, the user's
drawdown is zero, whatever the market did. -/
theorem C89_unrealised (c : Cfg) (s : State) (side : Side) (D : List Rat → Option Rat)
    (hD : IsDrawdown D) (hu : c.spec.priceFilter.multiplierUp ≠ 0) (hs : 0 < c.start)
    (hr : Reachable c s) (hf : ∀ f ∈ fills s.log, f.side = side) :
    (Drawdowns.replay c.env s.log).ofUser D = 0 := by
  refine (C89_user c s D hD hu hs hr).2.2 ?_
  obtain ⟨ops, hrun⟩ := hr
  have hinv : LInv c s.core ∧ SampleInv c s.core :=
    (run_core (st := false) hrun).inv (fun _ _ => sample_inv)
      ⟨.init c, by intro y hy; simp [sampledSums, State.core, State.init] at hy⟩
  have hall : ∀ y ∈ sampledSums s.log, y = c.start := by
    intro y hy
    obtain ⟨fs, h1, h2⟩ := hinv.2 y hy
    obtain ⟨e1, e2, _⟩ := ledger_one_side c side fs fun f hfm =>
      ⟨hf f (h1.subset hfm), hinv.1.pos f (h1.subset hfm)⟩
    rw [h2, e1, e2]; omega
  generalize sampledSums s.log = xs at hall
  clear hinv
  induction xs with
  | nil => trivial
  | cons a xs ih =>
    cases xs with
    | nil => trivial
    | cons b xs =>
      refine ⟨?_, ih fun y hy => hall y (by simp [hy])⟩
      rw [hall a (by simp), hall b (by simp)]

/-- C89: the market's drawdown, for prices that are not negative and start above zero. -/
theorem C89_market (c : Cfg) (ops : List Op) (s : State) (D : List Rat → Option Rat)
    (hD : IsDrawdown D) (h : run c (State.init c) ops = .ok s) (m0 : MarketState)
    (hf : (observed ⟨0, 0, 0, 0⟩ ops).head? = some m0) (h0 : 0 < mid m0) :
    let mids := (observed ⟨0, 0, 0, 0⟩ ops).map mid
    let dd := (Drawdowns.replay c.env s.log).ofMarket D
    0 ≤ dd ∧ ((∀ x ∈ mids, 0 ≤ x) → dd ≤ 1) ∧ (neverFalls mids → dd = 0) := by
  intro mids dd
  have hk : 0 < c.env.scale := scale_pos c.env
  have hh : mids = [] ∨ 0 < mids.head?.getD 0 := by
    right; simp only [mids, List.head?_map, hf]; exact h0
  have he : dd = (D (scaled c.env.scale mids)).getD 0 := by
    show Drawdowns.ofMarket D _ = _
    rw [C89_values c ops s h]
    simp only [Drawdowns.ofMarket, scaled, mids, List.map_map]
    rfl
  have hb := drawdown_bounds hD hk hh
  rw [he]
  exact ⟨hb.1, hb.2, drawdown_zero hD hk hh⟩

/-- Five bought at 101 and the price halves: the market fell by a half, the user's drawdown is zero
until the position is sold. -/
example : (match run Ex.lin (State.init Ex.lin) [Ex.quoteAt 1, .market .buy (Ex.d 5) 0,
      .update (.bba ⟨Ex.d 51, Ex.d 52, 3700000000000⟩), .market .sell (Ex.d 5) 0,
      .update (.bba ⟨Ex.d 50, Ex.d 51, 7400000000000⟩)] with
    | .ok s =>
      let x := Drawdowns.replay Ex.lin.env s.log
      decide (x.user = [1000, 1000, 749544 / 1000] ∧ x.market = [1005 / 10, 515 / 10, 505 / 10] ∧
        deepestFall (x.user.take 2) = 0 ∧ deepestFall x.user = 250456 / 1000000 ∧
        fallFromPeak x.market = 500 / 1005)
    | .error _ => false) = true := by decide +kernel

end Lfest
