import Verif.Lemmas.MarginStep

/-! How much the order of equally priced orders can matter for the margin requirement. -/

namespace Lfest

open Spec

/-- The walk with exact weights. -/
def xwalk (wt : Int → Int) (k n : Int) : List (Int × Int) → Int
  | [] => 0
  | x :: r => clip (n + x.2 - k) x.2 * wt x.1 + xwalk wt k (n + x.2) r

theorem clip_swap {n k x a : Int} (hx : 0 ≤ x) (ha : 0 ≤ a) :
    clip (n + x - k) x + clip (n + x + a - k) a = clip (n + a - k) a + clip (n + a + x - k) x := by
  unfold clip; repeat' split
  all_goals omega

theorem xwalk_front {wt : Int → Int} {k : Int} {a : Int × Int} (ha : 0 ≤ a.2) {t : List (Int × Int)} :
    ∀ (s : List (Int × Int)) (n : Int), (∀ x ∈ s, x.1 = a.1 ∧ 0 ≤ x.2) →
    xwalk wt k n (s ++ a :: t) = xwalk wt k n (a :: (s ++ t)) := by
  intro s
  induction s with
  | nil => intro n _; rfl
  | cons x s ih =>
    intro n h
    obtain ⟨hx1, hx2⟩ := h x (by simp)
    have i := ih (n + x.2) (fun y hy => h y (by simp [hy]))
    simp only [List.cons_append, xwalk] at i ⊢
    rw [i, hx1, ← Int.add_assoc, ← Int.add_assoc, ← Int.add_mul, ← Int.add_mul, clip_swap hx2 ha,
      Int.add_right_comm n x.2 a.2]

theorem xwalk_perm {wt : Int → Int} {k : Int} {key : Int × Int → Int}
    (hkey : ∀ a b, key a = key b → a.1 = b.1) :
    ∀ (l l' : List (Int × Int)) (n : Int), l.Perm l' → (∀ x ∈ l, 0 ≤ x.2) →
    l.Pairwise (fun a b => key a ≤ key b) → l'.Pairwise (fun a b => key a ≤ key b) →
    xwalk wt k n l = xwalk wt k n l' := by
  intro l
  induction l with
  | nil => intro l' n hp _ _ _; rw [hp.symm.eq_nil]
  | cons a l ih =>
    intro l' n hp hq hs hs'
    obtain ⟨s, t, rfl⟩ := List.append_of_mem (hp.mem_iff.1 (List.mem_cons_self ..))
    have hp2 : l.Perm (s ++ t) := (hp.trans List.perm_middle).cons_inv
    rw [xwalk_front (hq a (by simp)) s n (fun x hx => ?_)]
    · simp only [xwalk]
      rw [ih (s ++ t) (n + a.2) hp2 (fun x hx => hq x (by simp [hx])) (List.pairwise_cons.1 hs).2
        (hs'.sublist (by simp))]
    · have h1 : x ∈ a :: l := hp.mem_iff.2 (by simp [hx])
      have h2 : key x ≤ key a := (List.pairwise_append.1 hs').2.2 x hx a (by simp)
      refine ⟨?_, hq x h1⟩
      rcases List.mem_cons.1 h1 with rfl | h1
      · rfl
      · exact hkey _ _ (by have := (List.pairwise_cons.1 hs).1 x h1; omega)

theorem xwalk_shift {wt : Int → Int} {k : Int} : ∀ (l : List (Int × Int)) (n m : Int), n ≤ m →
    (∀ x ∈ l, 0 ≤ wt x.1 ∧ 0 ≤ x.2) → xwalk wt k n l ≤ xwalk wt k m l := by
  intro l
  induction l with
  | nil => intro n m _ _; exact Int.le_refl _
  | cons x l ih =>
    intro n m h hq
    obtain ⟨h1, h2⟩ := hq x (by simp)
    have i := ih (n + x.2) (m + x.2) (by omega) (fun y hy => hq y (by simp [hy]))
    have := Int.mul_le_mul_of_nonneg_right
      (clip_mono (x := n + x.2 - k) (y := m + x.2 - k) h2 (by omega) (Int.le_refl _)) h1
    simp only [xwalk]; omega

theorem xwalk_insert {wt : Int → Int} {k : Int} {key : Int × Int → Int} {a : Int × Int}
    (ha : 0 ≤ wt a.1 ∧ 0 ≤ a.2) : ∀ (l : List (Int × Int)) (n : Int),
    (∀ x ∈ l, 0 ≤ wt x.1 ∧ 0 ≤ x.2) → xwalk wt k n l ≤ xwalk wt k n (insertBy key a l) := by
  intro l
  induction l with
  | nil =>
    intro n _
    have := Int.mul_nonneg (clip_nonneg (x := n + a.2 - k) ha.2) ha.1
    simp only [insertBy, xwalk]; omega
  | cons x l ih =>
    intro n hq
    simp only [insertBy]
    split
    · have h1 := xwalk_shift (wt := wt) (k := k) (x :: l) n (n + a.2) (by omega) hq
      have h2 := Int.mul_nonneg (clip_nonneg (x := n + a.2 - k) ha.2) ha.1
      have h3 : xwalk wt k n (a :: x :: l) =
          clip (n + a.2 - k) a.2 * wt a.1 + xwalk wt k (n + a.2) (x :: l) := rfl
      omega
    · have := ih (n + x.2) (fun y hy => hq y (by simp [hy]))
      simp only [xwalk]; omega

/-- Exact weights against rounded values. -/
structure Weights (e : Env) (wt : Int → Int) (den : Int) (l : List (Int × Int)) : Prop where
  pos : 0 < den
  nonneg : ∀ x ∈ l, 0 ≤ wt x.1
  le : ∀ x ∈ l, ∀ q, 0 ≤ q → value e q x.1 * den ≤ q * wt x.1
  lt : ∀ x ∈ l, ∀ q, 0 ≤ q → q * wt x.1 < (value e q x.1 + 1) * den

theorem xwalk_le {e : Env} {wt : Int → Int} {den k : Int} : ∀ (l : List (Int × Int)) (n : Int),
    Weights e wt den l → (∀ x ∈ l, 0 ≤ x.2) →
    walk e k n l * den ≤ xwalk wt k n l ∧ xwalk wt k n l ≤ (walk e k n l + l.length) * den ∧
      (l ≠ [] → xwalk wt k n l < (walk e k n l + l.length) * den) := by
  intro l
  induction l with
  | nil => intro n _ _; simp [walk, xwalk]
  | cons x l ih =>
    intro n w hq
    obtain ⟨i1, i2, _⟩ := ih (n + x.2)
      ⟨w.pos, fun y hy => w.nonneg y (by simp [hy]), fun y hy => w.le y (by simp [hy]),
        fun y hy => w.lt y (by simp [hy])⟩ (fun y hy => hq y (by simp [hy]))
    have h1 := w.le x (by simp) _ (clip_nonneg (x := n + x.2 - k) (hq x (by simp)))
    have h2 := w.lt x (by simp) _ (clip_nonneg (x := n + x.2 - k) (hq x (by simp)))
    simp only [walk, xwalk, List.length_cons, Int.natCast_add, Int.natCast_one]
    simp only [Int.add_mul, Int.one_mul] at *
    refine ⟨by omega, by omega, fun _ => by omega⟩

/-- Exact weights exist for every list of positive prices. -/
theorem weights_exist (e : Env) (l : List (Int × Int)) (hp : ∀ x ∈ l, 0 < x.1) :
    ∃ wt den, Weights e wt den l := by
  have hs := scale_pos e
  cases hk : e.kind with
  | linear =>
    refine ⟨fun p => p, e.scale, hs, fun x hx => Int.le_of_lt (hp x hx), fun x hx q hq => ?_,
      fun x hx q hq => ?_⟩
    · simp only [value, hk]
      exact (tdiv_bounds (Int.mul_nonneg hq (Int.le_of_lt (hp x hx))) hs).1
    · simp only [value, hk]
      have := (tdiv_bounds (Int.mul_nonneg hq (Int.le_of_lt (hp x hx))) hs).2.1
      rw [Int.add_mul]; omega
  | inverse =>
    have hd : ∀ l : List (Int × Int), (∀ x ∈ l, 0 < x.1) →
        ∃ P : Int, 0 < P ∧ ∀ x ∈ l, x.1 ∣ P := by
      intro l
      induction l with
      | nil => intro _; exact ⟨1, by omega, by simp⟩
      | cons y l ih =>
        intro h
        obtain ⟨P, h1, h2⟩ := ih (fun x hx => h x (by simp [hx]))
        refine ⟨y.1 * P, Int.mul_pos (h y (by simp)) h1, fun x hx => ?_⟩
        rcases List.mem_cons.1 hx with rfl | hx
        · exact Int.dvd_mul_right ..
        · exact Int.dvd_trans (h2 x hx) (Int.dvd_mul_left ..)
    obtain ⟨P, h1, h2⟩ := hd l hp
    have hw : ∀ x ∈ l, ∃ m, 0 < m ∧ P = x.1 * m ∧ P / x.1 = m := by
      intro x hx
      obtain ⟨m, hm⟩ := h2 x hx
      refine ⟨m, ?_, hm, by rw [hm]; exact Int.mul_ediv_cancel_left _ (by have := hp x hx; omega)⟩
      rcases Int.lt_or_le 0 m with h | h
      · exact h
      · have := Int.mul_nonpos_of_nonneg_of_nonpos (Int.le_of_lt (hp x hx)) h
        omega
    refine ⟨fun p => e.scale * (P / p), P, h1, fun x hx => ?_, fun x hx q hq => ?_, fun x hx q hq => ?_⟩
    · obtain ⟨m, hm, _, e2⟩ := hw x hx
      rw [e2]; exact Int.mul_nonneg (by omega) (by omega)
    · obtain ⟨m, hm, e1, e2⟩ := hw x hx
      simp only [value, hk]
      have := (tdiv_bounds (Int.mul_nonneg hq (Int.le_of_lt hs)) (hp x hx)).1
      have := Int.mul_le_mul_of_nonneg_right this (Int.le_of_lt hm)
      rw [e2, e1, ← Int.mul_assoc, ← Int.mul_assoc]; exact this
    · obtain ⟨m, hm, e1, e2⟩ := hw x hx
      simp only [value, hk]
      have := (tdiv_bounds (Int.mul_nonneg hq (Int.le_of_lt hs)) (hp x hx)).2.1
      have := Int.mul_lt_mul_of_pos_right this hm
      rw [e2, e1, ← Int.mul_assoc, ← Int.mul_assoc, Int.add_mul _ 1, Int.one_mul]; exact this

theorem sideOrders_perm (side : Side) {b b' : List Limit} (h : b.Perm b') :
    (sideOrders side b none).Perm (sideOrders side b' none) := by
  simp only [sideOrders, List.append_nil]
  exact (h.filter _).map _

/-- Removing an order raises the value of a side by less than one unit per order of that side. -/
theorem sideValue_remove_rounding {e : Env} {side : Side} {k : Int} {xs ys os' : List Limit}
    {o : Limit} (hg : GoodOrders (xs ++ o :: ys)) (hp : os'.Perm (xs ++ ys)) :
    sideValue e side k os' ≤ sideValue e side k (xs ++ o :: ys) + os'.length := by
  have hm : (xs ++ o :: ys).Perm (o :: os') := List.perm_middle.trans (hp.symm.cons o)
  have hg' := hg.perm hm
  rw [sideValue_walk, sideValue_walk]
  have hkey : ∀ a b : Int × Int, sideKey side a = sideKey side b → a.1 = b.1 := by
    intro a b h; cases side <;> simp only [sideKey] at h <;> omega
  have hgood : ∀ x ∈ sideOrders side (xs ++ o :: ys) none, 0 < x.1 ∧ 0 ≤ x.2 := by
    intro x hx
    simp only [sideOrders, List.append_nil, List.mem_map, List.mem_filter] at hx
    obtain ⟨y, ⟨hy, _⟩, rfl⟩ := hx
    exact hg y hy
  obtain ⟨wt, den, w⟩ := weights_exist e (sideOrders side (xs ++ o :: ys) none)
    (fun x hx => (hgood x hx).1)
  have hlen : ((sideOrders side (xs ++ o :: ys) none).length : Int) ≤ os'.length + 1 := by
    have h1 := (sideOrders_perm side hm).length_eq
    have h2 : (sideOrders side (o :: os') none).length ≤ (o :: os').length := by
      simp only [sideOrders, List.append_nil, List.length_map]; exact List.length_filter_le ..
    simp only [List.length_cons] at h2
    omega
  have sub : ∀ l : List (Int × Int), (∀ x ∈ l, x ∈ sideOrders side (xs ++ o :: ys) none) →
      Weights e wt den l := fun l h => ⟨w.pos, fun x hx => w.nonneg x (h x hx),
        fun x hx => w.le x (h x hx), fun x hx => w.lt x (h x hx)⟩
  have mem1 : ∀ x, x ∈ sortBy (sideKey side) (sideOrders side (xs ++ o :: ys) none) ↔
      x ∈ sideOrders side (xs ++ o :: ys) none := fun x => (sortBy_perm _ _).mem_iff
  have hins : ∀ x, x ∈ sideOrders side os' none → x ∈ sideOrders side (xs ++ o :: ys) none := by
    intro x hx
    rw [(sideOrders_perm side hm).mem_iff]
    simp only [sideOrders, List.append_nil, List.filter_cons, List.mem_map, List.mem_filter] at hx ⊢
    obtain ⟨y, hy, rfl⟩ := hx
    refine ⟨y, ?_, rfl⟩
    split <;> simp [hy]
  have mem2 : ∀ x, x ∈ sortBy (sideKey side) (sideOrders side os' none) →
      x ∈ sideOrders side (xs ++ o :: ys) none := fun x hx => hins x ((sortBy_perm _ _).mem_iff.1 hx)
  obtain ⟨a1, _⟩ := xwalk_le (k := k) (sortBy (sideKey side) (sideOrders side os' none)) 0
    (sub _ mem2) (fun x hx => (hgood x (mem2 x hx)).2)
  obtain ⟨_, b2, b3⟩ := xwalk_le (k := k) (sortBy (sideKey side) (sideOrders side (xs ++ o :: ys) none)) 0
    (sub _ (fun x hx => (mem1 x).1 hx)) (fun x hx => (hgood x ((mem1 x).1 hx)).2)
  have hmid : xwalk wt k 0 (sortBy (sideKey side) (sideOrders side os' none)) ≤
      xwalk wt k 0 (sortBy (sideKey side) (sideOrders side (xs ++ o :: ys) none)) := by
    have e1 : xwalk wt k 0 (sortBy (sideKey side) (sideOrders side (xs ++ o :: ys) none)) =
        xwalk wt k 0 (sortBy (sideKey side) (sideOrders side (o :: os') none)) := by
      refine xwalk_perm hkey _ _ 0 ?_ (fun x hx => (hgood x ((mem1 x).1 hx)).2)
        (sortBy_sorted _ _) (sortBy_sorted _ _)
      exact (sortBy_perm _ _).trans ((sideOrders_perm side hm).trans (sortBy_perm _ _).symm)
    rw [e1]
    by_cases hs : o.side = side
    · have : sideOrders side (o :: os') none = (o.price, o.remaining) :: sideOrders side os' none := by
        simp [sideOrders, hs]
      rw [this]
      simp only [sortBy]
      have ho : (o.price, o.remaining) ∈ sideOrders side (xs ++ o :: ys) none := by
        rw [(sideOrders_perm side hm).mem_iff, this]; simp
      exact xwalk_insert ⟨w.nonneg _ ho, (hgood _ ho).2⟩ _ 0
        (fun x hx => ⟨w.nonneg x (mem2 x hx), (hgood x (mem2 x hx)).2⟩)
    · have : sideOrders side (o :: os') none = sideOrders side os' none := by
        simp [sideOrders, hs]
      rw [this]; exact Int.le_refl _
  have hl1 := (sortBy_perm (sideKey side) (sideOrders side (xs ++ o :: ys) none)).length_eq
  generalize walk e k 0 (sortBy (sideKey side) (sideOrders side os' none)) = W' at *
  generalize walk e k 0 (sortBy (sideKey side) (sideOrders side (xs ++ o :: ys) none)) = W at *
  by_cases hn : sortBy (sideKey side) (sideOrders side (xs ++ o :: ys) none) = []
  · rw [hn] at b2 hmid
    simp only [List.length_nil, Int.natCast_zero, Int.add_zero] at b2
    have : W' ≤ W := Int.le_of_mul_le_mul_right (by omega) w.pos
    omega
  · have h3 := b3 hn
    have : W' < W + (sortBy (sideKey side) (sideOrders side (xs ++ o :: ys) none)).length :=
      Int.lt_of_mul_lt_mul_right (by omega) (Int.le_of_lt w.pos)
    omega

theorem share_add {e : Env} {x n r : Int} (hx : 0 ≤ x) (hn : 0 ≤ n) (hr : 0 ≤ r) (h1 : r ≤ e.scale) :
    share e (x + n) r ≤ share e x r + n := by
  have hs := scale_pos e
  unfold share
  obtain ⟨a1, a2, a3⟩ := tdiv_bounds (Int.mul_nonneg hx hr) hs
  obtain ⟨b1, b2, b3⟩ := tdiv_bounds (Int.mul_nonneg (by omega : 0 ≤ x + n) hr) hs
  have h2 := Int.mul_le_mul_of_nonneg_left h1 hn
  generalize (x * r).tdiv e.scale = u at *
  generalize ((x + n) * r).tdiv e.scale = v at *
  have : v * e.scale < (u + n + 1) * e.scale := by
    rw [Int.add_mul] at b1
    rw [Int.add_mul, Int.add_mul, Int.one_mul]; omega
  have := Int.lt_of_mul_lt_mul_right this (Int.le_of_lt hs)
  omega

theorem marginReq_remove_rounding {c : Cfg} {pos : Int} {xs ys os' : List Limit} {o : Limit}
    (hi : 0 ≤ c.spec.initMarginReq) (h1 : c.spec.initMarginReq ≤ c.scale)
    (hg : GoodOrders (xs ++ o :: ys)) (hp : os'.Perm (xs ++ ys)) :
    marginReq c os' pos ≤ marginReq c (xs ++ o :: ys) pos + os'.length := by
  have hgt : GoodOrders os' := by
    refine GoodOrders.perm (fun x hx => hg x ?_) hp.symm
    simp only [List.mem_append, List.mem_cons] at hx ⊢
    rcases hx with h | h <;> simp [h]
  have k1 := sideValue_remove_rounding (e := c.env) (side := .buy) (k := larger (-pos) 0) hg hp
  have k2 := sideValue_remove_rounding (e := c.env) (side := .sell) (k := larger pos 0) hg hp
  have n1 := sideValue_nonneg (e := c.env) (side := .buy) (k := larger (-pos) 0) hg
  have n2 := sideValue_nonneg (e := c.env) (side := .buy) (k := larger (-pos) 0) hgt
  unfold marginReq
  refine Int.le_trans (share_mono hi (larger_nonneg n2) ?_) (share_add (larger_nonneg n1) (by omega) hi h1)
  generalize sideValue c.env .buy (larger (-pos) 0) os' = a1 at *
  generalize sideValue c.env .sell (larger pos 0) os' = a2 at *
  generalize sideValue c.env .buy (larger (-pos) 0) (xs ++ o :: ys) = b1 at *
  generalize sideValue c.env .sell (larger pos 0) (xs ++ o :: ys) = b2 at *
  unfold larger; split <;> split <;> omega

end Lfest
