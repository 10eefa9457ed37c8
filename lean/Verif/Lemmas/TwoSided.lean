import Verif.SpecMarket
import Verif.Props.Queue

/-!
# Two order books side by side
-/

namespace Lfest.Market

open Spec

/-- `h` is what is left of the orders `k` when some of them are reduced or gone. -/
inductive Sub : List Queued → List Queued → Prop
  | nil : Sub [] []
  | skip {h k y} (s : Sub h k) : Sub h (y :: k)
  | keep {h k x y} (s : Sub h k) (ho : x.owner = y.owner) (hp : x.price = y.price)
      (hq : x.qty ≤ y.qty) : Sub (x :: h) (y :: k)

theorem sub_nil (k : List Queued) : Sub [] k := by
  induction k with
  | nil => exact .nil
  | cons y k ih => exact .skip ih

theorem sub_refl (k : List Queued) : Sub k k := by
  induction k with
  | nil => exact .nil
  | cons y k ih => exact .keep ih rfl rfl (Nat.le_refl _)

theorem sub_trans {g h k : List Queued} (h1 : Sub g h) (h2 : Sub h k) : Sub g k := by
  induction h2 generalizing g with
  | nil => cases h1; exact .nil
  | skip s ih => exact .skip (ih h1)
  | keep s ho hp hq ih =>
    cases h1 with
    | skip s1 => exact .skip (ih s1)
    | keep s1 ho1 hp1 hq1 => exact .keep (ih s1) (ho1.trans ho) (hp1.trans hp) (Nat.le_trans hq1 hq)

theorem sub_mem {h k : List Queued} (hs : Sub h k) :
    ∀ x ∈ h, ∃ y ∈ k, x.owner = y.owner ∧ x.price = y.price := by
  induction hs with
  | nil => intro x hx; cases hx
  | skip s ih =>
    intro x hx
    obtain ⟨y, hy, e⟩ := ih x hx
    exact ⟨y, by simp [hy], e⟩
  | keep s ho hp hq ih =>
    intro x hx
    rcases List.mem_cons.1 hx with rfl | hx
    · exact ⟨_, by simp, ho, hp⟩
    · obtain ⟨y, hy, e⟩ := ih x hx
      exact ⟨y, by simp [hy], e⟩

theorem sub_volume {h k : List Queued} (hs : Sub h k) : volume h ≤ volume k := by
  induction hs with
  | nil => exact Nat.le_refl _
  | skip s ih => rw [volume_cons]; omega
  | keep s ho hp hq ih => rw [volume_cons, volume_cons]; omega

theorem sub_filter {h k : List Queued} (hs : Sub h k) (i : Nat) :
    Sub (h.filter (fun x => decide (x.owner ≠ some i))) (k.filter (fun x => decide (x.owner ≠ some i))) ∧
    volume (k.filter (fun x => decide (x.owner ≠ some i))) + volume h ≤
      volume k + volume (h.filter (fun x => decide (x.owner ≠ some i))) := by
  induction hs with
  | nil => exact ⟨.nil, Nat.le_refl _⟩
  | @skip h k y s ih =>
    obtain ⟨i1, i2⟩ := ih
    by_cases hy : decide (y.owner ≠ some i) = true
    · rw [List.filter_cons_of_pos (by exact hy), volume_cons, volume_cons]
      exact ⟨.skip i1, by omega⟩
    · rw [List.filter_cons_of_neg (by exact hy), volume_cons]
      exact ⟨i1, by omega⟩
  | @keep h k x y s ho hp hq ih =>
    obtain ⟨i1, i2⟩ := ih
    by_cases hy : decide (y.owner ≠ some i) = true
    · have hx : decide (x.owner ≠ some i) = true := by rw [ho]; exact hy
      rw [List.filter_cons_of_pos (by exact hx), List.filter_cons_of_pos (by exact hy)]
      simp only [volume_cons]
      exact ⟨.keep i1 ho hp hq, by omega⟩
    · have hx : ¬ decide (x.owner ≠ some i) = true := by rw [ho]; exact hy
      rw [List.filter_cons_of_neg (by exact hx), List.filter_cons_of_neg (by exact hy)]
      simp only [volume_cons]
      exact ⟨i1, by omega⟩

theorem volume_join (sd : Side) (x : Queued) (l : List Queued) :
    volume (join sd x l) = x.qty + volume l := by
  induction l with
  | nil => rfl
  | cons y l ih =>
    simp only [join]
    split
    · rw [volume_cons]
    · rw [volume_cons, ih, volume_cons]; omega

theorem sub_join_right (sd : Side) (y : Queued) {h k : List Queued} (hs : Sub h k) :
    Sub h (join sd y k) := by
  induction hs with
  | nil => exact sub_nil _
  | @skip h k z s ih =>
    simp only [join]
    split
    · exact .skip (.skip s)
    · exact .skip ih
  | @keep h k x z s ho hp hq ih =>
    simp only [join]
    split
    · exact .skip (.keep s ho hp hq)
    · exact .keep ih ho hp hq

theorem join_head {sd : Side} {x : Queued} {l : List Queued}
    (h : ∀ z ∈ l, better sd x.price z.price = true) : join sd x l = x :: l := by
  have := join_before (sd := sd) (x := x) (xs := []) (ys := l) h
  exact this

theorem sub_join {sd : Side} {x y : Queued} {h k : List Queued} (hs : Sub h k) (hsort : Sorted sd k)
    (ho : x.owner = y.owner) (hp : x.price = y.price) (hq : x.qty ≤ y.qty) :
    Sub (join sd x h) (join sd y k) := by
  induction hs with
  | nil => exact .keep .nil ho hp hq
  | @skip h k z s ih =>
    obtain ⟨h1, h2⟩ := List.pairwise_cons.1 hsort
    simp only [join]
    split
    · rename_i hb
      rw [join_head (x := x) (l := h)]
      · exact .keep (.skip s) ho hp hq
      · intro w hw
        obtain ⟨v, hv, _, e⟩ := sub_mem s w hw
        rw [hp, e]
        exact better_of_better hb (h1 v hv)
    · exact .skip (ih h2)
  | @keep h k a z s ho1 hp1 hq1 ih =>
    obtain ⟨h1, h2⟩ := List.pairwise_cons.1 hsort
    simp only [join]
    rw [hp, hp1]
    split
    · exact .keep (.keep s ho1 hp1 hq1) ho hp hq
    · exact .keep (ih h2) ho1 hp1 hq1

theorem take_zero (sd : Side) (limit : Int) (l : List Queued) : take sd limit 0 l = (l, []) := by
  cases l with
  | nil => rfl
  | cons y l => rw [take]; simp

theorem take_sub (sd : Side) (limit : Int) (l : List Queued) : ∀ v, Sub (take sd limit v l).1 l := by
  induction l with
  | nil => intro v; exact .nil
  | cons y l ih =>
    intro v
    unfold take
    split
    · exact sub_refl _
    · split
      · exact .keep (sub_refl _) rfl rfl (by simp)
      · exact .skip (ih _)

theorem take_conserve (sd : Side) (limit : Int) (l : List Queued) : ∀ v,
    volume (take sd limit v l).1 + volume (take sd limit v l).2 = volume l := by
  induction l with
  | nil => intro v; rfl
  | cons y l ih =>
    intro v
    unfold take
    split
    · rw [volume_nil]; rfl
    · split
      · simp only [volume_cons, volume_nil]; omega
      · have := ih (v - y.qty)
        simp only [volume_cons]; omega

theorem take_blocked {sd : Side} {limit : Int} {l : List Queued}
    (h : ∀ x ∈ l, better sd limit x.price = true) (v : Nat) : take sd limit v l = (l, []) := by
  cases l with
  | nil => rfl
  | cons y l =>
    unfold take
    exact if_pos (.inr (h y (by simp)))

/-- Taking from the smaller book what may be more leaves the smaller book, and takes no more than the
difference in excess. -/
theorem sub_take {sd : Side} {limit : Int} {h k : List Queued} (hs : Sub h k) (hsort : Sorted sd k) :
    ∀ v w, w ≤ v → Sub (take sd limit v h).1 (take sd limit w k).1 ∧
      volume (take sd limit v h).2 ≤ volume (take sd limit w k).2 + (v - w) := by
  induction hs with
  | nil => intro v w _; exact ⟨.nil, Nat.zero_le _⟩
  | @skip h k y s ih =>
    obtain ⟨h1, h2⟩ := List.pairwise_cons.1 hsort
    intro v w hvw
    have hv := take_volume sd limit h v
    have hsub := sub_trans (take_sub sd limit h v) s
    rw [take]
    by_cases hw : w = 0
    · subst hw
      rw [if_pos (.inl rfl)]
      exact ⟨.skip hsub, by rw [volume_nil]; omega⟩
    · by_cases hb : better sd limit y.price = true
      · rw [if_pos (.inr hb)]
        have : take sd limit v h = (h, []) := take_blocked (fun x hx => by
          obtain ⟨z, hz, _, e⟩ := sub_mem s x hx
          rw [e]; exact better_of_better hb (h1 z hz)) v
        rw [this]
        exact ⟨.skip s, Nat.zero_le _⟩
      · rw [if_neg (by simp [hw, hb])]
        split
        · refine ⟨.skip hsub, ?_⟩
          simp only [volume_cons, volume_nil]; omega
        · obtain ⟨i1, i2⟩ := ih h2 v (w - y.qty) (by omega)
          refine ⟨i1, ?_⟩
          simp only [volume_cons]; omega
  | @keep h k x y s ho hp hq ih =>
    obtain ⟨h1, h2⟩ := List.pairwise_cons.1 hsort
    intro v w hvw
    have hv := take_volume sd limit (x :: h) v
    have hsub := sub_trans (take_sub sd limit (x :: h) v) (Sub.keep s ho hp hq)
    rw [take]
    rw [take] at hv hsub
    by_cases hb : better sd limit y.price = true
    · have hb' : better sd limit x.price = true := by rw [hp]; exact hb
      rw [if_pos (.inr hb'), take, if_pos (.inr hb)]
      exact ⟨.keep s ho hp hq, Nat.zero_le _⟩
    · have hb' : ¬ better sd limit x.price = true := by rw [hp]; exact hb
      by_cases hw : w = 0
      · subst hw
        rw [take_zero]
        exact ⟨hsub, by rw [volume_nil]; omega⟩
      · have hn' : ¬ (w = 0 ∨ better sd limit y.price = true) := by
          rintro (e | e)
          · exact hw e
          · exact hb e
        have hn : ¬ (v = 0 ∨ better sd limit x.price = true) := by
          rintro (e | e)
          · omega
          · exact hb' e
        rw [if_neg hn] at hv hsub ⊢
        rw [take, if_neg hn']
        by_cases hwy : w < y.qty
        · simp only [if_pos hwy, volume_cons, volume_nil]
          refine ⟨?_, by omega⟩
          by_cases hvx : v < x.qty
          · rw [if_pos hvx]
            exact .keep s ho hp (by simp only; omega)
          · rw [if_neg hvx]
            exact .skip (sub_trans (take_sub _ _ _ _) s)
        · rw [if_neg hwy]
          rw [if_neg (by omega : ¬ v < x.qty)]
          obtain ⟨i1, i2⟩ := ih h2 (v - x.qty) (w - y.qty) (by omega)
          refine ⟨i1, ?_⟩
          simp only [volume_cons]; omega

theorem take_cons (sd : Side) (limit : Int) (v : Nat) (y : Queued) (l : List Queued) :
    take sd limit v (y :: l) =
      if v = 0 ∨ better sd limit y.price = true then (y :: l, [])
      else if v < y.qty then ({ y with qty := y.qty - v } :: l, [{ y with qty := v }])
      else ((take sd limit (v - y.qty) l).1, y :: (take sd limit (v - y.qty) l).2) := by
  rw [take]

/-- Taking from two lists one after the other. -/
theorem take_append (sd : Side) (limit : Int) (a b : List Queued) : ∀ v, ∃ w,
    take sd limit v (a ++ b) = ((take sd limit v a).1 ++ (take sd limit w b).1,
      (take sd limit v a).2 ++ (take sd limit w b).2) ∧ w ≤ v - volume (take sd limit v a).2 ∧
    ((∀ x ∈ a, better sd limit x.price = false) → w = v - volume (take sd limit v a).2) := by
  induction a with
  | nil =>
    intro v
    exact ⟨v, by simp [take], by simp [take, volume], by simp [take, volume]⟩
  | cons y a ih =>
    intro v
    rw [List.cons_append, take_cons, take_cons]
    by_cases h1 : v = 0 ∨ better sd limit y.price = true
    · refine ⟨0, ?_, Nat.zero_le _, fun h => ?_⟩
      · simp only [if_pos h1]
        rw [take_zero]; simp
      · simp only [if_pos h1]
        rcases h1 with h1 | h1
        · omega
        · rw [h y (by simp)] at h1; cases h1
    · by_cases h2 : v < y.qty
      · refine ⟨0, ?_, Nat.zero_le _, fun h => ?_⟩
        · simp only [if_neg h1, if_pos h2]
          rw [take_zero]; simp
        · simp only [if_neg h1, if_pos h2, volume_cons, volume_nil]; omega
      · obtain ⟨w, e1, e2, e3⟩ := ih (v - y.qty)
        refine ⟨w, ?_, ?_, fun h => ?_⟩
        · simp only [if_neg h1, if_neg h2, e1, List.cons_append]
        · simp only [if_neg h1, if_neg h2, volume_cons]; omega
        · have := e3 fun x hx => h x (by simp [hx])
          simp only [if_neg h1, if_neg h2, volume_cons]; omega

end Lfest.Market
