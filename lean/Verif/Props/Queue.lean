import Verif.SpecQueue
import Verif.Props.Wait

/-!
# C133: fills by trades are not optimistic
-/

namespace Lfest.Market

open Spec

/-- The books without and with the user's order, while that is open: the same orders are ahead of it,
none of them at a worse price, and none of those behind it have a better one. -/
structure Beside (sd : Side) (p : Int) (q : Nat) (b b' : List Queued) : Prop where
  pos : 0 < q
  split : ∃ xs ys ys', b = xs ++ ys ∧ b' = xs ++ ⟨none, p, q⟩ :: ys' ∧
    (∀ x ∈ xs, x.owner ≠ none ∧ better sd p x.price = false) ∧
    (∀ y ∈ ys, better sd y.price p = false) ∧ (∀ y ∈ ys', y.owner ≠ none)

theorem volume_nil : volume [] = 0 := rfl

theorem volume_cons (x : Queued) (l : List Queued) : volume (x :: l) = x.qty + volume l := by
  simp [volume]

theorem volume_append (a b : List Queued) : volume (a ++ b) = volume a + volume b := by
  simp [volume]

theorem mine_append (a b : List Queued) : mine (a ++ b) = mine a + mine b := by
  simp [mine, volume_append]

/-- The volume of the fills strictly beyond a price. -/
def beyond (sd : Side) (p : Int) (fs : List Queued) : Nat :=
  volume (fs.filter (fun x => better sd p x.price))

theorem beyond_append (sd : Side) (p : Int) (a b : List Queued) :
    beyond sd p (a ++ b) = beyond sd p a + beyond sd p b := by
  simp [beyond, volume_append]

theorem take_volume (sd : Side) (limit : Int) (b : List Queued) :
    ∀ v, volume (take sd limit v b).2 ≤ v := by
  induction b with
  | nil => intro v; simp [take, volume]
  | cons y ys ih =>
    intro v
    unfold take
    split
    · simp [volume]
    · split
      · simp [volume]
      · have := ih (v - y.qty)
        simp only [volume_cons]
        omega

theorem volume_filter_le (p : Queued → Bool) (l : List Queued) : volume (l.filter p) ≤ volume l := by
  induction l with
  | nil => simp
  | cons x l ih =>
    by_cases h : p x = true
    · rw [List.filter_cons_of_pos h, volume_cons, volume_cons]; omega
    · rw [List.filter_cons_of_neg h, volume_cons]; omega

theorem take_mem (sd : Side) (limit : Int) (b : List Queued) : ∀ v,
    (∀ z ∈ (take sd limit v b).1, ∃ x ∈ b, z.owner = x.owner ∧ z.price = x.price) ∧
    (∀ z ∈ (take sd limit v b).2, ∃ x ∈ b, z.owner = x.owner ∧ z.price = x.price) := by
  induction b with
  | nil => intro v; simp [take]
  | cons y ys ih =>
    intro v
    unfold take
    split
    · exact ⟨fun z hz => ⟨z, hz, rfl, rfl⟩, by simp⟩
    · split
      · refine ⟨fun z hz => ?_, fun z hz => ?_⟩
        · rcases List.mem_cons.1 hz with rfl | hz
          · exact ⟨y, by simp, rfl, rfl⟩
          · exact ⟨z, by simp [hz], rfl, rfl⟩
        · rw [List.mem_singleton.1 hz]; exact ⟨y, by simp, rfl, rfl⟩
      · obtain ⟨i1, i2⟩ := ih (v - y.qty)
        refine ⟨fun z hz => ?_, fun z hz => ?_⟩
        · obtain ⟨x, hx, e⟩ := i1 z hz
          exact ⟨x, by simp [hx], e⟩
        · rcases List.mem_cons.1 hz with rfl | hz
          · exact ⟨z, by simp, rfl, rfl⟩
          · obtain ⟨x, hx, e⟩ := i2 z hz
            exact ⟨x, by simp [hx], e⟩

theorem mine_cons {x : Queued} (h : x.owner ≠ none) (l : List Queued) : mine (x :: l) = mine l := by
  simp [mine, h]

theorem mine_none {fs : List Queued} (h : ∀ z ∈ fs, z.owner ≠ none) : mine fs = 0 := by
  have : fs.filter (fun x => decide (x.owner = none)) = [] :=
    List.filter_eq_nil_iff.2 fun z hz => by simpa using h z hz
  simp [mine, this, volume]

theorem better_of_better {sd : Side} {a p y : Int} (h1 : better sd a p = true)
    (h2 : better sd y p = false) : better sd a y = true := by
  cases sd <;> simp only [better, decide_eq_true_eq, decide_eq_false_iff_not] at * <;> omega

/-- While the user's order is open, an incoming order fills it at least as much as it trades beyond its
price in the book without it, and what is ahead stays the same. -/
theorem take_beside {sd : Side} {p limit : Int} {q : Nat} {xs ys ys' : List Queued} (hq : 0 < q)
    (hx : ∀ x ∈ xs, x.owner ≠ none ∧ better sd p x.price = false)
    (hy : ∀ y ∈ ys, better sd y.price p = false) (hy' : ∀ y ∈ ys', y.owner ≠ none) :
    ∀ v, ∃ f, mine (take sd limit v (xs ++ ⟨none, p, q⟩ :: ys')).2 = f ∧ f ≤ q ∧
      (f < q → beyond sd p (take sd limit v (xs ++ ys)).2 ≤ f ∧
        Beside sd p (q - f) (take sd limit v (xs ++ ys)).1
          (take sd limit v (xs ++ ⟨none, p, q⟩ :: ys')).1) := by
  induction xs with
  | nil =>
    intro v
    simp only [List.nil_append]
    by_cases h1 : v = 0 ∨ better sd limit p = true
    · have e1 : take sd limit v (⟨none, p, q⟩ :: ys') = (⟨none, p, q⟩ :: ys', []) := by
        unfold take; exact if_pos h1
      have e2 : take sd limit v ys = (ys, []) := by
        cases ys with
        | nil => rfl
        | cons y ys =>
          unfold take
          exact if_pos (h1.imp id fun h => better_of_better h (hy y (by simp)))
      rw [e1, e2]
      refine ⟨0, rfl, by omega, fun _ => ⟨Nat.le_refl _, by omega, ?_⟩⟩
      exact ⟨[], ys, ys', rfl, rfl, by simp, hy, hy'⟩
    · by_cases h2 : v < q
      · have e1 : take sd limit v (⟨none, p, q⟩ :: ys') =
            (⟨none, p, q - v⟩ :: ys', [⟨none, p, v⟩]) := by
          unfold take; simp only [if_neg h1, if_pos h2]
        rw [e1]
        refine ⟨v, by simp [mine, volume], by omega, fun _ => ⟨?_, by omega, ?_⟩⟩
        · exact Nat.le_trans (volume_filter_le _ _) (take_volume sd limit ys v)
        · refine ⟨[], _, ys', rfl, rfl, by simp, fun z hz => ?_, hy'⟩
          obtain ⟨x, hx, _, e⟩ := (take_mem sd limit ys v).1 z hz
          rw [e]; exact hy x hx
      · have e1 : take sd limit v (⟨none, p, q⟩ :: ys') =
            ((take sd limit (v - q) ys').1, ⟨none, p, q⟩ :: (take sd limit (v - q) ys').2) := by
          rw [take]; simp only [if_neg h1, if_neg h2]
        rw [e1]
        refine ⟨q, ?_, Nat.le_refl _, fun h => absurd h (Nat.lt_irrefl _)⟩
        have := mine_none (fs := (take sd limit (v - q) ys').2) (fun z hz => by
          obtain ⟨x, hx, e, _⟩ := (take_mem sd limit ys' (v - q)).2 z hz
          rw [e]; exact hy' x hx)
        rw [show (⟨none, p, q⟩ :: (take sd limit (v - q) ys').2 : List Queued) =
          [⟨none, p, q⟩] ++ (take sd limit (v - q) ys').2 from rfl, mine_append, this]
        simp [mine, volume]
  | cons x xs ih =>
    intro v
    have hx1 := hx x (by simp)
    have ih' := ih (fun y hy => hx y (by simp [hy]))
    simp only [List.cons_append]
    unfold take
    by_cases h1 : v = 0 ∨ better sd limit x.price = true
    · simp only [if_pos h1]
      refine ⟨0, rfl, by omega, fun _ => ⟨Nat.le_refl _, by omega, ?_⟩⟩
      exact ⟨x :: xs, ys, ys', rfl, rfl, hx, hy, hy'⟩
    · simp only [if_neg h1]
      by_cases h2 : v < x.qty
      · simp only [if_pos h2]
        refine ⟨0, by simp [mine, volume, hx1.1], by omega, fun _ => ⟨?_, by omega, ?_⟩⟩
        · simp [beyond, volume, hx1.2]
        · refine ⟨{ x with qty := x.qty - v } :: xs, ys, ys', rfl, rfl, ?_, hy, hy'⟩
          intro z hz
          rcases List.mem_cons.1 hz with rfl | hz
          · exact hx1
          · exact hx z (by simp [hz])
      · simp only [if_neg h2]
        obtain ⟨f, e1, e2, e3⟩ := ih' (v - x.qty)
        refine ⟨f, ?_, e2, fun h => ?_⟩
        · rw [← e1]; simp [mine, hx1.1]
        · obtain ⟨e4, e5⟩ := e3 h
          refine ⟨?_, e5⟩
          have : beyond sd p (x :: (take sd limit (v - x.qty) (xs ++ ys)).2) =
              beyond sd p (take sd limit (v - x.qty) (xs ++ ys)).2 := by
            simp [beyond, hx1.2]
          omega

theorem join_append {sd : Side} {x : Queued} {xs ys : List Queued}
    (h : ∀ z ∈ xs, better sd x.price z.price = false) : join sd x (xs ++ ys) = xs ++ join sd x ys := by
  induction xs with
  | nil => rfl
  | cons z xs ih =>
    simp only [List.cons_append, join, h z (by simp), Bool.false_eq_true, if_false]
    rw [ih fun y hy => h y (by simp [hy])]

theorem join_before {sd : Side} {x : Queued} {xs ys : List Queued}
    (h : ∀ z ∈ ys, better sd x.price z.price = true) : join sd x (xs ++ ys) = join sd x xs ++ ys := by
  induction xs with
  | nil =>
    cases ys with
    | nil => rfl
    | cons z ys => simp [join, h z (by simp)]
  | cons z xs ih =>
    simp only [List.cons_append, join]
    split
    · rfl
    · rw [ih]; rfl

theorem mem_join {sd : Side} {x z : Queued} {xs : List Queued} : z ∈ join sd x xs ↔ z = x ∨ z ∈ xs := by
  induction xs with
  | nil => simp [join]
  | cons y xs ih =>
    simp only [join]
    split
    · simp
    · simp only [List.mem_cons, ih]
      constructor
      · rintro (h | h | h) <;> simp [h]
      · rintro (h | h | h) <;> simp [h]

/-- One action in the two books. -/
theorem act_beside {sd : Side} {p : Int} {q : Nat} {b b' : List Queued} (h : Beside sd p q b b')
    (a : Act) : ∃ f, mine (act sd b' a).2 = f ∧ f ≤ q ∧
      (f < q → beyond sd p (act sd b a).2 ≤ f ∧ Beside sd p (q - f) (act sd b a).1 (act sd b' a).1) := by
  obtain ⟨hq, xs, ys, ys', rfl, rfl, hx, hy, hy'⟩ := h
  cases a with
  | take v limit => exact take_beside hq hx hy hy' v
  | withdraw i =>
    refine ⟨0, rfl, by omega, fun _ => ⟨Nat.le_refl _, by omega, ?_⟩⟩
    refine ⟨xs.filter (fun x => decide (x.owner ≠ some i)), ys.filter (fun x => decide (x.owner ≠ some i)),
      ys'.filter (fun x => decide (x.owner ≠ some i)), ?_, ?_, ?_, ?_, ?_⟩
    · simp only [act, List.filter_append]
    · simp only [act, List.filter_append]
      rw [List.filter_cons_of_pos (by simp)]
      rfl
    · exact fun x h => hx x (List.mem_filter.1 h).1
    · exact fun x h => hy x (List.mem_filter.1 h).1
    · exact fun x h => hy' x (List.mem_filter.1 h).1
  | rest i price k =>
    refine ⟨0, rfl, by omega, fun _ => ⟨Nat.le_refl _, by omega, ?_⟩⟩
    by_cases hb : better sd price p = true
    · refine ⟨join sd ⟨some i, price, k⟩ xs, ys, ys', ?_, ?_, ?_, hy, hy'⟩
      · exact join_before fun z hz => better_of_better hb (hy z hz)
      · simp only [act]
        -- nothing behind the user's order matters: it is worse than the new one
        induction xs with
        | nil => simp [join, hb]
        | cons z xs ih =>
          simp only [List.cons_append, join]
          split
          · rfl
          · rw [ih fun x h => hx x (by simp [h])]; rfl
      · intro z hz
        rcases mem_join.1 hz with rfl | hz
        · refine ⟨by simp, ?_⟩
          cases sd <;> simp only [better, decide_eq_true_eq, decide_eq_false_iff_not] at * <;> omega
        · exact hx z hz
    · have hb : better sd price p = false := by simpa using hb
      have hxs : ∀ z ∈ xs, better sd price z.price = false := by
        intro z hz
        have := (hx z hz).2
        cases sd <;> simp only [better, decide_eq_false_iff_not] at * <;> omega
      refine ⟨xs, join sd ⟨some i, price, k⟩ ys, join sd ⟨some i, price, k⟩ ys', ?_, ?_, hx, ?_, ?_⟩
      · exact join_append hxs
      · simp only [act]
        rw [join_append hxs]
        simp [join, hb]
      · intro z hz
        rcases mem_join.1 hz with rfl | hz
        · exact hb
        · exact hy z hz
      · intro z hz
        rcases mem_join.1 hz with rfl | hz
        · simp
        · exact hy' z hz

/-- A whole sequence of actions. -/
theorem play_beside {sd : Side} {p : Int} (l : List Act) : ∀ {q : Nat} {b b' : List Queued},
    Beside sd p q b b' → min q (beyond sd p (play sd b l).2) ≤ mine (play sd b' l).2 := by
  induction l with
  | nil => intro q b b' _; simp [play, beyond, volume]
  | cons a l ih =>
    intro q b b' h
    obtain ⟨f, e1, e2, e3⟩ := act_beside h a
    simp only [play, mine_append, beyond_append]
    by_cases hf : f < q
    · obtain ⟨e4, e5⟩ := e3 hf
      have := ih e5
      omega
    · omega

theorem play_owner {sd : Side} (l : List Act) : ∀ {b : List Queued}, (∀ x ∈ b, x.owner ≠ none) →
    ∀ x ∈ (play sd b l).1, x.owner ≠ none := by
  induction l with
  | nil => intro b h; exact h
  | cons a l ih =>
    intro b h
    refine ih ?_
    intro x hx
    cases a with
    | rest i price k =>
      rcases mem_join.1 hx with rfl | hx
      · simp
      · exact h x hx
    | withdraw i => exact h x (List.mem_filter.1 hx).1
    | take v limit =>
      obtain ⟨y, hy, e, _⟩ := (take_mem sd limit b v).1 x hx
      rw [e]; exact h y hy

/-- Orders are in order of their prices. -/
def Sorted (sd : Side) (b : List Queued) : Prop :=
  b.Pairwise (fun x y => better sd y.price x.price = false)

theorem sorted_join {sd : Side} {x : Queued} {b : List Queued} (h : Sorted sd b) :
    Sorted sd (join sd x b) := by
  induction b with
  | nil => simp [join, Sorted]
  | cons y b ih =>
    obtain ⟨h1, h2⟩ := List.pairwise_cons.1 h
    simp only [join]
    split
    · rename_i hb
      refine List.pairwise_cons.2 ⟨fun z hz => ?_, h⟩
      rcases List.mem_cons.1 hz with rfl | hz
      · cases sd <;> simp only [better, decide_eq_true_eq, decide_eq_false_iff_not] at * <;> omega
      · have := h1 z hz
        cases sd <;> simp only [better, decide_eq_true_eq, decide_eq_false_iff_not] at * <;> omega
    · rename_i hb
      refine List.pairwise_cons.2 ⟨fun z hz => ?_, ih h2⟩
      rcases mem_join.1 hz with rfl | hz
      · simpa using hb
      · exact h1 z hz

theorem sorted_take {sd : Side} {limit : Int} {b : List Queued} : ∀ v, Sorted sd b →
    Sorted sd (take sd limit v b).1 := by
  induction b with
  | nil => intro v _; simp [take, Sorted]
  | cons y b ih =>
    intro v h
    obtain ⟨h1, h2⟩ := List.pairwise_cons.1 h
    unfold take
    split
    · exact h
    · split
      · exact List.pairwise_cons.2 ⟨h1, h2⟩
      · exact ih _ h2

theorem sorted_play {sd : Side} (l : List Act) : ∀ {b : List Queued}, Sorted sd b →
    Sorted sd (play sd b l).1 := by
  induction l with
  | nil => intro b h; exact h
  | cons a l ih =>
    intro b h
    refine ih ?_
    cases a with
    | rest i price k => exact sorted_join h
    | withdraw i => exact h.filter _
    | take v limit => exact sorted_take v h

/-- The user's order joins a book. -/
theorem join_beside {sd : Side} {p : Int} {q : Nat} {b : List Queued} (hq : 0 < q) (hs : Sorted sd b)
    (ho : ∀ x ∈ b, x.owner ≠ none) : Beside sd p q b (join sd ⟨none, p, q⟩ b) := by
  refine ⟨hq, ?_⟩
  induction b with
  | nil => exact ⟨[], [], [], rfl, rfl, by simp, by simp, by simp⟩
  | cons y b ih =>
    obtain ⟨h1, h2⟩ := List.pairwise_cons.1 hs
    by_cases hb : better sd p y.price = true
    · refine ⟨[], y :: b, y :: b, rfl, by simp [join, hb], by simp, ?_, ho⟩
      intro z hz
      rcases List.mem_cons.1 hz with rfl | hz
      · cases sd <;> simp only [better, decide_eq_true_eq, decide_eq_false_iff_not] at * <;> omega
      · have := h1 z hz
        cases sd <;> simp only [better, decide_eq_true_eq, decide_eq_false_iff_not] at * <;> omega
    · obtain ⟨xs, ys, ys', e1, e2, e3, e4, e5⟩ := ih h2 fun x hx => ho x (by simp [hx])
      refine ⟨y :: xs, ys, ys', by rw [e1]; rfl, by simp [join, hb, e2], ?_, e4, e5⟩
      intro z hz
      rcases List.mem_cons.1 hz with rfl | hz
      · exact ⟨ho _ (by simp), by simpa using hb⟩
      · exact e3 z hz

/-! ## Trades at the price of the order -/

/-- The volume of the fills at a price or beyond it. -/
def atOrBeyond (sd : Side) (p : Int) (fs : List Queued) : Nat :=
  volume (fs.filter (fun x => !better sd x.price p))

theorem atOrBeyond_append (sd : Side) (p : Int) (a b : List Queued) :
    atOrBeyond sd p (a ++ b) = atOrBeyond sd p a + atOrBeyond sd p b := by
  simp [atOrBeyond, volume_append]

theorem take_upper {sd : Side} {p limit : Int} {q : Nat} {xs ys ys' : List Queued}
    (hx : ∀ x ∈ xs, x.owner ≠ none) (hy : ∀ y ∈ ys, better sd y.price p = false) : ∀ v, volume (take sd limit v (xs ++ ys)).2 = v →
    mine (take sd limit v (xs ++ ⟨none, p, q⟩ :: ys')).2 ≤
      atOrBeyond sd p (take sd limit v (xs ++ ys)).2 := by
  induction xs with
  | nil =>
    intro v hv
    simp only [List.nil_append] at hv ⊢
    have e : atOrBeyond sd p (take sd limit v ys).2 = v := by
      unfold atOrBeyond
      rw [List.filter_eq_self.2 ?_, hv]
      intro z hz
      obtain ⟨x, hx, _, e⟩ := (take_mem sd limit ys v).2 z hz
      simp [e, hy x hx]
    rw [e]
    exact Nat.le_trans (volume_filter_le _ _) (take_volume sd limit _ v)
  | cons x xs ih =>
    intro v
    have hx1 := hx x (by simp)
    have ih' := ih (fun y hy => hx y (by simp [hy]))
    simp only [List.cons_append]
    unfold take
    by_cases h1 : v = 0 ∨ better sd limit x.price = true
    · simp only [if_pos h1]
      intro _
      rw [mine_none (by simp)]; exact Nat.zero_le _
    · simp only [if_neg h1]
      by_cases h2 : v < x.qty
      · simp only [if_pos h2]
        intro _
        rw [mine_none (by simpa using hx1)]; exact Nat.zero_le _
      · simp only [if_neg h2, volume_cons]
        intro hv
        have := ih' (v - x.qty) (by omega)
        have e2 : ∀ l, atOrBeyond sd p l ≤ atOrBeyond sd p (x :: l) := fun l => by
          unfold atOrBeyond
          by_cases h : (!better sd x.price p) = true
          · rw [List.filter_cons_of_pos (by exact h), volume_cons]; omega
          · rw [List.filter_cons_of_neg (by exact h)]; exact Nat.le_refl _
        rw [mine_cons hx1]
        exact Nat.le_trans this (e2 _)

/-- Once the user's order is filled there is nothing of it left in the book. -/
theorem take_gone {sd : Side} {p limit : Int} {q : Nat} {xs ys' : List Queued} (hq : 0 < q)
    (hx : ∀ x ∈ xs, x.owner ≠ none) (hy' : ∀ y ∈ ys', y.owner ≠ none) : ∀ v,
    mine (take sd limit v (xs ++ ⟨none, p, q⟩ :: ys')).2 = q →
    ∀ z ∈ (take sd limit v (xs ++ ⟨none, p, q⟩ :: ys')).1, z.owner ≠ none := by
  induction xs with
  | nil =>
    intro v
    simp only [List.nil_append]
    unfold take
    split
    · intro h; simp [mine, volume] at h; omega
    · split
      · rename_i h2
        intro h
        have h2 : v < q := h2
        simp [mine, volume] at h
        omega
      · intro _ z hz
        obtain ⟨x, hx, e, _⟩ := (take_mem sd limit ys' _).1 z hz
        rw [e]; exact hy' x hx
  | cons x xs ih =>
    intro v
    have hx1 := hx x (by simp)
    have ih' := ih (fun y hy => hx y (by simp [hy]))
    simp only [List.cons_append]
    unfold take
    split
    · intro h; simp [mine, volume] at h; omega
    · split
      · intro h; simp [mine, volume, hx1] at h; omega
      · intro h
        exact ih' _ ((mine_cons hx1 _).symm.trans h)

theorem act_others {sd : Side} {b : List Queued} (h : ∀ x ∈ b, x.owner ≠ none) (a : Act) :
    mine (act sd b a).2 = 0 := by
  cases a with
  | rest i price k => rfl
  | withdraw i => rfl
  | take v limit =>
    refine mine_none fun z hz => ?_
    obtain ⟨y, hy, e, _⟩ := (take_mem sd limit b v).2 z hz
    rw [e]; exact h y hy

theorem play_others {sd : Side} (l : List Act) : ∀ {b : List Queued}, (∀ x ∈ b, x.owner ≠ none) →
    mine (play sd b l).2 = 0 := by
  induction l with
  | nil => intro b _; rfl
  | cons a l ih =>
    intro b h
    simp only [play, mine_append]
    rw [act_others h, ih (b := (act sd b a).1) (play_owner [a] h)]

theorem play_upper {sd : Side} {p : Int} (l : List Act) : ∀ {q : Nat} {b b' : List Queued},
    Beside sd p q b b' → sated sd b l → mine (play sd b' l).2 ≤ atOrBeyond sd p (play sd b l).2 := by
  induction l with
  | nil => intro q b b' _ _; simp [play, mine, volume]
  | cons a l ih =>
    intro q b b' h hs
    obtain ⟨f, e1, e2, e3⟩ := act_beside h a
    obtain ⟨hs1, hs2⟩ := hs
    simp only [play, mine_append, atOrBeyond_append]
    have hup : mine (act sd b' a).2 ≤ atOrBeyond sd p (act sd b a).2 := by
      obtain ⟨hq, xs, ys, ys', rfl, rfl, hx, hy, hy'⟩ := h
      cases a with
      | take v limit => exact take_upper (fun x h => (hx x h).1) hy v (hs1 v limit rfl)
      | rest i price k => exact Nat.zero_le _
      | withdraw i => exact Nat.zero_le _
    by_cases hf : f < q
    · have := ih (e3 hf).2 hs2
      omega
    · have hgone : ∀ z ∈ (act sd b' a).1, z.owner ≠ none := by
        obtain ⟨hq, xs, ys, ys', rfl, rfl, hx, hy, hy'⟩ := h
        cases a with
        | take v limit => exact take_gone hq (fun x h => (hx x h).1) hy' v (by
            show mine (act sd _ (.take v limit)).2 = q
            omega)
        | rest i price k =>
          have : f = 0 := e1.symm
          omega
        | withdraw i =>
          have : f = 0 := e1.symm
          omega
      rw [play_others l hgone]
      omega

/-- No more is filled than the order asks for. -/
theorem play_bound {sd : Side} {p : Int} (l : List Act) : ∀ {q : Nat} {b b' : List Queued},
    Beside sd p q b b' → mine (play sd b' l).2 ≤ q := by
  induction l with
  | nil => intro q b b' _; simp [play, mine, volume]
  | cons a l ih =>
    intro q b b' h
    obtain ⟨f, e1, e2, e3⟩ := act_beside h a
    simp only [play, mine_append]
    by_cases hf : f < q
    · have := ih (e3 hf).2
      omega
    · have hgone : ∀ z ∈ (act sd b' a).1, z.owner ≠ none := by
        obtain ⟨hq, xs, ys, ys', rfl, rfl, hx, hy, hy'⟩ := h
        cases a with
        | take v limit => exact take_gone hq (fun x h => (hx x h).1) hy' v (by
            show mine (act sd _ (.take v limit)).2 = q
            omega)
        | rest i price k =>
          have : f = 0 := e1.symm
          omega
        | withdraw i =>
          have : f = 0 := e1.symm
          omega
      rw [play_others l hgone]
      omega

/-! ## The simulated exchange reads the tape -/

/-- The volume on a tape that goes through the price of an order. -/
def tapeVolume (sd : Side) (p : Int) (l : List (Side × Int × Int)) : Int :=
  ((l.filter (fun x => decide (x.1 = sd.inverted) && better sd p x.2.1)).map (fun x => x.2.2)).sum

theorem tapeVolume_append (sd : Side) (p : Int) (a b : List (Side × Int × Int)) :
    tapeVolume sd p (a ++ b) = tapeVolume sd p a + tapeVolume sd p b := by
  simp [tapeVolume]

theorem tapeVolume_prints (sd : Side) (p : Int) (fs : List Queued) :
    tapeVolume sd p (fs.map (print sd)) = beyond sd p fs := by
  induction fs with
  | nil => rfl
  | cons x fs ih =>
    have e1 : tapeVolume sd p ((x :: fs).map (print sd)) =
        tapeVolume sd p [print sd x] + tapeVolume sd p (fs.map (print sd)) := by
      rw [← tapeVolume_append]; rfl
    have e2 : beyond sd p (x :: fs) = beyond sd p [x] + beyond sd p fs := by
      rw [← beyond_append]; rfl
    rw [e1, e2, ih]
    by_cases h : better sd p x.price = true <;> simp [tapeVolume, beyond, volume, print, h]

theorem tapeVolume_nonneg {sd : Side} {p : Int} {l : List (Side × Int × Int)}
    (h : ∀ x ∈ l, 0 ≤ x.2.2) : 0 ≤ tapeVolume sd p l := by
  induction l with
  | nil => exact Int.le_refl _
  | cons x l ih =>
    have e : tapeVolume sd p (x :: l) = tapeVolume sd p [x] + tapeVolume sd p l := by
      rw [← tapeVolume_append]; rfl
    have := ih fun y hy => h y (by simp [hy])
    have hx := h x (by simp)
    rw [e]
    have : 0 ≤ tapeVolume sd p [x] := by
      unfold tapeVolume
      by_cases hc : (decide (x.1 = sd.inverted) && better sd p x.2.1) = true
      · rw [List.filter_cons_of_pos (by exact hc)]; simpa using hx
      · rw [List.filter_cons_of_neg (by exact hc)]; simp
    omega

theorem hits_eq (t : Trade) (sd : Side) (p : Int) :
    hits t sd p = (decide (t.side = sd.inverted) && better sd p t.price) := by
  rw [Bool.eq_iff_iff]
  cases sd <;> simp [hits, better, Side.inverted] <;> exact fun _ => decide_eq_true_iff.symm

theorem tapeVolume_trades (sd : Side) (p : Int) (ts : List Trade) :
    tapeVolume sd p (ts.map (fun t => (t.side, t.price, t.qty))) =
      tradeSum (ts.filter (fun t => hits t sd p)) := by
  induction ts with
  | nil => rfl
  | cons t ts ih =>
    simp only [tapeVolume, hits_eq, List.map_cons] at ih ⊢
    by_cases h : (decide (t.side = sd.inverted) && better sd p t.price) = true
    · rw [List.filter_cons_of_pos (by exact h), List.filter_cons_of_pos (by exact h)]
      simp only [List.map_cons, List.sum_cons, tradeSum, ih]
    · rw [List.filter_cons_of_neg (by exact h), List.filter_cons_of_neg (by exact h)]
      exact ih

/-- What one call brings to an order, and its part of the tape. -/
theorem brings_tape {o : Limit} {op : Op} {r : Resp} (ht : tapeOnly op)
    (hn : ∀ x ∈ tape [op], 0 ≤ x.2.2) : ∃ v, brings o (op, r) = some v ∧
      v ≤ tapeVolume o.side o.price (tape [op]) ∧
      ((∀ u, op = .update u → ∃ ups, r = .update (.ok ups)) →
        v = tapeVolume o.side o.price (tape [op])) := by
  have h0 := tapeVolume_nonneg (sd := o.side) (p := o.price) hn
  have idle : tape [op] = [] → brings o (op, r) = atLeast0 0 → ∃ v, brings o (op, r) = some v ∧
      v ≤ tapeVolume o.side o.price (tape [op]) ∧
      ((∀ u, op = .update u → ∃ ups, r = .update (.ok ups)) →
        v = tapeVolume o.side o.price (tape [op])) := by
    intro e1 e2
    rw [e1, e2]
    exact ⟨0, rfl, by simp [tapeVolume], fun _ => by simp [tapeVolume]⟩
  have missed : ∀ u, op = .update u → (∀ ups, r ≠ .update (.ok ups)) → brings o (op, r) = atLeast0 0 →
      ∃ v, brings o (op, r) = some v ∧ v ≤ tapeVolume o.side o.price (tape [op]) ∧
      ((∀ u, op = .update u → ∃ ups, r = .update (.ok ups)) →
        v = tapeVolume o.side o.price (tape [op])) := by
    intro u e1 e2 e3
    rw [e3]
    refine ⟨0, rfl, h0, fun h => ?_⟩
    obtain ⟨ups, e⟩ := h u e1
    exact absurd e (e2 ups)
  cases op with
  | update u =>
    by_cases hok : ∃ ups, r = .update (.ok ups)
    · obtain ⟨ups, rfl⟩ := hok
      cases u with
      | bba b => exact idle rfl rfl
      | candle k => exact ht.elim
      | custom k => exact ht.elim
      | trade t =>
        have e := tapeVolume_trades o.side o.price [t]
        have e' : tape [.update (.trade t)] = [t].map (fun t => (t.side, t.price, t.qty)) := rfl
        have hq : 0 ≤ t.qty := hn (t.side, t.price, t.qty) (by simp [e'])
        rw [e', e]
        by_cases hh : hits t o.side o.price = true
        · refine ⟨t.qty, ?_, ?_, fun _ => ?_⟩
          · simp only [brings, through, hh, if_true, atLeast0]
            rw [if_neg (by omega)]
          · simp [hh, tradeSum]
          · simp [hh, tradeSum]
        · refine ⟨0, ?_, ?_, fun _ => ?_⟩
          · simp [brings, through, hh, atLeast0]
          · simp [hh, tradeSum]
          · simp [hh, tradeSum]
      | smart ts b pf =>
        have e := tapeVolume_trades o.side o.price ts
        have e' : tape [.update (.smart ts b pf)] = ts.map (fun t => (t.side, t.price, t.qty)) := by
          simp [tape]
        rw [e'] at h0 ⊢
        rw [e] at h0 ⊢
        refine ⟨_, ?_, Int.le_refl _, fun _ => rfl⟩
        simp only [brings, through, atLeast0]
        rw [if_neg (by omega)]
    · have e3 : brings o (.update u, r) = atLeast0 0 := by
        cases r with
        | update x =>
          cases x with
          | ok ups => exact absurd ⟨ups, rfl⟩ hok
          | error e => rfl
        | _ => rfl
      exact missed u rfl (fun ups e => hok ⟨ups, e⟩) e3
  | checkActive u => exact ht.elim
  | limit _ _ _ _ => exact idle rfl rfl
  | market _ _ _ => exact idle rfl rfl
  | cancel _ => exact idle rfl rfl
  | amend _ _ _ _ _ => exact idle rfl rfl

theorem tape_cons (op : Op) (ops : List Op) : tape (op :: ops) = tape [op] ++ tape ops := by
  cases op with
  | update u => cases u <;> simp [tape]
  | _ => simp [tape]

theorem passed_tape {c : Cfg} {o : Limit} (ops : List Op) : ∀ {s s' : State} {tr : List (Op × Resp)},
    history c s ops = .ok (s', tr) → (∀ op ∈ ops, tapeOnly op) → (∀ x ∈ tape ops, 0 ≤ x.2.2) →
    ∃ v, passed o tr = some v ∧ v ≤ tapeVolume o.side o.price (tape ops) ∧
      ((∀ x ∈ tr, ∀ u, x.1 = .update u → ∃ ups, x.2 = .update (.ok ups)) →
        v = tapeVolume o.side o.price (tape ops)) := by
  induction ops with
  | nil =>
    intro s s' tr h _ _
    simp only [history, ok_inj, Prod.mk.injEq] at h
    obtain ⟨_, rfl⟩ := h
    exact ⟨0, rfl, by simp [tape, tapeVolume], fun _ => by simp [tape, tapeVolume]⟩
  | cons op ops ih =>
    intro s s' tr h ht hn
    simp only [history] at h
    obtain ⟨⟨s1, r⟩, h1, h2⟩ := bind_ok.1 h
    obtain ⟨⟨s2, tr2⟩, h3, h4⟩ := bind_ok.1 h2
    simp only [ok_inj, Prod.mk.injEq] at h4
    obtain ⟨rfl, rfl⟩ := h4
    rw [tape_cons] at hn ⊢
    obtain ⟨v, e1, e2, e3⟩ := ih h3 (fun o ho => ht o (by simp [ho])) (fun x hx => hn x (by simp [hx]))
    obtain ⟨w, g1, g2, g3⟩ := brings_tape (o := o) (r := r) (ht op (by simp))
      (fun x hx => hn x (by simp [hx]))
    refine ⟨w + v, ?_, ?_, fun hok => ?_⟩
    · simp only [passed, e1, g1, plus]
    · rw [tapeVolume_append]; omega
    · rw [tapeVolume_append, g3 (hok (op, r) (by simp)), e3 fun x hx => hok x (by simp [hx])]

end Lfest.Market

namespace Lfest

open Spec Market

/-- C133: as long as only quotes and trades are fed to the simulated exchange, one by one or packed into
smart candles, a resting order is never filled by more than it would have been on a real exchange with
price-time priority, had it been there. `before` and `after` are what the other traders did on its side
of the book before and after it was placed; the trades on the tape are those that came of it without
the user's order. On the real exchange the order queues behind all orders at its price. -/
theorem C133_not_optimistic (c : Cfg) (s s' : State) (o : Limit) (ops : List Op)
    (tr : List (Op × Resp)) (hr : Reachable c s) (ho : o ∈ s.active)
    (h : history c s ops = .ok (s', tr)) (hw : ∀ x ∈ tr, withdraws o.id x = false)
    (hto : ∀ op ∈ ops, tapeOnly op) (before after : List Act)
    (ht : tape ops = (play o.side (play o.side [] before).1 after).2.map (print o.side)) :
    o.remaining - openQty s' o.id ≤
      mine (play o.side (join o.side ⟨none, o.price, o.remaining.toNat⟩ (play o.side [] before).1)
        after).2 := by
  have hrem : 0 < o.remaining := (hr.inv.orders o ho).rem
  have hb := join_beside (sd := o.side) (p := o.price) (q := o.remaining.toNat) (by omega)
    (sorted_play before (b := []) (by simp [Sorted])) (play_owner before (b := []) (by simp))
  have hmin := play_beside after hb
  obtain ⟨v, e1, e2, _⟩ := passed_tape (o := o) ops h hto (by
    rw [ht]
    intro x hx
    obtain ⟨y, _, rfl⟩ := List.mem_map.1 hx
    exact Int.natCast_nonneg _)
  rw [ht, tapeVolume_prints] at e2
  rw [C103_waiting c s s' hr o ho ops tr h hw, e1]
  simp only [left]
  split <;> omega

/-- C133, the other way round: if the orders of the other traders are deep enough to fill every incoming
order completely, none of the trades is at the price of the order, and no update reports an error, then
the simulated exchange fills the order by exactly as much as the real one. -/
theorem C133_exact (c : Cfg) (s s' : State) (o : Limit) (ops : List Op)
    (tr : List (Op × Resp)) (hr : Reachable c s) (ho : o ∈ s.active)
    (h : history c s ops = .ok (s', tr)) (hw : ∀ x ∈ tr, withdraws o.id x = false)
    (hto : ∀ op ∈ ops, tapeOnly op) (before after : List Act)
    (ht : tape ops = (play o.side (play o.side [] before).1 after).2.map (print o.side))
    (hok : ∀ x ∈ tr, ∀ u, x.1 = .update u → ∃ ups, x.2 = .update (.ok ups))
    (hs : sated o.side (play o.side [] before).1 after) (hp : ∀ x ∈ tape ops, x.2.1 ≠ o.price) :
    o.remaining - openQty s' o.id =
      mine (play o.side (join o.side ⟨none, o.price, o.remaining.toNat⟩ (play o.side [] before).1)
        after).2 := by
  have hrem : 0 < o.remaining := (hr.inv.orders o ho).rem
  have hb := join_beside (sd := o.side) (p := o.price) (q := o.remaining.toNat) (by omega)
    (sorted_play before (b := []) (by simp [Sorted])) (play_owner before (b := []) (by simp))
  have hmin := play_beside after hb
  have hup := play_upper after hb hs
  have hbd := play_bound after hb
  obtain ⟨v, e1, _, e3⟩ := passed_tape (o := o) ops h hto (by
    rw [ht]
    intro x hx
    obtain ⟨y, _, rfl⟩ := List.mem_map.1 hx
    exact Int.natCast_nonneg _)
  have e3 := e3 hok
  have heq : atOrBeyond o.side o.price (play o.side (play o.side [] before).1 after).2 =
      beyond o.side o.price (play o.side (play o.side [] before).1 after).2 := by
    unfold atOrBeyond beyond
    congr 1
    refine List.filter_congr fun x hx => ?_
    have : x.price ≠ o.price := by
      refine hp (print o.side x) ?_
      rw [ht]
      exact List.mem_map.2 ⟨x, hx, rfl⟩
    cases o.side <;> simp only [better, ← decide_not, decide_eq_decide] <;> omega
  rw [ht, tapeVolume_prints] at e3
  rw [C103_waiting c s s' hr o ho ops tr h hw, e1]
  simp only [left]
  split <;> omega

/-! ## The hypotheses are met -/

/-- The other traders' offers before the user's offer of 3 at 110: 1 at 109, 2 at 110, 5 at 112. -/
def Ex.depth : List Act :=
  [.rest 1 (Ex.d 109) 100000, .rest 2 (Ex.d 110) 200000, .rest 3 (Ex.d 112) 500000]

/-- Then 4 are bought, 1 more is offered at 110, 1.5 are bought, and some offer withdrawn. -/
def Ex.flow : List Act :=
  [.take 400000 (Ex.d 112), .rest 4 (Ex.d 110) 100000, .take 150000 (Ex.d 115), .withdraw 3]

/-- The trades that come of it, the last two in a smart candle, with a quote in between and an order of
the user's on the other side. -/
def Ex.printed : List Op :=
  [.update (.trade ⟨2, Ex.d 109, Ex.d 1, .buy⟩), .update (.trade ⟨2, Ex.d 110, Ex.d 2, .buy⟩),
   .update (.trade ⟨2, Ex.d 112, Ex.d 1, .buy⟩), .update (.bba ⟨Ex.d 109, Ex.d 110, 3⟩),
   .limit .buy (Ex.d 90) (Ex.d 1) 5,
   .update (.smart [⟨4, Ex.d 110, Ex.d 1, .buy⟩, ⟨4, Ex.d 112, 50000, .buy⟩] ⟨Ex.d 109, Ex.d 112, 5⟩
     Ex.lin.spec.priceFilter)]

/-- 1.5 of the 3 are filled on the simulated exchange, 2.5 on the real one. -/
example : Ex.onward Ex.lin Ex.ops1 Ex.printed (fun s s' tr => s.active.any (fun o =>
    tr.all (fun x => !withdraws o.id x) && decide (o.side = .sell ∧ o.remaining = Ex.d 3 ∧
      tape Ex.printed = (play o.side (play o.side [] Ex.depth).1 Ex.flow).2.map (print o.side) ∧
      o.remaining - openQty s' o.id = 150000 ∧
      mine (play o.side (join o.side ⟨none, o.price, o.remaining.toNat⟩ (play o.side [] Ex.depth).1)
        Ex.flow).2 = 250000))) = true := by decide +kernel

example : ∀ op ∈ Ex.printed, tapeOnly op := by simp [Ex.printed, tapeOnly]

/-- Nothing at 110 apart from the user's order: 2 bought, then 1.5. -/
def Ex.gap : List Act := [.rest 1 (Ex.d 109) 100000, .rest 3 (Ex.d 112) 500000]

@[inherit_doc Ex.gap]
def Ex.flow2 : List Act := [.take 200000 (Ex.d 112), .withdraw 7, .take 150000 (Ex.d 115)]

@[inherit_doc Ex.gap]
def Ex.printed2 : List Op :=
  [.update (.trade ⟨2, Ex.d 109, Ex.d 1, .buy⟩), .update (.trade ⟨2, Ex.d 112, Ex.d 1, .buy⟩),
   .update (.trade ⟨4, Ex.d 112, 150000, .buy⟩)]

/-- The hypotheses of `C133_exact` are met: 2.5 are filled on both. -/
example : Ex.onward Ex.lin Ex.ops1 Ex.printed2 (fun s s' tr => s.active.any (fun o =>
    tr.all (fun x => !withdraws o.id x && Ex.isOk x.2) && decide (o.side = .sell ∧ o.remaining = Ex.d 3 ∧
      tape Ex.printed2 = (play o.side (play o.side [] Ex.gap).1 Ex.flow2).2.map (print o.side) ∧
      (∀ x ∈ tape Ex.printed2, x.2.1 ≠ o.price) ∧
      o.remaining - openQty s' o.id = 250000))) = true := by decide +kernel

example : sated .sell (play .sell [] Ex.gap).1 Ex.flow2 := by
  refine ⟨fun v l h => ?_, fun v l h => ?_, fun v l h => ?_, trivial⟩
  · cases h; decide +kernel
  · cases h
  · cases h; decide +kernel

/-- C133 is false for candles: one that spans the trades of `Ex.gap` fills the whole order, of which the
real exchange fills less. -/
theorem C133_candles_are_optimistic : ∃ (s s' : State) (o : Limit) (k : Candle) (ups : List LimitUpdate),
    Reachable Ex.lin s ∧ o ∈ s.active ∧
    (∀ x ∈ (play o.side (play o.side [] Ex.gap).1 Ex.flow2).2, k.low ≤ x.price ∧ x.price ≤ k.high) ∧
    (∃ x ∈ (play o.side (play o.side [] Ex.gap).1 Ex.flow2).2, x.price = k.low) ∧
    (∃ x ∈ (play o.side (play o.side [] Ex.gap).1 Ex.flow2).2, x.price = k.high) ∧
    step Ex.lin s (.update (.candle k)) = .ok (s', .update (.ok ups)) ∧
    (mine (play o.side (join o.side ⟨none, o.price, o.remaining.toNat⟩ (play o.side [] Ex.gap).1)
      Ex.flow2).2 : Int) < o.remaining - openQty s' o.id := by
  have h : Ex.last Ex.lin Ex.ops1 (.update (.candle ⟨Ex.d 109, Ex.d 112, Ex.d 109, Ex.d 112, 3⟩))
      (fun s s' r => (match r with | .update (.ok _) => true | _ => false) && s.active.any (fun o =>
        decide ((∀ x ∈ (play o.side (play o.side [] Ex.gap).1 Ex.flow2).2,
            Ex.d 109 ≤ x.price ∧ x.price ≤ Ex.d 112) ∧
          (∃ x ∈ (play o.side (play o.side [] Ex.gap).1 Ex.flow2).2, x.price = Ex.d 109) ∧
          (∃ x ∈ (play o.side (play o.side [] Ex.gap).1 Ex.flow2).2, x.price = Ex.d 112) ∧
          (mine (play o.side (join o.side ⟨none, o.price, o.remaining.toNat⟩ (play o.side [] Ex.gap).1)
            Ex.flow2).2 : Int) < o.remaining - openQty s' o.id))) = true := by decide +kernel
  obtain ⟨s, s', r, hr, hst, hp⟩ := Ex.last_reach h
  simp only [Bool.and_eq_true, List.any_eq_true, decide_eq_true_eq] at hp
  obtain ⟨hm, o, ho, h1, h2, h3, h4⟩ := hp
  split at hm
  · rename_i ups
    exact ⟨s, s', o, ⟨Ex.d 109, Ex.d 112, Ex.d 109, Ex.d 112, 3⟩, ups, hr, ho, h1, h2, h3, hst, h4⟩
  · cases hm

end Lfest
