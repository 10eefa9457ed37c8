import Verif.Lemmas.Monad

/-! Lemmas about the arena of active orders. -/

namespace Lfest

theorem swapRemove_last {α} (xs : List α) (y : α) :
    swapRemove (xs ++ [y]) xs.length = xs := by
  simp [swapRemove]

theorem swapRemove_mid {α} (xs ys : List α) (y z : α) :
    swapRemove (xs ++ y :: (ys ++ [z])) xs.length = xs ++ z :: ys := by
  have : xs ++ y :: (ys ++ [z]) = (xs ++ y :: ys) ++ [z] := by simp
  unfold swapRemove
  rw [this]
  simp only [List.getLast?_append, List.getLast?_singleton, Option.some_or]
  have h2 : ((xs ++ y :: ys) ++ [z]).set xs.length z = (xs ++ z :: ys) ++ [z] := by
    rw [List.append_assoc, List.set_append]
    simp
  simp only [h2, List.dropLast_concat]

theorem swapRemove_perm {α} (xs ys : List α) (y : α) :
    (swapRemove (xs ++ y :: ys) xs.length).Perm (xs ++ ys) := by
  rcases List.eq_nil_or_concat ys with rfl | ⟨ys', z, rfl⟩
  · rw [swapRemove_last]; simp
  · rw [List.concat_eq_append, swapRemove_mid]
    refine (List.Perm.append_left xs ?_)
    exact (List.perm_append_singleton z ys').symm

theorem swapRemove_map {α β} (f : α → β) (l : List α) (i : Nat) :
    swapRemove (l.map f) i = (swapRemove l i).map f := by
  unfold swapRemove
  rw [List.getLast?_map]
  cases l.getLast? with
  | none => rfl
  | some z => simp [List.map_dropLast, List.map_set]

theorem position_some {α} {p : α → Bool} {l : List α} {i : Nat} (h : position p l = some i) :
    ∃ xs y ys, l = xs ++ y :: ys ∧ xs.length = i ∧ p y = true ∧ ∀ x ∈ xs, p x = false := by
  induction l generalizing i with
  | nil => simp [position] at h
  | cons a l ih =>
    simp only [position] at h
    split at h
    · next hp =>
      simp at h; subst h
      exact ⟨[], a, l, rfl, rfl, hp, by simp⟩
    · next hp =>
      simp only [Option.map_eq_some_iff] at h
      obtain ⟨j, hj, rfl⟩ := h
      obtain ⟨xs, y, ys, rfl, rfl, hy, hx⟩ := ih hj
      refine ⟨a :: xs, y, ys, rfl, rfl, hy, ?_⟩
      intro x hx'
      simp only [List.mem_cons] at hx'
      rcases hx' with rfl | hx'
      · simpa using hp
      · exact hx x hx'

theorem position_none {α} {p : α → Bool} {l : List α} :
    position p l = none ↔ ∀ x ∈ l, p x = false := by
  induction l with
  | nil => simp [position]
  | cons a l ih =>
    simp only [position]
    split
    · next hp => simp [hp]
    · next hp => simp [ih, hp]

theorem position_append {α} {p : α → Bool} (xs ys : List α) (y : α) (hy : p y = true)
    (hx : ∀ x ∈ xs, p x = false) : position p (xs ++ y :: ys) = some xs.length := by
  induction xs with
  | nil => simp [position, hy]
  | cons a xs ih =>
    simp only [List.cons_append, position, hx a (by simp), Bool.false_eq_true, if_false]
    rw [ih (fun x h => hx x (by simp [h]))]
    simp

/-- Removal takes out the first order satisfying the predicate; the rest is kept, up to
order. -/
theorem removeBy_some {p : Limit → Bool} {b b' : Book} {o : Limit}
    (h : Book.removeBy p b = some (o, b')) :
    ∃ xs ys, b = xs ++ o :: ys ∧ p o = true ∧ (∀ x ∈ xs, p x = false) ∧
      b' = swapRemove b xs.length ∧ b'.Perm (xs ++ ys) := by
  unfold Book.removeBy at h
  split at h
  · simp at h
  · next i hi =>
    obtain ⟨xs, y, ys, rfl, rfl, hy, hx⟩ := position_some hi
    simp at h
    obtain ⟨rfl, rfl⟩ := h
    exact ⟨xs, ys, rfl, hy, hx, rfl, swapRemove_perm xs ys y⟩

theorem removeBy_append {p : Limit → Bool} {xs ys : List Limit} {o : Limit}
    (ho : p o = true) (hx : ∀ x ∈ xs, p x = false) :
    Book.removeBy p (xs ++ o :: ys) = some (o, swapRemove (xs ++ o :: ys) xs.length) := by
  unfold Book.removeBy
  rw [position_append xs ys o ho hx]
  simp

theorem removeBy_none {p : Limit → Bool} {b : Book} :
    Book.removeBy p b = none ↔ ∀ x ∈ b, p x = false := by
  constructor
  · intro h
    cases hp : position p b with
    | none => exact position_none.1 hp
    | some i =>
      obtain ⟨xs, y, ys, rfl, rfl, hy, hx⟩ := position_some hp
      rw [removeBy_append hy hx] at h
      simp at h
  · intro h
    unfold Book.removeBy
    rw [position_none.2 h]

theorem position_map {α β} (f : α → β) (p : α → Bool) (q : β → Bool) (l : List α)
    (h : ∀ x ∈ l, q (f x) = p x) : position q (l.map f) = position p l := by
  induction l with
  | nil => rfl
  | cons a l ih =>
    simp only [List.map_cons, position, h a (by simp)]
    rw [ih (fun x hx => h x (by simp [hx]))]

theorem removeById_map (f : Limit → Limit) (b : Book) (id : Nat)
    (hf : ∀ x ∈ b, (f x).id = x.id) :
    Book.removeById (b.map f) id = (b.removeById id).map (fun r => (f r.1, r.2.map f)) := by
  unfold Book.removeById Book.removeBy
  rw [position_map f (fun o => o.id == id) (fun o => o.id == id) b
    (fun x hx => by simp [hf x hx])]
  cases hp : position (fun o => o.id == id) b with
  | none => rfl
  | some i =>
    obtain ⟨xs, y, ys, rfl, rfl, hy, hx⟩ := position_some hp
    simp only [List.getElem?_map]
    rw [swapRemove_map]
    simp

/-- Distinct order ids. -/
def IdsNodup (b : Book) : Prop := (b.map Limit.id).Nodup

theorem IdsNodup.perm {b b' : Book} (h : b.Perm b') (hb : IdsNodup b) : IdsNodup b' :=
  (h.map _).nodup_iff.1 hb

theorem IdsNodup.split {xs ys : List Limit} {o : Limit} (h : IdsNodup (xs ++ o :: ys)) :
    (∀ x ∈ xs ++ ys, x.id ≠ o.id) ∧ IdsNodup (xs ++ ys) := by
  have h' : IdsNodup (o :: (xs ++ ys)) := h.perm List.perm_middle
  unfold IdsNodup at h'
  simp only [List.map_cons, List.nodup_cons, List.mem_map, not_exists, not_and] at h'
  exact ⟨fun x hx => h'.1 x hx, h'.2⟩

/-- Removal by id: the named order goes, the others stay, up to order. -/
theorem removeById_some {b b' : Book} {id : Nat} {o : Limit} (hn : IdsNodup b)
    (h : b.removeById id = some (o, b')) :
    o ∈ b ∧ o.id = id ∧ b'.Perm (b.filter (fun x => x.id ≠ id)) ∧ IdsNodup b' ∧
      b.Perm (o :: b') := by
  obtain ⟨xs, ys, rfl, ho, hx, _, hp⟩ := removeBy_some h
  have ho : o.id = id := by simpa using ho
  subst ho
  obtain ⟨h1, h2⟩ := hn.split
  refine ⟨by simp, rfl, ?_, h2.perm hp.symm, ?_⟩
  · refine hp.trans ?_
    have : (xs ++ o :: ys).filter (fun x => decide (x.id ≠ o.id)) = xs ++ ys := by
      rw [List.filter_append]
      have e1 : xs.filter (fun x => decide (x.id ≠ o.id)) = xs := by
        rw [List.filter_eq_self]; intro a ha; simpa using h1 a (by simp [ha])
      have e2 : (o :: ys).filter (fun x => decide (x.id ≠ o.id)) = ys := by
        simp only [List.filter_cons, ne_eq, not_true_eq_false, decide_false, Bool.false_eq_true,
          if_false]
        rw [List.filter_eq_self]; intro a ha; simpa using h1 a (by simp [ha])
      rw [e1, e2]
    rw [this]
  · exact List.perm_middle.trans (List.Perm.cons _ hp.symm)

theorem removeById_isSome {b : Book} {id : Nat} (h : ∃ o ∈ b, o.id = id) :
    ∃ o b', b.removeById id = some (o, b') := by
  cases hr : b.removeById id with
  | some r => exact ⟨r.1, r.2, rfl⟩
  | none =>
    have := removeBy_none.1 hr
    obtain ⟨o, ho, rfl⟩ := h
    have := this o ho
    simp at this

theorem getById_some {b : Book} {id : Nat} {o : Limit} (h : b.getById id = some o) :
    o ∈ b ∧ o.id = id := by
  unfold Book.getById at h
  exact ⟨List.mem_of_find?_eq_some h, by simpa using List.find?_some h⟩

theorem getById_none {b : Book} {id : Nat} :
    b.getById id = none ↔ ∀ o ∈ b, o.id ≠ id := by
  simp [Book.getById]

theorem getById_of_mem {b : Book} {o : Limit} (hn : IdsNodup b) (h : o ∈ b) :
    b.getById o.id = some o := by
  cases hg : b.getById o.id with
  | none => exact absurd rfl (getById_none.1 hg o h)
  | some x =>
    obtain ⟨h1, h2⟩ := getById_some hg
    obtain ⟨xs, ys, rfl⟩ := List.append_of_mem h
    obtain ⟨h3, _⟩ := hn.split
    simp only [List.mem_append, List.mem_cons] at h1
    rcases h1 with h1 | rfl | h1
    · exact absurd h2 (h3 x (by simp [h1]))
    · rfl
    · exact absurd h2 (h3 x (by simp [h1]))

/-- With distinct ids, replacing an order is a map. -/
theorem replaceFirst_eq_map {b : Book} {o : Limit} (hn : IdsNodup b) :
    replaceFirst (fun x => x.id == o.id) o b = b.map (fun x => if x.id = o.id then o else x) := by
  induction b with
  | nil => rfl
  | cons a b ih =>
    have hn' : IdsNodup b ∧ ∀ x ∈ b, x.id ≠ a.id := by
      have := IdsNodup.split (xs := []) (ys := b) (o := a) hn
      exact ⟨this.2, this.1⟩
    simp only [replaceFirst, List.map_cons, beq_iff_eq]
    split
    · next h =>
      congr 1
      symm
      rw [List.map_congr_left (g := id)]
      · simp
      · intro x hx
        have := hn'.2 x hx
        simp [show x.id ≠ o.id by omega]
    · rw [ih hn'.1]

end Lfest
