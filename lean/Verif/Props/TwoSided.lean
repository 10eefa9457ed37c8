import Verif.Lemmas.TwoSided

/-!
# C133: fills by trades are not optimistic, with a complete order book
-/

namespace Lfest

open Spec

namespace Market

theorem better_inverted (sd : Side) (a b : Int) : better sd.inverted a b = better sd b a := by
  cases sd <;> simp [better, Side.inverted]

theorem inverted_inverted (sd : Side) : sd.inverted.inverted = sd := by cases sd <;> rfl

theorem inverted_ne (sd : Side) : sd.inverted ≠ sd := by cases sd <;> simp [Side.inverted]

theorem side_or (sd side : Side) : side = sd ∨ side = sd.inverted := by
  cases sd <;> cases side <;> simp [Side.inverted]

/-- The volume of fills by orders of the other side, strictly beyond a price. -/
def past (sd : Side) (p : Int) (fs : List (Side × Queued)) : Nat :=
  beyond sd p ((fs.filter (fun x => decide (x.1 = sd.inverted))).map Prod.snd)

theorem past_append (sd : Side) (p : Int) (a b : List (Side × Queued)) :
    past sd p (a ++ b) = past sd p a + past sd p b := by
  simp only [past, List.filter_append, List.map_append, beyond_append]

theorem past_same (sd : Side) (p : Int) (fs : List Queued) :
    past sd p (fs.map (fun x => (sd, x))) = 0 := by
  have : (fs.map (fun x => (sd, x))).filter (fun x => decide (x.1 = sd.inverted)) = [] := by
    refine List.filter_eq_nil_iff.2 fun z hz => ?_
    obtain ⟨x, _, rfl⟩ := List.mem_map.1 hz
    simpa using (inverted_ne sd).symm
  simp [past, this, beyond, volume]

theorem past_other (sd : Side) (p : Int) (fs : List Queued) :
    past sd p (fs.map (fun x => (sd.inverted, x))) = beyond sd p fs := by
  have : (fs.map (fun x => (sd.inverted, x))).filter (fun x => decide (x.1 = sd.inverted)) =
      fs.map (fun x => (sd.inverted, x)) := by
    refine List.filter_eq_self.2 fun z hz => ?_
    obtain ⟨x, _, rfl⟩ := List.mem_map.1 hz
    simp
  simp [past, this, List.map_map, Function.comp_def]

theorem ours_append (a b : List (Side × Queued)) : ours (a ++ b) = ours a + ours b := by
  simp [ours, mine_append]

theorem ours_map (sd : Side) (fs : List Queued) : ours (fs.map (fun x => (sd, x))) = mine fs := by
  simp [ours, List.map_map, Function.comp_def]

/-! ## What is left of an incoming order -/

theorem volume_settle (sd : Side) (i : Nat) (L : Int) (a : Nat) (r : Bool) (l : List Queued) :
    volume (settleDown sd i L a r l) = volume l + (if r = true then a else 0) := by
  unfold settleDown
  cases r
  · simp
  · by_cases h : 0 < a
    · simp [h, volume_join]; omega
    · have : a = 0 := by omega
      simp [this]

theorem mem_settle {sd : Side} {i : Nat} {L : Int} {a : Nat} {r : Bool} {l : List Queued} {z : Queued}
    (h : z ∈ settleDown sd i L a r l) : z = ⟨some i, L, a⟩ ∨ z ∈ l := by
  unfold settleDown at h
  split at h
  · exact mem_join.1 h
  · exact .inr h

theorem sorted_settle {sd : Side} {i : Nat} {L : Int} {a : Nat} {r : Bool} {l : List Queued}
    (h : Sorted sd l) : Sorted sd (settleDown sd i L a r l) := by
  unfold settleDown
  split
  · exact sorted_join h
  · exact h

theorem settle_append {sd : Side} {i : Nat} {L : Int} {a : Nat} {r : Bool} {xs ys : List Queued}
    (h : ∀ z ∈ xs, better sd L z.price = false) :
    settleDown sd i L a r (xs ++ ys) = xs ++ settleDown sd i L a r ys := by
  unfold settleDown
  split
  · exact join_append h
  · rfl

theorem settle_before {sd : Side} {i : Nat} {L : Int} {a : Nat} {r : Bool} {xs ys : List Queued}
    (h : ∀ z ∈ ys, better sd L z.price = true) :
    settleDown sd i L a r (xs ++ ys) = settleDown sd i L a r xs ++ ys := by
  unfold settleDown
  split
  · exact join_before h
  · rfl

theorem settle_ahead {sd : Side} {i : Nat} {L : Int} {a : Nat} {r : Bool} {xs ys : List Queued}
    {y : Queued} (h : better sd L y.price = true) :
    settleDown sd i L a r (xs ++ y :: ys) = settleDown sd i L a r xs ++ y :: ys := by
  unfold settleDown
  split
  · induction xs with
    | nil => simp [join, h]
    | cons z xs ih =>
      simp only [List.cons_append, join]
      split
      · rfl
      · rw [ih]; rfl
  · rfl

theorem sub_settle {sd : Side} {i : Nat} {L : Int} {a b : Nat} {r : Bool} {h k : List Queued}
    (hs : Sub h k) (hsort : Sorted sd k) (hab : a ≤ b) :
    Sub (settleDown sd i L a r h) (settleDown sd i L b r k) := by
  unfold settleDown
  cases r
  · simpa using hs
  · by_cases ha : 0 < a
    · have hb : 0 < b := by omega
      simp only [ha, hb, and_self, if_true]
      exact sub_join hs hsort rfl rfl hab
    · by_cases hb : 0 < b
      · simp only [ha, hb, and_false, and_self, if_true, if_false]
        exact sub_join_right _ _ hs
      · simpa [ha, hb] using hs

theorem sorted_filter {sd : Side} {l : List Queued} (p : Queued → Bool) (h : Sorted sd l) :
    Sorted sd (l.filter p) := List.Pairwise.filter p h

/-! ## The book without the user's order and the book with it -/

/-- The two books while the user's order, of which `q` is left, is open: `T` has traded beyond its price
without it, and `F` of it has been filled. -/
def Level (sd : Side) (p : Int) (q T F : Nat) (h k : Orders) : Prop :=
  0 < q ∧ ∃ xs xs' ys ys' rs fs fs',
    h sd = xs ++ ys ∧ k sd = xs' ++ ⟨none, p, q⟩ :: ys' ∧ Sub xs xs' ∧ Sorted sd xs' ∧
    (∀ x ∈ xs', x.owner ≠ none ∧ better sd p x.price = false) ∧
    (∀ y ∈ ys, better sd y.price p = false) ∧ (∀ y ∈ ys', y.owner ≠ none) ∧
    h sd.inverted = rs ++ fs ∧ k sd.inverted = fs' ∧ Sub fs' fs ∧ Sorted sd.inverted fs ∧
    (∀ x ∈ rs, better sd x.price p = false) ∧
    (∀ x ∈ fs, x.owner ≠ none ∧ better sd x.price p = true) ∧
    T + volume rs + volume xs' + volume fs ≤ F + volume xs + volume fs'

/-- The other traders withdraw an order. -/
theorem withdraw_level {sd : Side} {p : Int} {q T F : Nat} {h k : Orders} (hl : Level sd p q T F h k)
    (i : Nat) : Level sd p q T F (deal h (.withdraw i)).1 (deal k (.withdraw i)).1 := by
  obtain ⟨hq, xs, xs', ys, ys', rs, fs, fs', a1, a2, a3, a4, a5, a6, a7, b1, b2, b3, b4, b5, b6, hv⟩ := hl
  obtain ⟨c1, c2⟩ := sub_filter a3 i
  obtain ⟨d1, d2⟩ := sub_filter b3 i
  have hr := volume_filter_le (fun x => decide (x.owner ≠ some i)) rs
  refine ⟨hq, _, _, ys.filter (fun x => decide (x.owner ≠ some i)),
    ys'.filter (fun x => decide (x.owner ≠ some i)), rs.filter (fun x => decide (x.owner ≠ some i)),
    _, _, ?_, ?_, c1, sorted_filter _ a4, ?_, ?_, ?_, ?_, ?_, d1, sorted_filter _ b4, ?_, ?_, by omega⟩
  · simp only [deal, a1, List.filter_append]
  · simp only [deal, a2, List.filter_append]
    rw [List.filter_cons_of_pos (by simp)]
  · exact fun x h => a5 x (List.mem_filter.1 h).1
  · exact fun x h => a6 x (List.mem_filter.1 h).1
  · exact fun x h => a7 x (List.mem_filter.1 h).1
  · simp only [deal, b1, List.filter_append]
  · simp only [deal, b2]
  · exact fun x h => b5 x (List.mem_filter.1 h).1
  · exact fun x h => b6 x (List.mem_filter.1 h).1

theorem deal_same (m : Orders) (sd : Side) (i : Nat) (L : Int) (V : Nat) (r : Bool) :
    (deal m (.order sd i L V r)).1 sd =
      settleDown sd i L (V - volume (take sd.inverted L V (m sd.inverted)).2) r (m sd) := by
  simp [deal, Orders.set]

theorem deal_other (m : Orders) (sd : Side) (i : Nat) (L : Int) (V : Nat) (r : Bool) :
    (deal m (.order sd i L V r)).1 sd.inverted = (take sd.inverted L V (m sd.inverted)).1 := by
  simp [deal, Orders.set, inverted_ne]

/-- An order on the side of the user's comes in. -/
theorem same_level {sd : Side} {p : Int} {q T F : Nat} {h k : Orders} (hl : Level sd p q T F h k)
    (i : Nat) (L : Int) (V : Nat) (r : Bool) :
    mine (take sd.inverted L V (k sd.inverted)).2 = 0 ∧
    Level sd p q T F (deal h (.order sd i L V r)).1 (deal k (.order sd i L V r)).1 := by
  obtain ⟨hq, xs, xs', ys, ys', rs, fs, fs', a1, a2, a3, a4, a5, a6, a7, b1, b2, b3, b4, b5, b6, hv⟩ := hl
  have hfs' : ∀ x ∈ fs', x.owner ≠ none ∧ better sd x.price p = true := by
    intro x hx
    obtain ⟨y, hy, e1, e2⟩ := sub_mem b3 x hx
    rw [e1, e2]; exact b6 y hy
  have hxs : ∀ x ∈ xs, better sd p x.price = false := by
    intro x hx
    obtain ⟨y, hy, _, e2⟩ := sub_mem a3 x hx
    rw [e2]; exact (a5 y hy).2
  refine ⟨?_, hq, ?_⟩
  · rw [b2]
    refine mine_none fun z hz => ?_
    obtain ⟨x, hx, e, _⟩ := (take_mem _ _ _ _).2 z hz
    rw [e]; exact (hfs' x hx).1
  obtain ⟨w, w1, w2, w3⟩ := take_append sd.inverted L rs fs V
  have n1 := take_conserve sd.inverted L rs V
  have n2 := take_volume sd.inverted L rs V
  have hrs1 : ∀ x ∈ (take sd.inverted L V rs).1, better sd x.price p = false := by
    intro x hx
    obtain ⟨y, hy, _, e⟩ := (take_mem _ _ _ _).1 x hx
    rw [e]; exact b5 y hy
  rw [deal_same, deal_same, deal_other, deal_other, a1, a2, b1, b2, w1]
  by_cases hb : better sd L p = true
  · -- the order is ahead of the user's
    have hw : w = V - volume (take sd.inverted L V rs).2 := w3 fun x hx => by
      have := b5 x hx
      rw [better_inverted]
      cases sd <;> simp only [better, decide_eq_true_eq, decide_eq_false_iff_not] at * <;> omega
    obtain ⟨t1, t2⟩ := sub_take (sd := sd.inverted) (limit := L) b3 b4 V w (by omega)
    have m1 := take_conserve sd.inverted L fs w
    have m2 := take_conserve sd.inverted L fs' V
    have m3 := take_volume sd.inverted L fs w
    have m4 := take_volume sd.inverted L fs' V
    simp only [volume_append]
    refine ⟨_, _, ys, ys', _, _, _, settle_before ?_, settle_ahead hb, sub_settle a3 a4 ?_,
      sorted_settle a4, ?_, a6, a7, rfl, rfl, t1, sorted_take _ b4, hrs1, ?_, ?_⟩
    · exact fun z hz => better_of_better hb (a6 z hz)
    · omega
    · intro z hz
      rcases mem_settle hz with rfl | hz
      · refine ⟨by simp, ?_⟩
        cases sd <;> simp only [better, decide_eq_true_eq, decide_eq_false_iff_not] at * <;> omega
      · exact a5 z hz
    · intro z hz
      obtain ⟨y, hy, e1, e2⟩ := (take_mem _ _ _ _).1 z hz
      rw [e1, e2]; exact b6 y hy
    · simp only [volume_settle]
      split <;> omega
  · -- it is behind the user's
    have hb : better sd L p = false := by simpa using hb
    have hL : ∀ x : Int, better sd x p = true → better sd.inverted L x = true := by
      intro x hx
      rw [better_inverted]
      cases sd <;> simp only [better, decide_eq_true_eq, decide_eq_false_iff_not] at * <;> omega
    rw [take_blocked (fun x hx => hL _ (hfs' x hx).2) V, take_blocked (fun x hx => hL _ (b6 x hx).2) w]
    have hfwd : ∀ x : Queued, better sd p x.price = false → better sd L x.price = false := by
      intro x hx
      cases sd <;> simp only [better, decide_eq_false_iff_not] at * <;> omega
    refine ⟨xs, xs', settleDown sd i L (V - volume ((take sd.inverted L V rs).2 ++ [])) r ys,
      settleDown sd i L (V - volume ([] : List Queued)) r ys', (take sd.inverted L V rs).1, fs, fs',
      settle_append fun z hz => hfwd z (hxs z hz), ?_, a3, a4, a5, ?_, ?_, rfl, rfl, b3, b4, hrs1, b6, ?_⟩
    · rw [settle_append fun z hz => hfwd z (a5 z hz).2]
      congr 1
      have := settle_append (i := i) (a := V - volume ([] : List Queued)) (r := r) (ys := ys')
        (xs := [⟨none, p, q⟩]) (sd := sd) (L := L) (by simpa using hb)
      exact this
    · intro z hz
      rcases mem_settle hz with rfl | hz
      · exact hb
      · exact a6 z hz
    · intro z hz
      rcases mem_settle hz with rfl | hz
      · simp
      · exact a7 z hz
    · omega

/-- An order of the other side comes in. -/
theorem other_level {sd : Side} {p : Int} {q T F : Nat} {h k : Orders} (hl : Level sd p q T F h k)
    (i : Nat) (L : Int) (V : Nat) (r : Bool) :
    q ≤ mine (take sd L V (k sd)).2 ∨
    (mine (take sd L V (k sd)).2 < q ∧
      Level sd p (q - mine (take sd L V (k sd)).2) (T + beyond sd p (take sd L V (h sd)).2)
        (F + mine (take sd L V (k sd)).2) (deal h (.order sd.inverted i L V r)).1
        (deal k (.order sd.inverted i L V r)).1) := by
  obtain ⟨hq, xs, xs', ys, ys', rs, fs, fs', a1, a2, a3, a4, a5, a6, a7, b1, b2, b3, b4, b5, b6, hv⟩ := hl
  have hfs' : ∀ x ∈ fs', x.owner ≠ none ∧ better sd x.price p = true := by
    intro x hx
    obtain ⟨y, hy, e1, e2⟩ := sub_mem b3 x hx
    rw [e1, e2]; exact b6 y hy
  have hxs : ∀ x ∈ xs, better sd p x.price = false := by
    intro x hx
    obtain ⟨y, hy, _, e2⟩ := sub_mem a3 x hx
    rw [e2]; exact (a5 y hy).2
  obtain ⟨w, w1, w2, w3⟩ := take_append sd L xs ys V
  obtain ⟨w', w1', w2', w3'⟩ := take_append sd L xs' (⟨none, p, q⟩ :: ys') V
  obtain ⟨t1, t2⟩ := sub_take (sd := sd) (limit := L) a3 a4 V V (Nat.le_refl _)
  have n1 := take_conserve sd L xs V
  have n2 := take_volume sd L xs V
  have n1' := take_conserve sd L xs' V
  have n2' := take_volume sd L xs' V
  have hbx : beyond sd p (take sd L V xs).2 = 0 := by
    unfold beyond
    rw [List.filter_eq_nil_iff.2, volume_nil]
    intro z hz
    obtain ⟨x, hx, _, e⟩ := (take_mem _ _ _ _).2 z hz
    rw [e, hxs x hx]; simp
  have hmx : mine (take sd L V xs').2 = 0 := mine_none fun z hz => by
    obtain ⟨x, hx, e, _⟩ := (take_mem _ _ _ _).2 z hz
    rw [e]; exact (a5 x hx).1
  have hxs1 : ∀ x ∈ (take sd L V xs').1, x.owner ≠ none ∧ better sd p x.price = false := by
    intro z hz
    obtain ⟨x, hx, e1, e2⟩ := (take_mem _ _ _ _).1 z hz
    rw [e1, e2]; exact a5 x hx
  have s1 : ∀ m : Orders, (deal m (.order sd.inverted i L V r)).1 sd = (take sd L V (m sd)).1 := by
    intro m
    have := deal_other m sd.inverted i L V r
    rwa [inverted_inverted] at this
  have s2 : ∀ m : Orders, (deal m (.order sd.inverted i L V r)).1 sd.inverted =
      settleDown sd.inverted i L (V - volume (take sd L V (m sd)).2) r (m sd.inverted) := by
    intro m
    have := deal_same m sd.inverted i L V r
    rwa [inverted_inverted] at this
  unfold Level
  rw [s1, s1, s2, s2, a1, a2, b1, b2, w1, w1', take_cons]
  by_cases hb : better sd L p = true
  · -- it does not reach the price of the user's order
    right
    rw [if_pos (.inr hb), take_blocked (l := ys) (fun z hz => better_of_better hb (a6 z hz)) w]
    simp only [mine_append, beyond_append, volume_append, hbx, hmx]
    have m0 : mine [] = 0 := rfl
    have b0 : beyond sd p [] = 0 := rfl
    simp only [m0, b0, volume_nil, Nat.add_zero, Nat.sub_zero]
    refine ⟨hq, hq, _, _, ys, ys', rs, settleDown sd.inverted i L (V - volume (take sd L V xs).2) r fs, _,
      rfl, rfl, t1, sorted_take _ a4, hxs1, a6, a7, settle_append ?_, rfl,
      sub_settle b3 b4 (by omega), sorted_settle b4, b5, ?_, ?_⟩
    · intro z hz
      have := b5 z hz
      rw [better_inverted]
      cases sd <;> simp only [better, decide_eq_true_eq, decide_eq_false_iff_not] at * <;> omega
    · intro z hz
      rcases mem_settle hz with rfl | hz
      · exact ⟨by simp, hb⟩
      · exact b6 z hz
    · simp only [volume_settle]
      split <;> omega
  · -- it does
    have hb : better sd L p = false := by simpa using hb
    have hfwd : ∀ x : Int, better sd p x = false → better sd L x = false := by
      intro x hx
      cases sd <;> simp only [better, decide_eq_false_iff_not] at * <;> omega
    have hw := w3 fun x hx => hfwd _ (hxs x hx)
    have hw' := w3' fun x hx => hfwd _ (a5 x hx).2
    have y1 := take_volume sd L ys w
    have y2 : beyond sd p (take sd L w ys).2 ≤ volume (take sd L w ys).2 := volume_filter_le _ _
    have hys : ∀ z ∈ (take sd L w ys).1, better sd z.price p = false := by
      intro z hz
      obtain ⟨x, hx, _, e⟩ := (take_mem _ _ _ _).1 z hz
      rw [e]; exact a6 x hx
    have hset : ∀ a, settleDown sd.inverted i L a r (rs ++ fs) =
        settleDown sd.inverted i L a r rs ++ fs := fun a => settle_before fun z hz => by
      have := (b6 z hz).2
      rw [better_inverted]
      cases sd <;> simp only [better, decide_eq_true_eq, decide_eq_false_iff_not] at * <;> omega
    have hrs : ∀ a, ∀ z ∈ settleDown sd.inverted i L a r rs, better sd z.price p = false := by
      intro a z hz
      rcases mem_settle hz with rfl | hz
      · exact hb
      · exact b5 z hz
    have m0 : mine [] = 0 := rfl
    have hnone : ∀ a l, a = 0 → settleDown sd.inverted i L a r l = l := by
      intro a l ha
      subst ha
      simp [settleDown]
    by_cases c0 : w' = 0
    · right
      rw [if_pos (.inl c0)]
      simp only [mine_append, beyond_append, volume_append, hbx, hmx, m0, volume_nil]
      refine ⟨by omega, by omega, _, _, (take sd L w ys).1, ys', _, fs, fs',
        rfl, ?_, t1, sorted_take _ a4, hxs1, hys, a7, hset _, hnone _ _ (by omega), b3, b4, hrs _, b6, ?_⟩
      · simp
      · simp only [volume_settle]
        split <;> omega
    · rw [if_neg (by simp [c0, hb])]
      by_cases c1 : w' < q
      · right
        rw [if_pos c1]
        have m1 : mine [(⟨none, p, w'⟩ : Queued)] = w' := by simp [mine, volume]
        simp only [mine_append, beyond_append, volume_append, hbx, hmx, m1, volume_cons, volume_nil]
        refine ⟨by omega, by omega, _, _, (take sd L w ys).1, ys', _, fs, fs',
          rfl, ?_, t1, sorted_take _ a4, hxs1, hys, a7, hset _, hnone _ _ (by omega), b3, b4, hrs _, b6, ?_⟩
        · simp
        · simp only [volume_settle]
          split <;> omega
      · left
        rw [if_neg c1]
        rw [mine_append]
        simp only [mine]
        rw [List.filter_cons_of_pos (by simp), volume_cons]
        dsimp only
        omega

/-- A whole sequence of actions. -/
theorem run_level {sd : Side} {p : Int} (l : List Deed) : ∀ {q T F : Nat} {h k : Orders},
    Level sd p q T F h k → min (F + q) (T + past sd p (proceed h l).2) ≤ F + ours (proceed k l).2 := by
  induction l with
  | nil =>
    intro q T F h k hl
    obtain ⟨hq, xs, xs', ys, ys', rs, fs, fs', a1, a2, a3, a4, a5, a6, a7, b1, b2, b3, b4, b5, b6, hv⟩ := hl
    have := sub_volume a3
    have := sub_volume b3
    have e : past sd p ([] : List (Side × Queued)) = 0 := rfl
    simp only [proceed, e]
    omega
  | cons d l ih =>
    intro q T F h k hl
    simp only [proceed, past_append, ours_append]
    cases d with
    | withdraw i =>
      have := ih (withdraw_level hl i)
      have e1 : past sd p (deal h (.withdraw i)).2 = 0 := rfl
      have e2 : ours (deal k (.withdraw i)).2 = 0 := rfl
      omega
    | order side i L V r =>
      rcases side_or sd side with rfl | rfl
      · obtain ⟨e, hl'⟩ := same_level hl i L V r
        have := ih hl'
        have e1 : past side p (deal h (.order side i L V r)).2 = 0 := past_same _ _ _
        have e2 : ours (deal k (.order side i L V r)).2 = 0 := by
          rw [← e]; exact ours_map _ _
        omega
      · have e1 : past sd p (deal h (.order sd.inverted i L V r)).2 =
            beyond sd p (take sd L V (h sd)).2 := by
          have := past_other sd p (take sd.inverted.inverted L V (h sd.inverted.inverted)).2
          rw [inverted_inverted] at this
          rw [← this]
          simp only [deal, inverted_inverted]
        have e2 : ours (deal k (.order sd.inverted i L V r)).2 = mine (take sd L V (k sd)).2 := by
          have := ours_map sd.inverted (take sd.inverted.inverted L V (k sd.inverted.inverted)).2
          rw [inverted_inverted] at this
          rw [← this]
          simp only [deal, inverted_inverted]
        rw [e1, e2]
        rcases other_level hl i L V r with hd | ⟨hd, hl'⟩
        · omega
        · have := ih hl'
          omega

theorem deal_wf {m : Orders} (h : ∀ s, Sorted s (m s) ∧ ∀ x ∈ m s, x.owner ≠ none) (d : Deed) :
    ∀ s, Sorted s ((deal m d).1 s) ∧ ∀ x ∈ (deal m d).1 s, x.owner ≠ none := by
  intro s
  cases d with
  | withdraw i => exact ⟨sorted_filter _ (h s).1, fun x hx => (h s).2 x (List.mem_filter.1 hx).1⟩
  | order side i L V r =>
    rcases side_or side s with rfl | rfl
    · rw [deal_same]
      refine ⟨sorted_settle (h s).1, fun x hx => ?_⟩
      rcases mem_settle hx with rfl | hx
      · simp
      · exact (h s).2 x hx
    · rw [deal_other]
      refine ⟨sorted_take _ (h _).1, fun x hx => ?_⟩
      obtain ⟨y, hy, e, _⟩ := (take_mem _ _ _ _).1 x hx
      rw [e]; exact (h _).2 y hy

theorem run_wf (l : List Deed) : ∀ {m : Orders}, (∀ s, Sorted s (m s) ∧ ∀ x ∈ m s, x.owner ≠ none) →
    ∀ s, Sorted s ((proceed m l).1 s) ∧ ∀ x ∈ (proceed m l).1 s, x.owner ≠ none := by
  induction l with
  | nil => intro m h; exact h
  | cons d l ih => intro m h; exact ih (deal_wf h d)

theorem start_level {sd : Side} {p : Int} {q : Nat} {m : Orders} (hq : 0 < q)
    (h : ∀ s, Sorted s (m s) ∧ ∀ x ∈ m s, x.owner ≠ none)
    (hf : ∀ x ∈ m sd.inverted, better sd x.price p = true) :
    Level sd p q 0 0 m (m.set sd (join sd ⟨none, p, q⟩ (m sd))) := by
  obtain ⟨_, xs, ys, ys', e1, e2, e3, e4, e5⟩ := join_beside (p := p) hq (h sd).1 (h sd).2
  have hs : Sorted sd (xs ++ ys) := e1 ▸ (h sd).1
  refine ⟨hq, xs, xs, ys, ys', [], m sd.inverted, m sd.inverted, e1, ?_, sub_refl _,
    (List.pairwise_append.1 hs).1, e3, e4, e5, rfl, ?_, sub_refl _, (h _).1, by simp,
    fun x hx => ⟨(h _).2 x hx, hf x hx⟩, ?_⟩
  · simpa [Orders.set] using e2
  · simp [Orders.set, inverted_ne]
  · rw [volume_nil]; omega

theorem tapeVolume_printed (sd : Side) (p : Int) (fs : List (Side × Queued)) :
    tapeVolume sd p (fs.map printed) = past sd p fs := by
  induction fs with
  | nil => rfl
  | cons x fs ih =>
    have e1 : tapeVolume sd p ((x :: fs).map printed) =
        tapeVolume sd p [printed x] + tapeVolume sd p (fs.map printed) := by
      rw [← tapeVolume_append]; rfl
    have e2 : past sd p (x :: fs) = past sd p [x] + past sd p fs := by
      rw [← past_append]; rfl
    rw [e1, e2, ih]
    by_cases h : x.1 = sd.inverted <;> by_cases h2 : better sd p x.2.price = true <;>
      simp [tapeVolume, past, beyond, volume, printed, h, h2]

end Market

open Market

/-- C133 with a complete order book. Other traders send orders, which take what is at rest on the other
side and come to rest with what is left, and withdraw orders: `before` the user's order joins the real
book, which it does without crossing it, and `after`. If the simulated exchange is fed the trades of the
market as it was without the user's order, it fills the order by no more than the real exchange would
have filled it in the market with it, whatever the other traders' orders that went unfilled because the
user's was filled instead do to the market afterwards. -/
theorem C133_complete_book (c : Cfg) (s s' : State) (o : Limit) (ops : List Op)
    (tr : List (Op × Resp)) (hr : Reachable c s) (ho : o ∈ s.active)
    (h : history c s ops = .ok (s', tr)) (hw : ∀ x ∈ tr, withdraws o.id x = false)
    (hto : ∀ op ∈ ops, tapeOnly op) (before after : List Deed) (book : Orders)
    (hb : book = (proceed (fun _ => []) before).1)
    (hc : ∀ x ∈ book o.side.inverted, better o.side x.price o.price = true)
    (ht : tape ops = (proceed book after).2.map printed) :
    o.remaining - openQty s' o.id ≤
      ours (proceed (book.set o.side (join o.side ⟨none, o.price, o.remaining.toNat⟩ (book o.side)))
        after).2 := by
  have hrem : 0 < o.remaining := (hr.inv.orders o ho).rem
  have hl := start_level (sd := o.side) (p := o.price) (q := o.remaining.toNat) (m := book) (by omega)
    (by rw [hb]; exact run_wf before (by intro s; simp [Sorted])) hc
  have hmin := run_level after hl
  obtain ⟨v, e1, e2, _⟩ := passed_tape (o := o) ops h hto (by
    rw [ht]
    intro x hx
    obtain ⟨y, _, rfl⟩ := List.mem_map.1 hx
    exact Int.natCast_nonneg _)
  rw [ht, tapeVolume_printed] at e2
  rw [C103_waiting c s s' hr o ho ops tr h hw, e1]
  simp only [left]
  split <;> omega

/-! ## The hypotheses are met -/

/-- Before the user's offer of 3 at 110: bids of 2 at 100 and offers of 1 at 109, 2 at 110, 5 at 112. -/
def Ex.bothSides : List Deed :=
  [.order .buy 1 (Ex.d 100) 200000 true, .order .sell 2 (Ex.d 109) 100000 true,
   .order .sell 3 (Ex.d 110) 200000 true, .order .sell 4 (Ex.d 112) 500000 true]

/-- Then 4 are bid for at 111. Without the user's offer 1 of them comes to rest, and an offer at 111
trades with it; with it nothing does, and that offer comes to rest. Then 2 are bought at the market, and
an order is withdrawn. -/
def Ex.flow3 : List Deed :=
  [.order .buy 5 (Ex.d 111) 400000 true, .order .sell 6 (Ex.d 111) 100000 true,
   .order .buy 8 (Ex.d 500) 200000 false, .withdraw 1]

/-- The trades that come of it without the user's offer. -/
def Ex.printed3 : List Op :=
  [.update (.trade ⟨2, Ex.d 109, Ex.d 1, .buy⟩), .update (.trade ⟨2, Ex.d 110, Ex.d 2, .buy⟩),
   .update (.trade ⟨3, Ex.d 111, Ex.d 1, .sell⟩), .update (.trade ⟨4, Ex.d 112, Ex.d 2, .buy⟩)]

/-- 2 of the 3 are filled on the simulated exchange, all on the real one. -/
example : Ex.onward Ex.lin Ex.ops1 Ex.printed3 (fun s s' tr => s.active.any (fun o =>
    tr.all (fun x => !withdraws o.id x) && decide (o.side = .sell ∧ o.remaining = Ex.d 3 ∧
      (∀ x ∈ (proceed (fun _ => []) Ex.bothSides).1 o.side.inverted, better o.side x.price o.price = true) ∧
      tape Ex.printed3 = (proceed (proceed (fun _ => []) Ex.bothSides).1 Ex.flow3).2.map printed ∧
      o.remaining - openQty s' o.id = Ex.d 2 ∧
      ours (proceed ((proceed (fun _ => []) Ex.bothSides).1.set o.side
        (join o.side ⟨none, o.price, o.remaining.toNat⟩ ((proceed (fun _ => []) Ex.bothSides).1 o.side)))
        Ex.flow3).2 = 300000))) = true := by decide +kernel

example : ∀ op ∈ Ex.printed3, tapeOnly op := by simp [Ex.printed3, tapeOnly]

end Lfest
