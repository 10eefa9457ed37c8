import Verif.Lemmas.Fill

/-! The order margin against its specification. -/

namespace Lfest

open Spec

theorem umax_larger (a b : Int) : umax a b = larger a b := by
  unfold umax larger; split <;> split <;> omega

/-! ### Walking a sorted side -/

/-- Value of the uncovered parts, front to back; `n` contracts came before. -/
def walk (e : Env) (k n : Int) : List (Int × Int) → Int
  | [] => 0
  | x :: r => value e (clip (n + x.2 - k) x.2) x.1 + walk e k (n + x.2) r

theorem sumValue_ok {e : Env} {l : List (Int × Int)} : ∀ {acc v : Int},
    sumValue e acc l = .ok v → ∀ k n, k ≤ n → (∀ x ∈ l, 0 ≤ x.2) → v = acc + walk e k n l := by
  induction l with
  | nil => intro acc v h k n _ _; simp only [sumValue, ok_inj] at h; simp [walk, h]
  | cons x r ih =>
    obtain ⟨p, q⟩ := x
    intro acc v h k n hk hq
    simp only [sumValue, bind_ok] at h
    obtain ⟨w, hw, h⟩ := h
    have hq0 := hq (p, q) (by simp)
    simp only at hq0
    rw [ih h k (n + q) (by omega) (fun y hy => hq y (by simp [hy]))]
    have hw := convert_ok hw
    simp only [walk]
    have : clip (n + q - k) q = q := by unfold clip; split <;> (try split) <;> omega
    rw [this, hw]; omega

theorem offset_ok {e : Env} {l : List (Int × Int)} : ∀ {acc v pos : Int},
    sumValue e acc (offsetOrders pos l) = .ok v → ∀ k n, pos = larger (k - n) 0 →
    (∀ x ∈ l, 0 ≤ x.2) → v = acc + walk e k n l := by
  induction l with
  | nil => intro acc v pos h k n _ _; simp only [offsetOrders, sumValue, ok_inj] at h; simp [walk, h]
  | cons x r ih =>
    obtain ⟨p, q⟩ := x
    intro acc v pos h k n hk hq
    simp only [offsetOrders] at h
    have hq0 := hq (p, q) (by simp)
    simp only at hq0
    split at h
    · next hp =>
      have hkn : pos = k - n := by unfold larger at hk; split at hk <;> omega
      simp only [sumValue, bind_ok] at h
      obtain ⟨w, hw, h⟩ := h
      have hw := convert_ok hw
      rw [ih h k (n + q) (by unfold umin larger; split <;> split <;> omega)
        (fun y hy => hq y (by simp [hy]))]
      simp only [walk]
      have : umax (q - pos) 0 = clip (n + q - k) q := by
        unfold umax clip; split <;> split <;> (try split) <;> omega
      rw [← this, hw]; omega
    · next hp =>
      exact sumValue_ok h k n (by unfold larger at hk; split at hk <;> omega) hq

/-! ### Sums -/

theorem sum_perm {l l' : List Int} (h : l.Perm l') : l.sum = l'.sum := by
  induction h with
  | nil => rfl
  | cons x _ ih => simp [ih]
  | swap x y l => simp; omega
  | trans _ _ i1 i2 => exact i1.trans i2

theorem sum_map_le {α} {l : List α} {f g : α → Int} (h : ∀ x ∈ l, f x ≤ g x) :
    (l.map f).sum ≤ (l.map g).sum := by
  induction l with
  | nil => simp
  | cons x xs ih =>
    have h1 := h x (by simp)
    have h2 := ih (fun y hy => h y (by simp [hy]))
    simp; omega

theorem sum_nonneg {α} {l : List α} {f : α → Int} (h : ∀ x ∈ l, 0 ≤ f x) : 0 ≤ (l.map f).sum := by
  induction l with
  | nil => simp
  | cons x xs ih =>
    have h1 := h x (by simp)
    have h2 := ih (fun y hy => h y (by simp [hy]))
    simp; omega

theorem qtyOf_perm {l l' : List (Limit × Nat)} (h : l.Perm l') : qtyOf l = qtyOf l' :=
  sum_perm (h.map _)

/-- The sum over all orders, as a function of the tagged list. -/
def total (e : Env) (side : Side) (k : Int) (l : List (Limit × Nat)) : Int :=
  (l.map (fun x => value e (uncovered side k l x) x.1.price)).sum

theorem total_perm (e : Env) (side : Side) (k : Int) {l l' : List (Limit × Nat)}
    (h : l.Perm l') : total e side k l = total e side k l' := by
  unfold total
  have : ∀ x, uncovered side k l x = uncovered side k l' x := by
    intro x; unfold uncovered; rw [qtyOf_perm (h.filter _)]
  simp only [this]
  exact sum_perm (h.map _)

/-- Strict order in which orders of a side are offset. -/
def Before (side : Side) (a b : Limit × Nat) : Prop := before side a b = true

theorem before_irrefl (side : Side) (a : Limit × Nat) : before side a a = false := by
  cases side <;> simp [before, better]

theorem before_asymm {side : Side} {a b : Limit × Nat} (h : before side a b = true) :
    before side b a = false := by
  cases side <;> simp [before, better] at * <;> omega

theorem total_walk (e : Env) (side : Side) (k : Int) (r : List (Limit × Nat)) :
    ∀ d : List (Limit × Nat), (d ++ r).Pairwise (Before side) →
    (r.map (fun x => value e (uncovered side k (d ++ r) x) x.1.price)).sum =
      walk e k (qtyOf d) (r.map (fun x => (x.1.price, x.1.remaining))) := by
  induction r with
  | nil => intro d _; simp [walk]
  | cons x r ih =>
    intro d hp
    have i := ih (d ++ [x]) (by simpa using hp)
    simp only [List.append_assoc, List.singleton_append] at i
    simp only [List.map_cons, List.sum_cons, walk]
    have hq : qtyOf (d ++ [x]) = qtyOf d + x.1.remaining := by simp [qtyOf]
    rw [hq] at i
    rw [i]
    have hf : (d ++ x :: r).filter (fun y => before side y x) = d := by
      rw [List.pairwise_append] at hp
      obtain ⟨_, h2, h3⟩ := hp
      rw [List.pairwise_cons] at h2
      rw [List.filter_append, List.filter_cons, before_irrefl]
      have e1 : d.filter (fun y => before side y x) = d := by
        rw [List.filter_eq_self]; intro y hy; exact h3 y hy x (by simp)
      have e2 : r.filter (fun y => before side y x) = [] := by
        rw [List.filter_eq_nil_iff]; intro y hy; simp [before_asymm (h2.1 y hy)]
      simp [e1, e2]
    unfold uncovered
    rw [hf]

/-! ### Stable sorting of tagged lists -/

theorem insertBy_map {α β} (f : α → β) (key : β → Int) (x : α) (l : List α) :
    (insertBy (fun a => key (f a)) x l).map f = insertBy key (f x) (l.map f) := by
  induction l with
  | nil => rfl
  | cons y ys ih =>
    simp only [insertBy, List.map_cons]
    split <;> simp [ih]

theorem sortBy_map {α β} (f : α → β) (key : β → Int) (l : List α) :
    (sortBy (fun a => key (f a)) l).map f = sortBy key (l.map f) := by
  induction l with
  | nil => rfl
  | cons y ys ih => simp only [sortBy, List.map_cons, insertBy_map, ih]

theorem insertBy_stable {key : Limit × Nat → Int} {x : Limit × Nat} {l : List (Limit × Nat)}
    (hx : ∀ y ∈ l, x.2 < y.2)
    (h : l.Pairwise (fun a b => key a < key b ∨ (key a = key b ∧ a.2 < b.2))) :
    (insertBy key x l).Pairwise (fun a b => key a < key b ∨ (key a = key b ∧ a.2 < b.2)) := by
  induction l with
  | nil => simp [insertBy]
  | cons y ys ih =>
    rw [List.pairwise_cons] at h
    simp only [insertBy]
    split
    · next hk =>
      rw [List.pairwise_cons]
      refine ⟨fun z hz => ?_, by rw [List.pairwise_cons]; exact h⟩
      have hxz := hx z hz
      simp only [List.mem_cons] at hz
      rcases hz with rfl | hz
      · omega
      · have := h.1 z hz; omega
    · next hk =>
      rw [List.pairwise_cons]
      refine ⟨fun z hz => ?_, ih (fun z hz => hx z (by simp [hz])) h.2⟩
      rw [(insertBy_perm key x ys).mem_iff] at hz
      simp only [List.mem_cons] at hz
      rcases hz with rfl | hz
      · omega
      · exact h.1 z hz

theorem sortBy_stable {key : Limit × Nat → Int} {l : List (Limit × Nat)}
    (hl : l.Pairwise (fun a b => a.2 < b.2)) :
    (sortBy key l).Pairwise (fun a b => key a < key b ∨ (key a = key b ∧ a.2 < b.2)) := by
  induction l with
  | nil => simp [sortBy]
  | cons x xs ih =>
    rw [List.pairwise_cons] at hl
    exact insertBy_stable (fun y hy => hl.1 y ((sortBy_perm _ _).mem_iff.1 hy)) (ih hl.2)

theorem zipIdx_sorted {α} (l : List α) : ∀ n, (l.zipIdx n).Pairwise (fun a b => a.2 < b.2) ∧
    ∀ x ∈ l.zipIdx n, n ≤ x.2 := by
  induction l with
  | nil => intro n; simp
  | cons x xs ih =>
    intro n
    obtain ⟨h1, h2⟩ := ih (n + 1)
    simp only [List.zipIdx_cons, List.pairwise_cons]
    refine ⟨⟨fun y hy => by have := h2 y hy; simp; omega, h1⟩, fun y hy => ?_⟩
    simp only [List.mem_cons] at hy
    rcases hy with rfl | hy
    · simp
    · have := h2 y hy; omega

/-- Sort key of a side: best price first. -/
def sideKey (side : Side) (x : Int × Int) : Int :=
  match side with
  | .buy => -x.1
  | .sell => x.1

theorem zipIdx_map_pr (l : List Limit) : ∀ n, (l.zipIdx n).map
    (fun x => (x.1.price, x.1.remaining)) = l.map (fun o => (o.price, o.remaining)) := by
  induction l with
  | nil => intro n; rfl
  | cons x xs ih => intro n; simp [List.zipIdx_cons, ih]

/-- The value of a side is the walk over its sorted orders. -/
theorem sideValue_walk (e : Env) (side : Side) (k : Int) (os : List Limit) :
    sideValue e side k os = walk e k 0 (sortBy (sideKey side) (sideOrders side os none)) := by
  have hl := (zipIdx_sorted (os.filter (fun o => o.side == side)) 0).1
  show total e side k (os.filter (fun o => o.side == side)).zipIdx = _
  rw [← total_perm e side k (sortBy_perm
    (fun x => sideKey side ((fun y : Limit × Nat => (y.1.price, y.1.remaining)) x)) _)]
  have hp := sortBy_stable
    (key := fun x => sideKey side ((fun y : Limit × Nat => (y.1.price, y.1.remaining)) x)) hl
  have := total_walk e side k _ [] (by
    simp only [List.nil_append]
    refine hp.imp (fun {a b} h => ?_)
    cases side <;> simp [Before, before, better, sideKey] at h ⊢ <;> omega)
  simp only [List.nil_append] at this
  rw [total, this]
  have e2 := sortBy_map (fun y : Limit × Nat => (y.1.price, y.1.remaining)) (sideKey side)
    (os.filter (fun o => o.side == side)).zipIdx
  rw [e2, zipIdx_map_pr]
  simp [sideOrders, qtyOf]

theorem sideOrders_new (side : Side) (b : Book) (o : Limit) :
    sideOrders side b (some o) = sideOrders side (b ++ [o]) none := by
  simp only [sideOrders, List.filter_append, List.map_append, List.append_nil]
  congr 1
  by_cases h : o.side = side
  · simp [h]
  · simp [h]

theorem sideOrders_nonneg {side : Side} {b : Book} (h : ∀ o ∈ b, 0 ≤ o.remaining) (key) :
    ∀ x ∈ sortBy key (sideOrders side b none), 0 ≤ x.2 := by
  intro x hx
  rw [(sortBy_perm _ _).mem_iff] at hx
  simp only [sideOrders, List.append_nil, List.mem_map, List.mem_filter] at hx
  obtain ⟨o, ⟨ho, _⟩, rfl⟩ := hx
  exact h o ho

/-- The margin computed by the code is the requirement of the specification. -/
theorem orderMarginInternal_ok {c : Cfg} {b : Book} {pos : Position} {new : Option Limit} {m : Int}
    (hp : PosWF pos) (hb : ∀ o ∈ b ++ new.toList, 0 ≤ o.remaining)
    (h : orderMarginInternal c.env c.spec.initMarginReq b pos new = .ok m) :
    m = marginReq c (b ++ new.toList) pos.quantity := by
  have hn : ∀ side, sideOrders side b new = sideOrders side (b ++ new.toList) none := by
    intro side
    cases new with
    | none => simp
    | some o => exact sideOrders_new side b o
  simp only [orderMarginInternal, bind_ok, hn, ok_inj] at h
  obtain ⟨_, _, bv, h1, sv, h2, rfl⟩ := h
  have n1 := sideOrders_nonneg (side := .buy) hb (sideKey .buy)
  have n2 := sideOrders_nonneg (side := .sell) hb (sideKey .sell)
  have k1 : (fun x : Int × Int => -x.1) = sideKey .buy := rfl
  have k2 : (fun x : Int × Int => x.1) = sideKey .sell := rfl
  rw [k1] at h1
  rw [k2] at h2
  have e1 : bv = sideValue c.env .buy (larger (-pos.quantity) 0) (b ++ new.toList) := by
    rw [sideValue_walk]
    cases pos with
    | neutral => have := sumValue_ok h1 0 0 (by omega) n1; simpa [Position.quantity, larger] using this
    | long p =>
      have := sumValue_ok h1 (larger (-p.qty) 0) 0
        (by simp only [PosWF] at hp; unfold larger; split <;> omega) n1
      simpa [Position.quantity] using this
    | short p =>
      simp only [PosWF] at hp
      have hq : larger (- -p.qty) 0 = p.qty := by unfold larger; split <;> omega
      have := offset_ok h1 p.qty 0 (by unfold larger; split <;> omega) n1
      simp only [Position.quantity, hq]
      simpa using this
  have e2 : sv = sideValue c.env .sell (larger pos.quantity 0) (b ++ new.toList) := by
    rw [sideValue_walk]
    cases pos with
    | neutral => have := sumValue_ok h2 0 0 (by omega) n2; simpa [Position.quantity, larger] using this
    | short p =>
      have := sumValue_ok h2 (larger (-p.qty) 0) 0
        (by simp only [PosWF] at hp; unfold larger; split <;> omega) n2
      simpa [Position.quantity] using this
    | long p =>
      simp only [PosWF] at hp
      have hq : larger (p.qty) 0 = p.qty := by unfold larger; split <;> omega
      have := offset_ok h2 p.qty 0 (by unfold larger; split <;> omega) n2
      simp only [Position.quantity, hq]
      simpa using this
  rw [e1, e2, umax_larger]; rfl

theorem orderMargin_ok {c : Cfg} {b : Book} {pos : Position} {m : Int}
    (hp : PosWF pos) (hb : ∀ o ∈ b, 0 ≤ o.remaining)
    (h : orderMargin c.env c.spec.initMarginReq b pos = .ok m) :
    m = marginReq c b pos.quantity := by
  have := orderMarginInternal_ok (new := none) hp (by simpa using hb) h
  simpa using this


/-! ### Monotonicity -/

theorem value_mono {e : Env} {q q' p : Int} (hp : 0 < p) (hq : 0 ≤ q) (h : q ≤ q') :
    value e q p ≤ value e q' p := by
  have hs := scale_pos e
  unfold value
  cases e.kind with
  | linear =>
    exact tdiv_mono hs (Int.mul_nonneg hq (by omega)) (Int.mul_le_mul_of_nonneg_right h (by omega))
  | inverse =>
    exact tdiv_mono hp (Int.mul_nonneg hq (by omega)) (Int.mul_le_mul_of_nonneg_right h (by omega))

theorem clip_nonneg {x q : Int} (hq : 0 ≤ q) : 0 ≤ clip x q := by
  unfold clip; split <;> (try split) <;> omega

theorem clip_mono {x y q r : Int} (hq : 0 ≤ q) (h : x ≤ y) (hr : q ≤ r) : clip x q ≤ clip y r := by
  unfold clip; split <;> split <;> (try split) <;> (try split) <;> omega

theorem larger_mono {a b a' b' : Int} (h1 : a ≤ a') (h2 : b ≤ b') : larger a b ≤ larger a' b' := by
  unfold larger; split <;> split <;> omega

theorem larger_nonneg {a b : Int} (h : 0 ≤ a) : 0 ≤ larger a b := by
  unfold larger; split <;> omega

theorem share_mono {e : Env} {x y r : Int} (hr : 0 ≤ r) (hx : 0 ≤ x) (h : x ≤ y) :
    share e x r ≤ share e y r :=
  tdiv_mono (scale_pos e) (Int.mul_nonneg hx hr) (Int.mul_le_mul_of_nonneg_right h hr)

/-- Well formed orders as far as margin is concerned. -/
def GoodOrders (os : List Limit) : Prop := ∀ o ∈ os, 0 < o.price ∧ 0 ≤ o.remaining

theorem sideValue_nonneg {e : Env} {side : Side} {k : Int} {os : List Limit} (h : GoodOrders os) :
    0 ≤ sideValue e side k os := by
  unfold sideValue
  refine sum_nonneg (fun x hx => ?_)
  have hm : x.1 ∈ os := (List.mem_filter.1 (List.fst_mem_of_mem_zipIdx hx)).1
  exact value_nonneg e (clip_nonneg (h _ hm).2) (Int.le_of_lt (h _ hm).1)

theorem marginReq_nonneg {c : Cfg} {os : List Limit} {pos : Int} (h : GoodOrders os)
    (hi : 0 ≤ c.spec.initMarginReq) : 0 ≤ marginReq c os pos := by
  refine share_nonneg _ ?_ hi
  exact larger_nonneg (sideValue_nonneg h)

theorem marginReq_mono {c : Cfg} {os os' : List Limit} {pos pos' : Int} (h : GoodOrders os)
    (hi : 0 ≤ c.spec.initMarginReq)
    (h1 : sideValue c.env .buy (larger (-pos) 0) os ≤ sideValue c.env .buy (larger (-pos') 0) os')
    (h2 : sideValue c.env .sell (larger pos 0) os ≤ sideValue c.env .sell (larger pos' 0) os') :
    marginReq c os pos ≤ marginReq c os' pos' := by
  exact share_mono hi (larger_nonneg (sideValue_nonneg h)) (larger_mono h1 h2)

theorem qtyOf_nonneg {l : List (Limit × Nat)} (h : ∀ x ∈ l, 0 ≤ x.1.remaining) : 0 ≤ qtyOf l :=
  sum_nonneg h

/-- A new order at the end never lowers the value of a side. -/
theorem sideValue_append {e : Env} {side : Side} {k : Int} {os : List Limit} {o : Limit}
    (h : GoodOrders (os ++ [o])) : sideValue e side k os ≤ sideValue e side k (os ++ [o]) := by
  unfold sideValue
  simp only [List.filter_append]
  by_cases ho : o.side = side
  · have e1 : [o].filter (fun o => o.side == side) = [o] := by simp [ho]
    rw [e1, List.zipIdx_append]
    generalize hl : (os.filter (fun o => o.side == side)).zipIdx = l
    have hg : ∀ x ∈ l, 0 < x.1.price ∧ 0 ≤ x.1.remaining := by
      intro x hx
      rw [← hl] at hx
      exact h _ (by simp [(List.mem_filter.1 (List.fst_mem_of_mem_zipIdx hx)).1])
    have ho' := h o (by simp)
    simp only [List.zipIdx_cons, List.zipIdx_nil, List.map_append, List.sum_append, List.map_cons,
      List.map_nil, List.sum_cons, List.sum_nil]
    have key : (l.map (fun x => value e (uncovered side k l x) x.1.price)).sum ≤
        (l.map (fun x => value e (uncovered side k (l ++ [(o, 0 + (os.filter
          (fun o => o.side == side)).length)]) x) x.1.price)).sum := by
      refine sum_map_le (fun x hx => value_mono (hg x hx).1 (clip_nonneg (hg x hx).2) ?_)
      refine clip_mono (hg x hx).2 ?_ (Int.le_refl _)
      rw [List.filter_append]
      have : ∀ a b : List (Limit × Nat), qtyOf (a ++ b) = qtyOf a + qtyOf b := by
        intro a b; simp [qtyOf]
      rw [this]
      have : 0 ≤ qtyOf ([(o, 0 + (os.filter (fun o => o.side == side)).length)].filter
          (fun y => before side y x)) := by
        refine qtyOf_nonneg (fun y hy => ?_)
        simp only [List.mem_filter, List.mem_singleton] at hy
        rw [hy.1]; exact ho'.2
      omega
    have : 0 ≤ value e (uncovered side k (l ++ [(o, 0 + (os.filter
          (fun o => o.side == side)).length)]) (o, 0 + (os.filter
          (fun o => o.side == side)).length)) o.price :=
      value_nonneg e (clip_nonneg ho'.2) (Int.le_of_lt ho'.1)
    omega
  · have e1 : [o].filter (fun o => o.side == side) = [] := by simp [ho]
    rw [e1, List.append_nil]; exact Int.le_refl _

theorem marginReq_append {c : Cfg} {os : List Limit} {o : Limit} {pos : Int}
    (h : GoodOrders (os ++ [o])) (hi : 0 ≤ c.spec.initMarginReq) :
    marginReq c os pos ≤ marginReq c (os ++ [o]) pos :=
  marginReq_mono (fun x hx => h x (by simp [hx])) hi (sideValue_append h) (sideValue_append h)

/-- More cover never raises the value of a side. -/
theorem sideValue_cover {e : Env} {side : Side} {k k' : Int} {os : List Limit} (h : GoodOrders os)
    (hk : k ≤ k') : sideValue e side k' os ≤ sideValue e side k os := by
  unfold sideValue
  refine sum_map_le (fun x hx => ?_)
  have hm : x.1 ∈ os := (List.mem_filter.1 (List.fst_mem_of_mem_zipIdx hx)).1
  refine value_mono (h _ hm).1 (clip_nonneg (h _ hm).2) ?_
  exact clip_mono (h _ hm).2 (by omega) (Int.le_refl _)

/-- Without cover the value of a side is the plain sum. -/
theorem sideValue_zero {e : Env} {side : Side} {os : List Limit} (h : GoodOrders os) :
    sideValue e side 0 os =
      ((os.filter (fun o => o.side == side)).map (fun o => value e o.remaining o.price)).sum := by
  unfold sideValue
  have : ∀ fs : List Limit, ∀ n, ((fs.zipIdx n).map (fun x => value e x.1.remaining x.1.price)) =
      fs.map (fun o => value e o.remaining o.price) := by
    intro fs; induction fs with
    | nil => intro n; rfl
    | cons x xs ih => intro n; simp [List.zipIdx_cons, ih]
  rw [← this _ 0]
  refine congrArg List.sum (List.map_congr_left (fun x hx => ?_))
  have hm : x.1 ∈ os := (List.mem_filter.1 (List.fst_mem_of_mem_zipIdx hx)).1
  have hq : 0 ≤ qtyOf ((os.filter (fun o => o.side == side)).zipIdx.filter
      (fun y => before side y x)) := by
    refine qtyOf_nonneg (fun y hy => ?_)
    exact (h _ (List.mem_filter.1 (List.fst_mem_of_mem_zipIdx (List.mem_filter.1 hy).1)).1).2
  have hr := (h _ hm).2
  have : uncovered side 0 (os.filter (fun o => o.side == side)).zipIdx x = x.1.remaining := by
    unfold uncovered clip; split <;> (try split) <;> omega
  rw [this]

/-! ### Distinct prices: places do not matter -/

/-- Sum of the remaining quantities. -/
def qsum (l : List Limit) : Int := (l.map Limit.remaining).sum

/-- The value of a side as a function of prices alone. -/
def priceValue (e : Env) (side : Side) (k : Int) (fs : List Limit) : Int :=
  (fs.map (fun o => value e (clip (qsum (fs.filter (fun y => better side y.price o.price)) +
    o.remaining - k) o.remaining) o.price)).sum

theorem priceValue_perm (e : Env) (side : Side) (k : Int) {l l' : List Limit} (h : l.Perm l') :
    priceValue e side k l = priceValue e side k l' := by
  unfold priceValue
  have : ∀ o : Limit, qsum (l.filter (fun y => better side y.price o.price)) =
      qsum (l'.filter (fun y => better side y.price o.price)) := by
    intro o; exact sum_perm ((h.filter _).map _)
  simp only [this]
  exact sum_perm (h.map _)

theorem qtyOf_zipIdx (P : Limit → Bool) (l : List Limit) : ∀ n,
    qtyOf ((l.zipIdx n).filter (fun y => P y.1)) = qsum (l.filter P) := by
  induction l with
  | nil => intro n; rfl
  | cons x xs ih =>
    intro n
    simp only [List.zipIdx_cons, List.filter_cons]
    have := ih (n + 1)
    cases hP : P x <;> simp [qtyOf, qsum] at * <;> omega

theorem sideValue_distinct {e : Env} {side : Side} {k : Int} {os : List Limit}
    (h : distinctPrices os) :
    sideValue e side k os = priceValue e side k (os.filter (fun o => o.side == side)) := by
  unfold sideValue priceValue
  generalize hfs : os.filter (fun o => o.side == side) = fs
  have hd : fs.Pairwise (fun a b => a.price ≠ b.price) := by
    rw [← hfs]
    refine (List.Pairwise.filter (fun o => o.side == side) h).imp_of_mem (fun {a b} ha hb hab => ?_)
    have ha := (List.mem_filter.1 ha).2
    have hb := (List.mem_filter.1 hb).2
    simp at ha hb
    exact hab (ha.trans hb.symm)
  have inj : ∀ x ∈ fs.zipIdx, ∀ y ∈ fs.zipIdx, y.1.price = x.1.price → y = x := by
    intro x hx y hy he
    have hz : (fs.zipIdx).Pairwise (fun a b => a.1.price ≠ b.1.price) := by
      have : (fs.zipIdx.map Prod.fst).Pairwise (fun a b => a.price ≠ b.price) := by
        rw [List.zipIdx_map_fst]; exact hd
      rw [List.pairwise_map] at this; exact this
    generalize fs.zipIdx = z at *
    induction z with
    | nil => simp at hx
    | cons a z ih =>
      rw [List.pairwise_cons] at hz
      simp only [List.mem_cons] at hx hy
      rcases hx with rfl | hx <;> rcases hy with rfl | hy
      · rfl
      · exact absurd he.symm (hz.1 y hy)
      · exact absurd he (hz.1 x hx)
      · exact ih hx hy hz.2
  have key : ∀ x ∈ fs.zipIdx, uncovered side k fs.zipIdx x =
      clip (qsum (fs.filter (fun y => better side y.price x.1.price)) + x.1.remaining - k)
        x.1.remaining := by
    intro x hx
    unfold uncovered
    rw [← qtyOf_zipIdx (fun y => better side y.price x.1.price) fs 0]
    congr 3
    refine congrArg qtyOf (List.filter_congr (fun y hy => ?_))
    unfold before
    by_cases he : y.1.price = x.1.price
    · have := inj x hx y hy he; subst this; simp
    · simp [he]
  have : ∀ (g : Limit → Int) n, (fs.zipIdx n).map (fun x => g x.1) = fs.map g := by
    intro g; clear key inj hd hfs
    induction fs with
    | nil => intro n; rfl
    | cons x xs ih => intro n; simp [List.zipIdx_cons, ih]
  refine (congrArg List.sum (List.map_congr_left (fun x hx => ?_))).trans (congrArg List.sum (this (fun o => value e (clip (qsum (fs.filter
    (fun y => better side y.price o.price)) + o.remaining - k) o.remaining) o.price) 0))
  exact congrArg (fun q => value e q x.1.price) (key x hx)

theorem qsum_nonneg {l : List Limit} (h : ∀ x ∈ l, 0 ≤ x.remaining) : 0 ≤ qsum l := sum_nonneg h

/-- One order less never raises the value. -/
theorem priceValue_cons {e : Env} {side : Side} {k : Int} {o : Limit} {fs : List Limit}
    (h : GoodOrders (o :: fs)) : priceValue e side k fs ≤ priceValue e side k (o :: fs) := by
  unfold priceValue
  simp only [List.map_cons, List.sum_cons]
  have ho := h o (by simp)
  have h0 : 0 ≤ value e (clip (qsum ((o :: fs).filter (fun y => better side y.price o.price)) +
      o.remaining - k) o.remaining) o.price := value_nonneg e (clip_nonneg ho.2) (Int.le_of_lt ho.1)
  have : (fs.map (fun x => value e (clip (qsum (fs.filter (fun y => better side y.price x.price)) +
      x.remaining - k) x.remaining) x.price)).sum ≤ (fs.map (fun x => value e (clip (qsum
      ((o :: fs).filter (fun y => better side y.price x.price)) + x.remaining - k) x.remaining)
      x.price)).sum := by
    refine sum_map_le (fun x hx => ?_)
    have hx' := h x (by simp [hx])
    refine value_mono hx'.1 (clip_nonneg hx'.2) (clip_mono hx'.2 ?_ (Int.le_refl _))
    simp only [List.filter_cons]
    split
    · simp [qsum]; omega
    · omega
  omega

theorem Spec.distinctPrices.perm {l l' : List Limit} (h : distinctPrices l) (hp : l.Perm l') :
    distinctPrices l' :=
  hp.pairwise h (fun hab he => fun hh => hab he.symm hh.symm)

theorem Spec.distinctPrices.filter {l : List Limit} (h : distinctPrices l) (p : Limit → Bool) :
    distinctPrices (l.filter p) := List.Pairwise.filter p h

theorem Spec.distinctPrices.of_cons {o : Limit} {l : List Limit} (h : distinctPrices (o :: l)) :
    distinctPrices l := List.Pairwise.of_cons h

end Lfest
