import Verif.Lemmas.Book
import Verif.Lemmas.Core

/-! The matching loop: what happens to each order, and to both arenas. -/

namespace Lfest

/-- What the loop does to one order: the order afterwards and, if it was filled, the
quantity and the report. -/
structure Out where
  after : Limit
  fill : Option (Int × LimitUpdate)

/-- Report of a fill from the result of `Limit.fill`. -/
def reportOf (o' : Limit) : Option FilledLimit → LimitUpdate
  | some f => .fullyFilled f
  | none => .partiallyFilled o'

/-- Outcome of one iteration for the order alone. -/
def Outcome (c : Cfg) (u : Update) (o : Limit) (x : Out) : Prop :=
  (u.filled c.env.debug o = .ok none ∧ x = ⟨o, none⟩) ∨
  ∃ q o' r, u.filled c.env.debug o = .ok (some q) ∧ o.fill c.scale q u.ts = .ok (o', r) ∧
    x = ⟨o', some (q, reportOf o' r)⟩

/-- Outcomes of the loop. -/
inductive Outcomes (c : Cfg) (u : Update) : List Limit → List Out → Prop
  | nil : Outcomes c u [] []
  | cons {o os x xs} (h : Outcome c u o x) (t : Outcomes c u os xs) :
      Outcomes c u (o :: os) (x :: xs)

def LimitUpdate.isFull : LimitUpdate → Bool
  | .fullyFilled _ => true
  | .partiallyFilled _ => false

/-- Was the order filled completely? -/
def Out.full (x : Out) : Bool :=
  match x.fill with
  | some (_, u) => u.isFull
  | none => false

/-- Tracker calls for an outcome, newest first. -/
def Out.events (x : Out) : List Event :=
  match x.fill with
  | some (q, u) => [.trade x.after.side x.after.price q, .limitFill u.isFull q]
  | none => []

def Out.report (x : Out) : Option LimitUpdate := x.fill.map Prod.snd

/-- Tracker calls of the loop, newest first. -/
def outEvents : List Out → List Event
  | [] => []
  | x :: xs => outEvents xs ++ x.events

theorem Outcome.fixed {c : Cfg} {u : Update} {o : Limit} {x : Out} (h : Outcome c u o x) :
    x.after.id = o.id ∧ x.after.side = o.side ∧ x.after.price = o.price ∧
      x.after.uid = o.uid ∧ x.after.ts = o.ts := by
  rcases h with ⟨_, rfl⟩ | ⟨q, o', r, _, hf, rfl⟩
  · simp
  · have := fill_fixed hf; simp [this]

theorem matchOrder_out {c : Cfg} {u : Update} {l l' : Loop} {o o' : Limit}
    (h : matchOrder c u l o = .ok (l', o')) :
    ∃ x, Outcome c u o x ∧ x.after = o' ∧ l'.log = x.events ++ l.log ∧
      l'.updates = l.updates ++ x.report.toList ∧
      l'.ids = l.ids ++ (if x.full = true then [o'.id] else []) ∧
      ((x.fill = none ∧ l'.om = l.om) ∨
       (x.full = true ∧ omRemove l.om (.orderId o'.id) = .ok l'.om) ∨
       (x.full = false ∧ omUpdate c.maxOpen l.om o' = .ok (.ok l'.om))) := by
  simp only [matchOrder, bind_ok] at h
  obtain ⟨r, hr, h⟩ := h
  cases r with
  | none =>
    simp only [ok_inj, Prod.mk.injEq] at h; obtain ⟨rfl, rfl⟩ := h
    exact ⟨⟨o, none⟩, .inl ⟨hr, rfl⟩, rfl, by simp [Out.events], by simp [Out.report],
      by simp [Out.full], .inl ⟨rfl, rfl⟩⟩
  | some q =>
    simp only [bind_ok, debugP_ok, ok_inj, Prod.mk.injEq] at h
    obtain ⟨_, _, _, _, ⟨l1, o1⟩, h1, l2, h2, l3, h3, rfl, rfl⟩ := h
    obtain ⟨r, hf, ha, hpo, hl, hm⟩ := applyFill_ok h1
    obtain ⟨hc, ho2, hl2, hu2, hi2⟩ := settleLimit_ok h2
    obtain ⟨n, _, hp3, ho3, hl3, hu3, hi3, _, h4⟩ := releaseMargin_ok h3
    refine ⟨⟨o1, some (q, reportOf o1 r)⟩, .inr ⟨q, o1, r, hr, hf, rfl⟩, rfl, ?_, ?_, ?_, ?_⟩
    · rw [hl3, hl2, hl]; cases r <;> simp [Out.events, reportOf, LimitUpdate.isFull]
    · rw [hu3, hu2]; cases r <;> simp at hm <;> simp [hm, Out.report, reportOf]
    · rw [hi3, hi2]; cases r <;> simp at hm <;> simp [hm, Out.full, reportOf, LimitUpdate.isFull]
    · rw [ho3, ho2]
      cases r with
      | none => exact .inr (.inr ⟨by simp [Out.full, reportOf, LimitUpdate.isFull], hm.1⟩)
      | some f => exact .inr (.inl ⟨by simp [Out.full, reportOf, LimitUpdate.isFull], hm.1⟩)

theorem matchLoop_out {c : Cfg} {u : Update} {os : List Limit} :
    ∀ {l l' : Loop} {os'}, matchLoop c u l os = .ok (l', os') →
    ∃ xs, Outcomes c u os xs ∧ os' = xs.map Out.after ∧ l'.log = outEvents xs ++ l.log ∧
      l'.updates = l.updates ++ xs.filterMap Out.report ∧
      l'.ids = l.ids ++ (xs.filter Out.full).map (fun x => x.after.id) := by
  induction os with
  | nil =>
    intro l l' os' h
    simp only [matchLoop, ok_inj, Prod.mk.injEq] at h; obtain ⟨rfl, rfl⟩ := h
    exact ⟨[], .nil, rfl, by simp [outEvents], by simp, by simp⟩
  | cons o os ih =>
    intro l l' os' h
    simp only [matchLoop, bind_ok, ok_inj, Prod.mk.injEq] at h
    obtain ⟨⟨l1, o1⟩, h1, ⟨l2, os2⟩, h2, rfl, rfl⟩ := h
    obtain ⟨x, hx, rfl, e1, e2, e3, _⟩ := matchOrder_out h1
    obtain ⟨xs, hxs, rfl, f1, f2, f3⟩ := ih h2
    refine ⟨x :: xs, .cons hx hxs, rfl, ?_, ?_, ?_⟩
    · rw [f1, e1]; simp [outEvents]
    · rw [f2, e2]; cases hr : x.report <;> simp [hr]
    · rw [f3, e3]; cases hr : x.full <;> simp [hr]

/-! ### Removing the executed orders -/

theorem removeExecuted_append (b : Book) (xs ys : List Nat) :
    removeExecuted b (xs ++ ys) = (do
      let b' ← removeExecuted b xs
      removeExecuted b' ys) := by
  induction xs generalizing b with
  | nil => rfl
  | cons x xs ih =>
    simp only [List.cons_append, removeExecuted]
    cases b.removeById x <;> simp [expectSome, bind, Except.bind]
    rename_i r
    rw [ih]; rfl

theorem removeExecuted_map (f : Limit → Limit) (hf : ∀ x, (f x).id = x.id) (ids : List Nat) :
    ∀ {b b' : Book}, removeExecuted b ids = .ok b' →
      removeExecuted (b.map f) ids = .ok (b'.map f) := by
  induction ids with
  | nil => intro b b' h; simp only [removeExecuted, ok_inj] at *; rw [h]
  | cons i ids ih =>
    intro b b' h
    simp only [removeExecuted, bind_ok, expectSome_ok] at *
    obtain ⟨r, hr, h⟩ := h
    refine ⟨(f r.1, r.2.map f), ?_, ih h⟩
    rw [removeById_map f b i (fun x _ => hf x), hr]; rfl

/-- The executed orders are gone, the others are kept, up to order. -/
theorem removeExecuted_perm (ids : List Nat) :
    ∀ {b b' : Book}, IdsNodup b → removeExecuted b ids = .ok b' →
      b'.Perm (b.filter (fun x => decide (x.id ∉ ids))) ∧ IdsNodup b' := by
  induction ids with
  | nil =>
    intro b b' hn h
    simp only [removeExecuted, ok_inj] at h; subst h
    refine ⟨List.Perm.of_eq ?_, hn⟩
    symm; rw [List.filter_eq_self]; simp
  | cons i ids ih =>
    intro b b' hn h
    simp only [removeExecuted, bind_ok, expectSome_ok] at h
    obtain ⟨r, hr, h⟩ := h
    obtain ⟨_, _, h3, h4, _⟩ := removeById_some hn hr
    obtain ⟨h5, h6⟩ := ih h4 h
    refine ⟨h5.trans ((h3.filter _).trans ?_), h6⟩
    rw [List.filter_filter]
    refine List.Perm.of_eq (List.filter_congr ?_)
    intro x _
    simp [Bool.and_comm]

/-- The removal succeeds when the ids are distinct and present. -/
theorem removeExecuted_total (ids : List Nat) :
    ∀ {b : Book}, IdsNodup b → ids.Nodup → (∀ i ∈ ids, ∃ o ∈ b, o.id = i) →
      ∃ b', removeExecuted b ids = .ok b' := by
  induction ids with
  | nil => intro b _ _ _; exact ⟨b, rfl⟩
  | cons i ids ih =>
    intro b hn hi hm
    obtain ⟨o, b', hr⟩ := removeById_isSome (hm i (by simp))
    obtain ⟨_, _, h3, h4, _⟩ := removeById_some hn hr
    simp only [List.nodup_cons] at hi
    obtain ⟨b'', hb⟩ := ih h4 hi.2 (fun j hj => by
      obtain ⟨x, hx, hxj⟩ := hm j (by simp [hj])
      refine ⟨x, ?_, hxj⟩
      rw [h3.mem_iff]
      simp only [List.mem_filter, hx, true_and, decide_eq_true_eq]
      intro h; subst h; subst hxj; exact hi.1 hj)
    refine ⟨b'', ?_⟩
    simp only [removeExecuted, bind_ok, expectSome_ok]
    exact ⟨_, hr, hb⟩

/-! ### The order margin arena follows -/

/-- put `o` in place of the order with the same id -/
def put (o x : Limit) : Limit := if x.id = o.id then o else x

theorem put_id (o x : Limit) : (put o x).id = x.id := by
  unfold put; split <;> simp_all

theorem put_other {b : Book} {o : Limit} (h : ∀ x ∈ b, x.id ≠ o.id) : b.map (put o) = b := by
  rw [List.map_congr_left (g := id)]
  · simp
  · intro x hx; simp [put, h x hx]

theorem put_mid {xs ys : List Limit} {o o' : Limit} (hn : IdsNodup (xs ++ o :: ys))
    (hid : o'.id = o.id) : (xs ++ o :: ys).map (put o') = xs ++ o' :: ys := by
  have := hn.split.1
  rw [List.map_append, List.map_cons, put_other (fun x hx => by rw [hid]; exact this x (by simp [hx])),
    put_other (fun x hx => by rw [hid]; exact this x (by simp [hx]))]
  simp [put, hid]

theorem IdsNodup.map_put {b : Book} (o : Limit) (h : IdsNodup b) : IdsNodup (b.map (put o)) := by
  unfold IdsNodup at *
  rw [List.map_map]
  have : Limit.id ∘ put o = Limit.id := funext (fun x => put_id o x)
  rw [this]; exact h

theorem omUpdate_ok {cap : Nat} {b b' : Book} {o : Limit}
    (h : omUpdate cap b o = .ok (.ok b')) :
    0 < o.remaining ∧
    ((b.getById o.id = none ∧ b.length < cap ∧ b' = b ++ [o]) ∨
     (∃ old, b.getById o.id = some old ∧ o.remaining < old.remaining ∧
       b' = replaceFirst (fun x => x.id == o.id) o b)) := by
  simp only [omUpdate, bind_ok, assertP_ok] at h
  obtain ⟨_, hr, h⟩ := h
  refine ⟨hr, ?_⟩
  unfold Book.insert at h
  cases hg : b.getById o.id with
  | none =>
    left
    simp only [hg] at h
    split at h
    · next hh => split at hh <;> simp_all
    · next hh => split at hh <;> simp_all
    · next hh => split at hh <;> simp_all
  | some old =>
    right
    simp only [hg] at h
    simp only [bind_ok, assertP_ok, Except.ok.injEq] at h
    obtain ⟨_, _, _, h2, rfl⟩ := h
    exact ⟨old, rfl, h2, rfl⟩

theorem omRemove_ok {b b' : Book} {x : CancelBy} (h : omRemove b x = .ok b') :
    ∃ o, b.removeCancel x = some (o, b') := by
  simp only [omRemove, bind_ok, expectSome_ok, ok_inj] at h
  obtain ⟨r, hr, rfl⟩ := h
  exact ⟨r.1, hr⟩

/-- If the two arenas agree before the loop, then removing the executed orders from the
processed list gives the order margin arena. -/
theorem matchLoop_om {c : Cfg} {u : Update} {os : List Limit} :
    ∀ {done : List Limit} {l l' : Loop} {os'}, IdsNodup (done ++ os) →
      removeExecuted (done ++ os) l.ids = .ok l.om →
      (∀ o ∈ os, o.id ∉ l.ids) →
      matchLoop c u l os = .ok (l', os') →
      removeExecuted (done ++ os') l'.ids = .ok l'.om := by
  induction os with
  | nil =>
    intro done l l' os' hn hr hi h
    simp only [matchLoop, ok_inj, Prod.mk.injEq] at h; obtain ⟨rfl, rfl⟩ := h
    exact hr
  | cons o os ih =>
    intro done l l' os' hn hr hi h
    simp only [matchLoop, bind_ok, ok_inj, Prod.mk.injEq] at h
    obtain ⟨⟨l1, o1⟩, h1, ⟨l2, os2⟩, h2, rfl, rfl⟩ := h
    obtain ⟨x, hx, rfl, _, _, e3, e4⟩ := matchOrder_out h1
    have hid := hx.fixed.1
    have hmid := put_mid hn hid
    have hn' : IdsNodup (done ++ x.after :: os) := by rw [← hmid]; exact hn.map_put _
    have hsplit := hn'.split.1
    have key : removeExecuted (done ++ x.after :: os) l1.ids = .ok l1.om := by
      have hbase := removeExecuted_map (put x.after) (put_id _) _ hr
      rw [hmid] at hbase
      have hmem : ∃ y ∈ l.om, y.id = x.after.id := by
        have hp := (removeExecuted_perm _ hn hr).1
        refine ⟨o, ?_, hid.symm⟩
        rw [hp.mem_iff]
        simp [hi o (by simp)]
      have hnom := (removeExecuted_perm _ hn hr).2
      rcases e4 with ⟨hnone, hom⟩ | ⟨hfull, hom⟩ | ⟨hpart, hom⟩
      · have hf : x.full = false := by simp [Out.full, hnone]
        have ho : x.after = o := by
          rcases hx with ⟨_, rfl⟩ | ⟨_, _, _, _, _, rfl⟩
          · rfl
          · simp at hnone
        rw [e3, hf, hom, ho]
        simpa using hr
      · rw [e3, hfull, if_pos rfl, removeExecuted_append, hbase]
        obtain ⟨y, hy⟩ := omRemove_ok hom
        simp only [Book.removeCancel] at hy
        have := removeById_map (put x.after) l.om x.after.id (fun z _ => put_id _ z)
        rw [hy] at this
        simp only [removeExecuted, bind_ok, expectSome_ok]
        refine ⟨_, rfl, _, this, ?_⟩
        simp only [ok_inj]
        refine put_other (fun z hz => ?_)
        have hp := (removeById_some hnom hy).2.2.1
        rw [hp.mem_iff] at hz
        simpa using (List.mem_filter.1 hz).2
      · rw [e3, hpart]
        simp only [Bool.false_eq_true, if_false, List.append_nil]
        rw [hbase]
        obtain ⟨_, h5⟩ := omUpdate_ok hom
        rcases h5 with ⟨h5, _⟩ | ⟨old, h5, _, h6⟩
        · obtain ⟨y, hy, hyi⟩ := hmem
          exact absurd hyi (getById_none.1 h5 y hy)
        · rw [h6, replaceFirst_eq_map hnom]; rfl
    have := ih (done := done ++ [x.after]) (l := l1) (by simpa using hn') (by simpa using key)
      (fun y hy => by
        rw [e3]
        simp only [List.mem_append, not_or]
        refine ⟨hi y (by simp [hy]), ?_⟩
        split
        · simp only [List.mem_singleton]
          exact hsplit y (by simp [hy])
        · simp) h2
    simpa using this

end Lfest
