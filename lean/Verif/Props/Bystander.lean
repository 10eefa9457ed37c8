import Verif.SpecBystander
import Verif.Props.Alone
import Verif.Props.Dust
import Verif.Props.LifeSum

/-!
# C149: orders that are not filled do not matter, unless two orders are filled at once
-/

namespace Lfest

open Spec Audit Life Bystander

/-- The two accounts differ in the further orders only. -/
structure Besides (f : Nat → Nat) (extra : Nat → Bool) (s s' : State) : Prop where
  ms : s'.ms = s.ms
  active : ∃ more, s'.active.Perm (s.active.map (Rename.limit f) ++ more) ∧ ∀ o ∈ more, extra o.id = true

theorem near_remove {f : Nat → Nat} {extra : Nat → Bool} (hf : ∀ i j, f i = f j → i = j)
    (hx : ∀ i, extra (f i) = false) {l l' more : List Limit} {i : Nat}
    (h : l'.Perm (l.map (Rename.limit f) ++ more)) (hm : ∀ o ∈ more, extra o.id = true) :
    (l'.filter (fun o => decide (o.id ≠ f i))).Perm
      ((l.filter (fun o => decide (o.id ≠ i))).map (Rename.limit f) ++ more) := by
  have h1 := h.filter (fun o => decide (o.id ≠ f i))
  rw [List.filter_append, List.filter_map] at h1
  have e1 : l.filter ((fun o => decide (o.id ≠ f i)) ∘ Rename.limit f) =
      l.filter (fun o => decide (o.id ≠ i)) := by
    apply List.filter_congr
    intro o _
    simp only [Function.comp, Rename.limit, ne_eq, decide_not]
    by_cases e : o.id = i
    · simp [e]
    · have : ¬ f o.id = f i := fun h => e (hf _ _ h)
      simp [e, this]
  have e2 : more.filter (fun o => decide (o.id ≠ f i)) = more := by
    rw [List.filter_eq_self]
    intro o ho
    simp only [decide_eq_true_eq]
    intro e
    have h2 := hm o ho
    rw [e, hx i] at h2
    cases h2
  rwa [e1, e2] at h1

theorem near_drop {f : Nat → Nat} {extra : Nat → Bool} (hx : ∀ i, extra (f i) = false)
    {l l' more : List Limit} {i : Nat} (hi : extra i = true)
    (h : l'.Perm (l.map (Rename.limit f) ++ more)) :
    (l'.filter (fun o => decide (o.id ≠ i))).Perm
      (l.map (Rename.limit f) ++ more.filter (fun o => decide (o.id ≠ i))) := by
  have h1 := h.filter (fun o => decide (o.id ≠ i))
  rw [List.filter_append] at h1
  have e1 : (l.map (Rename.limit f)).filter (fun o => decide (o.id ≠ i)) = l.map (Rename.limit f) := by
    rw [List.filter_eq_self]
    intro o ho
    obtain ⟨x, _, rfl⟩ := List.mem_map.1 ho
    simp only [decide_eq_true_eq]
    intro e
    rw [← show f x.id = i from e, hx x.id] at hi
    cases hi
  rwa [e1] at h1

/-- An update, if it fills none of the further orders. -/
theorem near_update {e : Env} {f : Nat → Nat} {u : UpdateArg} (hu : Alone.impersonal u)
    {l l' more : List Limit} (h : l'.Perm (l.map (Rename.limit f) ++ more))
    (hm : ∀ o ∈ more, fillRule u o = none) :
    (makerFills u l').Perm (makerFills u l) ∧
    (l'.filterMap (survivor e u)).Perm
      ((l.filterMap (survivor e u)).map (Rename.limit f) ++ more) := by
  have hr : ∀ o, fillRule u (Rename.limit f o) = fillRule u o := by
    intro o
    rcases hu with h | h <;> cases u <;> try rfl
    · simp [isCustom] at h
    · simp [mayFill] at h
      simp [fillRule, h]
  refine ⟨?_, ?_⟩
  · have h1 := h.filterMap (fun o => (fillRule u o).map (fun q => (⟨true, o.side, o.price, q⟩ : Fill)))
    rw [List.filterMap_append, List.filterMap_map] at h1
    have e1 : more.filterMap (fun o => (fillRule u o).map (fun q => (⟨true, o.side, o.price, q⟩ : Fill)))
        = [] := by
      rw [List.filterMap_eq_nil_iff]
      intro o ho
      simp [hm o ho]
    rw [e1, List.append_nil] at h1
    have e2 : ((fun o => (fillRule u o).map (fun q => (⟨true, o.side, o.price, q⟩ : Fill))) ∘
        Rename.limit f) = (fun o => (fillRule u o).map (fun q => (⟨true, o.side, o.price, q⟩ : Fill))) := by
      funext o
      simp only [Function.comp, hr]
      rfl
    rwa [e2] at h1
  · have h1 := h.filterMap (survivor e u)
    rw [List.filterMap_append, List.filterMap_map] at h1
    have e1 : more.filterMap (survivor e u) = more := by
      clear h h1
      induction more with
      | nil => rfl
      | cons o more ih =>
        have ho : survivor e u o = some o := by simp [survivor, hm o (List.mem_cons_self ..)]
        rw [List.filterMap_cons_some ho, ih (fun o h => hm o (List.mem_cons_of_mem _ h))]
    have e2 : (survivor e u ∘ Rename.limit f) = (fun o => (survivor e u o).map (Rename.limit f)) := by
      funext o
      simp only [Function.comp, survivor, hr]
      cases fillRule u o with
      | none => rfl
      | some q =>
        show (if q = o.remaining then _ else _) = Option.map _ (if q = o.remaining then _ else _)
        split <;> rfl
    rw [e1, e2, ← List.map_filterMap] at h1
    exact h1

theorem reports_length {e : Env} {u : UpdateArg} {ts : Int} (ht : updateTime u = some ts) (l : List Limit) :
    (reports e u l).length = (makerFills u l).length := by
  induction l with
  | nil => rfl
  | cons o l ih =>
    simp only [reports, makerFills, List.filterMap_cons, ht] at ih ⊢
    cases fillRule u o <;> simp [ih]

theorem perm_short {α : Type} {l l' : List α} (h : l.Perm l') (hl : l'.length ≤ 1) : l = l' := by
  match l', hl with
  | [], _ => exact h.eq_nil
  | [a], _ => exact h.eq_singleton

theorem cancel_filter {c : Cfg} {s s2 : State} (hr : Reachable c s) {b : CancelBy} {o : Limit}
    (h : step c s (.cancel b) = .ok (s2, .limit (.ok o))) :
    s2.active.Perm (s.active.filter (fun x => decide (x.id ≠ o.id))) ∧ s2.ms = s.ms := by
  obtain ⟨⟨a, b', e, _, _, hp⟩, _, hm, _⟩ := C19_cancel_removes c s s2 b o h
  rw [filter_out hr.inv.nodup e]
  exact ⟨hp, hm⟩

theorem amend_filter {c : Cfg} {s s2 : State} {r : Resp} {id : Nat} {side : Side} {p q : Int} {uid : Nat}
    (hr : Reachable c s) (hc : carriedOut r = true)
    (h : step c s (.amend id side p q uid) = .ok (s2, r)) : ∃ old ∈ s.active, old.id = id ∧
      ∃ o, r = .limit (.ok o) ∧
      o = ⟨uid, side, p, q - old.filledQuantity, s.nextId, s.ms.ts, .unfilled⟩ ∧
      s2.active.Perm (o :: s.active.filter (fun o => decide (o.id ≠ id))) ∧ s2.ms = s.ms := by
  have hm := (step_ms hr.inv h).1
  rcases step_cases h with ⟨_, _, x, he, _, _, rfl⟩ | ⟨_, _, he, _⟩ | ⟨err, _, rfl⟩ |
    ⟨_, _, _, x, he, _, _, rfl⟩ | ⟨_, _, _, _, x, he, _, _, _, rfl⟩ |
    ⟨_, _, _, _, _, x, he, _, _, ham, rfl⟩ | ⟨_, _, he, _⟩ <;> first | cases he | skip
  · simp [carriedOut] at hc
  · cases x with
    | error _ => simp [carriedOut] at hc
    | ok o =>
      have : ∃ old ∈ s.active, old.id = id := by
        rcases amendLimit_cases ham with ⟨_, _, e⟩ | ⟨old, _, hg, _⟩
        · cases e
        · exact ⟨old, List.mem_of_find?_eq_some hg, by simpa using List.find?_some hg⟩
      obtain ⟨old, ho, rfl⟩ := this
      obtain ⟨_, g, _⟩ := C20_amend c s s2 hr old ho side p q uid _ h
      obtain ⟨_, g1, _, g2⟩ := g o rfl
      exact ⟨old, ho, rfl, o, rfl, g1, g2, hm⟩

/-- One call made in both histories. -/
theorem near_same {c : Cfg} {f : Nat → Nat} {extra : Nat → Bool} (hf : ∀ i j, f i = f j → i = j)
    (hx : ∀ i, extra (f i) = false) {s s' s2 s2' : State} {op : Op} {r r' : Resp}
    (hr : Reachable c s) (hr' : Reachable c s') (hn : Besides f extra s s')
    (h : step c s op = .ok (s2, r)) (h' : step c s' (Rename.op f op) = .ok (s2', r'))
    (hc : carriedOut r = true) (hc' : carriedOut r' = true) (hs : sameOrder f r r' = true)
    (hu : unfilled extra [(Rename.op f op, r')]) (ha : anyId op) :
    Besides f extra s2 s2' ∧ ∃ g g', fills s2.log = g ++ fills s.log ∧
      fills s2'.log = g' ++ fills s'.log ∧ g'.Perm g ∧ (oneByOne [(op, r)] → g' = g) := by
  obtain ⟨hms, more, hp, hm⟩ := hn
  cases op with
  | update u =>
    have hop : Rename.op f (.update u) = .update u := rfl
    rw [hop] at h' hu
    have m := (step_ms hr.inv h).1
    have m' := (step_ms hr'.inv h').1
    have hr1 : ∃ ups, r = .update (.ok ups) := by
      rcases step_cases h with ⟨_, _, x, he, _, _, rfl⟩ | ⟨_, _, he, _⟩ | ⟨err, _, rfl⟩ |
        ⟨_, _, _, _, he, _⟩ | ⟨_, _, _, _, _, he, _⟩ | ⟨_, _, _, _, _, _, he, _⟩ | ⟨_, _, he, _⟩ <;>
        first | cases he | skip
      · cases x with
        | ok ups => exact ⟨ups, rfl⟩
        | error _ => simp [carriedOut] at hc
      · simp [carriedOut] at hc
    have hr2 : ∃ ups, r' = .update (.ok ups) := by
      rcases step_cases h' with ⟨_, _, x, he, _, _, rfl⟩ | ⟨_, _, he, _⟩ | ⟨err, _, rfl⟩ |
        ⟨_, _, _, _, he, _⟩ | ⟨_, _, _, _, _, he, _⟩ | ⟨_, _, _, _, _, _, he, _⟩ | ⟨_, _, he, _⟩ <;>
        first | cases he | skip
      · cases x with
        | ok ups => exact ⟨ups, rfl⟩
        | error _ => simp [carriedOut] at hc'
      · simp [carriedOut] at hc'
    obtain ⟨ups, rfl⟩ := hr1
    obtain ⟨ups', rfl⟩ := hr2
    obtain ⟨a1, a2, _, a4, _, _⟩ := update_spec hr.inv h
    obtain ⟨b1, b2, _, b4, _, _⟩ := update_spec hr'.inv h'
    obtain ⟨ht, _, _⟩ := C43_update c s s2 u _ hr h
    have hmore : ∀ o ∈ more, fillRule u o = none := by
      intro o ho
      cases hq : fillRule u o with
      | none => rfl
      | some q =>
        exfalso
        have ho' : o ∈ s'.active := hp.mem_iff.2 (List.mem_append_right _ ho)
        have e1 := heard_one (e := c.env) ht s'.active hr'.inv.nodup ho'
        rw [hq, ← b2] at e1
        have e2 : life o.id [(Op.update u, Resp.update (.ok ups'))] =
            (some (report c.env s2.ms.ts o q)).toList.filterMap (heard o.id) := by
          rw [life, List.flatMap_cons, List.flatMap_nil, List.append_nil]
          exact e1
        by_cases hqr : q = o.remaining
        · exact (hu o.id (hm o ho) (.filled ⟨o.uid, o.side, o.price, 0, o.id, o.ts, s2.ms.ts, o.price,
            o.filledQuantity + o.remaining⟩) (by rw [e2]; simp [report, hqr, heard])).2 _ rfl
        · exact (hu o.id (hm o ho) (.partly (filledBy c.env o q))
            (by rw [e2]; simp [report, hqr, heard, filledBy])).1 _ rfl
    obtain ⟨k1, k2⟩ := near_update (e := c.env) (ha u rfl) hp hmore
    have hlen : oneByOne [(Op.update u, Resp.update (.ok ups))] → (makerFills u s.active).length ≤ 1 := by
      intro h1
      rw [← reports_length (e := c.env) ht, ← a2]
      exact h1 _ _ (List.mem_singleton.2 rfl)
    refine ⟨⟨by rw [m, m', hms], more, ?_, hm⟩, _, _, a4, b4,
      (List.reverse_perm _).trans (k1.trans (List.reverse_perm _).symm),
      fun h1 => by rw [perm_short k1 (hlen h1)]⟩
    exact b1.trans (k2.trans ((a1.symm.map _).append_right _))
  | checkActive u =>
    rcases step_cases h with ⟨_, _, x, he, _, _, rfl⟩ | ⟨_, _, he, _, _, rfl⟩ | ⟨err, _, rfl⟩ |
      ⟨_, _, _, _, he, _⟩ | ⟨_, _, _, _, _, he, _⟩ | ⟨_, _, _, _, _, _, he, _⟩ | ⟨_, _, he, _⟩ <;>
      first | cases he | skip
    all_goals simp [carriedOut] at hc
  | market side q uid =>
    have hop : Rename.op f (.market side q uid) = .market side q uid := rfl
    rw [hop] at h'
    have key : ∀ {s s2 : State} {r : Resp}, Reachable c s → carriedOut r = true →
        step c s (.market side q uid) = .ok (s2, r) →
        s2.active = s.active ∧ s2.ms = s.ms ∧
        Spec.fills s2.log = ⟨false, side, touchPrice s.ms side, q⟩ :: Spec.fills s.log := by
      intro s s2 r hr hc h
      rcases step_cases h with ⟨_, _, x, he, _, _, rfl⟩ | ⟨_, _, he, _⟩ | ⟨err, _, rfl⟩ |
        ⟨_, _, _, x, he, _, _, rfl⟩ | ⟨_, _, _, _, _, he, _⟩ | ⟨_, _, _, _, _, _, he, _⟩ | ⟨_, _, he, _⟩ <;>
        first | cases he | skip
      · simp [carriedOut] at hc
      · cases x with
        | error _ => simp [carriedOut] at hc
        | ok g =>
          obtain ⟨_, g2, _, g4, _, g6, _⟩ := C21_market_order c s s2 hr side q uid g h
          exact ⟨g4, g6, g2⟩
    obtain ⟨a1, a2, a3⟩ := key hr hc h
    obtain ⟨b1, b2, b3⟩ := key hr' hc' h'
    exact ⟨⟨by rw [a2, b2, hms], more, by rw [a1, b1]; exact hp, hm⟩, [_], [_], a3, b3,
      by rw [hms], fun _ => by rw [hms]⟩
  | limit side p q uid =>
    have hop : Rename.op f (.limit side p q uid) = .limit side p q uid := rfl
    rw [hop] at h'
    have key : ∀ {s s2 : State} {r : Resp}, carriedOut r = true →
        step c s (.limit side p q uid) = .ok (s2, r) → ∃ o, r = .limit (.ok o) := by
      intro s s2 r hc h
      rcases step_cases h with ⟨_, _, x, he, _, _, rfl⟩ | ⟨_, _, he, _⟩ | ⟨err, _, rfl⟩ |
        ⟨_, _, _, x, he, _, _, rfl⟩ | ⟨_, _, _, _, x, he, _, _, _, rfl⟩ | ⟨_, _, _, _, _, _, he, _⟩ |
        ⟨_, _, he, _⟩ <;> first | cases he | skip
      · simp [carriedOut] at hc
      · cases x with
        | error _ => simp [carriedOut] at hc
        | ok o => exact ⟨o, rfl⟩
    obtain ⟨o, rfl⟩ := key hc h
    obtain ⟨o', rfl⟩ := key hc' h'
    obtain ⟨a1, a2, _, a4, _⟩ := C18_accepted_limit c s s2 hr side p q uid o h
    obtain ⟨b1, b2, _, b4, _⟩ := C18_accepted_limit c s' s2' hr' side p q uid o' h'
    have e : o' = Rename.limit f o := by
      have hs' : o'.id = f o.id := of_decide_eq_true hs
      rw [b1, a1] at hs'
      rw [b1, a1, Rename.limit, hms]
      simpa using hs'
    refine ⟨⟨by rw [a4, b4, hms], more, ?_, hm⟩, [], [], C03_quiet_calls c s s2 _ _ h (by simp [quiet]),
      C03_quiet_calls c s' s2' _ _ h' (by simp [quiet]), .refl _, fun _ => rfl⟩
    · rw [a2, b2, List.map_append, List.append_assoc, e]
      refine (hp.append_right _).trans ?_
      rw [List.append_assoc]
      exact List.Perm.append_left _ List.perm_append_comm
  | amend id side p q uid =>
    have hop : Rename.op f (.amend id side p q uid) = .amend (f id) side p q uid := rfl
    rw [hop] at h'
    obtain ⟨old, ho, rfl, o, rfl, a1, a2, a3⟩ := amend_filter hr hc h
    obtain ⟨old', ho', hid, o', rfl, b1, b2, b3⟩ := amend_filter hr' hc' h'
    have hold : old' = Rename.limit f old := by
      have hin : Rename.limit f old ∈ s'.active :=
        hp.mem_iff.2 (List.mem_append_left _ (List.mem_map_of_mem ho))
      have e1 := find_by_id hr'.inv.nodup hin
      have e2 := find_by_id hr'.inv.nodup ho'
      rw [hid, show (Rename.limit f old).id = f old.id from rfl] at *
      rw [e1] at e2
      exact (Option.some.inj e2).symm
    have e : o' = Rename.limit f o := by
      have hs' : o'.id = f o.id := of_decide_eq_true hs
      rw [b1, a1] at hs'
      rw [b1, a1, hold, Rename.limit, hms]
      have : s'.nextId = f s.nextId := hs'
      simp [this, Rename.limit, Limit.filledQuantity]
    refine ⟨⟨by rw [a3, b3, hms], more, ?_, hm⟩, [], [], C03_quiet_calls c s s2 _ _ h (by simp [quiet]),
      C03_quiet_calls c s' s2' _ _ h' (by simp [quiet]), .refl _, fun _ => rfl⟩
    · refine b2.trans (List.Perm.trans ?_ ((a2.symm.map _).append_right _))
      rw [e, List.map_cons, List.cons_append]
      exact (near_remove hf hx hp hm).cons _
  | cancel b =>
    have hop : ∃ b', Rename.op f (.cancel b) = .cancel b' := by
      cases b <;> exact ⟨_, rfl⟩
    obtain ⟨b', hop⟩ := hop
    rw [hop] at h'
    have key : ∀ {s s2 : State} {r : Resp} {b : CancelBy}, carriedOut r = true →
        step c s (.cancel b) = .ok (s2, r) → ∃ o, r = .limit (.ok o) := by
      intro s s2 r b hc h
      rcases step_cases h with ⟨_, _, x, he, _, _, rfl⟩ | ⟨_, _, he, _⟩ | ⟨err, _, rfl⟩ |
        ⟨_, _, _, x, he, _, _, rfl⟩ | ⟨_, _, _, _, x, he, _, _, _, rfl⟩ | ⟨_, _, _, _, _, _, he, _⟩ |
        ⟨_, x, he, _, rfl⟩ <;> first | cases he | skip
      · simp [carriedOut] at hc
      · cases x with
        | error _ => simp [carriedOut] at hc
        | ok o => exact ⟨o, rfl⟩
    obtain ⟨o, rfl⟩ := key hc h
    obtain ⟨o', rfl⟩ := key hc' h'
    have hs' : o'.id = f o.id := of_decide_eq_true hs
    obtain ⟨a1, a2⟩ := cancel_filter hr h
    obtain ⟨b1, b2⟩ := cancel_filter hr' h'
    rw [hs'] at b1
    refine ⟨⟨by rw [a2, b2, hms], more, ?_, hm⟩, [], [], C03_quiet_calls c s s2 _ _ h (by simp [quiet]),
      C03_quiet_calls c s' s2' _ _ h' (by simp [quiet]), .refl _, fun _ => rfl⟩
    · exact b1.trans ((near_remove hf hx hp hm).trans ((a1.symm.map _).append_right _))

/-- One call that submits or cancels a further order. -/
theorem near_more {c : Cfg} {f : Nat → Nat} {extra : Nat → Bool} (hx : ∀ i, extra (f i) = false)
    {s s' s2' : State} {x : Op × Resp} (hr' : Reachable c s') (hn : Besides f extra s s')
    (h' : step c s' x.1 = .ok (s2', x.2)) (hf : further extra x = true) :
    Besides f extra s s2' ∧ fills s2'.log = fills s'.log := by
  obtain ⟨hms, more, hp, hm⟩ := hn
  obtain ⟨op, r⟩ := x
  dsimp only at h'
  unfold further at hf
  split at hf
  · next side p q uid o e =>
    cases e
    obtain ⟨b1, b2, _, b4, _⟩ := C18_accepted_limit c s' s2' hr' side p q uid o h'
    refine ⟨⟨by rw [b4, hms], more ++ [o], ?_, ?_⟩, C03_quiet_calls c s' s2' _ _ h' (by simp [quiet])⟩
    · rw [b2, ← List.append_assoc]
      exact hp.append_right _
    · intro y hy
      rcases List.mem_append.1 hy with hy | hy
      · exact hm y hy
      · rw [List.mem_singleton.1 hy]; exact hf
  · next id side p q uid o e =>
    cases e
    rw [Bool.and_eq_true] at hf
    obtain ⟨_, _, _, o1, e1, _, b2, b3⟩ := amend_filter hr' rfl h'
    cases e1
    refine ⟨⟨by rw [b3, hms], o :: more.filter (fun y => decide (y.id ≠ id)), ?_, ?_⟩,
      C03_quiet_calls c s' s2' _ _ h' (by simp [quiet])⟩
    · exact b2.trans (((near_drop hx hf.1 hp).cons o).trans List.perm_middle.symm)
    · intro y hy
      rcases List.mem_cons.1 hy with rfl | hy
      · exact hf.2
      · exact hm y (List.mem_filter.1 hy).1
  · next b o e =>
    cases e
    obtain ⟨b1, b2⟩ := cancel_filter hr' h'
    refine ⟨⟨by rw [b2, hms], more.filter (fun y => decide (y.id ≠ o.id)), ?_, ?_⟩,
      C03_quiet_calls c s' s2' _ _ h' (by simp [quiet])⟩
    · exact b1.trans (near_drop hx hf hp)
    · exact fun y hy => hm y (List.mem_filter.1 hy).1
  · cases hf

/-- What the fills of a history say about an account. -/
theorem same_fills {c : Cfg} {s s' : State} (hr : Reachable c s) (hr' : Reachable c s')
    (h : fills s'.log = fills s.log) :
    s'.pos = s.pos ∧ s'.feesPaid = s.feesPaid ∧
    s'.acct.balance .treasury = s.acct.balance .treasury ∧
    s'.acct.balance .positionMargin = s.acct.balance .positionMargin ∧ equity s' = equity s := by
  have l := hr.linv.ledger
  have l' := hr'.linv.ledger
  simp only [State.core] at l l'
  rw [h, ← l] at l'
  simp only [ledgerOf, Ledger.mk.injEq] at l'
  obtain ⟨l1, l2, l3, l4, l5⟩ := l'
  have w : PosWF s.pos := hr.linv.wf
  have w' : PosWF s'.pos := hr'.linv.wf
  have p1 := C11_position_margin c s hr
  have p2 := C11_position_margin c s' hr'
  rw [h, ← p1] at p2
  obtain ⟨ops, r⟩ := hr
  obtain ⟨ops', r'⟩ := hr'
  obtain ⟨_, d1, d2⟩ := C01_double_entry c ops s r
  obtain ⟨_, d3, d4⟩ := C01_double_entry c ops' s' r'
  have b1 : s.acct.balance .broker = 0 := by simp [Accounts.balance, Accounts.get, d2, TAccount.net]
  have b2 : s'.acct.balance .broker = 0 := by simp [Accounts.balance, Accounts.get, d4, TAccount.net]
  refine ⟨?_, l4, by omega, p2, by simp only [equity]; omega⟩
  generalize s.pos = p at *
  generalize s'.pos = p' at *
  cases p <;> cases p' <;>
    simp only [PosWF, Position.quantity, Position.entryPrice, Position.outstandingFees] at * <;>
    first
    | rfl
    | omega
    | (rename_i x y; cases x; cases y; simp only [Position.long.injEq, Position.short.injEq, Inner.mk.injEq] at *; omega)

theorem near_history {c : Cfg} {f : Nat → Nat} {extra : Nat → Bool} (hf : ∀ i j, f i = f j → i = j)
    (hx : ∀ i, extra (f i) = false) : ∀ (ops' ops : List Op) (s s' s2 s2' : State)
    (tr tr' : List (Op × Resp)), Reachable c s → Reachable c s' → Besides f extra s s' →
    history c s ops = .ok (s2, tr) → history c s' ops' = .ok (s2', tr') →
    withFurther f extra tr tr' → unfilled extra tr' → (∀ op ∈ ops, anyId op) →
    Besides f extra s2 s2' ∧ Reachable c s2 ∧ Reachable c s2' ∧ ∃ g g', fills s2.log = g ++ fills s.log ∧
      fills s2'.log = g' ++ fills s'.log ∧ g'.Perm g ∧ (oneByOne tr → g' = g)
  | [], ops, s, s', s2, s2', tr, tr', hr, hr', hn, h, h', hw, hu, ha => by
    simp only [history, ok_inj, Prod.mk.injEq] at h'
    obtain ⟨rfl, rfl⟩ := h'
    cases ops with
    | nil =>
      simp only [history, ok_inj, Prod.mk.injEq] at h
      obtain ⟨rfl, rfl⟩ := h
      exact ⟨hn, hr, hr', [], [], rfl, rfl, .refl _, fun _ => rfl⟩
    | cons op ops =>
      simp only [history, bind_ok, ok_inj, Prod.mk.injEq] at h
      obtain ⟨x, _, y, _, _, rfl⟩ := h
      simp [withFurther, sameCalls] at hw
  | op' :: ops', ops, s, s', s2, s2', tr, tr', hr, hr', hn, h, h', hw, hu, ha => by
    simp only [history, bind_ok, ok_inj, Prod.mk.injEq] at h'
    obtain ⟨⟨t', r'⟩, hst', ⟨v', tr1'⟩, hh', rfl, rfl⟩ := h'
    have hu1 : unfilled extra [(op', r')] := fun id hid e he => hu id hid e (by
      rw [life, List.flatMap_cons] ; rw [life, List.flatMap_cons, List.flatMap_nil, List.append_nil] at he
      exact List.mem_append_left _ he)
    have hu2 : unfilled extra tr1' := fun id hid e he => hu id hid e (by
      rw [life, List.flatMap_cons]
      exact List.mem_append_right _ he)
    by_cases hfu : further extra (op', r') = true
    · rw [withFurther, List.filter_cons_of_neg (by simp [hfu])] at hw
      obtain ⟨n1, n2⟩ := near_more hx hr' hn hst' hfu
      have := near_history hf hx ops' ops s t' s2 _ tr tr1' hr (hr'.step hst') n1 h hh' hw hu2 ha
      rwa [n2] at this
    · rw [withFurther, List.filter_cons_of_pos (by simpa using hfu)] at hw
      cases ops with
      | nil =>
        simp only [history, ok_inj, Prod.mk.injEq] at h
        obtain ⟨_, rfl⟩ := h
        simp [sameCalls] at hw
      | cons op ops =>
        simp only [history, bind_ok, ok_inj, Prod.mk.injEq] at h
        obtain ⟨⟨t, r⟩, hst, ⟨v, tr1⟩, hh, rfl, rfl⟩ := h
        simp only [sameCalls, Bool.and_eq_true, decide_eq_true_eq] at hw
        obtain ⟨⟨⟨⟨rfl, c1⟩, c2⟩, c3⟩, hw⟩ := hw
        have h11 : oneByOne ((op, r) :: tr1) → oneByOne [(op, r)] := fun h1 u ups hm => h1 u ups (by
          rw [List.mem_singleton.1 hm]
          exact List.mem_cons_self ..)
        have h12 : oneByOne ((op, r) :: tr1) → oneByOne tr1 :=
          fun h1 u ups hm => h1 u ups (List.mem_cons_of_mem _ hm)
        obtain ⟨n, g, g', e1, e2, e3, e4⟩ :=
          near_same hf hx hr hr' hn hst hst' c1 c2 c3 hu1 (ha op (List.mem_cons_self ..))
        obtain ⟨k1, k2, k3, d, d', i1, i2, i3, i4⟩ := near_history hf hx ops' ops t t' _ _ tr1 tr1'
          (hr.step hst) (hr'.step hst') n hh hh' hw hu2 (fun o ho => ha o (List.mem_cons_of_mem _ ho))
        refine ⟨k1, k2, k3, d ++ g, d' ++ g', ?_, ?_, i3.append e3, fun h1 => ?_⟩
        · rw [List.append_assoc, ← e1]; exact i1
        · rw [List.append_assoc, ← e2]; exact i2
        · rw [i4 (h12 h1), e4 (h11 h1)]

/-- C149: take a history, and the same history with any number of further limit orders submitted,
amended and cancelled in between, none of which is ever filled. If all calls are carried out in both and no update
fills two orders, then the two accounts make the same trades in the same sequence: they have the same
position, have paid the same fees, have realised the same profit, have the same position margin and the
same equity, and the other active orders are the same, in the same state. (All that can differ is how
much of the equity is held as order margin, and the sequence in which the orders will be filled by
an update that fills several: C146_bystanders_matter.) -/
theorem C149_bystanders (c : Cfg) (f : Nat → Nat) (extra : Nat → Bool)
    (hf : ∀ i j, f i = f j → i = j) (hx : ∀ i, extra (f i) = false)
    (ops ops' : List Op) (s s' : State) (tr tr' : List (Op × Resp))
    (h : history c (State.init c) ops = .ok (s, tr))
    (h' : history c (State.init c) ops' = .ok (s', tr'))
    (hw : withFurther f extra tr tr') (hu : unfilled extra tr') (h1 : oneByOne tr)
    (ha : ∀ op ∈ ops, anyId op) :
    fills s'.log = fills s.log ∧ s'.ms = s.ms ∧ s'.pos = s.pos ∧ s'.feesPaid = s.feesPaid ∧
    s'.acct.balance .treasury = s.acct.balance .treasury ∧
    s'.acct.balance .positionMargin = s.acct.balance .positionMargin ∧ equity s' = equity s ∧
    (∀ o ∈ s.active, Rename.limit f o ∈ s'.active) ∧
    (∀ o' ∈ s'.active, extra o'.id = true ∨ ∃ o ∈ s.active, o' = Rename.limit f o) := by
  have r0 : Reachable c (State.init c) := ⟨[], rfl⟩
  obtain ⟨n, r, r', g, g', i1, i2, _, i4⟩ := near_history hf hx ops' ops _ _ s s' tr tr' r0 r0
    ⟨rfl, [], by simp [State.init], by simp⟩ h h' hw hu ha
  have hfl : fills s'.log = fills s.log := by rw [i1, i2, i4 h1]
  obtain ⟨e1, e2, e3, e4, e5⟩ := same_fills r r' hfl
  obtain ⟨more, hp, hm⟩ := n.active
  refine ⟨hfl, n.ms, e1, e2, e3, e4, e5,
    fun o ho => hp.mem_iff.2 (List.mem_append_left _ (List.mem_map_of_mem ho)), fun o' ho' => ?_⟩
  rcases List.mem_append.1 (hp.mem_iff.1 ho') with ho | ho
  · obtain ⟨o, hin, rfl⟩ := List.mem_map.1 ho
    exact .inr ⟨o, hin, rfl⟩
  · exact .inl (hm o' ho)

/-- C149 with updates that fill any number of orders: the two accounts make the same trades, if not in
the same sequence. The positions are of the same size, the same fees are charged (unless there are
rebates), the other active orders are the same, and in linear contracts the profit, with the position
valued at any price, is the same up to the rounding of entry prices and of realised profits. -/
theorem C149_any_updates (c : Cfg) (f : Nat → Nat) (extra : Nat → Bool)
    (hf : ∀ i j, f i = f j → i = j) (hx : ∀ i, extra (f i) = false)
    (ops ops' : List Op) (s s' : State) (tr tr' : List (Op × Resp))
    (h : history c (State.init c) ops = .ok (s, tr))
    (h' : history c (State.init c) ops' = .ok (s', tr'))
    (hw : withFurther f extra tr tr') (hu : unfilled extra tr') (ha : ∀ op ∈ ops, anyId op) :
    (fills s'.log).Perm (fills s.log) ∧ s'.ms = s.ms ∧ s'.pos.quantity = s.pos.quantity ∧
    (0 ≤ c.spec.feeMaker → 0 ≤ c.spec.feeTaker →
      s'.feesPaid + s'.pos.outstandingFees = s.feesPaid + s.pos.outstandingFees) ∧
    (c.env.kind = .linear → ∀ p : Int,
      Spec.abs (((equity s' + s'.feesPaid) * c.scale + s'.pos.quantity * (p - s'.pos.entryPrice)) -
        ((equity s + s.feesPaid) * c.scale + s.pos.quantity * (p - s.pos.entryPrice))) ≤
      profitRounding c (fills s'.log) + profitRounding c (fills s.log)) ∧
    (∀ o ∈ s.active, Rename.limit f o ∈ s'.active) ∧
    (∀ o' ∈ s'.active, extra o'.id = true ∨ ∃ o ∈ s.active, o' = Rename.limit f o) := by
  have r0 : Reachable c (State.init c) := ⟨[], rfl⟩
  obtain ⟨n, _, _, g, g', i1, i2, i3, _⟩ := near_history hf hx ops' ops _ _ s s' tr tr' r0 r0
    ⟨rfl, [], by simp [State.init], by simp⟩ h h' hw hu ha
  have hp : (fills s'.log).Perm (fills s.log) := by
    rw [i1, i2]
    exact i3.append_right _
  have r := history_run h'
  have r' := history_run h
  have q : s'.pos.quantity = s.pos.quantity := by
    rw [(C06_position_quantity c ops' s' r).1, (C06_position_quantity c ops s r').1, netBought_sum,
      netBought_sum]
    exact sum_perm (hp.map _)
  obtain ⟨more, hq, hm⟩ := n.active
  refine ⟨hp, n.ms, q, fun h1 h2 => ?_, fun hk p => ?_,
    fun o ho => hq.mem_iff.2 (List.mem_append_left _ (List.mem_map_of_mem ho)), fun o' ho' => ?_⟩
  · rw [C04_fee_schedule c ops' s' r h1 h2, C04_fee_schedule c ops s r' h1 h2, feeSum_sum, feeSum_sum]
    exact sum_perm (hp.map _)
  · have m := C68_marked c ops' s' p hk r
    have m' := C68_marked c ops s p hk r'
    rw [sum_perm (hp.map (fun f => f.signed * (p - f.price)))] at m
    have e1 : (equity s - c.start + s.feesPaid) * c.scale =
        (equity s + s.feesPaid) * c.scale - c.start * c.scale := by
      rw [← Int.sub_mul]; congr 1; omega
    have e2 : (equity s' - c.start + s'.feesPaid) * c.scale =
        (equity s' + s'.feesPaid) * c.scale - c.start * c.scale := by
      rw [← Int.sub_mul]; congr 1; omega
    rw [e2] at m
    rw [e1] at m'
    unfold Spec.abs at m m' ⊢
    split at m <;> split at m' <;> split <;> omega
  · rcases List.mem_append.1 (hq.mem_iff.1 ho') with ho | ho
    · obtain ⟨o, hin, rfl⟩ := List.mem_map.1 ho
      exact .inr ⟨o, hin, rfl⟩
    · exact .inl (hm o' ho)

namespace Ex

/-- Buy 1 at market, `extra`, rest a buy of 2 at 90 and a sell of 1 at 110, `later`, and let trades fill
half of the first and then the second. -/
def crowd (extra later : List Op) : List Op :=
  [.update (.bba ⟨d 100, d 101, 1⟩), .market .buy (d 1) 0] ++ extra ++
    [.limit .buy (d 90) (d 2) 1, .limit .sell (d 110) (d 1) 2] ++ later ++
    [.update (.trade ⟨2, d 89, d 1, .sell⟩), .update (.trade ⟨3, d 111, d 5, .buy⟩)]

/-- The first order keeps its id, the others come one later. -/
def shift (i : Nat) : Nat := if i = 0 then 0 else i + 1

end Ex

/-- The hypotheses of C149_bystanders are met: the further order is the one submitted second, and it is
cancelled. -/
example : (∀ i j, Ex.shift i = Ex.shift j → i = j) ∧ (∀ i, (Ex.shift i == 1) = false) ∧
    (∀ op ∈ Ex.crowd [] [], anyId op) ∧
    Ex.beside Ex.lin (Ex.crowd [] []) (Ex.crowd [Ex.far] [Ex.back]) (fun s tr s' tr' =>
      sameCalls Ex.shift tr (tr'.filter (fun x => !further (fun i => i == 1) x)) &&
      (match life 1 tr' with | [.opened _, .cancelled _] => true | _ => false) &&
      tr.all (fun x => match x.2 with | .update (.ok ups) => decide (ups.length ≤ 1) | _ => true) &&
      decide ((fills s.log).length = 3 ∧ s.active.length = 1 ∧ s'.active.length = 1 ∧
        s.acct.balance .treasury ≠ -Ex.lin.start)) = true := by
  refine ⟨?_, ?_, ?_, by decide +kernel⟩
  · intro i j h
    simp only [Ex.shift] at h
    split at h <;> split at h <;> omega
  · intro i
    simp only [Ex.shift, beq_eq_false_iff_ne]
    split <;> omega
  · intro op hop u e
    subst e
    simp [Ex.crowd] at hop
    rcases hop with rfl | rfl | rfl <;> exact .inl rfl

/-- The hypotheses of C149_any_updates are met by the histories of C146_bystanders_matter, with the
further order amended before it is cancelled, where the sequence of the fills differs. -/
example : (∀ i j : Nat, (if i = 0 then 0 else i + 2) = (if j = 0 then 0 else j + 2) → i = j) ∧
    (∀ i : Nat, decide ((if i = 0 then 0 else i + 2) = 1 ∨ (if i = 0 then 0 else i + 2) = 2) = false) ∧
    (∀ op ∈ Ex.around [] [], anyId op) ∧
    Ex.beside Ex.lin (Ex.around [] []) (Ex.around [Ex.far, .amend 1 .buy (Ex.d 61) (Ex.d 2) 9] [Ex.back])
      (fun s tr s' tr' =>
      sameCalls (fun i => if i = 0 then 0 else i + 2) tr
        (tr'.filter (fun x => !further (fun i => decide (i = 1 ∨ i = 2)) x)) &&
      (match life 1 tr' with | [.opened _, .replaced _ _] => true | _ => false) &&
      (match life 2 tr' with | [.opened _, .cancelled _] => true | _ => false) &&
      decide ((fills s.log).length = 3 ∧ fills s'.log ≠ fills s.log)) = true := by
  refine ⟨?_, ?_, ?_, by decide +kernel⟩
  · intro i j h
    split at h <;> split at h <;> omega
  · intro i
    rw [decide_eq_false_iff_not]
    split <;> omega
  · intro op hop u e
    subst e
    simp [Ex.around] at hop
    rcases hop with rfl | rfl <;> exact .inl rfl

end Lfest
