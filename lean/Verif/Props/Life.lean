import Verif.SpecLife
import Verif.Props.Audit

/-!
# C144: every limit order has one life
-/

namespace Lfest

open Spec Audit Life

theorem now_mem {c : Cfg} {s : State} (hi : Inv c s) {o : Limit} (ho : o ∈ s.active) :
    now s o.id = some o := find_by_id hi.nodup ho

theorem now_gone {s : State} {id : Nat} (h : ∀ o ∈ s.active, o.id ≠ id) : now s id = none := by
  simpa [now, List.find?_eq_none] using h

theorem heard_report (e : Env) (ts : Int) (o : Limit) (q : Int) (id : Nat) (h : o.id ≠ id) :
    heard id (report e ts o q) = none := by
  unfold report
  split
  · exact if_neg h
  · exact if_neg h

/-- Reports say nothing about other orders. -/
theorem heard_none {e : Env} {u : UpdateArg} {id : Nat} {l : List Limit} (h : ∀ o ∈ l, o.id ≠ id) :
    (reports e u l).filterMap (heard id) = [] := by
  rw [List.filterMap_eq_nil_iff]
  intro x hx
  simp only [reports, List.mem_filterMap] at hx
  obtain ⟨o, ho, hx⟩ := hx
  split at hx
  · cases hx
    exact heard_report _ _ _ _ _ (h o ho)
  · cases hx

/-- Reports say about an order what became of it, once. -/
theorem heard_one {e : Env} {u : UpdateArg} {ts : Int} (ht : updateTime u = some ts) {o : Limit} :
    ∀ l : List Limit, (l.map Limit.id).Nodup → o ∈ l →
      (reports e u l).filterMap (heard o.id) =
        ((fillRule u o).map (report e ts o)).toList.filterMap (heard o.id)
  | [], _, h => by cases h
  | y :: ys, hn, ho => by
    simp only [List.map_cons, List.nodup_cons, List.mem_map, not_exists, not_and] at hn
    have hc : reports e u (y :: ys) =
        ((fillRule u y).map (report e ts y)).toList ++ reports e u ys := by
      simp only [reports, List.filterMap_cons, ht]
      cases fillRule u y <;> simp
    rw [hc, List.filterMap_append]
    rcases List.mem_cons.1 ho with rfl | h
    · rw [heard_none (fun x hx => hn.1 x hx), List.append_nil]
    · rw [heard_one ht ys hn.2 h]
      have hne : y.id ≠ o.id := fun e => hn.1 o h e.symm
      cases fillRule u y with
      | none => rfl
      | some q => simp [heard_report _ _ _ _ _ hne]

theorem shrunk_fill {e : Env} {o : Limit} {q : Int} (h0 : 0 < q) (h1 : q ≤ o.remaining)
    (hne : q ≠ o.remaining) : Shrunk o (filledBy e o q) := by
  refine ⟨⟨rfl, rfl, rfl, rfl, rfl, ?_⟩, ?_, ?_⟩
  · show (o.filledQuantity + q) + (o.remaining - q) = _
    omega
  · show 0 < o.remaining - q
    omega
  · show o.remaining - q < o.remaining
    omega

/-- The orders that survive an update keep their ids. -/
theorem survivor_id {e : Env} {u : UpdateArg} {o o' : Limit} (h : survivor e u o = some o') :
    o'.id = o.id := by
  unfold survivor at h
  split at h
  · cases h; rfl
  · split at h
    · cases h
    · cases h; rfl

theorem gone_survivors {e : Env} {u : UpdateArg} {l l' : List Limit}
    (hp : l'.Perm (l.filterMap (survivor e u))) {id : Nat} (h : ∀ o ∈ l, o.id ≠ id) :
    ∀ o ∈ l', o.id ≠ id := by
  intro o' ho'
  obtain ⟨o, ho, hs⟩ := List.mem_filterMap.1 (hp.mem_iff.1 ho')
  rw [survivor_id hs]
  exact h o ho

/-- An order that does not survive leaves no order with its id. -/
theorem gone_filled {c : Cfg} {s s' : State} {u : UpdateArg} (hi : Inv c s) {o : Limit}
    (ho : o ∈ s.active) (hp : s'.active.Perm (s.active.filterMap (survivor c.env u)))
    (h : survivor c.env u o = none) : ∀ x ∈ s'.active, x.id ≠ o.id := by
  intro x hx e
  obtain ⟨y, hy, hs⟩ := List.mem_filterMap.1 (hp.mem_iff.1 hx)
  have h1 : y.id = o.id := (survivor_id hs).symm.trans e
  have h2 := find_by_id hi.nodup hy
  rw [h1, find_by_id hi.nodup ho] at h2
  cases h2
  rw [h] at hs
  cases hs

/-- What one call does to an open order, and says about it. -/
theorem life_open {c : Cfg} {s s' : State} {op : Op} {r : Resp} (hr : Reachable c s)
    (hst : step c s op = .ok (s', r)) {o : Limit} (ho : o ∈ s.active) :
    (events o.id (op, r) = [] ∧ o ∈ s'.active) ∨
    (∃ o', events o.id (op, r) = [.partly o'] ∧ o' ∈ s'.active ∧ Shrunk o o') ∨
    (∃ e, events o.id (op, r) = [e] ∧ Ends o e ∧ ∀ x ∈ s'.active, x.id ≠ o.id) ∨
    (¬ audible op ∧ events o.id (op, r) = [] ∧
      ((∀ x ∈ s'.active, x.id ≠ o.id) ∨ ∃ o' ∈ s'.active, Later o o')) := by
  have hi := hr.inv
  have hfresh := (hi.orders o ho).fresh
  rcases step_cases hst with ⟨u, u', x, rfl, hb, hu, rfl⟩ | ⟨u, u', rfl, hb, hu, rfl⟩ |
    ⟨err, rfl, rfl⟩ |
    ⟨side, q, uid, x, rfl, _, _, rfl⟩ | ⟨side, p, q, uid, x, rfl, _, _, _, rfl⟩ |
    ⟨id, side, p, q, uid, x, rfl, _, _, hamend, rfl⟩ | ⟨b, x, rfl, _, rfl⟩
  · obtain ⟨ht, _, _⟩ := C43_update c s s' u _ hr hst
    cases x with
    | ok ups =>
      obtain ⟨h1, h2, _, _, h5, _⟩ := update_spec hi hst
      have hev : events o.id (.update u, .update (.ok ups)) =
          ((fillRule u o).map (report c.env s'.ms.ts o)).toList.filterMap (heard o.id) := by
        rw [h2]
        exact heard_one ht _ hi.nodup ho
      cases hf : fillRule u o with
      | none =>
        refine .inl ⟨by rw [hev, hf]; rfl, h1.mem_iff.2 (List.mem_filterMap.2 ⟨o, ho, ?_⟩)⟩
        simp only [survivor, hf]
      | some q =>
        obtain ⟨h6, h7⟩ := h5 o ho q hf
        by_cases hq : q = o.remaining
        · refine .inr (.inr (.inl ⟨.filled ⟨o.uid, o.side, o.price, 0, o.id, o.ts, s'.ms.ts, o.price,
            o.filledQuantity + o.remaining⟩, ?_, rfl, gone_filled hi ho h1 ?_⟩))
          · rw [hev, hf]; simp [report, hq, heard]
          · simp only [survivor, hf, if_pos hq]
        · refine .inr (.inl ⟨filledBy c.env o q, ?_, h1.mem_iff.2 (List.mem_filterMap.2 ⟨o, ho, ?_⟩),
            shrunk_fill h6 h7 hq⟩)
          · rw [hev, hf]; simp [report, hq, heard, filledBy]
          · simp only [survivor, hf, if_neg hq]
    | error err =>
      obtain ⟨_, _, h3, _⟩ := C30_liquidation_flattens c s s' u err hr hst
      exact .inl ⟨rfl, by rw [h3]; exact ho⟩
  · obtain ⟨h1, _, _, h5, _⟩ := checkActive_spec hb hi hu
    refine .inr (.inr (.inr ⟨fun h => h, rfl, ?_⟩))
    cases hsv : survivor c.env u o with
    | none => exact .inl (gone_filled hi ho h1 hsv)
    | some o' =>
      refine .inr ⟨o', h1.mem_iff.2 (List.mem_filterMap.2 ⟨o, ho, hsv⟩), ?_⟩
      unfold survivor at hsv
      split at hsv
      · cases hsv
        exact ⟨⟨rfl, rfl, rfl, rfl, rfl, rfl⟩, Int.le_refl _⟩
      · next q hf =>
        obtain ⟨h6, h7⟩ := h5 o ho q hf
        split at hsv
        · cases hsv
        · next hq =>
          cases hsv
          have := shrunk_fill (e := c.env) h6 h7 hq
          exact ⟨this.1, Int.le_of_lt this.2.2⟩
  · exact .inl ⟨by cases op <;> rfl, ho⟩
  · cases x with
    | ok f =>
      obtain ⟨_, _, _, h3, _⟩ := C21_market_order c s s' hr side q uid f hst
      exact .inl ⟨rfl, by rw [h3]; exact ho⟩
    | error err =>
      obtain ⟨h1, _⟩ := C17_rejected_market c s s' side q uid err hst
      exact .inl ⟨rfl, by rw [h1]; exact ho⟩
  · cases x with
    | ok n =>
      obtain ⟨h0, h1, _⟩ := C18_accepted_limit c s s' hr side p q uid n hst
      have hne : n.id ≠ o.id := by rw [h0]; show s.nextId ≠ o.id; omega
      exact .inl ⟨if_neg hne, by rw [h1]; exact List.mem_append_left _ ho⟩
    | error err =>
      obtain ⟨h1, _⟩ := C17_rejected_limit c s s' hr side p q uid err hst
      exact .inl ⟨rfl, by rw [h1]; exact ho⟩
  · by_cases hex : ∃ old ∈ s.active, old.id = id
    · obtain ⟨old, hold, rfl⟩ := hex
      obtain ⟨_, h3, h4, _⟩ := C20_amend c s s' hr old hold side p q uid x hst
      by_cases hid : old.id = o.id
      · have heq : old = o := by
          have h2 := find_by_id hi.nodup hold
          rw [hid, find_by_id hi.nodup ho] at h2
          cases h2; rfl
        subst heq
        cases x with
        | ok n =>
          obtain ⟨_, h5, _, h6⟩ := h3 n rfl
          have hne : n.id ≠ old.id := by rw [h5]; show s.nextId ≠ old.id; omega
          refine .inr (.inr (.inl ⟨.replaced q n, ?_, ⟨?_, ?_, ?_⟩, ?_⟩))
          · simp [events, hne]
          · rw [h5]; exact hfresh
          · rw [h5]; rfl
          · rw [h5]
          · intro y hy
            rcases List.mem_cons.1 (h6.mem_iff.1 hy) with rfl | hy
            · exact hne
            · simpa using (List.mem_filter.1 hy).2
        | error err =>
          have h6 := amend_known hi hold hamend
          refine .inr (.inr (.inl ⟨.dropped, ?_, trivial, ?_⟩))
          · cases err with
            | orderIdNotFound i => exact absurd rfl (h6.1 i)
            | orderNoLongerActive => exact absurd rfl h6.2
            | _ => exact if_pos rfl
          · intro y hy
            simpa using (List.mem_filter.1 ((h4 err rfl).mem_iff.1 hy)).2
      · have hkeep : o ∈ s.active.filter (fun x => decide (x.id ≠ old.id)) :=
          List.mem_filter.2 ⟨ho, by simpa using fun e => hid e.symm⟩
        cases x with
        | ok n =>
          obtain ⟨_, h5, _, h6⟩ := h3 n rfl
          have hne : n.id ≠ o.id := by rw [h5]; show s.nextId ≠ o.id; omega
          refine .inl ⟨by simp [events, hne, hid], h6.mem_iff.2 (List.mem_cons_of_mem _ hkeep)⟩
        | error err =>
          refine .inl ⟨?_, (h4 err rfl).mem_iff.2 hkeep⟩
          cases err <;> first | rfl | exact if_neg hid
    · obtain ⟨rfl, h3, h4⟩ := C20_amend_unknown c s s' id
        (fun o ho e => hex ⟨o, ho, e⟩) side p q uid x hst
      refine .inl ⟨?_, ho⟩
      by_cases hl : id < s'.nextId
      · rw [h3 hl]; rfl
      · rw [h4 (by omega)]; rfl
  · cases x with
    | ok y =>
      obtain ⟨⟨a, z, h1, _, _, h3⟩, _⟩ := C19_cancel_removes c s s' b y hst
      have hf := filter_out hi.nodup h1
      by_cases hid : y.id = o.id
      · have hy : y ∈ s.active := by rw [h1]; simp
        have heq : y = o := by
          have h2 := find_by_id hi.nodup hy
          rw [hid, find_by_id hi.nodup ho] at h2
          cases h2; rfl
        subst heq
        refine .inr (.inr (.inl ⟨.cancelled y, if_pos rfl, rfl, ?_⟩))
        intro w hw
        rw [h3.mem_iff, ← hf] at hw
        simpa using (List.mem_filter.1 hw).2
      · refine .inl ⟨if_neg hid, ?_⟩
        rw [h3.mem_iff, ← hf]
        exact List.mem_filter.2 ⟨ho, by simpa using fun e => hid e.symm⟩
    | error err =>
      have := ((C19_cancel_errors c s s' b _ hst).2 err rfl).1
      exact .inl ⟨rfl, by rw [this]; exact ho⟩

/-- What one call says about an id under which no order is open: nothing, unless it opens one. -/
theorem life_closed {c : Cfg} {s s' : State} {op : Op} {r : Resp} (hr : Reachable c s)
    (hst : step c s op = .ok (s', r)) {id : Nat} (hg : ∀ o ∈ s.active, o.id ≠ id) :
    (events id (op, r) = [] ∧ ∀ o ∈ s'.active, o.id ≠ id) ∨
    (s.nextId ≤ id ∧ ∃ o, events id (op, r) = [.opened o] ∧ o ∈ s'.active ∧ o.id = id ∧
      o.filledQuantity = 0) := by
  have hi := hr.inv
  rcases step_cases hst with ⟨u, u', x, rfl, hb, hu, rfl⟩ | ⟨u, u', rfl, hb, hu, rfl⟩ |
    ⟨err, rfl, rfl⟩ |
    ⟨side, q, uid, x, rfl, _, _, rfl⟩ | ⟨side, p, q, uid, x, rfl, _, _, _, rfl⟩ |
    ⟨i, side, p, q, uid, x, rfl, _, _, hamend, rfl⟩ | ⟨b, x, rfl, _, rfl⟩
  · cases x with
    | ok ups =>
      obtain ⟨h1, h2, _⟩ := update_spec hi hst
      refine .inl ⟨?_, gone_survivors h1 hg⟩
      rw [h2]
      exact heard_none hg
    | error err =>
      obtain ⟨_, _, h3, _⟩ := C30_liquidation_flattens c s s' u err hr hst
      exact .inl ⟨rfl, by rw [h3]; exact hg⟩
  · obtain ⟨h1, _⟩ := checkActive_spec hb hi hu
    exact .inl ⟨rfl, gone_survivors h1 hg⟩
  · exact .inl ⟨by cases op <;> rfl, hg⟩
  · cases x with
    | ok f =>
      obtain ⟨_, _, _, h3, _⟩ := C21_market_order c s s' hr side q uid f hst
      exact .inl ⟨rfl, by rw [h3]; exact hg⟩
    | error err =>
      obtain ⟨h1, _⟩ := C17_rejected_market c s s' side q uid err hst
      exact .inl ⟨rfl, by rw [h1]; exact hg⟩
  · cases x with
    | ok n =>
      obtain ⟨h0, h1, _⟩ := C18_accepted_limit c s s' hr side p q uid n hst
      by_cases hid : n.id = id
      · have : s.nextId = id := by rw [← hid, h0]
        refine .inr ⟨by omega, n, if_pos hid, by rw [h1]; simp, hid, by rw [h0]; rfl⟩
      · refine .inl ⟨if_neg hid, ?_⟩
        rw [h1]
        intro y hy
        rcases List.mem_append.1 hy with hy | hy
        · exact hg y hy
        · rw [List.mem_singleton.1 hy]; exact hid
    | error err =>
      obtain ⟨h1, _⟩ := C17_rejected_limit c s s' hr side p q uid err hst
      exact .inl ⟨rfl, by rw [h1]; exact hg⟩
  · by_cases hex : ∃ old ∈ s.active, old.id = i
    · obtain ⟨old, hold, rfl⟩ := hex
      obtain ⟨_, h3, h4, _⟩ := C20_amend c s s' hr old hold side p q uid x hst
      have hne := hg old hold
      cases x with
      | ok n =>
        obtain ⟨_, h5, _, h6⟩ := h3 n rfl
        by_cases hid : n.id = id
        · have : s.nextId = id := by rw [← hid, h5]
          refine .inr ⟨by omega, n, by simp [events, hid, hne], ?_, hid, by rw [h5]; rfl⟩
          exact h6.mem_iff.2 List.mem_cons_self
        · refine .inl ⟨by simp [events, hid, hne], ?_⟩
          intro y hy
          rcases List.mem_cons.1 (h6.mem_iff.1 hy) with rfl | hy
          · exact hid
          · exact hg y (List.mem_filter.1 hy).1
      | error err =>
        refine .inl ⟨?_, fun y hy => hg y (List.mem_filter.1 ((h4 err rfl).mem_iff.1 hy)).1⟩
        cases err <;> first | rfl | exact if_neg hne
    · obtain ⟨rfl, h3, h4⟩ := C20_amend_unknown c s s' i
        (fun o ho e => hex ⟨o, ho, e⟩) side p q uid x hst
      refine .inl ⟨?_, hg⟩
      by_cases hl : i < s'.nextId
      · rw [h3 hl]; rfl
      · rw [h4 (by omega)]; rfl
  · cases x with
    | ok y =>
      obtain ⟨⟨a, z, h1, _, _, h3⟩, _⟩ := C19_cancel_removes c s s' b y hst
      have hy : y ∈ s.active := by rw [h1]; simp
      refine .inl ⟨if_neg (hg y hy), fun w hw => hg w ?_⟩
      rw [h1]
      rcases List.mem_append.1 (h3.mem_iff.1 hw) with h | h
      · exact List.mem_append_left _ h
      · exact List.mem_append_right _ (List.mem_cons_of_mem _ h)
    | error err =>
      have := ((C19_cancel_errors c s s' b _ hst).2 err rfl).1
      exact .inl ⟨rfl, by rw [this]; exact hg⟩

/-! ### Whole histories -/

/-- An id that was given away and has no open order is never heard of again. -/
theorem life_over {c : Cfg} : ∀ (ops : List Op) (s s' : State) (tr : List (Op × Resp)) (id : Nat),
    Reachable c s → (∀ o ∈ s.active, o.id ≠ id) → id < s.nextId → history c s ops = .ok (s', tr) →
    life id tr = [] ∧ ∀ o ∈ s'.active, o.id ≠ id
  | [], s, s', tr, id, _, hg, _, h => by
    simp only [history, ok_inj, Prod.mk.injEq] at h
    obtain ⟨rfl, rfl⟩ := h
    exact ⟨rfl, hg⟩
  | op :: ops, s, s', tr, id, hr, hg, hid, h => by
    simp only [history, bind_ok, ok_inj, Prod.mk.injEq] at h
    obtain ⟨⟨s1, r⟩, h1, ⟨s2, tr2⟩, h2, rfl, rfl⟩ := h
    rcases life_closed hr h1 hg with ⟨e1, hg1⟩ | ⟨hge, _⟩
    · have hn := (step_nextId hr.inv h1).1
      obtain ⟨e2, hg2⟩ := life_over ops s1 s2 tr2 id (hr.step h1) hg1 (by omega) h2
      refine ⟨?_, hg2⟩
      show events id (op, r) ++ life id tr2 = []
      rw [e1, e2]; rfl
    · omega

theorem lives_ends {o : Limit} {e : News} (h : Ends o e) : Lives o [e] none := by
  cases e <;> first | exact ⟨h, rfl, rfl⟩ | exact absurd h (fun h => h)

theorem orderly_ends {o o' : Limit} {e : News} (hl : Later o o') (h : Ends o' e) :
    Orderly o [e] none := by
  cases e <;> first | exact ⟨⟨o', hl, h⟩, rfl, rfl⟩ | exact absurd h (fun h => h)

theorem later_refl (o : Limit) : Later o o := ⟨⟨rfl, rfl, rfl, rfl, rfl, rfl⟩, Int.le_refl _⟩

theorem later_trans {a b d : Limit} (h : Later a b) (k : Later b d) : Later a d := by
  obtain ⟨⟨h1, h2, h3, h4, h5, h6⟩, h7⟩ := h
  obtain ⟨⟨k1, k2, k3, k4, k5, k6⟩, k7⟩ := k
  exact ⟨⟨k1.trans h1, k2.trans h2, k3.trans h3, k4.trans h4, k5.trans h5, k6.trans h6⟩, by omega⟩

theorem shrunk_later {a b d : Limit} (h : Later a b) (k : Shrunk b d) : Shrunk a d := by
  have := later_trans h ⟨k.1, Int.le_of_lt k.2.2⟩
  exact ⟨this.1, k.2.1, by have := h.2; have := k.2.2; omega⟩

/-- Missing a fill leaves a life orderly. -/
theorem orderly_later {o o' : Limit} (h : Later o o') : ∀ (es : List News) (fin : Option Limit),
    Orderly o' es fin → Orderly o es fin
  | [], _, k => fun x hx => later_trans h (k x hx)
  | .partly p :: _, _, k => ⟨shrunk_later h k.1, k.2⟩
  | .opened _ :: _, _, k => by
    obtain ⟨⟨x, _, hx⟩, _⟩ := k
    exact absurd hx (fun h => h)
  | .filled _ :: _, _, k => by
    obtain ⟨⟨x, hl, hx⟩, k2⟩ := k
    exact ⟨⟨x, later_trans h hl, hx⟩, k2⟩
  | .cancelled _ :: _, _, k => by
    obtain ⟨⟨x, hl, hx⟩, k2⟩ := k
    exact ⟨⟨x, later_trans h hl, hx⟩, k2⟩
  | .replaced _ _ :: _, _, k => by
    obtain ⟨⟨x, hl, hx⟩, k2⟩ := k
    exact ⟨⟨x, later_trans h hl, hx⟩, k2⟩
  | .dropped :: _, _, k => by
    obtain ⟨⟨x, hl, hx⟩, k2⟩ := k
    exact ⟨⟨x, later_trans h hl, hx⟩, k2⟩

/-- From an open order on, when every call tells what it did. -/
theorem lives_on {c : Cfg} : ∀ (ops : List Op) (s s' : State) (tr : List (Op × Resp)) (o : Limit),
    Reachable c s → o ∈ s.active → (∀ op ∈ ops, audible op) → history c s ops = .ok (s', tr) →
    Lives o (life o.id tr) (now s' o.id)
  | [], s, s', tr, o, hr, ho, _, h => by
    simp only [history, ok_inj, Prod.mk.injEq] at h
    obtain ⟨rfl, rfl⟩ := h
    exact now_mem hr.inv ho
  | op :: ops, s, s', tr, o, hr, ho, ha, h => by
    simp only [history, bind_ok, ok_inj, Prod.mk.injEq] at h
    obtain ⟨⟨s1, r⟩, h1, ⟨s2, tr2⟩, h2, rfl, rfl⟩ := h
    have ha' : ∀ x ∈ ops, audible x := fun x hx => ha x (List.mem_cons_of_mem _ hx)
    show Lives o (events o.id (op, r) ++ life o.id tr2) (now s2 o.id)
    rcases life_open hr h1 ho with ⟨e, h3⟩ | ⟨o', e, h3, h4⟩ | ⟨x, e, h3, h4⟩ | ⟨h3, _⟩
    · rw [e]
      exact lives_on ops s1 s2 tr2 o (hr.step h1) h3 ha' h2
    · rw [e]
      have := lives_on ops s1 s2 tr2 o' (hr.step h1) h3 ha' h2
      rw [h4.1.1] at this
      exact ⟨h4, this⟩
    · have hn := (step_nextId hr.inv h1).1
      have hf := (hr.inv.orders o ho).fresh
      obtain ⟨e2, hg⟩ := life_over ops s1 s2 tr2 o.id (hr.step h1) h4 (by omega) h2
      rw [e, e2, now_gone hg]
      exact lives_ends h3
    · exact absurd (ha op List.mem_cons_self) h3

/-- From an open order on, in any history. -/
theorem orderly_on {c : Cfg} : ∀ (ops : List Op) (s s' : State) (tr : List (Op × Resp)) (o : Limit),
    Reachable c s → o ∈ s.active → history c s ops = .ok (s', tr) →
    Orderly o (life o.id tr) (now s' o.id)
  | [], s, s', tr, o, hr, ho, h => by
    simp only [history, ok_inj, Prod.mk.injEq] at h
    obtain ⟨rfl, rfl⟩ := h
    intro x hx
    rw [now_mem hr.inv ho] at hx
    cases hx
    exact later_refl o
  | op :: ops, s, s', tr, o, hr, ho, h => by
    simp only [history, bind_ok, ok_inj, Prod.mk.injEq] at h
    obtain ⟨⟨s1, r⟩, h1, ⟨s2, tr2⟩, h2, rfl, rfl⟩ := h
    have hn := (step_nextId hr.inv h1).1
    have hf := (hr.inv.orders o ho).fresh
    show Orderly o (events o.id (op, r) ++ life o.id tr2) (now s2 o.id)
    rcases life_open hr h1 ho with ⟨e, h3⟩ | ⟨o', e, h3, h4⟩ | ⟨x, e, h3, h4⟩ | ⟨_, e, h3 | ⟨o', h3, h4⟩⟩
    · rw [e]
      exact orderly_on ops s1 s2 tr2 o (hr.step h1) h3 h2
    · rw [e]
      have := orderly_on ops s1 s2 tr2 o' (hr.step h1) h3 h2
      rw [h4.1.1] at this
      exact ⟨h4, this⟩
    · obtain ⟨e2, hg⟩ := life_over ops s1 s2 tr2 o.id (hr.step h1) h4 (by omega) h2
      rw [e, e2, now_gone hg]
      exact orderly_ends (later_refl o) h3
    · obtain ⟨e2, hg⟩ := life_over ops s1 s2 tr2 o.id (hr.step h1) h3 (by omega) h2
      rw [e, e2, now_gone hg]
      intro x hx
      cases hx
    · rw [e]
      have := orderly_on ops s1 s2 tr2 o' (hr.step h1) h3 h2
      rw [h4.1.1] at this
      exact orderly_later h4 _ _ this

/-- The life of an id under which no order is open. -/
theorem life_begins {c : Cfg} {P : List Op → Prop} (hP : ∀ op ops, P (op :: ops) → P ops)
    {G : Limit → List News → Option Limit → Prop}
    (hG : ∀ (ops : List Op) (s s' : State) (tr : List (Op × Resp)) (o : Limit), Reachable c s →
      o ∈ s.active → P ops → history c s ops = .ok (s', tr) → G o (life o.id tr) (now s' o.id)) :
    ∀ (ops : List Op) (s s' : State) (tr : List (Op × Resp)) (id : Nat), Reachable c s →
      (∀ o ∈ s.active, o.id ≠ id) → P ops → history c s ops = .ok (s', tr) →
      (life id tr = [] ∧ now s' id = none) ∨
      ∃ o es, life id tr = .opened o :: es ∧ o.id = id ∧ o.filledQuantity = 0 ∧ G o es (now s' id)
  | [], s, s', tr, id, _, hg, _, h => by
    simp only [history, ok_inj, Prod.mk.injEq] at h
    obtain ⟨rfl, rfl⟩ := h
    exact .inl ⟨rfl, now_gone hg⟩
  | op :: ops, s, s', tr, id, hr, hg, ha, h => by
    simp only [history, bind_ok, ok_inj, Prod.mk.injEq] at h
    obtain ⟨⟨s1, r⟩, h1, ⟨s2, tr2⟩, h2, rfl, rfl⟩ := h
    have hlife : life id ((op, r) :: tr2) = events id (op, r) ++ life id tr2 := rfl
    rw [hlife]
    rcases life_closed hr h1 hg with ⟨e, hg1⟩ | ⟨_, o, e, ho, rfl, h0⟩
    · rw [e]
      exact life_begins hP hG ops s1 s2 tr2 id (hr.step h1) hg1 (hP _ _ ha) h2
    · rw [e]
      exact .inr ⟨o, _, rfl, rfl, h0, hG ops s1 s2 tr2 o (hr.step h1) ho (hP _ _ ha) h2⟩

/-- C144: in every history whose calls all tell what they did, what the answers say about an order id
is one life. Either nothing is ever said and no such order is open, or the id is given to an accepted
order with nothing filled; its partial fills are reported in turn, each with less left than before;
and in the end the order is either open exactly as last reported, or one report has ended it, after
which the id is never heard of again: a complete fill of all of its quantity, a cancellation that
returns it as last reported, a replacement by an order for what the amendment left, or a failed
amendment. -/
theorem C144_one_life (c : Cfg) (ops : List Op) (s : State) (tr : List (Op × Resp))
    (ha : ∀ op ∈ ops, audible op) (h : history c (State.init c) ops = .ok (s, tr)) (id : Nat) :
    (life id tr = [] ∧ now s id = none) ∨
    ∃ o es, life id tr = .opened o :: es ∧ o.id = id ∧ o.filledQuantity = 0 ∧
      Lives o es (now s id) :=
  life_begins (P := fun ops => ∀ op ∈ ops, audible op)
    (fun _ _ h x hx => h x (List.mem_cons_of_mem _ hx))
    (fun ops s s' tr o hr ho ha h => lives_on ops s s' tr o hr ho ha h)
    ops _ s tr id ⟨[], rfl⟩ (by intro o ho; cases ho) ha h

/-- C144, with calls of `check_active_orders`, which fill orders and say nothing: fills may be missing
from what is heard, but it is still one life, told in order and ended at most once. -/
theorem C144_any_history (c : Cfg) (ops : List Op) (s : State) (tr : List (Op × Resp))
    (h : history c (State.init c) ops = .ok (s, tr)) (id : Nat) :
    (life id tr = [] ∧ now s id = none) ∨
    ∃ o es, life id tr = .opened o :: es ∧ o.id = id ∧ o.filledQuantity = 0 ∧
      Orderly o es (now s id) :=
  life_begins (P := fun _ => True) (fun _ _ _ => trivial)
    (fun ops s s' tr o hr ho _ h => orderly_on ops s s' tr o hr ho h)
    ops _ s tr id ⟨[], rfl⟩ (by intro o ho; cases ho) trivial h

theorem orderly_last {o : Limit} : ∀ {pre post : List News} {x : News} {fin : Option Limit},
    Orderly o (pre ++ x :: post) fin → (∀ p, x ≠ .partly p) → post = [] ∧ fin = none
  | [], post, x, fin, h, hx => by
    cases x with
    | partly p => exact absurd rfl (hx p)
    | _ => exact h.2
  | y :: ys, post, x, fin, h, hx => by
    cases y with
    | partly p => exact orderly_last h.2 hx
    | _ => exact absurd h.2.1 (by simp)

/-- C144: in every history, once an order was reported filled, cancelled, replaced or lost, nothing
more is said about its id, and it is not open. -/
theorem C144_nothing_after_the_end (c : Cfg) (ops : List Op) (s : State) (tr : List (Op × Resp))
    (h : history c (State.init c) ops = .ok (s, tr)) (id : Nat) (pre post : List News) (x : News)
    (hl : life id tr = pre ++ x :: post) (h1 : ∀ o, x ≠ .opened o) (h2 : ∀ o, x ≠ .partly o) :
    post = [] ∧ now s id = none := by
  rcases C144_any_history c ops s tr h id with ⟨e, _⟩ | ⟨o, es, e, _, _, ho⟩
  · rw [e] at hl
    exact absurd hl (by simp)
  · rw [e] at hl
    cases pre with
    | nil =>
      simp only [List.nil_append, List.cons.injEq] at hl
      exact absurd hl.1.symm (h1 o)
    | cons y ys =>
      simp only [List.cons_append, List.cons.injEq] at hl
      rw [hl.2] at ho
      exact orderly_last ho h2

/-- What an order was open by and filled by never changes in sum. -/
theorem lives_total {o : Limit} : ∀ {es : List News} {fin : Option Limit}, Lives o es fin →
    (∀ f, .filled f ∈ es → f.filledQty = o.filledQuantity + o.remaining) ∧
    (∀ x, .cancelled x ∈ es → x.filledQuantity + x.remaining = o.filledQuantity + o.remaining) ∧
    (∀ x, .partly x ∈ es → x.filledQuantity + x.remaining = o.filledQuantity + o.remaining)
  | [], _, _ => by simp
  | .partly p :: es, fin, h => by
    obtain ⟨h1, h2, h3⟩ := lives_total h.2
    have ht := h.1.1.2.2.2.2.2
    refine ⟨fun f hf => ?_, fun x hx => ?_, fun x hx => ?_⟩
    · have := h1 f (by simpa using hf)
      omega
    · have := h2 x (by simpa using hx)
      omega
    · rcases List.mem_cons.1 hx with e | hx
      · cases e; exact ht
      · have := h3 x hx
        omega
  | .opened _ :: _, _, h => absurd h.1 (fun h => h)
  | .filled f :: es, fin, h => by
    obtain ⟨h1, rfl, _⟩ := h
    have hf : f.filledQty = o.filledQuantity + o.remaining := by
      have := congrArg FilledLimit.filledQty h1
      exact this
    simpa using hf
  | .cancelled x :: es, fin, h => by
    obtain ⟨h1, rfl, _⟩ := h
    have hx : x = o := h1
    simp [hx]
  | .replaced _ _ :: es, fin, h => by
    obtain ⟨_, rfl, _⟩ := h
    simp
  | .dropped :: es, fin, h => by
    obtain ⟨_, rfl, _⟩ := h
    simp

/-- C144, the quantities: the complete fill of an order reports the quantity it was accepted with,
and at every partial fill and at a cancellation what is filled and what is left add up to it. -/
theorem C144_quantity (c : Cfg) (ops : List Op) (s : State) (tr : List (Op × Resp))
    (ha : ∀ op ∈ ops, audible op) (h : history c (State.init c) ops = .ok (s, tr)) (id : Nat)
    (o : Limit) (es : List News) (hl : life id tr = .opened o :: es) :
    (∀ f, .filled f ∈ es → f.filledQty = o.remaining) ∧
    (∀ x, .cancelled x ∈ es → x.filledQuantity + x.remaining = o.remaining) ∧
    (∀ x, .partly x ∈ es → x.filledQuantity + x.remaining = o.remaining) := by
  rcases C144_one_life c ops s tr ha h id with ⟨e, _⟩ | ⟨o', es', e, _, h0, hv⟩
  · rw [e] at hl
    cases hl
  · rw [e] at hl
    simp only [List.cons.injEq, News.opened.injEq] at hl
    obtain ⟨rfl, rfl⟩ := hl
    simpa [h0] using lives_total hv

/-- The lives of four orders: one filled in two parts, one amended after a partial fill, the order it
became, and one cancelled. A fifth is still open, and is open as last reported. -/
def Ex.lives : List Op :=
  [.update (.bba ⟨Ex.d 100, Ex.d 101, 1⟩), .limit .buy (Ex.d 99) (Ex.d 3) 1,
   .limit .buy (Ex.d 98) (Ex.d 4) 2, .limit .sell (Ex.d 110) (Ex.d 2) 3,
   .update (.trade ⟨2, Ex.d 97, Ex.d 1, .sell⟩), .amend 1 .buy (Ex.d 97) (Ex.d 5) 4,
   .update (.trade ⟨3, Ex.d 98, Ex.d 2, .sell⟩), .cancel (.orderId 2),
   .limit .sell (Ex.d 105) (Ex.d 2) 5, .update (.trade ⟨4, Ex.d 106, Ex.d 1, .buy⟩)]

example : ∀ op ∈ Ex.lives, audible op := by simp [Ex.lives, audible]

def Ex.kind : News → Nat
  | .opened _ => 0 | .partly _ => 1 | .filled _ => 2 | .cancelled _ => 3 | .replaced _ _ => 4
  | .dropped => 5

example : (match history Ex.lin (State.init Ex.lin) Ex.lives with
    | .ok (s, tr) => decide ((List.range 6).map (fun i => (life i tr).map Ex.kind) =
        [[0, 1, 2], [0, 1, 4], [0, 3], [0], [0, 1], []] ∧
        (List.range 6).map (fun i => (now s i).map Limit.remaining) =
        [none, none, none, some (Ex.d 4), some (Ex.d 1), none])
    | .error _ => false) = true := by decide +kernel

/-- C144, the exception: without the restriction to calls that tell what they did, an order may be
gone although no report has ended it. -/
theorem C144_unheard_end : ∃ (c : Cfg) (ops : List Op) (s : State) (tr : List (Op × Resp)) (o : Limit),
    history c (State.init c) ops = .ok (s, tr) ∧ life o.id tr = [.opened o] ∧ now s o.id = none := by
  let ops : List Op := [.update (.bba ⟨Ex.d 100, Ex.d 101, 1⟩), .limit .buy (Ex.d 99) (Ex.d 3) 1,
    .checkActive (.candle ⟨Ex.d 98, Ex.d 99, Ex.d 97, Ex.d 101, 2⟩)]
  have w : (match history Ex.lin (State.init Ex.lin) ops with
    | .ok (s, tr) => decide (life 0 tr = [.opened ⟨1, .buy, Ex.d 99, Ex.d 3, 0, 1, .unfilled⟩] ∧
        now s 0 = none)
    | .error _ => false) = true := by decide +kernel
  split at w
  · next s tr h1 =>
    have := of_decide_eq_true w
    exact ⟨Ex.lin, ops, s, tr, ⟨1, .buy, Ex.d 99, Ex.d 3, 0, 1, .unfilled⟩, h1, this.1, this.2⟩
  · cases w

end Lfest
