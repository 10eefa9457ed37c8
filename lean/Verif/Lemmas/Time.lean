import Verif.SpecTime
import Verif.Props.Orders
import Verif.Props.Matching
import Verif.Props.Tracker
import Verif.Props.Start

/-! Helper lemmas for C105. -/

namespace Lfest
open Spec

theorem receivedAt_snoc {tr : List (Op × Resp)} {id : Nat} {t : Int} (h : receivedAt tr id t)
    (x : Op × Resp) : receivedAt (tr ++ [x]) id t := by
  obtain ⟨e, y, l, o, rfl, h1, h2, h3⟩ := h
  exact ⟨e, y, l ++ [x], o, by simp, h1, h2, h3⟩

theorem clockAt_snoc_some {tr : List (Op × Resp)} {x : Op × Resp} {t : Int}
    (h : timeOf x = some t) : clockAt (tr ++ [x]) = t := by
  simp [clockAt, h]

theorem clockAt_snoc_none {tr : List (Op × Resp)} {x : Op × Resp} (h : timeOf x = none) :
    clockAt (tr ++ [x]) = clockAt tr := by
  simp [clockAt, h]

/-- Time of the market, and times of receipt, in terms of the history. -/
structure Stamped (c : Cfg) (s : State) (tr : List (Op × Resp)) : Prop where
  reach : Reachable c s
  clock : s.ms.ts = clockAt tr
  book : ∀ o ∈ s.active, receivedAt tr o.id o.ts
  all : ∀ earlier x later, tr = earlier ++ x :: later → WellStamped earlier x

theorem accepted_ts {c : Cfg} {s s' : State} {op : Op} {r : Resp} (hr : Reachable c s)
    (hst : step c s op = .ok (s', r)) {o : Limit} (ha : accepted (op, r) = some o) :
    o.ts = s.ms.ts := by
  cases op with
  | limit side p q uid =>
    cases r with
    | limit x =>
      cases x with
      | ok o' =>
        simp only [accepted, Option.some.injEq] at ha; subst ha
        rw [(C18_accepted_limit c s s' hr side p q uid _ hst).1]
      | error => simp [accepted] at ha
    | _ => simp [accepted] at ha
  | amend id side p q uid =>
    cases r with
    | limit x =>
      cases x with
      | ok o' =>
        simp only [accepted, Option.some.injEq] at ha; subst ha
        by_cases hk : ∃ old ∈ s.active, old.id = id
        · obtain ⟨old, h1, rfl⟩ := hk
          rw [((C20_amend c s s' hr old h1 side p q uid _ hst).2.1 _ rfl).2.1]
        · have hk' : ∀ o ∈ s.active, o.id ≠ id := fun o h1 h2 => hk ⟨o, h1, h2⟩
          obtain ⟨_, h1, h2⟩ := C20_amend_unknown c s s' id hk' side p q uid _ hst
          rcases Nat.lt_or_ge id s.nextId with h | h
          · cases h1 h
          · cases h2 h
      | error => simp [accepted] at ha
    | _ => simp [accepted] at ha
  | _ => simp [accepted] at ha

theorem Stamped.well {c : Cfg} {s s' : State} {tr : List (Op × Resp)} {op : Op} {r : Resp}
    (h : Stamped c s tr) (hst : step c s op = .ok (s', r)) : WellStamped tr (op, r) := by
  have hacc : ∀ o, accepted (op, r) = some o → o.ts = clockAt tr := fun o ha => by
    rw [accepted_ts h.reach hst ha, h.clock]
  cases op with
  | update u =>
    cases r with
    | update x =>
      cases x with
      | ok ups =>
        obtain ⟨h1, h2, _⟩ := C39_reported_orders c s s' u ups h.reach hst
        refine ⟨fun o ho => ?_, fun f hf => ?_⟩
        · obtain ⟨_, p, hp, hl, _⟩ := h2 o ho
          rw [hl.1, hl.2.2.2.2.1]
          exact h.book p hp
        · obtain ⟨_, p, hp, ht, he⟩ := h1 f hf
          refine ⟨?_, ht⟩
          rw [he]
          exact h.book p hp
      | error => trivial
    | _ => trivial
  | checkActive u => trivial
  | market side q uid =>
    cases r with
    | market x =>
      cases x with
      | ok f =>
        have := (C21_market_order c s s' h.reach side q uid f hst).1
        rw [this]
        exact ⟨h.clock, h.clock⟩
      | error => trivial
    | _ => trivial
  | limit side p q uid =>
    cases r with
    | limit x => cases x with
      | ok o => exact hacc o rfl
      | error => trivial
    | _ => trivial
  | amend id side p q uid =>
    cases r with
    | limit x => cases x with
      | ok o => exact hacc o rfl
      | error => trivial
    | _ => trivial
  | cancel b =>
    cases r with
    | limit x => cases x with
      | ok o =>
        obtain ⟨⟨l1, l2, he, _⟩, _⟩ := C19_cancel_removes c s s' b o hst
        exact h.book o (by rw [he]; simp)
      | error => trivial
    | _ => trivial

theorem Stamped.step {c : Cfg} {s s' : State} {tr : List (Op × Resp)} {op : Op} {r : Resp}
    (h : Stamped c s tr) (hst : Lfest.step c s op = .ok (s', r)) : Stamped c s' (tr ++ [(op, r)]) := by
  refine ⟨h.reach.step hst, ?_, fun o ho => ?_, fun e x l he => ?_⟩
  · by_cases hu : ∃ u, op = .update u
    · obtain ⟨u, rfl⟩ := hu
      rw [clockAt_snoc_some (t := s'.ms.ts)]
      exact (C43_update c s s' u r h.reach hst).1
    · have hu' : ∀ u, op ≠ .update u := fun u e => hu ⟨u, e⟩
      rw [C43_other_calls c s s' op r h.reach hu' hst, h.clock, clockAt_snoc_none]
      cases op <;> first | rfl | exact absurd rfl (hu' _)
  · rcases step_active h.reach.inv hst ho with ⟨p, hp, hl⟩ | ha
    · rw [hl.1, hl.2.2.2.2.1]
      exact receivedAt_snoc (h.book p hp) _
    · exact ⟨tr, (op, r), [], o, rfl, ha, rfl, by rw [accepted_ts h.reach hst ha, h.clock]⟩
  · rcases List.eq_nil_or_concat l with rfl | ⟨l', y, rfl⟩
    · have := List.append_inj' he rfl
      obtain ⟨rfl, he'⟩ := this
      rw [← (List.cons.inj he').1]
      exact h.well hst
    · have : tr ++ [(op, r)] = (e ++ x :: l') ++ [y] := by rw [he]; simp
      exact h.all e x l' (List.append_inj' this rfl).1

theorem history_stamped {c : Cfg} {ops : List Op} {s : State} {tr : List (Op × Resp)}
    (h : history c (State.init c) ops = .ok (s, tr)) : Stamped c s tr := by
  have := history_induct (c := c) (P := fun s tr => Stamped c s tr)
    (fun _ _ _ _ _ hp hst => hp.step hst) ops (State.init c) s [] tr
    { reach := ⟨[], rfl⟩, clock := rfl, book := fun o ho => (List.not_mem_nil ho).elim
      all := fun e x l he => by cases e <;> cases he } h
  simpa using this

/-- Times never go back. -/
theorem clockAt_le {a b : List (Op × Resp)} (h : ((a ++ b).filterMap timeOf).Pairwise (· ≤ ·))
    (hne : a.filterMap timeOf ≠ []) : clockAt a ≤ clockAt (a ++ b) := by
  simp only [clockAt, List.filterMap_append] at *
  obtain ⟨x, hx⟩ := Option.ne_none_iff_exists'.1
    (fun e => hne (List.getLast?_eq_none_iff.1 e))
  rw [List.getLast?_append, hx]
  cases hb : (b.filterMap timeOf).getLast? with
  | none => simp
  | some y =>
    simp only [Option.getD_some, Option.some_or]
    exact (List.pairwise_append.1 h).2.2 x (List.mem_of_getLast? hx) y (List.mem_of_getLast? hb)

theorem timeOf_nil {tr : List (Op × Resp)} : ∀ {c : Cfg} {ops : List Op} {s s' : State},
    history c s ops = .ok (s', tr) → tr.filterMap timeOf = [] → ∀ op ∈ ops, op.isUpdate = false := by
  induction tr with
  | nil =>
    intro c ops s s' h _ op hop
    cases ops with
    | nil => cases hop
    | cons op ops =>
      simp only [history, bind_ok, ok_inj, Prod.mk.injEq] at h
      obtain ⟨_, _, _, _, _, h⟩ := h
      cases h
  | cons x tr ih =>
    intro c ops s s' h hn op hop
    cases ops with
    | nil => cases hop
    | cons op' ops =>
      simp only [history, bind_ok, ok_inj, Prod.mk.injEq] at h
      obtain ⟨⟨s1, r⟩, h1, ⟨s2, tr2⟩, h2, h3, h4⟩ := h
      simp only [List.cons.injEq] at h4
      obtain ⟨rfl, rfl⟩ := h4
      rw [List.filterMap_cons] at hn
      have hx : timeOf (op', r) = none := by
        cases hh : timeOf (op', r) with
        | none => rfl
        | some t => rw [hh] at hn; simp at hn
      rw [hx] at hn
      rcases List.mem_cons.1 hop with rfl | hop
      · cases op with
        | update u =>
          exfalso
          rcases step_cases h1 with ⟨a, u', y, he, hb, _⟩ | ⟨a, u', he, _⟩ | ⟨err, _, hr⟩ |
            ⟨_, _, _, _, he, _⟩ | ⟨_, _, _, _, _, he, _⟩ | ⟨_, _, _, _, _, _, he, _⟩ | ⟨_, _, he, _⟩
          · cases he
            simp only [timeOf] at hx
            cases u with
            | smart ts b pf =>
              cases ts with
              | nil => simp [UpdateArg.build, SmartCandle.new, bind_ok] at hb
              | cons t ts => simp [updateTime, List.getLast?_cons] at hx
            | _ => simp [updateTime] at hx
          · cases he
          · simp only [hr, Lfest.step, bind_ok, ok_inj, Prod.mk.injEq] at h1
            obtain ⟨_, _, _, _, _, h1⟩ := h1
            cases h1
          · cases he
          · cases he
          · cases he
          · cases he
        | _ => rfl
      · exact ih h2 hn op hop

end Lfest
