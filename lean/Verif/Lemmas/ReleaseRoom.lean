import Verif.Lemmas.ReleaseLimits
import Verif.SpecRelease

/-!
# How far the amounts of a release build can grow
-/

namespace Lfest

open Spec

/-- What has been asked for and cancelled again does not count. -/
theorem Held.shrink {c : Cfg} {P K X : Int} {s : State} {m Q : Int} (hcap : c.maxOpen ≤ 10000)
    (h : Held c P K X s m Q) : Held c P K X s m (traded s + resting s) := by
  have hT := h.exact
  have hq : resting s = qsum s.om := by rw [h.inv.sync hcap]; rfl
  have ht : traded s = fillSum (fills s.log) := rfl
  have hb := hT.bounds
  have hh := hT.hold
  refine { h with exact := { hT with room := by omega, orders := fun o ho => ?_ } }
  have h1 := hT.orders o ho
  have h2 := hT.done o ho
  have h3 : o.remaining ≤ qsum s.om := by
    obtain ⟨xs, ys, he⟩ := List.append_of_mem ho
    have h4 : ∀ x ∈ s.om, 0 ≤ x.remaining := fun x hx => by have := (hT.orders x hx).rem; omega
    have h5 := qsum_nonneg (l := xs) fun x hx => h4 x (by rw [he]; simp [hx])
    have h6 := qsum_nonneg (l := ys) fun x hx => h4 x (by rw [he]; simp [hx])
    rw [he, qsum_append, qsum_cons]
    omega
  exact { h1 with total := by omega }

/-- `Room`, from a state on. -/
def RoomFrom (c : Cfg) (Q : Int) (s : State) (ops : List Op) : Prop :=
  ∀ before op after, ops = before ++ op :: after →
    ∀ t, run c s before = .ok t → traded t + resting t + asked op ≤ Q

theorem RoomFrom.head {c : Cfg} {Q : Int} {s : State} {op : Op} {ops : List Op}
    (h : RoomFrom c Q s (op :: ops)) : traded s + resting s + asked op ≤ Q :=
  h [] op ops rfl s rfl

theorem RoomFrom.tail {c : Cfg} {Q : Int} {s s' : State} {op : Op} {ops : List Op} {r : Resp}
    (h : RoomFrom c Q s (op :: ops)) (hs : step c s op = .ok (s', r)) : RoomFrom c Q s' ops := by
  intro before o after he t ht
  refine h (op :: before) o after (by rw [he]; rfl) t ?_
  simp only [run, hs, bind, Except.bind]
  exact ht

theorem Room.snoc {c : Cfg} {Q : Int} {ops : List Op} {op : Op} (h : Room c Q ops)
    (hl : ∀ s, run c (State.init c) ops = .ok s → traded s + resting s + asked op ≤ Q) :
    Room c Q (ops ++ [op]) := by
  intro before o after he s hs
  rcases List.eq_nil_or_concat after with rfl | ⟨xs, x, rfl⟩
  · have := List.append_inj' he rfl
    obtain ⟨rfl, h2⟩ := this
    simp only [List.cons.injEq, and_true] at h2
    subst h2
    exact hl s hs
  · have : ops ++ [op] = (before ++ o :: xs) ++ [x] := by rw [he]; simp
    obtain ⟨rfl, _⟩ := List.append_inj' this rfl
    exact h before o xs rfl s hs

namespace Rel

open Mach

variable {c : Cfg} {w P K X QQ : Int}

theorem noov_room (h : Limits c w P K X QQ 0) (hd : c.env.debug = false) :
    ∀ (ops : List Op) (s : State) (m Q : Int), Held c P K X s m Q → RoomFrom c QQ s ops →
      (∀ op ∈ ops, Within w P op) → NoOv (run (lax w) c s ops)
  | [], _, _, _, _, _, _ => noov_ok
  | op :: ops, s, m, Q, hs, hQ, hw => by
    have hop := hw op (by simp)
    have hs' := hs.shrink h.cap
    have hr := hQ.head
    unfold run
    refine noov_bind ((follows_self w).steps hd).agree (noov_step h hd hs' (by omega) hop)
      fun r hr => ?_
    exact noov_room h hd ops r.1 _ _ (h.held hs' (by omega) hop hr) (hQ.tail hr)
      fun o ho => hw o (by simp [ho])

theorem held_room (h : Limits c w P K X QQ 0) (hQQ : 0 ≤ QQ) :
    ∀ (ops : List Op) (s t : State) (m Q : Int), Held c P K X s m Q → Q ≤ QQ →
      RoomFrom c QQ s ops → (∀ op ∈ ops, Within w P op) → Lfest.run c s ops = .ok t →
      ∃ n Q', Q' ≤ QQ ∧ Held c P K X t n Q'
  | [], s, t, m, Q, hs, hQ, _, _, ht => by
    cases ht
    exact ⟨m, Q, hQ, hs⟩
  | op :: ops, s, t, m, Q, hs, hQ, hr, hw, ht => by
    have hop := hw op (by simp)
    have hs' := hs.shrink h.cap
    have hh := hr.head
    simp only [Lfest.run, bind_ok] at ht
    obtain ⟨r, h1, h2⟩ := ht
    exact held_room h hQQ ops r.1 t _ _ (h.held hs' (by omega) hop h1) (by omega) (hr.tail h1)
      (fun o ho => hw o (by simp [ho])) h2

end Rel

end Lfest
