import Verif.Lemmas.Desync

/-!
# C14 beyond the capacity of the arena
-/

namespace Lfest

open Spec

/-- C14 fails when the configured maximum exceeds 10000: the 10001st order is refused but stays
among the orders that are margined, and from then on every cancellation that names an active
order panics. -/
theorem C14_desync : ∃ s s' : State, Reachable Ex.many s ∧ s.om = s.active ∧
    s.active.length = 10000 ∧
    step Ex.many s Ex.ask = .ok (s', .limit (.error .maxNumberOfActiveOrders)) ∧
    s'.active = s.active ∧ s'.om.length = 10001 ∧
    ∀ b o, o ∈ s'.active → named b o → ∃ p, step Ex.many s' (.cancel b) = .error p := by
  obtain ⟨s, hs⟩ := Filled.all 10000 (by omega)
  obtain ⟨s', a1, a2, _, _, _, a6⟩ := hs.submit (by omega)
  rw [if_neg (by omega)] at a2 a6
  have hl : s'.om.length = 10001 := by rw [a1]; simp [hs.len]
  refine ⟨s, s', hs.reach, hs.om, hs.len, a6, a2, hl, fun b o ho hn => ?_⟩
  cases h : step Ex.many s' (.cancel b) with
  | error p => exact ⟨p, rfl⟩
  | ok x =>
    exfalso
    simp only [step, bind_ok] at h
    obtain ⟨⟨s2, r⟩, h, _⟩ := h
    obtain ⟨_, ⟨h0, _⟩ | ⟨removed, active', a, m', h1, h2, _⟩⟩ := cancelLimit_ok h
    · rw [removeCancel_eq] at h0
      have := removeBy_none.1 h0 o ho
      cases b <;> simp [Ref.names, named] at this hn <;> exact this hn
    · obtain ⟨xs, ys, e1, p1⟩ := removeCancel_some h1
      simp only [omRemove, bind_ok] at h2
      obtain ⟨⟨o2, b2⟩, h2, h3⟩ := h2
      simp only [ok_inj] at h3
      subst h3
      cases hrm : s'.om.removeCancel b with
      | none => rw [hrm] at h2; simp [expectSome] at h2
      | some y =>
        rw [hrm] at h2
        simp only [expectSome, ok_inj] at h2
        subst h2
        obtain ⟨xs', ys', e2, p2⟩ := removeCancel_some hrm
        have l1 := p1.length_eq
        have l2 := p2.length_eq
        have l3 := congrArg List.length e1
        have l4 := congrArg List.length e2
        rw [a2, hs.len] at l3
        rw [hl] at l4
        simp at l1 l2 l3 l4
        omega

end Lfest
