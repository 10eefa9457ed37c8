import Verif.Lemmas.NoPanic
import Verif.Examples

/-! What happens with more than 10000 orders: the configured maximum may exceed the capacity of
the arena of active orders. -/

namespace Lfest

open Spec

/-- At most 20000 open orders, no margin requirement. -/
def Ex.many : Cfg := { Ex.lin with maxOpen := 20000, spec := { Ex.lin.spec with initMarginReq := 0 } }

/-- The order that is submitted again and again. -/
def Ex.ask : Op := .limit .sell (Ex.d 110) (Ex.d 1) 0

/-- After `n` such orders. -/
structure Filled (n : Nat) (s : State) : Prop where
  reach : Reachable Ex.many s
  ms : s.ms = ⟨Ex.d 100, Ex.d 101, 1, 1⟩
  pos : s.pos = .neutral
  acct : s.acct = .new Ex.many.start
  len : s.active.length = n
  om : s.om = s.active

theorem Filled.zero : ∃ s, Filled 0 s := by
  have h : Ex.after Ex.many [.update (.bba ⟨Ex.d 100, Ex.d 101, 1⟩)] (fun s => decide (
      s.ms = ⟨Ex.d 100, Ex.d 101, 1, 1⟩ ∧ s.pos = .neutral ∧ s.acct = .new Ex.many.start ∧
      s.active.length = 0 ∧ s.om = s.active)) = true := by decide +kernel
  obtain ⟨s, hr, h⟩ := Ex.after_reach h
  simp only [decide_eq_true_eq] at h
  exact ⟨s, hr, h.1, h.2.1, h.2.2.1, h.2.2.2.1, h.2.2.2.2⟩

theorem noMargin (os : List Limit) (pos : Int) : marginReq Ex.many os pos = 0 := by
  simp [marginReq, share, Ex.many]

theorem Filled.submit {n : Nat} {s : State} (h : Filled n s) (hn : n < 20000) :
    ∃ s1 : State, s1.om = s.active ++ [⟨0, .sell, Ex.d 110, Ex.d 1, s.nextId, 1, .unfilled⟩] ∧
      s1.active = (if n < 10000 then s1.om else s.active) ∧ s1.ms = s.ms ∧ s1.pos = s.pos ∧
      s1.acct = s.acct ∧
      step Ex.many s Ex.ask = .ok (s1, .limit (if n < 10000 then
        .ok ⟨0, .sell, Ex.d 110, Ex.d 1, s.nextId, 1, .unfilled⟩
        else .error .maxNumberOfActiveOrders)) := by
  have hi := h.reach.inv
  let p : Limit := ⟨0, .sell, Ex.d 110, Ex.d 1, s.nextId, 1, .unfilled⟩
  have hg : GoodOrders (s.active ++ [p]) := by
    intro x hx
    simp only [List.mem_append, List.mem_singleton] at hx
    rcases hx with hx | rfl
    · exact ⟨(hi.orders x hx).price, Int.le_of_lt (hi.orders x hx).rem⟩
    · exact ⟨by simp [p, Ex.d], by simp [p, Ex.d]⟩
  have hg' : GoodOrders s.active := fun x hx => hg x (by simp [hx])
  have hfresh : ∀ x ∈ s.active, x.id ≠ p.id := by
    intro x hx
    have := (hi.orders x hx).fresh
    simp only [p]; omega
  have hw : PosWF s.pos := h.reach.linv.wf
  have hdb : Ex.many.env.debug = true → Ex.many.spec.initMarginReq ≤ Ex.many.scale :=
    fun _ => by decide
  have hnew : NewLimit.new .sell (Ex.d 110) (Ex.d 1) 0 = .ok ⟨0, .sell, Ex.d 110, Ex.d 1⟩ := by
    decide +kernel
  have hq : Ex.many.spec.quantityFilter.validate (Ex.d 1) = .ok (.ok ()) := by decide +kernel
  have hp : Ex.many.spec.priceFilter.validate Ex.many.scale (Ex.d 110)
      (s.ms.mid Ex.many.scale) = .ok (.ok ()) := by rw [h.ms]; decide +kernel
  have hpen : (NewLimit.intoPending ⟨0, .sell, Ex.d 110, Ex.d 1⟩ s.nextId s.ms.ts) = p := by
    simp [NewLimit.intoPending, h.ms, p]
  have hmk : marketable s.ms .sell (Ex.d 110) = false := by rw [h.ms]; decide +kernel
  have hm0 := orderMargin_total Ex.many hw hg' hdb
  have hm1 := orderMargin_total Ex.many hw hg hdb
  rw [noMargin] at hm0 hm1
  have hchk : checkLimitOrder Ex.many s.pos p (s.acct.balance .wallet) s.active = .ok (.ok ()) := by
    simp only [checkLimitOrder, orderMarginWithOrder_eq, hm0, hm1, bind, Except.bind]
    rw [h.acct, if_neg (by decide +kernel)]
  have happ : ∀ s2 : State, s2.active = s.active → s2.om = s.active → s2.pos = s.pos →
      s2.acct = s.acct → ∃ s3 : State, s3.om = s.active ++ [p] ∧
        s3.active = (if n < 10000 then s3.om else s.active) ∧ s3.ms = s2.ms ∧ s3.pos = s2.pos ∧
        s3.acct = s2.acct ∧
        appendLimit Ex.many s2 p = .ok (s3, if n < 10000 then .ok () else
          .error .maxNumberOfActiveOrders) := by
    intro s2 e1 e2 e3 e4
    simp only [appendLimit, omUpdate, bind, Except.bind, assertP, e1, e2, e3]
    rw [if_pos (show p.remaining > 0 from (by decide : Ex.d 1 > 0))]
    simp only [Book.insert, getById_none.2 hfresh, h.len]
    rw [if_neg (by show ¬ n ≥ 20000; omega)]
    by_cases hlt : n < 10000
    · simp only [hlt, if_true]
      rw [if_neg (show ¬ n ≥ activeCap by unfold activeCap; omega)]
      simp only [hm1]
      have hb : s2.acct.balance .orderMargin = 0 := by rw [e4, h.acct]; decide
      simp only [hb, Int.lt_irrefl, gt_iff_lt, if_false]
      exact ⟨{ s2 with om := s.active ++ [p], active := s.active ++ [p], pos := s.pos }, rfl, rfl, rfl,
        rfl, rfl, rfl⟩
    · simp only [hlt, if_false]
      rw [if_pos (show n ≥ activeCap by unfold activeCap; omega)]
      exact ⟨{ s2 with om := s.active ++ [p], active := s.active, pos := s.pos }, rfl, rfl, rfl,
        rfl, rfl, rfl⟩
  obtain ⟨s3, a1, a2, a3, a4, a5, a6⟩ := happ
    { s with log := .limitSubmit ⟨0, .sell, Ex.d 110, Ex.d 1⟩ :: s.log, nextId := s.nextId + 1,
             om := s.active } rfl rfl rfl rfl
  refine ⟨s3, a1, a2, a3, a4, a5, ?_⟩
  have hsub : submitLimit Ex.many s ⟨0, .sell, Ex.d 110, Ex.d 1⟩ = .ok (s3, if n < 10000 then
      .ok p else .error .maxNumberOfActiveOrders) := by
    simp only [submitLimit, hq, hp, hpen, h.om, hchk, bind, Except.bind]
    rw [if_neg (by rw [show p.side = .sell from rfl, show p.price = Ex.d 110 from rfl, hmk]; simp)]
    rw [a6]
    by_cases hlt : n < 10000 <;> simp only [hlt, if_true, if_false]
  simp only [Ex.ask, step, hnew, hsub, bind, Except.bind, p]

theorem Filled.next {n : Nat} {s : State} (h : Filled n s) (hn : n < 10000) :
    ∃ s', Filled (n + 1) s' := by
  obtain ⟨s', a1, a2, a3, a4, a5, a6⟩ := h.submit (by omega)
  rw [if_pos hn] at a2
  refine ⟨s', ?_, a3.trans h.ms, a4.trans h.pos, a5.trans h.acct, ?_, a2.symm⟩
  · exact h.reach.step a6
  · rw [a2, a1]; simp [h.len]

theorem Filled.all : ∀ n, n ≤ 10000 → ∃ s, Filled n s
  | 0, _ => Filled.zero
  | n + 1, h => by
    obtain ⟨s, hs⟩ := Filled.all n (by omega)
    exact hs.next (by omega)

end Lfest
