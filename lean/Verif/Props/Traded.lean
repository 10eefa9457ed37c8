import Verif.Lemmas.Traded
import Verif.Examples

/-!
# C100: nobody trades more than they asked for

Every fill belongs to a quantity that was granted: what an account has bought, together with what
its resting buy orders can still buy, never exceeds what its accepted calls asked to buy, and the
same holds for selling.  A liquidation is the one exception, because it trades on its own account;
even then nothing is sold that was not granted on one side or the other.
-/

namespace Lfest
open Spec

/-- C100, without liquidations: on each side of the market, what was traded and what is still open
is at most what was granted. -/
theorem C100_own_orders_only (c : Cfg) (ops : List Op) (s : State) (tr : List (Op × Resp))
    (h : history c (State.init c) ops = .ok (s, tr)) (hl : ∀ x ∈ tr, liquidated x = false)
    (side : Side) :
    tradedOn side (fills s.log) + openOn side s.active ≤ grantedBy side tr := by
  have := history_induct (c := c) (P := fun s tr => Reachable c s ∧
      ((∀ x ∈ tr, liquidated x = false) →
        tradedOn side (fills s.log) + openOn side s.active ≤ grantedBy side tr))
    (fun s s' op r tr ⟨hr, hp⟩ hst => ⟨hr.step hst, fun hn => by
      have h1 := hp (fun x hx => hn x (List.mem_append_left _ hx))
      have h2 := hn (op, r) (by simp)
      rw [grantedBy_concat]
      rcases step_flow hr hst with ⟨_, h3⟩ | ⟨h3, _⟩
      · have := (h3 side).2; omega
      · rw [h3] at h2; cases h2⟩)
    ops _ s [] tr ⟨⟨[], rfl⟩, fun _ => by simp [State.init, fills, tradedOn, openOn, grantedBy]⟩ h
  exact this.2 hl

/-- C100, in every history: what was sold, everything still open and the contracts held are at most
everything granted, and so are what was bought, everything still open and the contracts owed. -/
theorem C100_with_liquidations (c : Cfg) (ops : List Op) (s : State) (tr : List (Op × Resp))
    (h : history c (State.init c) ops = .ok (s, tr)) :
    let granted := grantedBy .buy tr + grantedBy .sell tr
    let stillOpen := openOn .buy s.active + openOn .sell s.active
    tradedOn .sell (fills s.log) + stillOpen +
      (if 0 < s.pos.quantity then s.pos.quantity else 0) ≤ granted ∧
    tradedOn .buy (fills s.log) + stillOpen +
      (if s.pos.quantity < 0 then -s.pos.quantity else 0) ≤ granted := by
  have hq : ∀ s, Reachable c s →
      s.pos.quantity = tradedOn .buy (fills s.log) - tradedOn .sell (fills s.log) := by
    rintro s ⟨ops, ho⟩
    rw [(C06_position_quantity c ops s ho).1, netBought_sides]
  have := history_induct (c := c) (P := fun s tr => Reachable c s ∧
      tradedOn .sell (fills s.log) + (openOn .buy s.active + openOn .sell s.active) +
        (if 0 < s.pos.quantity then s.pos.quantity else 0) ≤
          grantedBy .buy tr + grantedBy .sell tr ∧
      tradedOn .buy (fills s.log) + (openOn .buy s.active + openOn .sell s.active) +
        (if s.pos.quantity < 0 then -s.pos.quantity else 0) ≤
          grantedBy .buy tr + grantedBy .sell tr)
    (fun s s' op r tr ⟨hr, hp⟩ hst => ⟨hr.step hst, by
      have e1 := hq s hr
      have e2 := hq s' (hr.step hst)
      rw [grantedBy_concat, grantedBy_concat]
      rw [e1] at hp
      rw [e2]
      rcases step_flow hr hst with ⟨_, h3⟩ | ⟨_, h3, h4, f, h5, h6, h7⟩
      · obtain ⟨b1, b2⟩ := h3 .buy
        obtain ⟨s1, s2⟩ := h3 .sell
        constructor <;> split <;> split at hp <;> split at hp <;> omega
      · have g1 := h3 .buy
        have g2 := h3 .sell
        rw [e1] at h6
        rw [h4, h5]
        rcases f with ⟨m, sd, p, q⟩
        have e3 : tradedOn .buy (⟨m, sd, p, q⟩ :: fills s.log) =
          (if sd = .buy then q else 0) + tradedOn .buy (fills s.log) := rfl
        have e4 : tradedOn .sell (⟨m, sd, p, q⟩ :: fills s.log) =
          (if sd = .sell then q else 0) + tradedOn .sell (fills s.log) := rfl
        rw [e3, e4]
        clear e2 e3 e4 h5
        cases sd
        · simp only [Fill.signed] at h6 h7
          simp only [reduceCtorEq, if_true, if_false]
          constructor <;> split <;> split at hp <;> split at hp <;> omega
        · simp only [Fill.signed] at h6 h7
          simp only [reduceCtorEq, if_true, if_false]
          constructor <;> split <;> split at hp <;> split at hp <;> omega⟩)
    ops _ s [] tr ⟨⟨[], rfl⟩, by
      simp [State.init, fills, tradedOn, openOn, grantedBy, Position.quantity]⟩ h
  exact this.2

/-- C100, in terms of the calls alone: the contracts ever traded are at most twice the contracts
ever asked for. -/
theorem C100_volume (c : Cfg) (ops : List Op) (s : State)
    (h : run c (State.init c) ops = .ok s) :
    fillSum (fills s.log) ≤ 2 * (ops.map asked).sum := by
  obtain ⟨tr, ht⟩ := run_history h
  have hb := C100_with_liquidations c ops s tr ht
  have hn : ∀ o ∈ s.active, 0 < o.remaining :=
    fun o ho => ((Reachable.inv ⟨ops, h⟩).orders o ho).rem
  have n1 := openOn_nonneg .buy s.active hn
  have n2 := openOn_nonneg .sell s.active hn
  have hg : ∀ (ops : List Op) (s s' : State) tr, Reachable c s →
      history c s ops = .ok (s', tr) →
      grantedBy .buy tr + grantedBy .sell tr ≤ (ops.map asked).sum := by
    intro ops
    induction ops with
    | nil =>
      intro s s' tr _ h
      simp only [history, ok_inj, Prod.mk.injEq] at h
      simp [← h.2, grantedBy]
    | cons op ops ih =>
      intro s s' tr hr h
      simp only [history, bind_ok, ok_inj, Prod.mk.injEq] at h
      obtain ⟨⟨s1, r⟩, h1, ⟨s2, tr2⟩, h2, rfl, rfl⟩ := h
      have i := ih s1 s2 tr2 (hr.step h1) h2
      have g := (granted_le_asked hr h1).2
      simp only [grantedBy, List.map_cons, List.sum_cons] at i ⊢
      omega
  have g := hg ops _ s tr ⟨[], rfl⟩ ht
  rw [fillSum_sides]
  dsimp only at hb
  split at hb <;> split at hb <;> omega

/-- A buy order filled in two parts, a sell order filled in part, one amended and one cancelled. -/
def Ex.moderate : List Op :=
  [.update (.bba ⟨Ex.d 100, Ex.d 101, 1⟩), .limit .buy (Ex.d 99) (Ex.d 3) 1,
   .limit .sell (Ex.d 110) (Ex.d 2) 2, .limit .buy (Ex.d 200) (Ex.d 1) 3,
   .update (.trade ⟨2, Ex.d 98, Ex.d 1, .sell⟩), .amend 0 .buy (Ex.d 99) (Ex.d 4) 4,
   .update (.trade ⟨3, Ex.d 97, Ex.d 2, .sell⟩), .limit .buy (Ex.d 98) (Ex.d 1) 5,
   .cancel (.userOrderId 5), .market .buy (Ex.d 1) 6,
   .update (.trade ⟨4, Ex.d 111, Ex.d 1, .buy⟩)]

/-- The hypotheses of `C100_own_orders_only` are met by a history in which both sides trade: five
contracts were bought or are wanted of eight granted, and the sell side uses all it was
granted. -/
example : (match history Ex.linR (State.init Ex.linR) Ex.moderate with
    | .ok (s, tr) => decide ((∀ x ∈ tr, liquidated x = false) ∧
        tradedOn .buy (fills s.log) = Ex.d 4 ∧ openOn .buy s.active = Ex.d 1 ∧
        grantedBy .buy tr = Ex.d 8 ∧
        tradedOn .sell (fills s.log) = Ex.d 1 ∧ openOn .sell s.active = Ex.d 1 ∧
        grantedBy .sell tr = Ex.d 2)
    | .error _ => false) = true := by decide +kernel

/-- C100, the exception: a liquidated account has sold contracts it was never granted to sell. -/
theorem C100_liquidation_trades : ∃ c ops s tr, history c (State.init c) ops = .ok (s, tr) ∧
    grantedBy .sell tr = 0 ∧ 0 < tradedOn .sell (fills s.log) := by
  have h : (match history Ex.linR (State.init Ex.linR)
      [.update (.bba ⟨Ex.d 100, Ex.d 101, 1⟩), .market .buy (Ex.d 9) 6,
       .update (.bba ⟨Ex.d 1, Ex.d 2, 5⟩)] with
    | .ok (s, tr) => decide (grantedBy .sell tr = 0 ∧ 0 < tradedOn .sell (fills s.log))
    | .error _ => false) = true := by decide +kernel
  split at h
  · next s tr h1 => exact ⟨_, _, s, tr, h1, of_decide_eq_true h⟩
  · cases h

end Lfest
