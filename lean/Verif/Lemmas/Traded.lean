import Verif.SpecTraded
import Verif.Props.Orders
import Verif.Props.Risk
import Verif.Props.Ledger
import Verif.Lemmas.Trace

/-!
# Quantities traded and left open, call by call

Helper lemmas for C100.
-/

namespace Lfest
open Spec

theorem tradedOn_append (sd : Side) (a b : List Fill) :
    tradedOn sd (a ++ b) = tradedOn sd a + tradedOn sd b := by
  induction a with
  | nil => simp [tradedOn]
  | cons f fs ih => simp only [List.cons_append, tradedOn, ih]; omega

theorem tradedOn_reverse (sd : Side) (a : List Fill) :
    tradedOn sd a.reverse = tradedOn sd a := by
  induction a with
  | nil => rfl
  | cons f fs ih =>
    simp only [List.reverse_cons, tradedOn_append, ih, tradedOn]; omega

theorem openOn_append (sd : Side) (a b : List Limit) :
    openOn sd (a ++ b) = openOn sd a + openOn sd b := by
  induction a with
  | nil => simp [openOn]
  | cons f fs ih => simp only [List.cons_append, openOn, ih]; omega

theorem openOn_perm (sd : Side) {a b : List Limit} (h : a.Perm b) : openOn sd a = openOn sd b := by
  induction h with
  | nil => rfl
  | cons x _ ih => simp only [openOn, ih]
  | swap x y l => simp only [openOn]; omega
  | trans _ _ ih1 ih2 => rw [ih1, ih2]

theorem openOn_filter (sd : Side) (p : Limit → Bool) (a : List Limit)
    (h : ∀ o ∈ a, 0 < o.remaining) : openOn sd (a.filter p) ≤ openOn sd a := by
  induction a with
  | nil => simp [openOn]
  | cons x xs ih =>
    have i := ih (fun o ho => h o (List.mem_cons_of_mem _ ho))
    have hx := h x List.mem_cons_self
    simp only [List.filter_cons]
    split
    · simp only [openOn]; omega
    · simp only [openOn]; split <;> omega

theorem openOn_nonneg (sd : Side) (a : List Limit) (h : ∀ o ∈ a, 0 < o.remaining) :
    0 ≤ openOn sd a := by
  induction a with
  | nil => simp [openOn]
  | cons x xs ih =>
    have i := ih (fun o ho => h o (List.mem_cons_of_mem _ ho))
    have hx := h x List.mem_cons_self
    simp only [openOn]; split <;> omega

/-- What is matched is exactly what is no longer open. -/
theorem openOn_match (sd : Side) (e : Env) (a : UpdateArg) (os : List Limit) :
    openOn sd (os.filterMap (survivor e a)) + tradedOn sd (makerFills a os) = openOn sd os := by
  induction os with
  | nil => rfl
  | cons x xs ih =>
    simp only [makerFills] at ih ⊢
    simp only [List.filterMap_cons, survivor]
    cases hf : fillRule a x with
    | none => simp only [Option.map_none, openOn]; omega
    | some q =>
      simp only [Option.map_some, tradedOn, openOn]
      split
      · rename_i he
        split at he
        · rename_i hq; simp only [hq]; omega
        · cases he
      · rename_i y he
        split at he
        · cases he
        · cases he
          by_cases hs : x.side = sd
          · simp only [openOn, filledBy, hs, if_true]; omega
          · simp only [openOn, filledBy, hs, if_false]; omega

theorem tradedOn_nonneg (sd : Side) (a : List Fill) (h : ∀ f ∈ a, 0 ≤ f.qty) :
    0 ≤ tradedOn sd a := by
  induction a with
  | nil => simp [tradedOn]
  | cons x xs ih =>
    have i := ih (fun o ho => h o (List.mem_cons_of_mem _ ho))
    have hx := h x List.mem_cons_self
    simp only [tradedOn]; split <;> omega

theorem makerFills_pos {a : UpdateArg} {os : List Limit}
    (h : ∀ o ∈ os, ∀ q, fillRule a o = some q → 0 < q ∧ q ≤ o.remaining) :
    ∀ f ∈ makerFills a os, 0 ≤ f.qty := by
  intro f hf
  simp only [makerFills, List.mem_filterMap, Option.map_eq_some_iff] at hf
  obtain ⟨o, ho, q, hq, rfl⟩ := hf
  have := (h o ho q hq).1
  show 0 ≤ q
  omega

/-- What one call does to the quantities of one side. -/
theorem step_flow {c : Cfg} {s s' : State} {op : Op} {r : Resp} (hr : Reachable c s)
    (hst : Lfest.step c s op = .ok (s', r)) :
    (liquidated (op, r) = false ∧ ∀ sd, tradedOn sd (fills s.log) ≤ tradedOn sd (fills s'.log) ∧
      tradedOn sd (fills s'.log) + openOn sd s'.active ≤
        tradedOn sd (fills s.log) + openOn sd s.active + grantedOn sd (op, r)) ∨
    (liquidated (op, r) = true ∧ (∀ sd, grantedOn sd (op, r) = 0) ∧ s'.active = s.active ∧
      ∃ f, fills s'.log = f :: fills s.log ∧ f.signed = - s.pos.quantity ∧ 0 ≤ f.qty) := by
  have hi := hr.inv
  have hpos : ∀ o ∈ s.active, 0 < o.remaining := fun o ho => (hi.orders o ho).rem
  rcases step_cases hst with ⟨u, u', x, rfl, hb, hu, rfl⟩ | ⟨a, u, rfl, hb, hc, rfl⟩ |
    ⟨err, rfl, rfl⟩ |
    ⟨side, q, uid, x, rfl, hq0, _, rfl⟩ | ⟨side, p, q, uid, x, rfl, _, hq0, _, rfl⟩ |
    ⟨id, side, p, q, uid, x, rfl, _, _, hamend, rfl⟩ | ⟨b, x, rfl, _, rfl⟩
  · cases x with
    | ok ups =>
      obtain ⟨h1, _, _, h4, h5, _⟩ := update_spec hi hst
      refine .inl ⟨rfl, fun sd => ?_⟩
      have e := openOn_match sd c.env u s.active
      have n := tradedOn_nonneg sd (makerFills u s.active) (makerFills_pos h5)
      rw [openOn_perm sd h1, h4, tradedOn_append, tradedOn_reverse]
      simp only [grantedOn]
      omega
    | error err =>
      obtain ⟨_, h2, h3, _⟩ := C30_liquidation_flattens c s s' u err hr hst
      refine .inr ⟨rfl, fun sd => rfl, h3, _, h2, ?_, ?_⟩
      · by_cases hq : 0 < s.pos.quantity <;> simp [closingFill, Fill.signed, hq]
      · simp only [closingFill]; split <;> (try dsimp only) <;> omega
  · obtain ⟨h1, _, h4, h5, _⟩ := checkActive_spec hb hi hc
    refine .inl ⟨rfl, fun sd => ?_⟩
    have e := openOn_match sd c.env a s.active
    have n := tradedOn_nonneg sd (makerFills a s.active) (makerFills_pos h5)
    rw [openOn_perm sd h1, h4, tradedOn_append, tradedOn_reverse]
    simp only [grantedOn]
    omega
  · refine .inl ⟨by cases op <;> rfl, fun sd => ?_⟩
    have : grantedOn sd (op, Resp.invalidOrder err) = 0 := by cases op <;> rfl
    omega
  · cases x with
    | ok f =>
      obtain ⟨_, h2, _, h3, _⟩ := C21_market_order c s s' hr side q uid f hst
      refine .inl ⟨rfl, fun sd => ?_⟩
      rw [h3, h2]
      simp only [grantedOn, tradedOn]
      split <;> omega
    | error err =>
      obtain ⟨h1, _⟩ := C17_rejected_market c s s' side q uid err hst
      have h2 := C03_quiet_calls c s s' _ _ hst (by simp [quiet])
      have h3 : s'.active = s.active := by rw [h1]
      refine .inl ⟨rfl, fun sd => ?_⟩
      rw [h2, h3]
      simp only [grantedOn]
      omega
  · have h2 := C03_quiet_calls c s s' _ _ hst (by simp [quiet])
    refine .inl ⟨rfl, fun sd => ?_⟩
    rw [h2]
    cases x with
    | ok o =>
      obtain ⟨h0, h1, _⟩ := C18_accepted_limit c s s' hr side p q uid o hst
      rw [h1, openOn_append]
      simp only [grantedOn, openOn, h0]
      omega
    | error err =>
      obtain ⟨h1, _⟩ := C17_rejected_limit c s s' hr side p q uid err hst
      have h3 : s'.active = s.active := by rw [h1]
      rw [h3]
      simp only [grantedOn]
      omega
  · have h2 := C03_quiet_calls c s s' _ _ hst (by simp [quiet])
    refine .inl ⟨rfl, fun sd => ?_⟩
    rw [h2]
    by_cases hex : ∃ old ∈ s.active, old.id = id
    · obtain ⟨old, hold, rfl⟩ := hex
      obtain ⟨_, h3, h4, _⟩ := C20_amend c s s' hr old hold side p q uid x hst
      have h5 := openOn_filter sd (fun o => decide (o.id ≠ old.id)) s.active hpos
      cases x with
      | ok o =>
        obtain ⟨_, h6, _, h7⟩ := h3 o rfl
        have h8 : o.side = side := by rw [h6]
        rw [openOn_perm sd h7]
        simp only [grantedOn, openOn, h8]
        omega
      | error err =>
        rw [openOn_perm sd (h4 err rfl)]
        simp only [grantedOn]
        omega
    · obtain ⟨rfl, h3, h4⟩ := C20_amend_unknown c s s' id
        (fun o ho e => hex ⟨o, ho, e⟩) side p q uid x hst
      by_cases hl : id < s'.nextId
      · rw [h3 hl]; simp only [grantedOn]; omega
      · rw [h4 (by omega)]; simp only [grantedOn]; omega
  · have h2 := C03_quiet_calls c s s' _ _ hst (by simp [quiet])
    refine .inl ⟨rfl, fun sd => ?_⟩
    rw [h2]
    cases x with
    | ok o =>
      obtain ⟨⟨a, z, h1, _, _, h3⟩, _⟩ := C19_cancel_removes c s s' b o hst
      have h4 := hpos o (by rw [h1]; simp)
      rw [openOn_perm sd h3, h1, openOn_append, openOn_append]
      simp only [grantedOn, openOn]
      split <;> omega
    | error err =>
      obtain ⟨h1, _⟩ := (C19_cancel_errors c s s' b _ hst).2 err rfl
      rw [h1]
      simp only [grantedOn]
      omega

/-- No call is granted more than it asks for. -/
theorem granted_le_asked {c : Cfg} {s s' : State} {op : Op} {r : Resp} (hr : Reachable c s)
    (hst : Lfest.step c s op = .ok (s', r)) :
    (∀ sd, 0 ≤ grantedOn sd (op, r)) ∧
    grantedOn .buy (op, r) + grantedOn .sell (op, r) ≤ asked op := by
  have hi := hr.inv
  rcases step_cases hst with ⟨u, u', x, rfl, hb, hu, rfl⟩ | ⟨a, u, rfl, hb, hc, rfl⟩ |
    ⟨err, rfl, rfl⟩ |
    ⟨side, q, uid, x, rfl, hq0, _, rfl⟩ | ⟨side, p, q, uid, x, rfl, _, hq0, _, rfl⟩ |
    ⟨id, side, p, q, uid, x, rfl, _, hq0, hamend, rfl⟩ | ⟨b, x, rfl, _, rfl⟩
  · exact ⟨fun _ => by simp [grantedOn], by simp [grantedOn, asked]⟩
  · exact ⟨fun _ => by simp [grantedOn], by simp [grantedOn, asked]⟩
  · have : ∀ sd, grantedOn sd (op, Resp.invalidOrder err) = 0 := by intro sd; cases op <;> rfl
    refine ⟨fun sd => by rw [this]; omega, ?_⟩
    rw [this, this]
    cases op <;> simp only [asked] <;> (try split) <;> omega
  · cases x <;> cases side <;> simp [grantedOn, asked] <;> (try intro sd) <;> (try split) <;> grind
  · cases x <;> cases side <;> simp [grantedOn, asked] <;> (try intro sd) <;> (try split) <;> grind
  · by_cases hex : ∃ old ∈ s.active, old.id = id
    · obtain ⟨old, hold, rfl⟩ := hex
      obtain ⟨_, h3, h4, _⟩ := C20_amend c s s' hr old hold side p q uid x hst
      cases x with
      | ok o =>
        obtain ⟨h5, h6, _⟩ := h3 o rfl
        have h7 : 0 ≤ old.filledQuantity := (hi.orders old hold).cum
        have h8 : o.remaining = q - old.filledQuantity := by rw [h6]
        refine ⟨fun sd => ?_, ?_⟩
        · simp only [grantedOn]; split <;> omega
        · cases side <;> simp [grantedOn, asked] <;> grind
      | error err => exact ⟨fun _ => by simp [grantedOn], by simp [grantedOn, asked]; grind⟩
    · obtain ⟨rfl, h3, h4⟩ := C20_amend_unknown c s s' id
        (fun o ho e => hex ⟨o, ho, e⟩) side p q uid x hst
      by_cases hl : id < s'.nextId
      · rw [h3 hl]; exact ⟨fun _ => by simp [grantedOn], by simp [grantedOn, asked]; grind⟩
      · rw [h4 (by omega)]
        exact ⟨fun _ => by simp [grantedOn], by simp [grantedOn, asked]; grind⟩
  · exact ⟨fun _ => by simp [grantedOn], by simp [grantedOn, asked]⟩

/-- The net quantity of fills is what was bought less what was sold. -/
theorem netBought_sides (fs : List Fill) :
    netBought fs = tradedOn .buy fs - tradedOn .sell fs := by
  induction fs with
  | nil => rfl
  | cons f fs ih =>
    simp only [netBought, tradedOn, ih, Fill.signed]
    cases f.side <;> simp <;> omega

theorem fillSum_sides (fs : List Fill) :
    fillSum fs = tradedOn .buy fs + tradedOn .sell fs := by
  induction fs with
  | nil => rfl
  | cons f fs ih =>
    simp only [fillSum, tradedOn, ih]
    cases f.side <;> simp <;> omega

theorem grantedBy_concat (sd : Side) (tr : List (Op × Resp)) (x : Op × Resp) :
    grantedBy sd (tr ++ [x]) = grantedBy sd tr + grantedOn sd x := by
  simp [grantedBy]

end Lfest
