import Verif.Lemmas.Clone
import Verif.Lemmas.Trace
import Verif.Examples

/-!
# C83: copies of an exchange

A user copies an exchange to go on with the copy, expecting the copy to behave like the original.
-/

namespace Lfest
open Spec

/-- The answer that the exchange has no room for another order. -/
def noRoom : Resp := .limit (.error .maxNumberOfActiveOrders)

/-- The final state and the responses of a use of an exchange and its copies. -/
def outcome (y : Res (Exch × List Resp)) : Res (State × List Resp) := y.map (fun x => (x.1.s, x.2))

/-- The final state and the responses of the same calls, without any copy. -/
def uncopied (c : Cfg) (s : State) (ops : List Op) : Res (State × List Resp) :=
  (history c s ops).map (fun h => (h.1, h.2.map Prod.snd))

theorem uncopied_cons (c : Cfg) (s : State) (op : Op) (ops : List Op) :
    uncopied c s (op :: ops) = (do
      let r ← step c s op
      let h ← uncopied c r.1 ops
      .ok (h.1, r.2 :: h.2)) := by
  unfold uncopied
  simp only [history]
  cases step c s op with
  | error e => rfl
  | ok r =>
    simp only [bind, Except.bind]
    cases history c r.1 ops <;> rfl

theorem Fits.new (c : Cfg) : Fits c (Exch.new c) :=
  ⟨Inv.init c, fun _ => rfl, .inl rfl⟩

theorem Exch.uses_original {c : Cfg} {ops : List Op} : ∀ {x : Exch}, Fits c x → x.caps.fresh c →
    outcome (x.uses c (ops.map .call)) = uncopied c x.s ops := by
  induction ops with
  | nil => intro x _ _; rfl
  | cons op ops ih =>
    intro x hx hk
    rw [uncopied_cons]
    simp only [List.map_cons, Exch.uses]
    have hs : (x.step c op).map Exch.seen = Lfest.step c x.s op := by
      rcases Exch.step_same (op := op) hx (Nat.le_of_eq hk.1) (Nat.le_of_eq hk.2) with h | ⟨h, _⟩
      · exact h
      · exact absurd hk h
    rw [← hs]
    cases h : x.step c op with
    | error e => rfl
    | ok r =>
      obtain ⟨x1, r⟩ := r
      obtain ⟨k1, k2, _⟩ := Exch.step_caps hx h
      have := ih (hx.step h hs) ⟨k1.trans hk.1, k2.trans hk.2⟩
      simp only [bind, Except.bind, Except.map, Exch.seen]
      rw [← this]
      cases x1.uses c (ops.map .call) <;> rfl

/-- **C83, without copies**: carrying the capacities along changes nothing: a new exchange answers
every sequence of calls as in the model of the other claims, panics included. -/
theorem C83_original (c : Cfg) (ops : List Op) :
    outcome ((Exch.new c).uses c (ops.map .call)) = uncopied c (State.init c) ops :=
  Exch.uses_original (Fits.new c) ⟨rfl, rfl⟩

theorem Exch.uses_same {c : Cfg} (hd : c.env.debug = false) (hm : c.maxOpen ≤ 10000)
    {us : List Use} : ∀ {x : Exch}, Fits c x → x.caps.om ≤ c.maxOpen → x.caps.active ≤ activeCap →
    outcome (x.uses c us) = uncopied c x.s (Use.calls us) ∨
      ∃ pre suf y rs, us = pre ++ suf ∧ x.uses c pre = .ok (y, rs) ∧ noRoom ∈ rs := by
  induction us with
  | nil => intro x _ _ _; exact .inl rfl
  | cons use us ih =>
    intro x hx h1 h2
    cases use with
    | copy =>
      have hf : Fits c x.clone := ⟨hx.inv, fun h => (by rw [hd] at h; cases h), .inr hm⟩
      rcases ih hf (by
          show x.s.om.length ≤ c.maxOpen
          rw [hx.inv.sync hm]; exact hx.inv.len)
        (show x.s.active.length ≤ activeCap from hx.inv.cap) with h | ⟨pre, suf, y, rs, rfl, h, hr⟩
      · exact .inl h
      · exact .inr ⟨.copy :: pre, suf, y, rs, rfl, h, hr⟩
    | call op =>
      simp only [Use.calls, uncopied_cons, Exch.uses]
      rcases Exch.step_same (op := op) hx h1 h2 with hs | ⟨_, x', h⟩
      · rw [← hs]
        cases h : x.step c op with
        | error e => exact .inl rfl
        | ok r =>
          obtain ⟨x1, r⟩ := r
          obtain ⟨k1, k2, _⟩ := Exch.step_caps hx h
          rcases ih (hx.step h hs) (by omega) (by omega) with h3 | ⟨pre, suf, y, rs, rfl, h3, hr⟩
          · left
            simp only [bind, Except.bind, Except.map, Exch.seen]
            rw [← h3]
            cases x1.uses c us <;> rfl
          · right
            refine ⟨.call op :: pre, suf, y, r :: rs, rfl, ?_, by simp [hr]⟩
            simp only [Exch.uses, h, bind, Except.bind, h3]
      · right
        refine ⟨[.call op], us, x', [noRoom], rfl, ?_, by simp⟩
        simp only [Exch.uses, h, bind, Except.bind, noRoom]

/-- **C83, release builds**: calls interleaved with copies in any way give the state and the
responses of the same calls without copies, panics included, unless on the way the copy has
answered that it has no room. (`max_num_open_orders` at most ten thousand.) -/
theorem C83_same_until_full (c : Cfg) (hd : c.env.debug = false) (hm : c.maxOpen ≤ 10000)
    (us : List Use) :
    outcome ((Exch.new c).uses c us) = uncopied c (State.init c) (Use.calls us) ∨
      ∃ pre suf y rs, us = pre ++ suf ∧ (Exch.new c).uses c pre = .ok (y, rs) ∧ noRoom ∈ rs :=
  Exch.uses_same hd hm (Fits.new c) (Nat.le_refl _) (Nat.le_refl _)

theorem Exch.uses_length {c : Cfg} {us : List Use} : ∀ {x y : Exch} {rs},
    x.s.active.length ≤ x.caps.active → x.uses c us = .ok (y, rs) →
    y.s.active.length ≤ x.caps.active ∧ (x.caps.active = 0 → ∀ o, .limit (.ok o) ∉ rs) := by
  induction us with
  | nil =>
    intro x y rs hx h
    simp only [Exch.uses, ok_inj, Prod.mk.injEq] at h
    obtain ⟨rfl, rfl⟩ := h
    exact ⟨hx, fun _ _ h => by cases h⟩
  | cons use us ih =>
    intro x y rs hx h
    cases use with
    | copy =>
      obtain ⟨h1, h2⟩ := ih (x := x.clone) (Nat.le_refl _) h
      have h3 : x.clone.caps.active ≤ x.caps.active := hx
      exact ⟨Nat.le_trans h1 h3, fun h0 => h2 (by omega)⟩
    | call op =>
      simp only [Exch.uses, bind_ok, ok_inj, Prod.mk.injEq] at h
      obtain ⟨⟨x1, r⟩, hs, ⟨x2, rs'⟩, hu, rfl, rfl⟩ := h
      obtain ⟨h1, h2, h3⟩ := Exch.step_length hs hx
      obtain ⟨h4, h5⟩ := ih h2 hu
      rw [h1] at h4 h5
      refine ⟨h4, fun h0 o ho => ?_⟩
      rcases List.mem_cons.1 ho with ho | ho
      · exact h3 h0 o ho.symm
      · exact h5 h0 o ho

/-- **C83, the room of a copy**: whatever is done with a copy, it never has more open orders than
it had when it was made. -/
theorem C83_never_more (c : Cfg) (x y : Exch) (us : List Use) (rs : List Resp)
    (h : x.clone.uses c us = .ok (y, rs)) : y.s.active.length ≤ x.s.active.length :=
  (Exch.uses_length (x := x.clone) (Nat.le_refl _) h).1

/-- **C83, a copy without orders**: a copy made while no order is open never accepts a limit
order, whatever is done with it. -/
theorem C83_accepts_nothing (c : Cfg) (x y : Exch) (us : List Use) (rs : List Resp)
    (hx : x.s.active = []) (h : x.clone.uses c us = .ok (y, rs)) : ∀ o, .limit (.ok o) ∉ rs :=
  (Exch.uses_length (x := x.clone) (Nat.le_refl _) h).2 (by simp [Exch.clone, hx])

/-- The update carries a trade, a candle or a list of trades, as opposed to quotes. A user's own
type says so itself. -/
def hasTrades : UpdateArg → Prop
  | .bba _ => False
  | .custom k => k.canFill = true
  | _ => True

theorem build_canFill {a : UpdateArg} {d : Bool} {u : Update} (ha : hasTrades a)
    (h : a.build d = .ok u) : u.canFill = true := by
  cases a with
  | bba b => cases ha
  | trade t => simp only [UpdateArg.build, ok_inj] at h; subst h; rfl
  | candle t => simp only [UpdateArg.build, ok_inj] at h; subst h; rfl
  | custom k => simp only [UpdateArg.build, ok_inj] at h; subst h; exact ha
  | smart ts b pf =>
    simp only [UpdateArg.build, bind_ok, ok_inj] at h
    obtain ⟨_, _, rfl⟩ := h; rfl

theorem checkActiveC_cap {k : Caps} {c : Cfg} {s : State} {u : Update} {r}
    (hd : c.env.debug = true) (hf : u.canFill = true) (h : checkActiveC k c s u = .ok r) :
    ∃ n ≤ s.active.length, idsCap k.ids n = c.maxOpen := by
  unfold checkActiveC at h
  rw [if_neg (by rw [hf]; simp)] at h
  simp only [bind_ok, debugP_ok] at h
  obtain ⟨_, _, ⟨l, os⟩, hm, _, _, _, hcap, _⟩ := h
  refine ⟨l.ids.length, ?_, hcap hd⟩
  obtain ⟨xs, hxs, _, _, _, hids⟩ := matchLoop_out hm
  rw [hids]
  simp only [List.nil_append, List.length_map]
  rw [← hxs.length]
  exact List.length_filter_le _ _

theorem checkActiveC_ids {k : Caps} {c : Cfg} {s : State} {u : Update} {r}
    (hd : c.env.debug = true) (hne : ∀ n ≤ s.active.length, idsCap k.ids n ≠ c.maxOpen)
    (h : checkActiveC k c s u = .ok r) : r.2 = k.ids ∧ u.canFill = false := by
  cases hf : u.canFill with
  | false =>
    unfold checkActiveC at h
    rw [if_pos hf] at h
    cases h; exact ⟨rfl, rfl⟩
  | true =>
    obtain ⟨n, hn, he⟩ := checkActiveC_cap hd hf h
    exact absurd he (hne n hn)

/-- A copy whose vector of executed orders cannot get the right capacity keeps it, and gets
through no update with trades. -/
theorem Exch.step_ids {c : Cfg} {x x' : Exch} {op : Op} {r : Resp} (hd : c.env.debug = true)
    (hne : ∀ n ≤ x.s.active.length, idsCap x.caps.ids n ≠ c.maxOpen)
    (h : x.step c op = .ok (x', r)) :
    x'.caps.ids = x.caps.ids ∧ ∀ a l, hasTrades a → (op, r) ≠ (.update a, .update (.ok l)) := by
  cases op with
  | update a =>
    simp only [Exch.step, bind_ok, ok_inj, Prod.mk.injEq] at h
    obtain ⟨u, hu, ⟨⟨s', i⟩, w⟩, h, rfl, rfl⟩ := h
    simp only [updateStateC, bind_ok] at h
    obtain ⟨s1, ho, h⟩ := h
    split at h
    · simp only [bind_ok, ok_inj, Prod.mk.injEq] at h
      obtain ⟨_, _, ⟨_, rfl⟩, rfl⟩ := h
      exact ⟨rfl, fun a l _ h => by cases h⟩
    · simp only [bind_ok, ok_inj, Prod.mk.injEq] at h
      obtain ⟨s2, h, rfl, rfl⟩ := h
      obtain ⟨h1, h2⟩ := checkActiveC_ids hd (by rw [(observe_arenas ho).1]; exact hne) h
      refine ⟨h1, fun a' l ha hh => ?_⟩
      simp only [Prod.mk.injEq, Op.update.injEq] at hh
      have := build_canFill ha (hh.1 ▸ hu)
      rw [h2] at this; cases this
  | checkActive a =>
    simp only [Exch.step, bind_ok, ok_inj, Prod.mk.injEq] at h
    obtain ⟨u, hu, ⟨s', i⟩, h, rfl, rfl⟩ := h
    exact ⟨(checkActiveC_ids hd hne h).1, fun a l _ h => by cases h⟩
  | market side qty uid =>
    refine ⟨?_, fun a l _ h => by cases h⟩
    simp only [Exch.step] at h
    cases hn : NewMarket.new side qty uid with
    | error e =>
      rw [hn] at h; simp only [ok_inj, Prod.mk.injEq] at h
      obtain ⟨rfl, rfl⟩ := h; rfl
    | ok o =>
      rw [hn] at h; simp only [bind_ok, ok_inj, Prod.mk.injEq] at h
      obtain ⟨_, _, rfl, rfl⟩ := h; rfl
  | limit side price qty uid =>
    refine ⟨?_, fun a l _ h => by cases h⟩
    simp only [Exch.step] at h
    cases hn : NewLimit.new side price qty uid with
    | error e =>
      rw [hn] at h; simp only [ok_inj, Prod.mk.injEq] at h
      obtain ⟨rfl, rfl⟩ := h; rfl
    | ok o =>
      rw [hn] at h; simp only [bind_ok, ok_inj, Prod.mk.injEq] at h
      obtain ⟨_, _, rfl, rfl⟩ := h; rfl
  | amend id side price qty uid =>
    refine ⟨?_, fun a l _ h => by cases h⟩
    simp only [Exch.step] at h
    cases hn : NewLimit.new side price qty uid with
    | error e =>
      rw [hn] at h; simp only [ok_inj, Prod.mk.injEq] at h
      obtain ⟨rfl, rfl⟩ := h; rfl
    | ok o =>
      rw [hn] at h; simp only [bind_ok, ok_inj, Prod.mk.injEq] at h
      obtain ⟨_, _, rfl, rfl⟩ := h; rfl
  | cancel by_ =>
    refine ⟨?_, fun a l _ h => by cases h⟩
    simp only [Exch.step, bind_ok, ok_inj, Prod.mk.injEq] at h
    obtain ⟨_, _, rfl, rfl⟩ := h; rfl

theorem Exch.uses_ids {c : Cfg} (hd : c.env.debug = true) {N : Nat}
    (hne : ∀ n ≤ N, idsCap 0 n ≠ c.maxOpen) {us : List Use} : ∀ {x y : Exch} {rs},
    x.caps.ids = 0 → x.caps.active ≤ N → x.s.active.length ≤ x.caps.active →
    x.uses c us = .ok (y, rs) →
    ∀ a l, hasTrades a → (.update a, .update (.ok l)) ∉ (Use.calls us).zip rs := by
  induction us with
  | nil => intro x y rs _ _ _ _ a l _ h; simp [Use.calls] at h
  | cons use us ih =>
    intro x y rs h1 h2 h3 h a l ha
    cases use with
    | copy =>
      exact ih (x := x.clone) rfl (Nat.le_trans h3 h2) (Nat.le_refl _) h a l ha
    | call op =>
      simp only [Exch.uses, bind_ok, ok_inj, Prod.mk.injEq] at h
      obtain ⟨⟨x1, r⟩, hs, ⟨x2, rs'⟩, hu, rfl, rfl⟩ := h
      obtain ⟨k1, k2, _⟩ := Exch.step_length hs h3
      obtain ⟨k4, k5⟩ := Exch.step_ids hd (fun n hn => by rw [h1]; exact hne n (by omega)) hs
      simp only [Use.calls, List.zip_cons_cons, List.mem_cons, not_or]
      exact ⟨fun he => k5 a l ha he.symm,
        ih (k4.trans h1) (by omega) k2 hu a l ha⟩

/-- **C83, debug builds, a copy without orders**: whatever is done with it, no update with trades
ever succeeds. -/
theorem C83_debug_panics (c : Cfg) (x y : Exch) (us : List Use) (rs : List Resp)
    (hd : c.env.debug = true) (hm : c.maxOpen ≠ 0) (hx : x.s.active = [])
    (h : x.clone.uses c us = .ok (y, rs)) (a : UpdateArg) (l : List LimitUpdate)
    (ha : hasTrades a) : (.update a, .update (.ok l)) ∉ (Use.calls us).zip rs := by
  refine Exch.uses_ids hd (N := 0) (fun n hn => ?_) (x := x.clone) rfl (by simp [Exch.clone, hx])
    (Nat.le_refl _) h a l ha
  obtain rfl : n = 0 := by omega
  exact fun h => hm h.symm

/-- **C83, debug builds, any copy**: whatever is done with it, no update with trades ever succeeds,
unless `max_num_open_orders` is four, eight, sixteen, and so on. -/
theorem C83_debug_panics_any (c : Cfg) (x y : Exch) (us : List Use) (rs : List Resp)
    (hd : c.env.debug = true) (hm : c.maxOpen ≠ 0) (hp : ∀ k, c.maxOpen ≠ 4 * 2 ^ k)
    (h : x.clone.uses c us = .ok (y, rs)) (a : UpdateArg) (l : List LimitUpdate)
    (ha : hasTrades a) : (.update a, .update (.ok l)) ∉ (Use.calls us).zip rs := by
  refine Exch.uses_ids hd (N := x.s.active.length) (fun n _ => ?_) (x := x.clone) rfl
    (Nat.le_refl _) (Nat.le_refl _) h a l ha
  cases n with
  | zero => exact fun h => hm h.symm
  | succ n =>
    obtain ⟨k, hk⟩ := idsCap_zero n
    exact fun h => hp k (h.symm.trans hk)

/-- Evaluate a Boolean property of a use of a new exchange and its copies. -/
def Ex.used (c : Cfg) (us : List Use) (p : Exch → List Resp → Bool) : Bool :=
  match (Exch.new c).uses c us with
  | .ok y => p y.1 y.2
  | .error _ => false

theorem Ex.used_sound {c : Cfg} {us : List Use} {p : Exch → List Resp → Bool}
    (h : Ex.used c us p = true) : ∃ y rs, (Exch.new c).uses c us = .ok (y, rs) ∧ p y rs = true := by
  unfold Ex.used at h
  split at h
  · next y hy => exact ⟨y.1, y.2, hy, h⟩
  · cases h

/-- **C83 is false as an equivalence**: with room for ten orders and two open, a copy refuses the
order that the original accepts. -/
theorem C83_not_equivalent :
    ∃ (c : Cfg) (ops : List Op) (op : Op), c.env.debug = false ∧
      (∃ y rs, (Exch.new c).uses c (ops.map .call ++ [.call op]) = .ok (y, rs) ∧
        y.s.active.length < c.maxOpen ∧ rs.getLast?.map Ex.isOk = some true) ∧
      (∃ y rs, (Exch.new c).uses c (ops.map .call ++ [.copy, .call op]) = .ok (y, rs) ∧
        rs.getLast? = some noRoom) := by
  refine ⟨Ex.linR, Ex.ops1, .limit .buy (Ex.d 94) (Ex.d 1) 3, rfl, ?_, ?_⟩
  · obtain ⟨y, rs, h1, h2⟩ := Ex.used_sound (c := Ex.linR)
      (us := Ex.ops1.map .call ++ [.call (.limit .buy (Ex.d 94) (Ex.d 1) 3)])
      (p := fun y rs => decide (y.s.active.length < Ex.linR.maxOpen ∧
        rs.getLast?.map Ex.isOk = some true)) (by decide +kernel)
    exact ⟨y, rs, h1, of_decide_eq_true h2⟩
  · obtain ⟨y, rs, h1, h2⟩ := Ex.used_sound (c := Ex.linR)
      (us := Ex.ops1.map .call ++ [.copy, .call (.limit .buy (Ex.d 94) (Ex.d 1) 3)])
      (p := fun _ rs => decide (rs.getLast? = some noRoom)) (by decide +kernel)
    exact ⟨y, rs, h1, of_decide_eq_true h2⟩

/-- Two orders rest when the copy is made. The copy fills one partially, cancels the other, takes a
new one in its place, is copied itself, and moves one: it never runs out of room. -/
example : Ex.linR.env.debug = false ∧ Ex.linR.maxOpen ≤ 10000 ∧
    Ex.used Ex.linR (Ex.ops1.map .call ++ [.copy,
      .call (.update (.trade ⟨2, Ex.d 111, Ex.d 2, .buy⟩)), .call (.cancel (.userOrderId 2)),
      .call (.limit .buy (Ex.d 94) (Ex.d 1) 3), .copy,
      .call (.amend 1 .sell (Ex.d 112) (Ex.d 4) 1)])
    (fun y rs => decide (noRoom ∉ rs ∧ y.s.active.length = 2 ∧ y.caps = ⟨2, 2, 0⟩ ∧
      rs.all Ex.isOk = true)) = true := by decide +kernel

/-- A copy with two orders, which is refused a third. -/
example : Ex.used Ex.linR (Ex.ops1.map .call ++ [.copy, .call (.limit .buy (Ex.d 94) (Ex.d 1) 3),
      .call (.update (.trade ⟨2, Ex.d 90, Ex.d 5, .sell⟩))])
    (fun y rs => decide (noRoom ∈ rs ∧ y.s.active.length = 1)) = true := by decide +kernel

/-- A copy without orders, which still trades at the market. -/
example : Ex.used Ex.linR [.call (.update (.bba ⟨Ex.d 100, Ex.d 101, 1⟩)), .copy,
      .call (.limit .buy (Ex.d 94) (Ex.d 1) 3), .call (.market .buy (Ex.d 1) 0),
      .call (.update (.trade ⟨2, Ex.d 90, Ex.d 5, .sell⟩))]
    (fun y rs => decide (noRoom ∈ rs ∧ y.s.active = [] ∧ y.s.pos ≠ .neutral)) = true := by
  decide +kernel

/-- In a debug build the copy without orders gets quotes, and panics on a trade that the original
would take. Its `max_num_open_orders` is ten. -/
example : Ex.lin.env.debug = true ∧ Ex.lin.maxOpen = 10 ∧
    Ex.used Ex.lin [.copy, .call (.update (.bba ⟨Ex.d 100, Ex.d 101, 1⟩))] (fun _ _ => true) = true ∧
    Ex.used Ex.lin [.call (.update (.bba ⟨Ex.d 100, Ex.d 101, 1⟩)),
      .call (.update (.trade ⟨2, Ex.d 90, Ex.d 5, .sell⟩))] (fun _ _ => true) = true ∧
    ((Exch.new Ex.lin).uses Ex.lin [.copy, .call (.update (.bba ⟨Ex.d 100, Ex.d 101, 1⟩)),
      .call (.update (.trade ⟨2, Ex.d 90, Ex.d 5, .sell⟩))]).toOption.isNone = true := by
  decide +kernel

example : ∀ k, Ex.lin.maxOpen ≠ 4 * 2 ^ k := fun k h => by
  have : Ex.lin.maxOpen = 10 := rfl
  omega

/-- With room for four orders, a debug build whose copy fills one order does go on. -/
example : Ex.used { Ex.lin with maxOpen := 4 } (Ex.ops1.map .call ++ [.copy,
      .call (.update (.trade ⟨2, Ex.d 111, Ex.d 3, .buy⟩))])
    (fun y _ => decide (y.s.active.length = 1 ∧ y.caps = ⟨2, 2, 4⟩)) = true := by decide +kernel

end Lfest
