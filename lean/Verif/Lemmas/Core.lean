import Verif.Lemmas.Position

/-!
Every API call is a chain of elementary actions on accounts, position and the record of
tracker calls. Invariants of the elementary actions are invariants of the exchange.
-/

namespace Lfest

/-- The part of the state that elementary actions change. -/
structure Core where
  acct : Accounts
  pos : Position
  log : List Event

def State.core (s : State) : Core := ⟨s.acct, s.pos, s.log⟩

/-- Tracker calls other than fills and samples. -/
def plainEvent : Event → Prop
  | .update _ => True
  | .limitSubmit _ => True
  | .limitCancel => True
  | .marketSubmit _ => True
  | _ => False

/-- The report of a fill to the tracker, newest first. -/
def fillReport (f : Spec.Fill) (full : Bool) : List Event :=
  [.trade f.side f.price f.qty, if f.maker = true then .limitFill full f.qty else .marketFill]

/-- Elementary actions. With `st` set, fills are known to have a positive price. -/
inductive CoreStep (c : Cfg) (st : Bool) : Core → Core → Prop
  | event {a p l} (ev : Event) (h : plainEvent ev) : CoreStep c st ⟨a, p, l⟩ ⟨a, p, ev :: l⟩
  | sample {a p l} (mid : Int) :
      CoreStep c st ⟨a, p, l⟩ ⟨a, p, .sample (userBalances a) mid :: l⟩
  | reserve {a p l a'} (x : Int) (h : transfer c.env a .orderMargin .wallet x = .ok a') :
      CoreStep c st ⟨a, p, l⟩ ⟨a', p, l⟩
  | release {a p l a'} (x : Int) (h : transfer c.env a .wallet .orderMargin x = .ok a') :
      CoreStep c st ⟨a, p, l⟩ ⟨a', p, l⟩
  | fill {a p l a' p'} (f : Spec.Fill) (full : Bool) (hp : st = true → 0 < f.price)
      (h : changePosition c.env c.spec.initMarginReq a p f.qty f.price f.side (f.fee c)
        = .ok (p', a')) :
      CoreStep c st ⟨a, p, l⟩ ⟨a', p', fillReport f full ++ l⟩

inductive CoreStar (c : Cfg) (st : Bool) : Core → Core → Prop
  | refl (x : Core) : CoreStar c st x x
  | tail {x y z : Core} (h : CoreStar c st x y) (k : CoreStep c st y z) : CoreStar c st x z

theorem CoreStar.one {c : Cfg} {st : Bool} {x y : Core} (h : CoreStep c st x y) : CoreStar c st x y :=
  .tail (.refl x) h

theorem CoreStar.trans {c : Cfg} {st : Bool} {x y z : Core} (h : CoreStar c st x y) (k : CoreStar c st y z) :
    CoreStar c st x z := by
  induction k with
  | refl => exact h
  | tail _ k ih => exact .tail ih k

/-- An invariant of the elementary actions holds along chains. -/
theorem CoreStar.inv {c : Cfg} {st : Bool} {x y : Core} {P : Core → Prop} (h : CoreStar c st x y)
    (hs : ∀ a b, P a → CoreStep c st a b → P b) (hx : P x) : P y := by
  induction h with
  | refl => exact hx
  | tail _ k ih => exact hs _ _ ih k

/-! ### Every operation is a chain -/

theorem settleMarket_core {c : Cfg} {st : Bool} {s s' : State} {o : FilledMarket}
    (h : settleMarket c s o = .ok s') : CoreStep c st s.core s'.core := by
  simp only [settleMarket, bind_ok, assertP_ok, ok_inj] at h
  obtain ⟨_, _, _, hp, v, hv, ⟨p', a'⟩, hr, rfl⟩ := h
  have := convert_ok hv; subst this
  exact .fill (f := ⟨false, o.side, o.avgFillPrice, o.qty⟩) (full := true) (fun _ => hp) hr

theorem settleMarket_fields {c : Cfg} {s s' : State} {o : FilledMarket}
    (h : settleMarket c s o = .ok s') :
    s'.ms = s.ms ∧ s'.nextId = s.nextId ∧ s'.active = s.active ∧ s'.om = s.om ∧
      s'.trigger = s.trigger ∧ s'.updates = s.updates := by
  simp only [settleMarket, bind_ok, assertP_ok, ok_inj] at h
  obtain ⟨_, _, _, _, v, hv, ⟨p', a'⟩, hr, rfl⟩ := h
  simp

theorem submitMarket_core {c : Cfg} {st : Bool} {s s' : State} {o : NewMarket} {r}
    (h : submitMarket c s o = .ok (s', r)) : CoreStar c st s.core s'.core := by
  have h0 : CoreStep c st s.core ({ s with log := .marketSubmit o :: s.log } : State).core :=
    .event _ trivial
  simp only [submitMarket, bind_ok] at h
  obtain ⟨r1, _, h⟩ := h
  split at h
  · simp only [ok_inj, Prod.mk.injEq] at h; obtain ⟨rfl, _⟩ := h
    exact .one h0
  · simp only [bind_ok] at h
    obtain ⟨r2, _, h⟩ := h
    split at h
    · simp only [ok_inj, Prod.mk.injEq] at h; obtain ⟨rfl, _⟩ := h
      exact .one h0
    · simp only [bind_ok, ok_inj, Prod.mk.injEq] at h
      obtain ⟨s3, hs, rfl, _⟩ := h
      have k := settleMarket_core (st := st) hs
      exact .tail (.one h0) k

theorem appendChecks_ok {s s' : State} (h : appendChecks s = .ok s') :
    s' = s ∧ s.om = s.active ∧ (s.active = [] → s.acct.balance .orderMargin = 0) ∧
      0 ≤ s.acct.balance .wallet := by
  simp only [appendChecks, bind_ok, assertP_ok, ok_inj] at h
  obtain ⟨_, h1, _, h2, _, h3, rfl⟩ := h
  exact ⟨rfl, h1, h2, h3⟩

theorem appendLimit_core {c : Cfg} {st : Bool} {s s' : State} {o : Limit} {r}
    (h : appendLimit c s o = .ok (s', r)) : CoreStar c st s.core s'.core := by
  simp only [appendLimit, bind_ok] at h
  obtain ⟨r1, _, h⟩ := h
  split at h
  · simp only [ok_inj, Prod.mk.injEq] at h; obtain ⟨rfl, _⟩ := h; exact .refl _
  · split at h
    · simp only [ok_inj, Prod.mk.injEq] at h; obtain ⟨rfl, _⟩ := h; exact .refl _
    · simp only [bind_ok] at h
      obtain ⟨m, _, h⟩ := h
      split at h
      · simp only [bind_ok, ok_inj, Prod.mk.injEq] at h
        obtain ⟨a, ha, s3, hs, rfl, _⟩ := h
        obtain ⟨rfl, _⟩ := appendChecks_ok hs
        exact .one (.reserve _ ha)
      · split at h
        · simp only [bind_ok, ok_inj, Prod.mk.injEq] at h
          obtain ⟨a, ha, s3, hs, rfl, _⟩ := h
          obtain ⟨rfl, _⟩ := appendChecks_ok hs
          exact .one (.reserve _ ha)
        · simp only [ok_inj, Prod.mk.injEq] at h; obtain ⟨rfl, _⟩ := h; exact .refl _

theorem submitLimit_core {c : Cfg} {st : Bool} {s s' : State} {o : NewLimit} {r}
    (h : submitLimit c s o = .ok (s', r)) : CoreStar c st s.core s'.core := by
  have h0 : CoreStep c st s.core ({ s with log := .limitSubmit o :: s.log } : State).core :=
    .event _ trivial
  simp only [submitLimit, bind_ok] at h
  obtain ⟨r1, _, h⟩ := h
  split at h
  · simp only [ok_inj, Prod.mk.injEq] at h; obtain ⟨rfl, _⟩ := h; exact .one h0
  · simp only [bind_ok] at h
    obtain ⟨r2, _, h⟩ := h
    split at h
    · simp only [ok_inj, Prod.mk.injEq] at h; obtain ⟨rfl, _⟩ := h; exact .one h0
    · simp only [bind_ok] at h
      obtain ⟨r3, _, h⟩ := h
      split at h
      · simp only [ok_inj, Prod.mk.injEq] at h; obtain ⟨rfl, _⟩ := h; exact .one h0
      · split at h
        · simp only [ok_inj, Prod.mk.injEq] at h; obtain ⟨rfl, _⟩ := h; exact .one h0
        · simp only [bind_ok] at h
          obtain ⟨r4, hr4, h⟩ := h
          split at h
          all_goals
            simp only [ok_inj, Prod.mk.injEq] at h; obtain ⟨rfl, _⟩ := h
            have k := appendLimit_core (st := st) hr4
            exact (CoreStar.one h0).trans k

theorem refund_ok {e : Env} {a a' : Accounts} {m n : Int} (h : refund e a m n = .ok a') :
    (n < m ∧ transfer e a .wallet .orderMargin (m - n) = .ok a') ∨ (m ≤ n ∧ a' = a) := by
  unfold refund at h
  split at h
  · exact .inl ⟨by assumption, h⟩
  · simp only [ok_inj] at h; exact .inr ⟨by omega, h.symm⟩

theorem cancelLimit_core {c : Cfg} {st : Bool} {s s' : State} {b : CancelBy} {r}
    (h : cancelLimit c s b = .ok (s', r)) : CoreStar c st s.core s'.core := by
  simp only [cancelLimit, bind_ok, assertP_ok] at h
  obtain ⟨m, _, _, _, h⟩ := h
  split at h
  · simp only [ok_inj, Prod.mk.injEq] at h; obtain ⟨rfl, _⟩ := h; exact .refl _
  · simp only [bind_ok, assertP_ok, ok_inj, Prod.mk.injEq] at h
    obtain ⟨om', _, m', _, _, _, a, ha, _, _, _, _, rfl, _⟩ := h
    refine CoreStar.tail ?_ (.event (a := a) (p := s.pos) (l := s.log) .limitCancel trivial)
    rcases refund_ok ha with ⟨_, ha⟩ | ⟨_, rfl⟩
    · exact .one (.release _ ha)
    · exact .refl _

theorem amendLimit_core {c : Cfg} {st : Bool} {s s' : State} {id : Nat} {o : NewLimit} {r}
    (h : amendLimit c s id o = .ok (s', r)) : CoreStar c st s.core s'.core := by
  simp only [amendLimit] at h
  split at h
  · simp only [ok_inj, Prod.mk.injEq] at h; obtain ⟨rfl, _⟩ := h; exact .refl _
  · simp only [bind_ok] at h
    obtain ⟨t, _, h⟩ := h
    split at h
    · simp only [bind_ok] at h
      obtain ⟨r1, hr1, h⟩ := h
      split at h
      · simp at h
      · simp only [ok_inj, Prod.mk.injEq] at h; obtain ⟨rfl, _⟩ := h
        exact cancelLimit_core hr1
    · simp only [bind_ok] at h
      obtain ⟨n, _, r1, hr1, h⟩ := h
      split at h
      · simp only [ok_inj, Prod.mk.injEq] at h; obtain ⟨rfl, _⟩ := h
        exact cancelLimit_core hr1
      · exact (cancelLimit_core hr1).trans (submitLimit_core h)

def Loop.core (l : Loop) : Core := ⟨l.acct, l.pos, l.log⟩

/-- A fill does not change what identifies an order. -/
theorem fill_fixed {s : Int} {o o' : Limit} {q ts : Int} {r}
    (h : o.fill s q ts = .ok (o', r)) :
    o'.id = o.id ∧ o'.side = o.side ∧ o'.price = o.price ∧ o'.uid = o.uid ∧ o'.ts = o.ts ∧
      o'.remaining = o.remaining - q ∧ 0 < q ∧ q ≤ o.remaining := by
  simp only [Limit.fill, bind_ok, assertP_ok] at h
  obtain ⟨_, h1, _, h2, h⟩ := h
  split at h
  · split at h <;> simp only [ok_inj, Prod.mk.injEq] at h <;> obtain ⟨rfl, _⟩ := h <;> simp <;>
      exact ⟨h2, h1⟩
  · simp only [bind_ok] at h
    obtain ⟨w, _, h⟩ := h
    split at h <;> simp only [ok_inj, Prod.mk.injEq] at h <;> obtain ⟨rfl, _⟩ := h <;> simp <;>
      exact ⟨h2, h1⟩

theorem applyFill_ok {c : Cfg} {ts : Int} {l l' : Loop} {o o' : Limit} {q : Int}
    (h : applyFill c ts l o q = .ok (l', o')) :
    ∃ r, o.fill c.scale q ts = .ok (o', r) ∧ l'.acct = l.acct ∧ l'.pos = l.pos ∧
      l'.log = .limitFill r.isSome q :: l.log ∧
      match r with
      | some f => omRemove l.om (.orderId o'.id) = .ok l'.om ∧ l'.ids = l.ids ++ [o'.id] ∧
          l'.updates = l.updates ++ [.fullyFilled f]
      | none => omUpdate c.maxOpen l.om o' = .ok (.ok l'.om) ∧ l'.ids = l.ids ∧
          l'.updates = l.updates ++ [.partiallyFilled o'] := by
  simp only [applyFill, bind_ok] at h
  obtain ⟨⟨o1, r⟩, hr, h⟩ := h
  cases r with
  | some f =>
    simp only [bind_ok, ok_inj, Prod.mk.injEq] at h
    obtain ⟨om', hom, rfl, rfl⟩ := h
    exact ⟨_, hr, rfl, rfl, rfl, hom, rfl, rfl⟩
  | none =>
    simp only [bind_ok, debugP_ok] at h
    obtain ⟨_, _, r1, hr1, h⟩ := h
    cases r1 with
    | error err => simp at h
    | ok om' =>
      simp only [ok_inj, Prod.mk.injEq] at h
      obtain ⟨rfl, rfl⟩ := h
      exact ⟨_, hr, rfl, rfl, rfl, hr1, rfl, rfl⟩

theorem releaseMargin_ok {c : Cfg} {l l' : Loop} {m : Int}
    (h : releaseMargin c l m = .ok l') :
    ∃ n, orderMargin c.env c.spec.initMarginReq l.om l.pos = .ok n ∧
      l'.pos = l.pos ∧ l'.om = l.om ∧ l'.log = l.log ∧ l'.updates = l.updates ∧
      l'.ids = l.ids ∧ (c.env.debug = true → n ≤ m) ∧
      ((n < m ∧ transfer c.env l.acct .wallet .orderMargin (m - n) = .ok l'.acct) ∨
        (m ≤ n ∧ l'.acct = l.acct)) := by
  simp only [releaseMargin, bind_ok, debugP_ok] at h
  obtain ⟨n, hn, _, hd, h⟩ := h
  simp only [ok_inj] at h
  obtain ⟨a, ha, rfl⟩ := h
  exact ⟨n, hn, rfl, rfl, rfl, rfl, rfl, hd, refund_ok ha⟩

theorem settleLimit_ok {c : Cfg} {l l' : Loop} {o : Limit} {q : Int}
    (h : settleLimit c l o q = .ok l') :
    changePosition c.env c.spec.initMarginReq l.acct l.pos q o.price o.side
        (Spec.Fill.fee c ⟨true, o.side, o.price, q⟩) = .ok (l'.pos, l'.acct) ∧
      l'.om = l.om ∧ l'.log = .trade o.side o.price q :: l.log ∧ l'.updates = l.updates ∧
      l'.ids = l.ids := by
  simp only [settleLimit, bind_ok, ok_inj] at h
  obtain ⟨v, hv, ⟨p', a'⟩, hr, rfl⟩ := h
  have := convert_ok hv; subst this
  exact ⟨hr, rfl, rfl, rfl, rfl⟩

theorem matchOrder_core {c : Cfg} {st : Bool} {u : Update} {l l' : Loop} {o o' : Limit}
    (hp : st = true → 0 < o.price) (h : matchOrder c u l o = .ok (l', o')) : CoreStar c st l.core l'.core := by
  simp only [matchOrder, bind_ok] at h
  obtain ⟨r, _, h⟩ := h
  cases r with
  | none =>
    simp only [ok_inj, Prod.mk.injEq] at h; obtain ⟨rfl, _⟩ := h; exact .refl _
  | some q =>
    simp only [bind_ok, debugP_ok, ok_inj, Prod.mk.injEq] at h
    obtain ⟨_, _, _, _, ⟨l1, o1⟩, h1, l2, h2, l3, h3, rfl, rfl⟩ := h
    obtain ⟨r, hr, ha, hpo, hl, _⟩ := applyFill_ok h1
    obtain ⟨hc, _, hl2, _, _⟩ := settleLimit_ok h2
    have hpr := (fill_fixed hr).2.2.1
    obtain ⟨n, _, hp3, _, hl3, _, _, _, h4⟩ := releaseMargin_ok h3
    have e1 : CoreStep c st l.core l2.core := by
      have := CoreStep.fill (c := c) (st := st) (l := l.log) ⟨true, o1.side, o1.price, q⟩ r.isSome
        (fun h => by simp [hpr, hp h]) hc
      rw [ha, hpo] at this
      simpa [Loop.core, hl2, hl, fillReport] using this
    refine (CoreStar.one e1).trans ?_
    rcases h4 with ⟨_, h4⟩ | ⟨_, h4⟩
    · have := CoreStep.release (c := c) (st := st) (p := l2.pos) (l := l2.log) _ h4
      exact .one (by simpa [Loop.core, hp3, hl3] using this)
    · have : l3.core = l2.core := by simp [Loop.core, hp3, hl3, h4]
      rw [this]; exact .refl _

theorem matchLoop_core {c : Cfg} {st : Bool} {u : Update} {os : List Limit} :
    ∀ {l l' : Loop} {os'}, (st = true → ∀ o ∈ os, 0 < o.price) →
      matchLoop c u l os = .ok (l', os') → CoreStar c st l.core l'.core := by
  induction os with
  | nil =>
    intro l l' os' hp h
    simp only [matchLoop, ok_inj, Prod.mk.injEq] at h; obtain ⟨rfl, _⟩ := h; exact .refl _
  | cons o os ih =>
    intro l l' os' hp h
    simp only [matchLoop, bind_ok, ok_inj, Prod.mk.injEq] at h
    obtain ⟨⟨l1, o1⟩, h1, ⟨l2, os2⟩, h2, rfl, _⟩ := h
    exact (matchOrder_core (fun h => hp h o (by simp)) h1).trans
      (ih (fun h x hx => hp h x (by simp [hx])) h2)

/-- The loop state `check_active_orders` starts with. -/
def State.loop (s : State) : Loop :=
  { acct := s.acct, pos := s.pos, om := s.om, log := s.log, updates := [], ids := [] }

theorem checkActive_ok {c : Cfg} {s s' : State} {u : Update}
    (h : checkActive c s u = .ok s') (hf : u.canFill = true) :
    ∃ l orders active', matchLoop c u s.loop s.active = .ok (l, orders) ∧
      removeExecuted orders l.ids = .ok active' ∧
      (c.env.debug = true → s.om = s.active ∧ l.om = active' ∧ l.ids.length ≤ c.maxOpen ∧
        (active' = [] → l.acct.balance .orderMargin = 0) ∧
        orderMargin c.env c.spec.initMarginReq l.om l.pos = .ok (l.acct.balance .orderMargin)) ∧
      0 ≤ l.acct.balance .wallet ∧
      s' = { s with acct := l.acct, pos := l.pos, om := l.om, log := l.log,
                    updates := l.updates, active := active' } := by
  simp only [checkActive, hf, Bool.true_eq_false, if_false, bind_ok, debugP_ok, assertP_ok,
    ok_inj] at h
  obtain ⟨_, h1, ⟨l, orders⟩, h2, active', h3, _, h4, _, h5, _, h6, _, h7, _, h8, rfl⟩ := h
  refine ⟨l, orders, active', h2, h3, fun hd => ⟨h1 hd, h5 hd, h4 hd, h6 hd, ?_⟩, h8, rfl⟩
  simp only [debugMarginEq, hd, if_true, bind_ok, assertP_ok] at h7
  obtain ⟨m, hm, rfl⟩ := h7
  exact hm

theorem checkActive_bba {c : Cfg} {s s' : State} {u : Update}
    (h : checkActive c s u = .ok s') (hf : u.canFill = false) :
    s' = { s with updates := [] } := by
  simp only [checkActive, hf, if_true, ok_inj] at h; exact h.symm

theorem checkActive_core {c : Cfg} {st : Bool} {s s' : State} {u : Update}
    (hp : st = true → ∀ o ∈ s.active, 0 < o.price) (h : checkActive c s u = .ok s') : CoreStar c st s.core s'.core := by
  cases hf : u.canFill with
  | false => rw [checkActive_bba h hf]; exact .refl _
  | true =>
    obtain ⟨l, orders, active', h1, _, _, _, rfl⟩ := checkActive_ok h hf
    exact matchLoop_core hp h1

theorem observe_fields {c : Cfg} {s s' : State} {u : Update}
    (h : observe c s u = .ok s') :
    s'.acct = s.acct ∧ s'.pos = s.pos ∧ s'.active = s.active ∧ s'.om = s.om ∧
      s'.nextId = s.nextId ∧ s'.updates = s.updates := by
  simp only [observe, bind_ok, ok_inj] at h
  obtain ⟨ms', _, rfl⟩ := h
  simp

theorem observe_core {c : Cfg} {st : Bool} {s s' : State} {u : Update}
    (h : observe c s u = .ok s') : CoreStar c st s.core s'.core := by
  simp only [observe, bind_ok, ok_inj] at h
  obtain ⟨ms', _, rfl⟩ := h
  have h0 : CoreStar c st s.core ⟨s.acct, s.pos, .update ms' :: s.log⟩ :=
    .one (.event _ trivial)
  simp only [State.core]
  split
  · exact .tail h0 (.sample _)
  · exact h0

theorem liquidate_core {c : Cfg} {st : Bool} {s s' : State}
    (h : liquidate c s = .ok s') : CoreStar c st s.core s'.core := by
  simp only [liquidate, bind_ok] at h
  obtain ⟨o, _, r, hr, h⟩ := h
  split at h
  · simp at h
  · simp only [ok_inj] at h; subst h; exact submitMarket_core hr

theorem updateState_core {c : Cfg} {st : Bool} {s s' : State} {u : Update} {r}
    (hp : st = true → ∀ o ∈ s.active, 0 < o.price) (h : updateState c s u = .ok (s', r)) : CoreStar c st s.core s'.core := by
  simp only [updateState, bind_ok] at h
  obtain ⟨s1, h1, h⟩ := h
  refine (observe_core h1).trans ?_
  split at h
  · simp only [bind_ok, ok_inj, Prod.mk.injEq] at h
    obtain ⟨s2, h2, rfl, _⟩ := h
    exact liquidate_core h2
  · simp only [bind_ok, ok_inj, Prod.mk.injEq] at h
    obtain ⟨s2, h2, rfl, _⟩ := h
    exact checkActive_core (by rw [(observe_fields h1).2.2.1]; exact hp) h2

theorem step_core {c : Cfg} {st : Bool} {s s' : State} {op : Op} {r}
    (hp : st = true → ∀ o ∈ s.active, 0 < o.price) (h : step c s op = .ok (s', r)) : CoreStar c st s.core s'.core := by
  cases op with
  | update a =>
    simp only [step, bind_ok, ok_inj, Prod.mk.injEq] at h
    obtain ⟨u, _, ⟨s1, r1⟩, h1, rfl, _⟩ := h
    exact updateState_core hp h1
  | checkActive a =>
    simp only [step, bind_ok, ok_inj, Prod.mk.injEq] at h
    obtain ⟨u, _, s1, h1, rfl, _⟩ := h
    exact checkActive_core hp h1
  | market side qty uid =>
    simp only [step] at h
    split at h
    · simp only [ok_inj, Prod.mk.injEq] at h; obtain ⟨rfl, _⟩ := h; exact .refl _
    · simp only [bind_ok, ok_inj, Prod.mk.injEq] at h
      obtain ⟨⟨s1, r1⟩, h1, rfl, _⟩ := h
      exact submitMarket_core h1
  | limit side price qty uid =>
    simp only [step] at h
    split at h
    · simp only [ok_inj, Prod.mk.injEq] at h; obtain ⟨rfl, _⟩ := h; exact .refl _
    · simp only [bind_ok, ok_inj, Prod.mk.injEq] at h
      obtain ⟨⟨s1, r1⟩, h1, rfl, _⟩ := h
      exact submitLimit_core h1
  | amend id side price qty uid =>
    simp only [step] at h
    split at h
    · simp only [ok_inj, Prod.mk.injEq] at h; obtain ⟨rfl, _⟩ := h; exact .refl _
    · simp only [bind_ok, ok_inj, Prod.mk.injEq] at h
      obtain ⟨⟨s1, r1⟩, h1, rfl, _⟩ := h
      exact amendLimit_core h1
  | cancel b =>
    simp only [step, bind_ok, ok_inj, Prod.mk.injEq] at h
    obtain ⟨⟨s1, r1⟩, h1, rfl, _⟩ := h
    exact cancelLimit_core h1

end Lfest
