import Verif.SpecThin
import Verif.Lemmas.Match

/-! Lemmas for C115: what the exchange does not remember. -/

namespace Lfest

open Spec

/-- If the first computation returns, so does the second, with a related result. -/
def Sim {α β} (R : α → β → Prop) (x : Res α) (y : Res β) : Prop :=
  ∀ a, x = .ok a → ∃ b, y = .ok b ∧ R a b

theorem Sim.ok {α β} {R : α → β → Prop} {a : α} {b : β} (h : R a b) : Sim R (.ok a) (.ok b) := by
  rintro _ ⟨⟩; exact ⟨b, rfl, h⟩

theorem Sim.error {α β} {R : α → β → Prop} {p : Panic} {y : Res β} : Sim R (.error p) y := by
  rintro _ ⟨⟩

theorem Sim.bind {α β γ δ} {R : α → β → Prop} {Q : γ → δ → Prop} {x : Res α} {y : Res β}
    {f : α → Res γ} {g : β → Res δ} (h : Sim R x y) (k : ∀ a b, R a b → Sim Q (f a) (g b)) :
    Sim Q (x >>= f) (y >>= g) := by
  intro r hr
  obtain ⟨a, ha, hr⟩ := bind_ok.1 hr
  obtain ⟨b, hb, hab⟩ := h a ha
  obtain ⟨r', hr', hq⟩ := k a b hab r hr
  exact ⟨r', bind_ok.2 ⟨b, hb, hr'⟩, hq⟩

theorem Sim.same {α γ δ} {Q : γ → δ → Prop} {x : Res α} {f : α → Res γ} {g : α → Res δ}
    (k : ∀ a, Sim Q (f a) (g a)) : Sim Q (x >>= f) (x >>= g) :=
  Sim.bind (R := Eq) (fun a ha => ⟨a, ha, rfl⟩) (by rintro a _ rfl; exact k a)

/-- The same exchange, but for the market data that the tracker was shown, the sampling clock and
the number of updates. -/
def Unseen (s t : State) : Prop :=
  ∃ L T n us, t = { s with log := L, trigger := T, updates := us, ms := { s.ms with step := n } } ∧
    L.filter ofAccount = s.log.filter ofAccount

/-- As `Unseen`, but the market state may differ. -/
def Loose (s t : State) : Prop :=
  ∃ L T m us, t = { s with log := L, trigger := T, updates := us, ms := m } ∧
    L.filter ofAccount = s.log.filter ofAccount

theorem Unseen.rfl' (s : State) : Unseen s s := ⟨s.log, s.trigger, s.ms.step, s.updates, rfl, rfl⟩

theorem Unseen.loose {s t : State} (h : Unseen s t) : Loose s t := by
  obtain ⟨L, T, n, us, rfl, h⟩ := h
  exact ⟨L, T, _, us, rfl, h⟩

/-- Unseen and the same answer. -/
def UnseenR {α} (r r' : State × α) : Prop := Unseen r.1 r'.1 ∧ r.2 = r'.2

theorem settleMarket_sim {s t : State} (h : Unseen s t) (c : Cfg) (o : FilledMarket) :
    Sim Unseen (settleMarket c s o) (settleMarket c t o) := by
  obtain ⟨L, T, n, us, rfl, h⟩ := h
  unfold settleMarket
  refine Sim.same fun _ => Sim.same fun _ => Sim.same fun v => Sim.same fun r => Sim.ok ?_
  exact ⟨_, T, n, us, rfl, by simp [List.filter_cons, ofAccount, h]⟩

theorem submitMarket_sim {s t : State} (h : Unseen s t) (c : Cfg) (o : NewMarket) :
    Sim UnseenR (submitMarket c s o) (submitMarket c t o) := by
  obtain ⟨L, T, n, us, rfl, h⟩ := h
  unfold submitMarket
  refine Sim.same fun r => ?_
  cases r with
  | error err => exact Sim.ok ⟨⟨_, T, n, us, rfl, by simp [List.filter_cons, ofAccount, h]⟩, rfl⟩
  | ok _ =>
    refine Sim.bind (R := Eq) (fun a ha => ⟨a, ?_, rfl⟩) ?_
    · rw [← ha]; cases o.side <;> rfl
    · rintro r _ rfl
      cases r with
      | error err => exact Sim.ok ⟨⟨_, T, n, us, rfl, by simp [List.filter_cons, ofAccount, h]⟩, rfl⟩
      | ok _ =>
        refine Sim.bind (R := Unseen) ?_ ?_
        · have e : touch { s.ms with step := n } o.side = touch s.ms o.side := by
            cases o.side <;> rfl
          simp only [e]
          exact settleMarket_sim ⟨_, T, n, us, rfl, by simp [List.filter_cons, ofAccount, h]⟩ c _
        · intro a b hab
          refine Sim.ok ⟨hab, ?_⟩
          cases o with | mk _ side _ => cases side <;> rfl

theorem appendChecks_sim {s t : State} (h : Unseen s t) :
    Sim Unseen (appendChecks s) (appendChecks t) := by
  obtain ⟨L, T, n, us, rfl, h⟩ := h
  unfold appendChecks
  refine Sim.same fun _ => Sim.same fun _ => Sim.same fun v => Sim.ok ⟨L, T, n, us, rfl, h⟩

theorem appendLimit_sim {s t : State} (h : Unseen s t) (c : Cfg) (o : Limit) :
    Sim UnseenR (appendLimit c s o) (appendLimit c t o) := by
  obtain ⟨L, T, n, us, rfl, h⟩ := h
  unfold appendLimit
  refine Sim.same fun r => ?_
  cases r with
  | error err => exact Sim.ok ⟨⟨L, T, n, us, rfl, h⟩, rfl⟩
  | ok om' =>
    simp only
    cases Book.insert activeCap s.active o with
    | error err => exact Sim.ok ⟨⟨L, T, n, us, rfl, h⟩, rfl⟩
    | ok r =>
      refine Sim.same fun m => ?_
      split
      · refine Sim.same fun a => Sim.bind (appendChecks_sim ⟨L, T, n, us, rfl, h⟩) ?_
        intro a b hab; exact Sim.ok ⟨hab, rfl⟩
      · split
        · refine Sim.same fun a => Sim.bind (appendChecks_sim ⟨L, T, n, us, rfl, h⟩) ?_
          intro a b hab; exact Sim.ok ⟨hab, rfl⟩
        · exact Sim.ok ⟨⟨L, T, n, us, rfl, h⟩, rfl⟩

theorem submitLimit_sim {s t : State} (h : Unseen s t) (c : Cfg) (o : NewLimit) :
    Sim UnseenR (submitLimit c s o) (submitLimit c t o) := by
  obtain ⟨L, T, n, us, rfl, h⟩ := h
  have h' : (Event.limitSubmit o :: L).filter ofAccount =
      (Event.limitSubmit o :: s.log).filter ofAccount := by simp [List.filter_cons, ofAccount, h]
  unfold submitLimit
  refine Sim.same fun r => ?_
  cases r with
  | error err => exact Sim.ok ⟨⟨_, T, n, us, rfl, h'⟩, rfl⟩
  | ok _ =>
    refine Sim.same fun r => ?_
    cases r with
    | error err => exact Sim.ok ⟨⟨_, T, n, us, rfl, h'⟩, rfl⟩
    | ok _ =>
      refine Sim.same fun r => ?_
      cases r with
      | error err => exact Sim.ok ⟨⟨_, T, n, us, rfl, h'⟩, rfl⟩
      | ok _ =>
        have e : ∀ sd p, marketable { s.ms with step := n } sd p = marketable s.ms sd p := by
          intro sd p; cases sd <;> rfl
        have e' : ∀ sd, touch { s.ms with step := n } sd = touch s.ms sd := by
          intro sd; cases sd <;> rfl
        simp only [e, e']
        split
        · exact Sim.ok ⟨⟨_, T, n, us, rfl, h'⟩, rfl⟩
        · refine Sim.bind (appendLimit_sim ⟨_, T, n, us, rfl, h'⟩ c _) ?_
          rintro ⟨a, r⟩ ⟨b, _⟩ ⟨hab, rfl⟩
          cases r with
          | error err => exact Sim.ok ⟨hab, rfl⟩
          | ok _ => exact Sim.ok ⟨hab, rfl⟩

theorem cancelLimit_sim {s t : State} (h : Unseen s t) (c : Cfg) (b : CancelBy) :
    Sim UnseenR (cancelLimit c s b) (cancelLimit c t b) := by
  obtain ⟨L, T, n, us, rfl, h⟩ := h
  unfold cancelLimit
  refine Sim.same fun m => Sim.same fun _ => ?_
  simp only
  cases s.active.removeCancel b with
  | none => exact Sim.ok ⟨⟨L, T, n, us, rfl, h⟩, by cases b <;> rfl⟩
  | some r =>
    refine Sim.same fun om' => Sim.same fun m' => Sim.same fun _ => Sim.same fun a =>
      Sim.same fun _ => Sim.same fun _ => Sim.ok ⟨⟨_, T, n, us, rfl, ?_⟩, rfl⟩
    simp [List.filter_cons, ofAccount, h]

theorem amendLimit_sim {s t : State} (h : Unseen s t) (c : Cfg) (id : Nat) (o : NewLimit) :
    Sim UnseenR (amendLimit c s id o) (amendLimit c t id o) := by
  have hc := cancelLimit_sim h c (.orderId id)
  have h0 := h
  obtain ⟨L, T, n, us, rfl, h⟩ := h
  unfold amendLimit
  simp only
  cases s.active.getById id with
  | none => exact Sim.ok ⟨⟨L, T, n, us, rfl, h⟩, rfl⟩
  | some old =>
    refine Sim.same fun total => ?_
    split
    · refine Sim.bind hc ?_
      rintro ⟨a, r⟩ ⟨b, _⟩ ⟨hab, rfl⟩
      cases r with
      | error err => exact Sim.error
      | ok _ => exact Sim.ok ⟨hab, rfl⟩
    · refine Sim.same fun new' => Sim.bind hc ?_
      rintro ⟨a, r⟩ ⟨b, _⟩ ⟨hab, rfl⟩
      cases r with
      | error err => exact Sim.ok ⟨hab, rfl⟩
      | ok _ => exact submitLimit_sim hab c new'

/-! ## Matching -/

/-- The same loop state, but for the market data that the tracker was shown. -/
def UnseenL (l k : Loop) : Prop :=
  ∃ L, k = { l with log := L } ∧ L.filter ofAccount = l.log.filter ofAccount

theorem applyFill_sim {l k : Loop} (h : UnseenL l k) (c : Cfg) (ts : Int) (o : Limit) (q : Int) :
    Sim (fun r r' => UnseenL r.1 r'.1 ∧ r.2 = r'.2) (applyFill c ts l o q)
      (applyFill c ts k o q) := by
  obtain ⟨L, rfl, h⟩ := h
  unfold applyFill
  refine Sim.same fun r => ?_
  obtain ⟨o', f⟩ := r
  cases f with
  | some f =>
    refine Sim.same fun om' => Sim.ok ⟨⟨_, rfl, ?_⟩, rfl⟩
    simp [List.filter_cons, ofAccount, h]
  | none =>
    refine Sim.same fun _ => Sim.same fun r => ?_
    cases r with
    | error err => exact Sim.error
    | ok om' => exact Sim.ok ⟨⟨_, rfl, by simp [List.filter_cons, ofAccount, h]⟩, rfl⟩

theorem matchOrder_sim {l k : Loop} (h : UnseenL l k) (c : Cfg) (u : Update) (o : Limit) :
    Sim (fun r r' => UnseenL r.1 r'.1 ∧ r.2 = r'.2) (matchOrder c u l o)
      (matchOrder c u k o) := by
  have hf := applyFill_sim h c u.ts o
  obtain ⟨L, rfl, h⟩ := h
  unfold matchOrder
  refine Sim.same fun r => ?_
  cases r with
  | none => exact Sim.ok ⟨⟨L, rfl, h⟩, rfl⟩
  | some q =>
    refine Sim.same fun _ => Sim.same fun _ => Sim.bind (hf q) ?_
    rintro ⟨l1, o1⟩ ⟨k1, _⟩ ⟨⟨L1, rfl, h1⟩, rfl⟩
    refine Sim.bind (R := UnseenL) ?_ ?_
    · unfold settleLimit
      refine Sim.same fun v => Sim.same fun r => Sim.ok ⟨_, rfl, ?_⟩
      simp only at h1
      simp [List.filter_cons, ofAccount, h1]
    · rintro l2 _ ⟨L2, rfl, h2⟩
      refine Sim.bind (R := UnseenL) ?_ ?_
      · unfold releaseMargin
        exact Sim.same fun m => Sim.same fun _ => Sim.same fun a => Sim.ok ⟨_, rfl, h2⟩
      · rintro l3 k3 h3
        exact Sim.ok ⟨h3, rfl⟩

theorem matchLoop_sim (c : Cfg) (u : Update) : ∀ (os : List Limit) {l k : Loop}, UnseenL l k →
    Sim (fun r r' => UnseenL r.1 r'.1 ∧ r.2 = r'.2) (matchLoop c u l os) (matchLoop c u k os)
  | [], _, _, h => Sim.ok ⟨h, rfl⟩
  | o :: os, _, _, h => by
    unfold matchLoop
    refine Sim.bind (matchOrder_sim h c u o) ?_
    rintro ⟨l1, o1⟩ ⟨k1, _⟩ ⟨h1, rfl⟩
    refine Sim.bind (matchLoop_sim c u os h1) ?_
    rintro ⟨l2, os2⟩ ⟨k2, _⟩ ⟨h2, rfl⟩
    exact Sim.ok ⟨h2, rfl⟩

/-- Unseen, and the same reports. -/
def UnseenU (s t : State) : Prop := Unseen s t ∧ s.updates = t.updates

theorem checkActive_sim {s t : State} (h : Unseen s t) (c : Cfg) (u : Update) :
    Sim UnseenU (checkActive c s u) (checkActive c t u) := by
  obtain ⟨L, T, n, us, rfl, h⟩ := h
  unfold checkActive
  split
  · exact Sim.ok ⟨⟨L, T, n, [], rfl, h⟩, rfl⟩
  · refine Sim.same fun _ => Sim.bind (matchLoop_sim c u s.active ⟨L, rfl, h⟩) ?_
    rintro ⟨l1, os⟩ ⟨_, _⟩ ⟨⟨L1, rfl, h1⟩, rfl⟩
    refine Sim.same fun act => Sim.same fun _ => Sim.same fun _ => Sim.same fun _ =>
      Sim.same fun _ => Sim.same fun _ => Sim.ok ⟨⟨L1, T, n, _, rfl, h1⟩, rfl⟩

theorem liquidate_sim {s t : State} (h : Unseen s t) (c : Cfg) :
    Sim Unseen (liquidate c s) (liquidate c t) := by
  have hm := submitMarket_sim h c
  obtain ⟨L, T, n, us, rfl, h⟩ := h
  unfold liquidate
  refine Sim.same fun o => Sim.bind (hm o) ?_
  rintro ⟨a, r⟩ ⟨b, _⟩ ⟨hab, rfl⟩
  cases r with
  | error err => exact Sim.error
  | ok _ => exact Sim.ok hab

/-! ## Updates -/

/-- Does the update replace the quotes? -/
def Update.brings : Update → Bool
  | .trade _ => false
  | .custom k => k.market.isSome
  | _ => true

/-- An update leaves the quotes of the one or brings its own. -/
theorem quotes_same {u : Update} {m m' : MarketState}
    (h : (m'.bid = m.bid ∧ m'.ask = m.ask) ∨ u.brings = true) :
    (u.applyQuotes m').bid = (u.applyQuotes m).bid ∧
      (u.applyQuotes m').ask = (u.applyQuotes m).ask := by
  cases u with
  | trade t => rcases h with h | h; exact h; simp [Update.brings] at h
  | custom k =>
    rcases h with h | h
    · unfold Update.applyQuotes; cases hk : k.market <;> simp [hk, h]
    · unfold Update.applyQuotes; cases hk : k.market <;> simp [Update.brings, hk] at h ⊢
  | _ => exact ⟨rfl, rfl⟩

theorem observe_sim {s t : State} {u : Update} (h : Loose s t)
    (hq : (t.ms.bid = s.ms.bid ∧ t.ms.ask = s.ms.ask) ∨ u.brings = true) (c : Cfg) :
    Sim Unseen (observe c s u) (observe c t u) := by
  obtain ⟨L, T, m, us, rfl, h⟩ := h
  have e := quotes_same hq
  unfold observe MarketState.update
  simp only
  refine Sim.bind (R := fun a b => ∃ n, b = { a with step := n }) ?_ ?_
  · refine Sim.same fun r => ?_
    cases r with
    | error err => exact Sim.error
    | ok _ =>
      refine Sim.ok ⟨(u.applyQuotes m).step + 1, ?_⟩
      simp only [MarketState.mk.injEq, and_true, true_and]
      exact e
  · rintro a _ ⟨n, rfl⟩
    refine Sim.ok ⟨_, _, n, us, rfl, ?_⟩
    split <;> split <;> simp [ofAccount, h]

theorem updateState_sim {s t : State} {u : Update} (h : Loose s t)
    (hq : (t.ms.bid = s.ms.bid ∧ t.ms.ask = s.ms.ask) ∨ u.brings = true) (c : Cfg) :
    Sim UnseenR (updateState c s u) (updateState c t u) := by
  unfold updateState
  refine Sim.bind (observe_sim h hq c) ?_
  intro s1 t1 h1
  have hl := liquidate_sim h1 c
  have ha := checkActive_sim h1 c u
  have hm : checkMaintenanceMargin c t1.ms t1.pos = checkMaintenanceMargin c s1.ms s1.pos := by
    obtain ⟨L, T, n, us, rfl, _⟩ := h1
    rfl
  simp only [hm]
  cases checkMaintenanceMargin c s1.ms s1.pos with
  | error err => exact Sim.bind hl fun a b hab => Sim.ok ⟨hab, rfl⟩
  | ok _ => exact Sim.bind ha fun a b hab => Sim.ok ⟨hab.1, by rw [hab.2]⟩

/-- The update of an argument brings quotes if the argument does. -/
theorem brings_build {a : UpdateArg} {d : Bool} {u : Update} (h : a.build d = .ok u) :
    u.brings = bringsQuotes a := by
  cases a <;> simp only [UpdateArg.build, ok_inj, bind_ok] at h
  case smart => obtain ⟨sc, _, rfl⟩ := h; rfl
  all_goals subst h; rfl

theorem step_update_sim {s t : State} {a : UpdateArg} (h : Loose s t)
    (hq : (t.ms.bid = s.ms.bid ∧ t.ms.ask = s.ms.ask) ∨ bringsQuotes a = true) (c : Cfg) :
    Sim UnseenR (step c s (.update a)) (step c t (.update a)) := by
  simp only [step]
  intro r hr
  obtain ⟨u, hu, hr⟩ := bind_ok.1 hr
  rw [hu]
  rw [← brings_build hu] at hq
  have := Sim.bind (Q := UnseenR) (f := fun x => Except.ok (x.1, Resp.update x.2))
    (g := fun x => Except.ok (x.1, Resp.update x.2)) (updateState_sim h hq c)
    (fun a b hab => Sim.ok ⟨hab.1, by rw [hab.2]⟩)
  exact this r hr

theorem step_sim {s t : State} (h : Unseen s t) (c : Cfg) (op : Op) :
    Sim UnseenR (step c s op) (step c t op) := by
  cases op with
  | update a =>
    refine step_update_sim h.loose (.inl ?_) c
    obtain ⟨L, T, n, us, rfl, _⟩ := h
    exact ⟨rfl, rfl⟩
  | checkActive a =>
    exact Sim.same fun u => Sim.bind (checkActive_sim h c u) fun a b hab => Sim.ok ⟨hab.1, rfl⟩
  | market side q uid =>
    simp only [step]
    cases NewMarket.new side q uid with
    | error err => exact Sim.ok ⟨h, rfl⟩
    | ok o => exact Sim.bind (submitMarket_sim h c o) fun a b hab => Sim.ok ⟨hab.1, by rw [hab.2]⟩
  | limit side p q uid =>
    simp only [step]
    cases NewLimit.new side p q uid with
    | error err => exact Sim.ok ⟨h, rfl⟩
    | ok o => exact Sim.bind (submitLimit_sim h c o) fun a b hab => Sim.ok ⟨hab.1, by rw [hab.2]⟩
  | amend id side p q uid =>
    simp only [step]
    cases NewLimit.new side p q uid with
    | error err => exact Sim.ok ⟨h, rfl⟩
    | ok o => exact Sim.bind (amendLimit_sim h c id o) fun a b hab => Sim.ok ⟨hab.1, by rw [hab.2]⟩
  | cancel b =>
    exact Sim.bind (cancelLimit_sim h c b) fun a b hab => Sim.ok ⟨hab.1, by rw [hab.2]⟩

/-! ## Updates that do nothing -/

theorem matchLoop_idle {c : Cfg} {u : Update} : ∀ {os : List Limit} {l l' : Loop} {os'},
    matchLoop c u l os = .ok (l', os') → l'.updates = l.updates → l' = l ∧ os' = os
  | [], l, l', os', h, _ => by
    simp only [matchLoop, ok_inj, Prod.mk.injEq] at h
    exact ⟨h.1.symm, h.2.symm⟩
  | o :: os, l, l', os', h, he => by
    simp only [matchLoop, bind_ok, ok_inj, Prod.mk.injEq] at h
    obtain ⟨⟨l1, o1⟩, h1, ⟨l2, os2⟩, h2, rfl, rfl⟩ := h
    obtain ⟨x, hx, rfl, _, e2, _, _⟩ := matchOrder_out h1
    obtain ⟨xs, _, _, _, f2, _⟩ := matchLoop_out h2
    simp only at he f2
    have e3 : l1.updates = l.updates := by
      rw [f2, e2, List.append_assoc] at he
      have := List.append_right_eq_self.1 he
      simp only [List.append_eq_nil_iff] at this
      rw [e2, this.1, List.append_nil]
    have h0 : x.report = none := by
      rw [e2] at e3
      simpa using List.append_right_eq_self.1 e3
    rcases hx with ⟨hn, rfl⟩ | ⟨q, o', r, _, _, rfl⟩
    · unfold matchOrder at h1
      rw [hn] at h1
      obtain ⟨rfl, -⟩ : l = l1 ∧ o = o := by
        simpa [bind, Except.bind] using h1
      obtain ⟨rfl, rfl⟩ := matchLoop_idle h2 (by rw [he])
      exact ⟨rfl, rfl⟩
    · simp [Out.report] at h0

theorem checkActive_idle {c : Cfg} {s s' : State} {u : Update} (h : checkActive c s u = .ok s')
    (he : s'.updates = []) : s' = { s with updates := [] } := by
  unfold checkActive at h
  split at h
  · simpa using h.symm
  · simp only [bind_ok, ok_inj] at h
    obtain ⟨_, _, ⟨l, os⟩, h1, act, h2, _, _, _, _, _, _, _, _, _, _, rfl⟩ := h
    obtain ⟨rfl, rfl⟩ := matchLoop_idle h1 he
    simp only [removeExecuted, ok_inj] at h2
    rw [← h2]

/-- An update without fills and liquidation leaves everything but the market data. -/
theorem update_idle {c : Cfg} {s s' : State} {a : UpdateArg}
    (h : step c s (.update a) = .ok (s', .update (.ok []))) :
    Loose s s' ∧ (bringsQuotes a = false → s'.ms.bid = s.ms.bid ∧ s'.ms.ask = s.ms.ask) := by
  simp only [step, bind_ok, ok_inj, Prod.mk.injEq, Resp.update.injEq] at h
  obtain ⟨u, hu, ⟨s2, r⟩, h, rfl, rfl⟩ := h
  rw [← brings_build hu]
  simp only [updateState, bind_ok] at h
  obtain ⟨s1, ho, h⟩ := h
  have h1 : Loose s s1 ∧ s1.ms.bid = (u.applyQuotes s.ms).bid ∧
      s1.ms.ask = (u.applyQuotes s.ms).ask := by
    simp only [observe, MarketState.update, bind_ok, ok_inj] at ho
    obtain ⟨m, ⟨r, _, hm⟩, rfl⟩ := ho
    cases r with
    | error err => simp at hm
    | ok _ =>
      simp only [ok_inj] at hm
      subst hm
      refine ⟨⟨_, _, _, s.updates, rfl, ?_⟩, rfl, rfl⟩
      split <;> simp [ofAccount]
  cases hm : checkMaintenanceMargin c s1.ms s1.pos with
  | error err => rw [hm] at h; simp [bind_ok] at h
  | ok _ =>
    rw [hm] at h
    simp only [bind_ok, Prod.mk.injEq, Except.ok.injEq] at h
    obtain ⟨s3, h3, rfl, he⟩ := h
    rw [checkActive_idle h3 he]
    obtain ⟨⟨L, T, m, us, rfl, hL⟩, hb, ha⟩ := h1
    refine ⟨⟨L, T, m, [], rfl, hL⟩, fun hn => ?_⟩
    simp only at hb ha ⊢
    rw [hb, ha]
    cases u with
    | trade t => exact ⟨rfl, rfl⟩
    | custom k =>
      unfold Update.applyQuotes
      cases hk : k.market with
      | none => simp [hk]
      | some x => simp [Update.brings, hk] at hn
    | _ => simp [Update.brings] at hn

theorem Loose.trans {s s1 t : State} (h : Loose s s1) (h' : Loose s t) : Loose s1 t := by
  obtain ⟨L, T, m, us, rfl, h⟩ := h
  obtain ⟨L', T', m', us', rfl, h'⟩ := h'
  exact ⟨L', T', m', us', rfl, h'.trans h.symm⟩

/-! ## Histories -/

/-- The two exchanges do the same from the next call on. -/
def Ready (s t : State) : List Op → Prop
  | .update a :: _ => Loose s t ∧
      ((t.ms.bid = s.ms.bid ∧ t.ms.ask = s.ms.ask) ∨ bringsQuotes a = true)
  | _ => Unseen s t

theorem Unseen.ready {s t : State} (h : Unseen s t) (ops : List Op) : Ready s t ops := by
  cases ops with
  | nil => exact h
  | cons op ops =>
    cases op with
    | update a =>
      refine ⟨h.loose, .inl ?_⟩
      obtain ⟨L, T, n, us, rfl, _⟩ := h
      exact ⟨rfl, rfl⟩
    | _ => exact h

theorem ready_step {s t : State} {op : Op} {ops : List Op} (h : Ready s t (op :: ops)) (c : Cfg) :
    Sim UnseenR (step c s op) (step c t op) := by
  cases op with
  | update a => exact step_update_sim h.1 h.2 c
  | _ => exact step_sim h c _

theorem thin_sim (c : Cfg) : ∀ (ops : List Op) {s s' t : State} {tr : List (Op × Resp)},
    history c s ops = .ok (s', tr) → Ready s t ops →
    ∃ t', history c t ((thin tr).map Prod.fst) = .ok (t', thin tr) ∧ Unseen s' t'
  | [], s, s', t, tr, h, hr => by
    simp only [history, ok_inj, Prod.mk.injEq] at h
    obtain ⟨rfl, rfl⟩ := h
    exact ⟨t, rfl, hr⟩
  | op :: ops, s, s', t, tr, h, hr => by
    simp only [history, bind_ok, ok_inj, Prod.mk.injEq] at h
    obtain ⟨⟨s1, r⟩, h1, ⟨s2, tr2⟩, h2, rfl, rfl⟩ := h
    have keep : ∃ t', history c t (op :: (thin tr2).map Prod.fst) =
        .ok (t', (op, r) :: thin tr2) ∧ Unseen s2 t' := by
      obtain ⟨⟨t1, _⟩, ht, ha, rfl⟩ := ready_step hr c _ h1
      obtain ⟨t', h3, h4⟩ := thin_sim c ops h2 (ha.ready ops)
      refine ⟨t', ?_, h4⟩
      simp only [history, bind_ok, ok_inj, Prod.mk.injEq]
      exact ⟨_, ht, _, h3, rfl, rfl⟩
    cases ops with
    | nil =>
      simp only [history, ok_inj, Prod.mk.injEq] at h2
      obtain ⟨rfl, rfl⟩ := h2
      exact keep
    | cons op2 ops =>
      have htr : ∃ r2 tr3, tr2 = (op2, r2) :: tr3 := by
        simp only [history, bind_ok, ok_inj, Prod.mk.injEq] at h2
        obtain ⟨_, _, _, _, _, rfl⟩ := h2
        exact ⟨_, _, rfl⟩
      obtain ⟨r2, tr3, rfl⟩ := htr
      simp only [thin]
      by_cases hk : skippable (op, r) op2 = true
      · rw [if_pos hk]
        refine thin_sim c (op2 :: ops) h2 ?_
        unfold skippable at hk
        split at hk
        · next u v heq =>
          obtain ⟨rfl, rfl⟩ := heq
          obtain ⟨hl, hq⟩ := update_idle h1
          refine ⟨hl.trans hr.1, ?_⟩
          rcases (Bool.or_eq_true_iff).1 hk with hk | hk
          · have hn : bringsQuotes u = false := by simpa using hk
            rcases hr.2 with hr | hr
            · rw [(hq hn).1, (hq hn).2]; exact .inl hr
            · rw [hn] at hr; cases hr
          · exact .inr hk
        · cases hk
      · rw [if_neg hk]
        exact keep

end Lfest
