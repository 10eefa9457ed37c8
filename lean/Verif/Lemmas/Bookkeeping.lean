import Verif.SpecBookkeeping

/-!
# Exchanges over two accountings in lockstep
-/

namespace Lfest.Acct

/-- Both computations panic alike, or both succeed with related results. -/
def Sim {α β : Type} (R : α → β → Prop) : Res α → Res β → Prop
  | .ok a, .ok b => R a b
  | .error p, .error q => p = q
  | _, _ => False

theorem Sim.bind {α β γ δ : Type} {R : α → β → Prop} {S : γ → δ → Prop} {x : Res α} {y : Res β}
    {f : α → Res γ} {g : β → Res δ} (h : Sim R x y) (k : ∀ a b, R a b → Sim S (f a) (g b)) :
    Sim S (x >>= f) (y >>= g) := by
  cases x <;> cases y
  · exact h
  · exact h.elim
  · exact h.elim
  · exact k _ _ h

theorem Sim.same {α γ δ : Type} {S : γ → δ → Prop} {x : Res α} {f : α → Res γ} {g : α → Res δ}
    (k : ∀ a, Sim S (f a) (g a)) : Sim S (x >>= f) (x >>= g) := by
  cases x
  · exact rfl
  · exact k _

theorem Sim.refl {α : Type} {R : α → α → Prop} {x : Res α} (h : ∀ a, R a a) : Sim R x x := by
  cases x
  · exact rfl
  · exact h _

theorem Sim.eq {α : Type} {x y : Res α} (h : Sim Eq x y) : x = y := by
  cases x <;> cases y
  · exact congrArg _ h
  · exact h.elim
  · exact h.elim
  · exact congrArg _ h

theorem Sim.of_eq {α : Type} {x y : Res α} (h : x = y) : Sim Eq x y := by
  subst h
  exact .refl fun _ => rfl

theorem Sim.ite {α β : Type} {R : α → β → Prop} {p : Prop} [Decidable p] {a b : Res α} {a' b' : Res β}
    (h : p → Sim R a a') (k : ¬p → Sim R b b') :
    Sim R (if p then a else b) (if p then a' else b') := by
  split
  · exact h ‹_›
  · exact k ‹_›

/-- Both answers are the same error, or both succeed with related results. -/
def SimE {α β : Type} (R : α → β → Prop) : Except Error α → Except Error β → Prop
  | .ok a, .ok b => R a b
  | .error p, .error q => p = q
  | _, _ => False

variable {T T' : Type}

/-- Two accountings that answer alike as long as they are told the same -/
structure Lockstep (B : Bookkeeping T) (B' : Bookkeeping T') (R : T → T' → Prop) : Prop where
  balance : ∀ t t' i, R t t' → B.balance t i = B'.balance t' i
  transfer : ∀ t t' d c amt, R t t' → 0 < amt → d ≠ c →
    Sim (SimE R) (B.transfer t d c amt) (B'.transfer t' d c amt)

/-- Same first component, related second components -/
def Snd {α : Type} (R : T → T' → Prop) (x : α × T) (y : α × T') : Prop := x.1 = y.1 ∧ R x.2 y.2

/-- Same exchanges over related accountings -/
def SimS (R : T → T' → Prop) (s : State T) (s' : State T') : Prop :=
  ∃ ms log n t t' pos a om tr up, R t t' ∧ s = ⟨ms, log, n, t, pos, a, om, tr, up⟩ ∧
    s' = ⟨ms, log, n, t', pos, a, om, tr, up⟩

/-- Same loop variables over related accountings -/
def SimL (R : T → T' → Prop) (s : Loop T) (s' : Loop T') : Prop :=
  ∃ t t' pos om log up ids, R t t' ∧ s = ⟨t, pos, om, log, up, ids⟩ ∧
    s' = ⟨t', pos, om, log, up, ids⟩

/-- Related states, same answers -/
def SimA {α : Type} (R : T → T' → Prop) (x : State T × α) (y : State T' × α) : Prop :=
  SimS R x.1 y.1 ∧ x.2 = y.2

/-- Related loop variables, same results -/
def SimB {α : Type} (R : T → T' → Prop) (x : Loop T × α) (y : Loop T' × α) : Prop :=
  SimL R x.1 y.1 ∧ x.2 = y.2

variable {B : Bookkeeping T} {B' : Bookkeeping T'} {R : T → T' → Prop}

theorem SimS.mk {ms log n t t' pos a om tr up} (h : R t t') :
    SimS R ⟨ms, log, n, t, pos, a, om, tr, up⟩ ⟨ms, log, n, t', pos, a, om, tr, up⟩ :=
  ⟨_, _, _, _, _, _, _, _, _, _, h, rfl, rfl⟩

theorem SimL.mk {t t' pos om log up ids} (h : R t t') :
    SimL R ⟨t, pos, om, log, up, ids⟩ ⟨t', pos, om, log, up, ids⟩ :=
  ⟨_, _, _, _, _, _, _, h, rfl, rfl⟩

section
variable (L : Lockstep B B' R)
include L

theorem look_sim {t t' i} (h : R t t') : look B t i = look B' t' i := by
  unfold look
  rw [L.balance _ _ _ h]

theorem move_sim {t t' d c amt} (h : R t t') :
    Sim R (move B t d c amt) (move B' t' d c amt) := by
  unfold move
  by_cases ha : amt > 0
  · by_cases hd : d ≠ c
    · refine .same fun _ => .same fun _ => .bind (L.transfer _ _ _ _ _ h ha hd) ?_
      intro a b hab
      cases a <;> cases b
      · exact rfl
      · exact hab.elim
      · exact hab.elim
      · exact hab
    · simp only [assertP, if_neg hd]
      refine .same fun _ => rfl
  · simp only [assertP, if_neg ha]
    exact rfl

theorem debugZero_sim {e t t' i p} (h : R t t') : debugZero B e t i p = debugZero B' e t' i p := by
  unfold debugZero
  rw [look_sim L h]

theorem emptyZero_sim {t t' b} (h : R t t') : emptyZero B t b = emptyZero B' t' b := by
  unfold emptyZero
  rw [look_sim L h]

theorem debugEmpty_sim {e t t' b} (h : R t t') : debugEmpty B e t b = debugEmpty B' e t' b := by
  unfold debugEmpty
  rw [emptyZero_sim L h]

theorem walletCheck_sim {t t'} (h : R t t') : walletCheck B t = walletCheck B' t' := by
  unfold walletCheck
  rw [look_sim L h]

theorem userBalances_sim {t t'} (h : R t t') : userBalances B t = userBalances B' t' := by
  unfold userBalances
  rw [look_sim L h, look_sim L h, look_sim L h]

theorem innerNew_sim {e imr t t' q p f} (h : R t t') :
    Sim (Snd R) (innerNew B e imr t q p f) (innerNew B' e imr t' q p f) := by
  unfold innerNew
  exact .same fun _ => .same fun _ => .same fun _ => .bind (move_sim L h) fun _ _ hr => ⟨rfl, hr⟩

theorem increase_sim {e imr t t' i q p f} (h : R t t') :
    Sim (Snd R) (increase B e imr t i q p f) (increase B' e imr t' i q p f) := by
  unfold increase
  exact .same fun _ => .same fun _ => .same fun _ => .same fun _ =>
    .bind (move_sim L h) fun _ _ hr => ⟨rfl, hr⟩

theorem settlePnl_sim {t t' v} (h : R t t') : Sim R (settlePnl B t v) (settlePnl B' t' v) := by
  unfold settlePnl
  exact .ite (fun _ => move_sim L h) fun _ => .ite (fun _ => move_sim L h) fun _ => h

theorem settleFees_sim {t t' f} (h : R t t') :
    Sim (Snd R) (settleFees B t f) (settleFees B' t' f) := by
  unfold settleFees
  exact .ite (fun _ => .bind (move_sim L h) fun _ _ hr => ⟨rfl, hr⟩) fun _ => ⟨rfl, h⟩

theorem decrease_sim {e imr t t' i q p d f} (h : R t t') :
    Sim (Snd R) (decrease B e imr t i q p d f) (decrease B' e imr t' i q p d f) := by
  unfold decrease
  refine .same fun _ => .same fun _ => .same fun _ => .same fun _ =>
    .bind (settlePnl_sim L h) fun _ _ h1 => .same fun _ => .same fun _ =>
    .bind (move_sim L h1) fun _ _ h2 => .bind (settleFees_sim L h2) ?_
  rintro ⟨f1, t1⟩ ⟨f2, t2⟩ ⟨hf, ht⟩
  subst hf
  exact ⟨rfl, ht⟩

theorem flip_sim {e imr t t' i q p d f} (h : R t t') :
    Sim (Snd R) (flip B e imr t i q p d f) (flip B' e imr t' i q p d f) := by
  unfold flip
  refine .bind (decrease_sim L h) ?_
  rintro ⟨f1, t1⟩ ⟨f2, t2⟩ ⟨hf, ht⟩
  subst hf
  refine .same fun _ => ?_
  rw [look_sim L ht]
  exact .same fun _ => .same fun _ => innerNew_sim L ht

theorem against_sim {e imr t t' i q p d f same other} (h : R t t') :
    Sim (Snd R) (against B e imr t i q p d f same other)
      (against B' e imr t' i q p d f same other) := by
  unfold against
  refine .ite (fun _ => ?_) fun _ => .ite (fun _ => ?_) fun _ => ?_
  · refine .bind (decrease_sim L h) ?_
    rintro ⟨f1, t1⟩ ⟨f2, t2⟩ ⟨hf, ht⟩
    subst hf
    exact ⟨rfl, ht⟩
  · refine .bind (decrease_sim L h) ?_
    rintro ⟨f1, t1⟩ ⟨f2, t2⟩ ⟨hf, ht⟩
    rw [debugZero_sim L ht]
    exact .same fun _ => ⟨rfl, ht⟩
  · refine .bind (flip_sim L h) ?_
    rintro ⟨f1, t1⟩ ⟨f2, t2⟩ ⟨hf, ht⟩
    subst hf
    exact ⟨rfl, ht⟩

theorem changePosition_sim {e imr t t' pos q p side f} (h : R t t') :
    Sim (Snd R) (changePosition B e imr t pos q p side f)
      (changePosition B' e imr t' pos q p side f) := by
  unfold changePosition
  refine .same fun _ => ?_
  have inc : ∀ (k : Inner → Position) i, Sim (Snd R)
      (do let r ← increase B e imr t i q p f; .ok (k r.1, r.2))
      (do let r ← increase B' e imr t' i q p f; .ok (k r.1, r.2)) := by
    intro k i
    refine .bind (increase_sim L h) ?_
    rintro ⟨f1, t1⟩ ⟨f2, t2⟩ ⟨hf, ht⟩
    subst hf
    exact ⟨rfl, ht⟩
  cases pos with
  | neutral =>
    dsimp only
    rw [debugZero_sim L h]
    refine .same fun _ => .bind (innerNew_sim L h) ?_
    rintro ⟨f1, t1⟩ ⟨f2, t2⟩ ⟨hf, ht⟩
    subst hf
    cases side <;> exact ⟨rfl, ht⟩
  | long i =>
    cases side
    · exact inc .long i
    · exact against_sim L h
  | short i =>
    cases side
    · exact against_sim L h
    · exact inc .short i

theorem settleMarket_sim {c s s' o} (h : SimS R s s') :
    Sim (SimS R) (settleMarket B c s o) (settleMarket B' c s' o) := by
  obtain ⟨ms, log, n, t, t', pos, a, om, tr, up, h, rfl, rfl⟩ := h
  unfold settleMarket
  refine .same fun _ => .same fun _ => .same fun _ => .bind (changePosition_sim L h) ?_
  rintro ⟨f1, t1⟩ ⟨f2, t2⟩ ⟨hf, ht⟩
  subst hf
  exact .mk ht

theorem marketRisk_sim {c s s' o} (h : SimS R s s') :
    marketRisk B c s o = marketRisk B' c s' o := by
  obtain ⟨ms, log, n, t, t', pos, a, om, tr, up, h, rfl, rfl⟩ := h
  unfold marketRisk
  dsimp only
  rw [L.balance _ _ _ h, L.balance _ _ _ h]

theorem submitMarket_sim {c s s' o} (h : SimS R s s') :
    Sim (SimA R) (submitMarket B c s o) (submitMarket B' c s' o) := by
  obtain ⟨ms, log, n, t, t', pos, a, om, tr, up, h, rfl, rfl⟩ := h
  unfold submitMarket
  refine .same fun v => ?_
  cases v with
  | error err => exact ⟨.mk h, rfl⟩
  | ok _ =>
    dsimp only
    rw [marketRisk_sim L (.mk h)]
    refine .same fun v => ?_
    cases v with
    | error err => exact ⟨.mk h, rfl⟩
    | ok _ => exact .bind (settleMarket_sim L (.mk h)) fun _ _ hs => ⟨hs, rfl⟩

theorem appendPost_sim {s s' amt} (h : SimS R s s') :
    Sim (SimS R) (appendPost B s amt) (appendPost B' s' amt) := by
  obtain ⟨ms, log, n, t, t', pos, a, om, tr, up, h, rfl, rfl⟩ := h
  unfold appendPost
  refine .bind (move_sim L h) fun t1 t2 h1 => .same fun _ => ?_
  rw [emptyZero_sim L h1, walletCheck_sim L h1]
  exact .same fun _ => .same fun _ => .mk h1

theorem appendLimit_sim {c s s' o} (h : SimS R s s') :
    Sim (SimA R) (appendLimit B c s o) (appendLimit B' c s' o) := by
  obtain ⟨ms, log, n, t, t', pos, a, om, tr, up, h, rfl, rfl⟩ := h
  unfold appendLimit
  refine .same fun v => ?_
  cases v with
  | error err => exact ⟨.mk h, rfl⟩
  | ok om' =>
    dsimp only
    cases Book.insert activeCap a o with
    | error err => exact ⟨.mk h, rfl⟩
    | ok r =>
      refine .same fun m => ?_
      rw [look_sim L h]
      refine .same fun m' => .ite (fun _ => ?_) fun _ => .ite (fun _ => ?_) fun _ => ⟨.mk h, rfl⟩
      · exact .bind (appendPost_sim L (.mk h)) fun _ _ hs => ⟨hs, rfl⟩
      · exact .bind (appendPost_sim L (.mk h)) fun _ _ hs => ⟨hs, rfl⟩

theorem limitRisk_sim {c s s' p} (h : SimS R s s') :
    limitRisk B c s p = limitRisk B' c s' p := by
  obtain ⟨ms, log, n, t, t', pos, a, om, tr, up, h, rfl, rfl⟩ := h
  unfold limitRisk
  dsimp only
  rw [L.balance _ _ _ h]

theorem submitLimit_sim {c s s' o} (h : SimS R s s') :
    Sim (SimA R) (submitLimit B c s o) (submitLimit B' c s' o) := by
  obtain ⟨ms, log, n, t, t', pos, a, om, tr, up, h, rfl, rfl⟩ := h
  unfold submitLimit
  refine .same fun v => ?_
  cases v with
  | error err => exact ⟨.mk h, rfl⟩
  | ok _ =>
    refine .same fun v => ?_
    cases v with
    | error err => exact ⟨.mk h, rfl⟩
    | ok _ =>
      dsimp only
      rw [limitRisk_sim L (.mk h)]
      refine .same fun v => ?_
      cases v with
      | error err => exact ⟨.mk h, rfl⟩
      | ok _ =>
        refine .ite (fun _ => ⟨.mk h, rfl⟩) fun _ => .bind (appendLimit_sim L (.mk h)) ?_
        rintro ⟨s1, r1⟩ ⟨s2, r2⟩ ⟨hs, hr⟩
        dsimp only at hs hr
        subst hr
        cases r1
        · exact ⟨hs, rfl⟩
        · exact ⟨hs, rfl⟩

theorem refund_sim {t t' m m'} (h : R t t') : Sim R (refund B t m m') (refund B' t' m m') := by
  unfold refund
  exact .ite (fun _ => move_sim L h) fun _ => h

theorem cancelLimit_sim {c s s' b} (h : SimS R s s') :
    Sim (SimA R) (cancelLimit B c s b) (cancelLimit B' c s' b) := by
  obtain ⟨ms, log, n, t, t', pos, a, om, tr, up, h, rfl, rfl⟩ := h
  unfold cancelLimit
  dsimp only
  rw [look_sim L h]
  refine .same fun _ => .same fun _ => .same fun _ => ?_
  cases Book.removeCancel a b with
  | none =>
    refine ⟨.mk h, ?_⟩
    cases b <;> rfl
  | some r =>
    refine .same fun _ => .same fun _ => .same fun _ => .bind (refund_sim L h) fun t1 t2 h1 =>
      .same fun _ => ?_
    rw [emptyZero_sim L h1]
    exact .same fun _ => ⟨.mk h1, rfl⟩

theorem amendLimit_sim {c s s' id o} (h : SimS R s s') :
    Sim (SimA R) (amendLimit B c s id o) (amendLimit B' c s' id o) := by
  obtain ⟨ms, log, n, t, t', pos, a, om, tr, up, h, rfl, rfl⟩ := h
  unfold amendLimit
  dsimp only
  cases Book.getById a id with
  | none => exact ⟨.mk h, rfl⟩
  | some old =>
    refine .same fun total => .ite (fun _ => ?_) fun _ => .same fun new' => ?_
    · refine .bind (cancelLimit_sim L (.mk h)) ?_
      rintro ⟨s1, r1⟩ ⟨s2, r2⟩ ⟨hs, hr⟩
      dsimp only at hs hr
      subst hr
      cases r1
      · exact rfl
      · exact ⟨hs, rfl⟩
    · refine .bind (cancelLimit_sim L (.mk h)) ?_
      rintro ⟨s1, r1⟩ ⟨s2, r2⟩ ⟨hs, hr⟩
      dsimp only at hs hr
      subst hr
      cases r1
      · exact ⟨hs, rfl⟩
      · exact submitLimit_sim L hs

omit L in
theorem applyFill_sim {c ts l l' o q} (h : SimL R l l') :
    Sim (SimB R) (applyFill c ts l o q) (applyFill c ts l' o q) := by
  obtain ⟨t, t', pos, om, log, up, ids, h, rfl, rfl⟩ := h
  unfold applyFill
  refine .same fun r => ?_
  rcases r with ⟨o', _ | f⟩
  · refine .same fun _ => .same fun v => ?_
    cases v with
    | error err => exact rfl
    | ok om' => exact ⟨.mk h, rfl⟩
  · exact .same fun _ => ⟨.mk h, rfl⟩

theorem settleLimit_sim {c l l' o q} (h : SimL R l l') :
    Sim (SimL R) (settleLimit B c l o q) (settleLimit B' c l' o q) := by
  obtain ⟨t, t', pos, om, log, up, ids, h, rfl, rfl⟩ := h
  unfold settleLimit
  refine .same fun _ => .bind (changePosition_sim L h) ?_
  rintro ⟨f1, t1⟩ ⟨f2, t2⟩ ⟨hf, ht⟩
  subst hf
  exact .mk ht

theorem releaseMargin_sim {c l l' m} (h : SimL R l l') :
    Sim (SimL R) (releaseMargin B c l m) (releaseMargin B' c l' m) := by
  obtain ⟨t, t', pos, om, log, up, ids, h, rfl, rfl⟩ := h
  unfold releaseMargin
  exact .same fun _ => .same fun _ => .bind (refund_sim L h) fun _ _ h1 => .mk h1

theorem matchOrder_sim {c u l l' o} (h : SimL R l l') :
    Sim (SimB R) (matchOrder B c u l o) (matchOrder B' c u l' o) := by
  unfold matchOrder
  refine .same fun v => ?_
  cases v with
  | none => exact ⟨h, rfl⟩
  | some q =>
    have hl := h
    obtain ⟨t, t', pos, om, log, up, ids, h, rfl, rfl⟩ := h
    dsimp only
    refine .same fun _ => ?_
    rw [look_sim L h]
    refine .same fun m => .same fun _ => .bind (applyFill_sim hl) ?_
    rintro ⟨l1, o1⟩ ⟨l2, o2⟩ ⟨h1, ho⟩
    dsimp only at h1 ho
    subst ho
    exact .bind (settleLimit_sim L h1) fun _ _ h2 => .bind (releaseMargin_sim L h2) fun _ _ h3 =>
      ⟨h3, rfl⟩

theorem matchLoop_sim {c u} (os : List Limit) : ∀ {l l'}, SimL R l l' →
    Sim (SimB R) (matchLoop B c u l os) (matchLoop B' c u l' os) := by
  induction os with
  | nil => exact fun h => ⟨h, rfl⟩
  | cons o os ih =>
    intro l l' h
    unfold matchLoop
    refine .bind (matchOrder_sim L h) ?_
    rintro ⟨l1, o1⟩ ⟨l2, o2⟩ ⟨h1, ho⟩
    dsimp only at h1 ho
    subst ho
    refine .bind (ih h1) ?_
    rintro ⟨l3, o3⟩ ⟨l4, o4⟩ ⟨h2, ho⟩
    dsimp only at h2 ho
    subst ho
    exact ⟨h2, rfl⟩

theorem checkActive_sim {c s s' u} (h : SimS R s s') :
    Sim (SimS R) (checkActive B c s u) (checkActive B' c s' u) := by
  obtain ⟨ms, log, n, t, t', pos, a, om, tr, up, h, rfl, rfl⟩ := h
  unfold checkActive
  refine .ite (fun _ => .mk h) fun _ => .same fun _ => .bind (matchLoop_sim L _ (.mk h)) ?_
  rintro ⟨l1, o1⟩ ⟨l2, o2⟩ ⟨h1, ho⟩
  dsimp only at h1 ho
  subst ho
  obtain ⟨t, t', pos, om, log, up, ids, h, rfl, rfl⟩ := h1
  dsimp only
  refine .same fun _ => .same fun _ => .same fun _ => ?_
  rw [debugEmpty_sim L h, look_sim L h, walletCheck_sim L h]
  exact .same fun _ => .same fun _ => .same fun _ => .mk h

theorem liquidate_sim {c s s'} (h : SimS R s s') :
    Sim (SimS R) (liquidate B c s) (liquidate B' c s') := by
  have hs := h
  obtain ⟨ms, log, n, t, t', pos, a, om, tr, up, h, rfl, rfl⟩ := h
  unfold liquidate
  refine .same fun _ => .bind (submitMarket_sim L hs) ?_
  rintro ⟨s1, r1⟩ ⟨s2, r2⟩ ⟨hs, hr⟩
  dsimp only at hs hr
  subst hr
  cases r1
  · exact rfl
  · exact hs

theorem observe_sim {c s s' u} (h : SimS R s s') :
    Sim (SimS R) (observe B c s u) (observe B' c s' u) := by
  obtain ⟨ms, log, n, t, t', pos, a, om, tr, up, h, rfl, rfl⟩ := h
  unfold observe
  refine .same fun _ => .ite (fun _ => ?_) fun _ => .mk h
  dsimp only
  rw [userBalances_sim L h]
  exact .same fun _ => .mk h

theorem updateState_sim {c s s' u} (h : SimS R s s') :
    Sim (SimA R) (updateState B c s u) (updateState B' c s' u) := by
  unfold updateState
  refine .bind (observe_sim L h) fun s1 s2 h1 => ?_
  have hs := h1
  obtain ⟨ms, log, n, t, t', pos, a, om, tr, up, h, rfl, rfl⟩ := h1
  dsimp only
  cases checkMaintenanceMargin c ms pos with
  | error err => exact .bind (liquidate_sim L hs) fun _ _ h2 => ⟨h2, rfl⟩
  | ok _ =>
    refine .bind (checkActive_sim L hs) fun _ _ h2 => ⟨h2, ?_⟩
    obtain ⟨ms, log, n, t, t', pos, a, om, tr, up, h, rfl, rfl⟩ := h2
    rfl

omit L in
theorem answer_sim {α : Type} {x : Res (State T × α)} {y : Res (State T' × α)} (k : α → Resp)
    (h : Sim (SimA R) x y) :
    Sim (SimA R) (do let r ← x; .ok (r.1, k r.2)) (do let r ← y; .ok (r.1, k r.2)) := by
  refine .bind h ?_
  rintro ⟨s1, r1⟩ ⟨s2, r2⟩ ⟨hs, hr⟩
  dsimp only at hs hr
  subst hr
  exact ⟨hs, rfl⟩

/-- One call on two exchanges in lockstep -/
theorem step_sim {c s s'} (op : Op) (h : SimS R s s') :
    Sim (SimA R) (step B c s op) (step B' c s' op) := by
  cases op with
  | update a => exact .same fun u => answer_sim .update (updateState_sim L h)
  | checkActive a => exact .same fun u => .bind (checkActive_sim L h) fun _ _ h1 => ⟨h1, rfl⟩
  | market side qty uid =>
    unfold step
    dsimp only
    cases NewMarket.new side qty uid with
    | error err => exact ⟨h, rfl⟩
    | ok o => exact answer_sim .market (submitMarket_sim L h)
  | limit side price qty uid =>
    unfold step
    dsimp only
    cases NewLimit.new side price qty uid with
    | error err => exact ⟨h, rfl⟩
    | ok o => exact answer_sim .limit (submitLimit_sim L h)
  | amend id side price qty uid =>
    unfold step
    dsimp only
    cases NewLimit.new side price qty uid with
    | error err => exact ⟨h, rfl⟩
    | ok o => exact answer_sim .limit (amendLimit_sim L h)
  | cancel b => exact answer_sim .limit (cancelLimit_sim L h)

theorem run_sim {c} (ops : List Op) : ∀ {s s'}, SimS R s s' →
    Sim (SimS R) (run B c s ops) (run B' c s' ops) := by
  induction ops with
  | nil => exact fun h => h
  | cons op ops ih =>
    intro s s' h
    unfold run
    exact .bind (step_sim L op h) fun _ _ h1 => ih h1.1

end

end Lfest.Acct
