import Verif.Lemmas.Bookkeeping

/-!
# The exchange over the in-memory accounting is the exchange of Model/Exchange
-/

namespace Lfest.Acct

theorem ok_then {α β : Type} (a : α) (f : α → Res β) : (Except.ok a >>= f : Res β) = f a := rfl

theorem look_mem (e : Env) (a : Accounts) (i : AccountId) :
    look (inMemory e) a i = .ok (a.balance i) := rfl

theorem move_mem (e : Env) (a : Accounts) (d c : AccountId) (amt : Int) :
    move (inMemory e) a d c amt = transfer e a d c amt := by
  unfold move transfer
  refine bind_congr fun _ => bind_congr fun _ => ?_
  unfold inMemory
  dsimp only
  rw [bind_assoc]
  rfl

theorem debugZero_mem (e : Env) (a : Accounts) (i : AccountId) (p : Panic) :
    debugZero (inMemory e) e a i p = debugP e.debug (a.balance i = 0) p := rfl

theorem emptyZero_mem (e : Env) (a : Accounts) (b : Book) :
    emptyZero (inMemory e) a b =
      assertP (b = [] → a.balance .orderMargin = 0) .emptyButMargin := by
  unfold emptyZero
  by_cases hb : b = []
  · rw [if_pos hb, look_mem, ok_then]
    simp only [hb, true_imp_iff]
  · rw [if_neg hb]
    simp only [assertP, hb, false_imp_iff, if_true]

theorem debugEmpty_mem (e : Env) (a : Accounts) (b : Book) :
    debugEmpty (inMemory e) e a b =
      debugP e.debug (b = [] → a.balance .orderMargin = 0) .emptyButMargin := by
  unfold debugEmpty debugP
  rw [emptyZero_mem]

theorem walletCheck_mem (e : Env) (a : Accounts) :
    walletCheck (inMemory e) a = assertP (a.balance .wallet ≥ 0) .walletNegative := rfl

theorem userBalances_mem (e : Env) (a : Accounts) :
    userBalances (inMemory e) a = .ok (Lfest.userBalances a) := rfl

theorem innerNew_mem (e : Env) (imr : Int) (a : Accounts) (q p f : Int) :
    innerNew (inMemory e) e imr a q p f = Inner.new e imr a q p f := by
  unfold innerNew Inner.new
  simp only [move_mem]

theorem increase_mem (e : Env) (imr : Int) (a : Accounts) (i : Inner) (q p f : Int) :
    increase (inMemory e) e imr a i q p f = i.increase e imr a q p f := by
  unfold increase Inner.increase
  simp only [move_mem]

theorem settlePnl_mem (e : Env) (a : Accounts) (v : Int) :
    settlePnl (inMemory e) a v = Lfest.settlePnl e a v := by
  unfold settlePnl Lfest.settlePnl
  simp only [move_mem]

theorem settleFees_mem (e : Env) (a : Accounts) (v : Int) :
    settleFees (inMemory e) a v = Lfest.settleFees e a v := by
  unfold settleFees Lfest.settleFees
  simp only [move_mem]

theorem decrease_mem (e : Env) (imr : Int) (a : Accounts) (i : Inner) (q p d f : Int) :
    decrease (inMemory e) e imr a i q p d f = i.decrease e imr a q p d f := by
  unfold decrease Inner.decrease
  simp only [move_mem, settlePnl_mem, settleFees_mem]

theorem flip_mem (e : Env) (imr : Int) (a : Accounts) (i : Inner) (q p d f : Int) :
    flip (inMemory e) e imr a i q p d f = (do
      let (p', a') ← i.decrease e imr a i.qty p d f
      assertP (p'.qty = 0) .flipQty
      assertP (a'.balance .positionMargin = 0) .flipMargin
      Inner.new e imr a' (q - i.qty) p 0) := by
  unfold flip
  simp only [decrease_mem, innerNew_mem]
  rfl

theorem changePosition_mem (e : Env) (imr : Int) (a : Accounts) (pos : Position) (q p : Int)
    (side : Side) (f : Int) :
    changePosition (inMemory e) e imr a pos q p side f =
      Lfest.changePosition e imr a pos q p side f := by
  unfold changePosition Lfest.changePosition against
  simp only [decrease_mem, innerNew_mem, increase_mem, flip_mem, debugZero_mem]
  cases pos <;> cases side
  all_goals first
    | rfl
    | (dsimp only; simp only [bind_assoc])

/-- The state of Model/Exchange as a state over the in-memory accounting -/
def ofState (s : Lfest.State) : State Accounts :=
  { ms := s.ms, log := s.log, nextId := s.nextId, acct := s.acct, pos := s.pos,
    active := s.active, om := s.om, trigger := s.trigger, updates := s.updates }

/-- The loop variables of Model/Exchange over the in-memory accounting -/
def ofLoop (l : Lfest.Loop) : Loop Accounts :=
  { acct := l.acct, pos := l.pos, om := l.om, log := l.log, updates := l.updates, ids := l.ids }

/-- Same state -/
def IsS (s : State Accounts) (s' : Lfest.State) : Prop := s = ofState s'

/-- Same loop variables -/
def IsL (l : Loop Accounts) (l' : Lfest.Loop) : Prop := l = ofLoop l'

/-- Same state, same answer -/
def IsA {α : Type} (x : State Accounts × α) (y : Lfest.State × α) : Prop :=
  IsS x.1 y.1 ∧ x.2 = y.2

/-- Same loop variables, same result -/
def IsB {α : Type} (x : Loop Accounts × α) (y : Lfest.Loop × α) : Prop :=
  IsL x.1 y.1 ∧ x.2 = y.2

theorem settleMarket_mem (c : Cfg) (s : Lfest.State) (o : FilledMarket) :
    Sim IsS (settleMarket (inMemory c.env) c (ofState s) o) (Lfest.settleMarket c s o) := by
  unfold settleMarket Lfest.settleMarket
  refine .same fun _ => .same fun _ => .same fun _ => ?_
  rw [changePosition_mem]
  exact .same fun _ => rfl

theorem marketRisk_mem (c : Cfg) (s : Lfest.State) (o : NewMarket) :
    marketRisk (inMemory c.env) c (ofState s) o = (do
      match ← checkMarketOrder c s.pos (s.acct.balance .positionMargin) o.side o.qty
        (touch s.ms o.side) (s.acct.balance .wallet) with
      | .error err => .ok (.error (.risk err))
      | .ok () => .ok (.ok ())) := rfl

theorem submitMarket_mem (c : Cfg) (s : Lfest.State) (o : NewMarket) :
    Sim IsA (submitMarket (inMemory c.env) c (ofState s) o) (Lfest.submitMarket c s o) := by
  unfold submitMarket Lfest.submitMarket
  refine .same fun v => ?_
  cases v with
  | error err => exact ⟨rfl, rfl⟩
  | ok _ =>
    dsimp only
    have hr := marketRisk_mem c { s with log := .marketSubmit o :: s.log, nextId := s.nextId + 1 } o
    dsimp only [ofState] at hr ⊢
    rw [hr, bind_assoc]
    refine .same fun v => ?_
    cases v with
    | error err => exact ⟨rfl, rfl⟩
    | ok _ =>
      dsimp only
      rw [ok_then]
      exact .bind (settleMarket_mem c
        { s with log := .marketSubmit o :: s.log, nextId := s.nextId + 1 } _) fun _ _ hs => ⟨hs, rfl⟩

theorem appendPost_mem (c : Cfg) (s : Lfest.State) (amt : Int) :
    Sim IsS (appendPost (inMemory c.env) (ofState s) amt) (do
      let a ← transfer c.env s.acct .orderMargin .wallet amt
      appendChecks { s with acct := a }) := by
  unfold appendPost appendChecks
  rw [move_mem]
  refine .same fun a => .same fun _ => ?_
  rw [emptyZero_mem, walletCheck_mem]
  exact .same fun _ => .same fun _ => rfl

theorem appendLimit_mem (c : Cfg) (s : Lfest.State) (o : Limit) :
    Sim IsA (appendLimit (inMemory c.env) c (ofState s) o) (Lfest.appendLimit c s o) := by
  unfold appendLimit Lfest.appendLimit
  refine .same fun v => ?_
  cases v with
  | error err => exact ⟨rfl, rfl⟩
  | ok om' =>
    dsimp only [ofState]
    cases Book.insert activeCap s.active o with
    | error err => exact ⟨rfl, rfl⟩
    | ok r =>
      refine .same fun m => ?_
      rw [look_mem, ok_then]
      refine Sim.ite (fun _ => ?_) fun _ => .ite (fun _ => ?_) fun _ => ⟨rfl, rfl⟩
      all_goals
        rw [← bind_assoc]
        exact .bind (appendPost_mem c { s with om := om', active := r.1 } _)
          fun _ _ hs => ⟨hs, rfl⟩

theorem limitRisk_mem (c : Cfg) (s : Lfest.State) (p : Limit) :
    limitRisk (inMemory c.env) c (ofState s) p = (do
      match ← checkLimitOrder c s.pos p (s.acct.balance .wallet) s.om with
      | .error err => .ok (.error (.risk err))
      | .ok () => .ok (.ok ())) := rfl

theorem submitLimit_mem (c : Cfg) (s : Lfest.State) (o : NewLimit) :
    Sim IsA (submitLimit (inMemory c.env) c (ofState s) o) (Lfest.submitLimit c s o) := by
  unfold submitLimit Lfest.submitLimit
  refine .same fun v => ?_
  cases v with
  | error err => exact ⟨rfl, rfl⟩
  | ok _ =>
    refine .same fun v => ?_
    cases v with
    | error err => exact ⟨rfl, rfl⟩
    | ok _ =>
      dsimp only
      have hr := limitRisk_mem c { s with log := .limitSubmit o :: s.log, nextId := s.nextId + 1 }
        (o.intoPending s.nextId s.ms.ts)
      dsimp only [ofState] at hr ⊢
      rw [hr, bind_assoc]
      refine .same fun v => ?_
      cases v with
      | error err => exact ⟨rfl, rfl⟩
      | ok _ =>
        refine .ite (fun _ => ⟨rfl, rfl⟩) fun _ => .bind (appendLimit_mem c
          { s with log := .limitSubmit o :: s.log, nextId := s.nextId + 1 } _) ?_
        rintro ⟨s1, r1⟩ ⟨s2, r2⟩ ⟨hs, hr⟩
        dsimp only at hs hr
        subst hr
        cases r1
        · exact ⟨hs, rfl⟩
        · exact ⟨hs, rfl⟩

theorem refund_mem (e : Env) (a : Accounts) (m m' : Int) :
    refund (inMemory e) a m m' = Lfest.refund e a m m' := by
  unfold refund Lfest.refund
  rw [move_mem]

theorem cancelLimit_mem (c : Cfg) (s : Lfest.State) (b : CancelBy) :
    Sim IsA (cancelLimit (inMemory c.env) c (ofState s) b) (Lfest.cancelLimit c s b) := by
  unfold cancelLimit Lfest.cancelLimit
  rw [look_mem, ok_then]
  dsimp only [ofState]
  refine Sim.same fun _ => .same fun _ => ?_
  cases Book.removeCancel s.active b with
  | none =>
    refine ⟨rfl, ?_⟩
    cases b <;> rfl
  | some r =>
    refine .same fun _ => .same fun _ => .same fun _ => ?_
    rw [refund_mem]
    refine .same fun a => .same fun _ => ?_
    rw [emptyZero_mem]
    exact .same fun _ => ⟨rfl, rfl⟩

theorem amendLimit_mem (c : Cfg) (s : Lfest.State) (id : Nat) (o : NewLimit) :
    Sim IsA (amendLimit (inMemory c.env) c (ofState s) id o) (Lfest.amendLimit c s id o) := by
  unfold amendLimit Lfest.amendLimit
  have hg : (ofState s).active = s.active := rfl
  rw [hg]
  cases Book.getById s.active id with
  | none => exact ⟨rfl, rfl⟩
  | some old =>
    refine .same fun total => .ite (fun _ => ?_) fun _ => .same fun new' => ?_
    · refine .bind (cancelLimit_mem c s _) ?_
      rintro ⟨s1, r1⟩ ⟨s2, r2⟩ ⟨hs, hr⟩
      dsimp only at hs hr
      subst hr
      cases r1
      · exact rfl
      · exact ⟨hs, rfl⟩
    · refine .bind (cancelLimit_mem c s _) ?_
      rintro ⟨s1, r1⟩ ⟨s2, r2⟩ ⟨hs, hr⟩
      dsimp only at hs hr
      subst hr
      cases r1
      · exact ⟨hs, rfl⟩
      · rw [hs]
        exact submitLimit_mem c s2 new'

theorem applyFill_mem (c : Cfg) (ts : Int) (l : Lfest.Loop) (o : Limit) (q : Int) :
    Sim IsB (applyFill c ts (ofLoop l) o q) (Lfest.applyFill c ts l o q) := by
  unfold applyFill Lfest.applyFill
  refine .same fun r => ?_
  rcases r with ⟨o', _ | f⟩
  · refine .same fun _ => .same fun v => ?_
    cases v with
    | error err => exact rfl
    | ok om' => exact ⟨rfl, rfl⟩
  · exact .same fun _ => ⟨rfl, rfl⟩

theorem settleLimit_mem (c : Cfg) (l : Lfest.Loop) (o : Limit) (q : Int) :
    Sim IsL (settleLimit (inMemory c.env) c (ofLoop l) o q) (Lfest.settleLimit c l o q) := by
  unfold settleLimit Lfest.settleLimit
  refine .same fun _ => ?_
  rw [changePosition_mem]
  exact .same fun _ => rfl

theorem releaseMargin_mem (c : Cfg) (l : Lfest.Loop) (m : Int) :
    Sim IsL (releaseMargin (inMemory c.env) c (ofLoop l) m) (Lfest.releaseMargin c l m) := by
  unfold releaseMargin Lfest.releaseMargin
  refine .same fun _ => .same fun _ => ?_
  rw [refund_mem]
  exact .same fun _ => rfl

theorem matchOrder_mem (c : Cfg) (u : Update) (l : Lfest.Loop) (o : Limit) :
    Sim IsB (matchOrder (inMemory c.env) c u (ofLoop l) o) (Lfest.matchOrder c u l o) := by
  unfold matchOrder Lfest.matchOrder
  refine .same fun v => ?_
  cases v with
  | none => exact ⟨rfl, rfl⟩
  | some q =>
    refine .same fun _ => ?_
    rw [look_mem, ok_then]
    refine .same fun _ => .bind (applyFill_mem c u.ts l o q) ?_
    rintro ⟨l1, o1⟩ ⟨l2, o2⟩ ⟨h1, ho⟩
    dsimp only at h1 ho
    subst ho h1
    refine .bind (settleLimit_mem c l2 o1 q) fun l3 l4 h2 => ?_
    subst h2
    exact .bind (releaseMargin_mem c l4 _) fun _ _ h3 => ⟨h3, rfl⟩

theorem matchLoop_mem (c : Cfg) (u : Update) (os : List Limit) : ∀ l : Lfest.Loop,
    Sim IsB (matchLoop (inMemory c.env) c u (ofLoop l) os) (Lfest.matchLoop c u l os) := by
  induction os with
  | nil => exact fun l => ⟨rfl, rfl⟩
  | cons o os ih =>
    intro l
    unfold matchLoop Lfest.matchLoop
    refine .bind (matchOrder_mem c u l o) ?_
    rintro ⟨l1, o1⟩ ⟨l2, o2⟩ ⟨h1, ho⟩
    dsimp only at h1 ho
    subst ho h1
    refine .bind (ih l2) ?_
    rintro ⟨l3, o3⟩ ⟨l4, o4⟩ ⟨h2, ho⟩
    dsimp only at h2 ho
    subst ho
    exact ⟨h2, rfl⟩

theorem checkActive_mem (c : Cfg) (s : Lfest.State) (u : Update) :
    Sim IsS (checkActive (inMemory c.env) c (ofState s) u) (Lfest.checkActive c s u) := by
  unfold checkActive Lfest.checkActive
  refine .ite (fun _ => rfl) fun _ => .same fun _ => .bind (matchLoop_mem c u s.active
    { acct := s.acct, pos := s.pos, om := s.om, log := s.log, updates := [], ids := [] }) ?_
  rintro ⟨l1, o1⟩ ⟨l2, o2⟩ ⟨h1, ho⟩
  dsimp only at h1 ho
  subst ho h1
  refine .same fun _ => .same fun _ => .same fun _ => ?_
  rw [debugEmpty_mem, walletCheck_mem, look_mem]
  exact .same fun _ => .same fun _ => .same fun _ => rfl

theorem liquidate_mem (c : Cfg) (s : Lfest.State) :
    Sim IsS (liquidate (inMemory c.env) c (ofState s)) (Lfest.liquidate c s) := by
  unfold liquidate Lfest.liquidate
  refine .same fun o => .bind (submitMarket_mem c s o) ?_
  rintro ⟨s1, r1⟩ ⟨s2, r2⟩ ⟨hs, hr⟩
  dsimp only at hs hr
  subst hr
  cases r1
  · exact rfl
  · exact hs

theorem observe_mem (c : Cfg) (s : Lfest.State) (u : Update) :
    Sim IsS (observe (inMemory c.env) c (ofState s) u) (Lfest.observe c s u) := by
  unfold observe Lfest.observe
  refine .same fun ms => ?_
  rw [userBalances_mem]
  by_cases h : (s.trigger.fire u.ts).2 = true
  · have h' : ((ofState s).trigger.fire u.ts).2 = true := h
    simp only [if_pos h, if_pos h']
    rfl
  · have h' : ¬((ofState s).trigger.fire u.ts).2 = true := h
    simp only [if_neg h, if_neg h']
    rfl

theorem updateState_mem (c : Cfg) (s : Lfest.State) (u : Update) :
    Sim IsA (updateState (inMemory c.env) c (ofState s) u) (Lfest.updateState c s u) := by
  unfold updateState Lfest.updateState
  refine .bind (observe_mem c s u) fun s1 s2 h1 => ?_
  subst h1
  show Sim _ (match checkMaintenanceMargin c s2.ms s2.pos with
    | .error err => _
    | .ok () => _) _
  cases checkMaintenanceMargin c s2.ms s2.pos with
  | error err => exact .bind (liquidate_mem c s2) fun _ _ h2 => ⟨h2, rfl⟩
  | ok _ =>
    refine .bind (checkActive_mem c s2 u) fun _ _ h2 => ⟨h2, ?_⟩
    subst h2
    rfl

theorem answer_mem {α : Type} {x : Res (State Accounts × α)} {y : Res (Lfest.State × α)}
    (k : α → Resp) (h : Sim IsA x y) :
    Sim IsA (do let r ← x; .ok (r.1, k r.2)) (do let (s', r) ← y; .ok (s', k r)) := by
  refine .bind h ?_
  rintro ⟨s1, r1⟩ ⟨s2, r2⟩ ⟨hs, hr⟩
  dsimp only at hs hr
  subst hr
  exact ⟨hs, rfl⟩

/-- One call on the exchange over the in-memory accounting is one call on the exchange of
Model/Exchange. -/
theorem step_mem (c : Cfg) (s : Lfest.State) (op : Op) :
    Sim IsA (step (inMemory c.env) c (ofState s) op) (Lfest.step c s op) := by
  cases op with
  | update a => exact .same fun u => answer_mem .update (updateState_mem c s u)
  | checkActive a => exact .same fun u => .bind (checkActive_mem c s u) fun _ _ h1 => ⟨h1, rfl⟩
  | market side qty uid =>
    unfold step Lfest.step
    dsimp only
    cases NewMarket.new side qty uid with
    | error err => exact ⟨rfl, rfl⟩
    | ok o => exact answer_mem .market (submitMarket_mem c s o)
  | limit side price qty uid =>
    unfold step Lfest.step
    dsimp only
    cases NewLimit.new side price qty uid with
    | error err => exact ⟨rfl, rfl⟩
    | ok o => exact answer_mem .limit (submitLimit_mem c s o)
  | amend id side price qty uid =>
    unfold step Lfest.step
    dsimp only
    cases NewLimit.new side price qty uid with
    | error err => exact ⟨rfl, rfl⟩
    | ok o => exact answer_mem .limit (amendLimit_mem c s id o)
  | cancel b => exact answer_mem .limit (cancelLimit_mem c s b)

end Lfest.Acct
