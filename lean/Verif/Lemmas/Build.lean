import Verif.Lemmas.Trace

/-! Debug and release builds: dropping the debug assertions does not change a result. -/

namespace Lfest

open Spec

/-- `y` succeeds with the same result whenever `x` succeeds. -/
structure Le {α} (x y : Res α) : Prop where
  ok : ∀ a, x = .ok a → y = .ok a

theorem Le.refl {α} (x : Res α) : Le x x := ⟨fun _ h => h⟩

theorem Le.bind {α β} {x y : Res α} {f g : α → Res β} (h : Le x y)
    (k : ∀ a, x = .ok a → Le (f a) (g a)) : Le (x >>= f) (y >>= g) := by
  refine ⟨fun b hb => ?_⟩
  rw [bind_ok] at hb ⊢
  obtain ⟨a, ha, hf⟩ := hb
  exact ⟨a, h.ok a ha, (k a ha).ok b hf⟩

theorem Le.debugP {b : Bool} {c : Prop} [Decidable c] {p : Panic} :
    Le (debugP b c p) (debugP false c p) := by
  refine ⟨fun a _ => ?_⟩; cases a; rfl

/-- The release build of an environment. -/
def Env.rel (e : Env) : Env := { e with debug := false }

/-- The release build of a configuration. -/
def Cfg.rel (c : Cfg) : Cfg := { c with env := c.env.rel }

theorem transfer_rel (e : Env) (a : Accounts) (d k : AccountId) (x : Int) :
    Le (transfer e a d k x) (transfer e.rel a d k x) := by
  unfold transfer
  exact .bind (.refl _) fun _ _ => .bind (.refl _) fun _ _ => .bind .debugP fun _ _ => .refl _

theorem new_rel (e : Env) (imr : Int) (a : Accounts) (q p f : Int) :
    Le (Inner.new e imr a q p f) (Inner.new e.rel imr a q p f) := by
  unfold Inner.new
  exact .bind (.refl _) fun _ _ => .bind (.refl _) fun _ _ => .bind (.refl _) fun _ _ =>
    .bind (transfer_rel ..) fun _ _ => .refl _

theorem increase_rel (e : Env) (imr : Int) (a : Accounts) (i : Inner) (q p f : Int) :
    Le (Inner.increase e imr a i q p f) (Inner.increase e.rel imr a i q p f) := by
  unfold Inner.increase
  exact .bind (.refl _) fun _ _ => .bind (.refl _) fun _ _ => .bind (.refl _) fun _ _ =>
    .bind (.refl _) fun _ _ => .bind (transfer_rel ..) fun _ _ => .refl _

theorem settlePnl_rel (e : Env) (a : Accounts) (v : Int) :
    Le (settlePnl e a v) (settlePnl e.rel a v) := by
  unfold settlePnl
  split
  · exact transfer_rel ..
  · split
    · exact transfer_rel ..
    · exact .refl _

theorem settleFees_rel (e : Env) (a : Accounts) (v : Int) :
    Le (settleFees e a v) (settleFees e.rel a v) := by
  unfold settleFees
  split
  · exact .bind (transfer_rel ..) fun _ _ => .refl _
  · exact .refl _

theorem decrease_rel (e : Env) (imr : Int) (a : Accounts) (i : Inner) (q p d f : Int) :
    Le (Inner.decrease e imr a i q p d f) (Inner.decrease e.rel imr a i q p d f) := by
  unfold Inner.decrease
  exact .bind (.refl _) fun _ _ => .bind (.refl _) fun _ _ => .bind .debugP fun _ _ =>
    .bind (.refl _) fun _ _ => .bind (settlePnl_rel ..) fun _ _ => .bind (.refl _) fun _ _ =>
    .bind .debugP fun _ _ => .bind (transfer_rel ..) fun _ _ =>
    .bind (settleFees_rel ..) fun _ _ => .refl _

theorem changePosition_rel (e : Env) (imr : Int) (a : Accounts) (pos : Position) (q p : Int)
    (side : Side) (f : Int) :
    Le (changePosition e imr a pos q p side f) (changePosition e.rel imr a pos q p side f) := by
  unfold changePosition
  refine .bind .debugP fun _ _ => ?_
  cases pos with
  | neutral =>
    refine .bind .debugP fun _ _ => ?_
    cases side <;> exact .bind (new_rel ..) fun _ _ => .refl _
  | long i =>
    cases side with
    | buy => exact .bind (increase_rel ..) fun _ _ => .refl _
    | sell =>
      simp only
      split
      · exact .bind (decrease_rel ..) fun _ _ => .refl _
      · split
        · exact .bind (decrease_rel ..) fun _ _ => .bind .debugP fun _ _ => .refl _
        · exact .bind (decrease_rel ..) fun _ _ => .bind (.refl _) fun _ _ =>
            .bind (.refl _) fun _ _ => .bind (new_rel ..) fun _ _ => .refl _
  | short i =>
    cases side with
    | sell => exact .bind (increase_rel ..) fun _ _ => .refl _
    | buy =>
      simp only
      split
      · exact .bind (decrease_rel ..) fun _ _ => .refl _
      · split
        · exact .bind (decrease_rel ..) fun _ _ => .bind .debugP fun _ _ => .refl _
        · exact .bind (decrease_rel ..) fun _ _ => .bind (.refl _) fun _ _ =>
            .bind (.refl _) fun _ _ => .bind (new_rel ..) fun _ _ => .refl _

theorem sumValue_rel (e : Env) (l : List (Int × Int)) : ∀ acc,
    sumValue e acc l = sumValue e.rel acc l := by
  induction l with
  | nil => intro acc; rfl
  | cons x l ih =>
    intro acc
    obtain ⟨p, q⟩ := x
    simp only [sumValue]
    have : convert e.rel q p = convert e q p := rfl
    rw [this]
    congr 1
    funext v
    exact ih _

theorem orderMarginInternal_rel (e : Env) (imr : Int) (b : Book) (pos : Position) (n : Option Limit) :
    Le (orderMarginInternal e imr b pos n) (orderMarginInternal e.rel imr b pos n) := by
  unfold orderMarginInternal
  refine .bind .debugP fun _ _ => ?_
  simp only [sumValue_rel e]
  exact .refl _

theorem orderMargin_rel (e : Env) (imr : Int) (b : Book) (pos : Position) :
    Le (orderMargin e imr b pos) (orderMargin e.rel imr b pos) :=
  orderMarginInternal_rel ..

theorem checkLimitOrder_rel (c : Cfg) (pos : Position) (o : Limit) (w : Int) (om : Book) :
    Le (checkLimitOrder c pos o w om) (checkLimitOrder c.rel pos o w om) := by
  unfold checkLimitOrder
  exact .bind (orderMargin_rel ..) fun _ _ => .bind (orderMarginInternal_rel ..) fun _ _ => .refl _

theorem settleMarket_rel (c : Cfg) (s : State) (o : FilledMarket) :
    Le (settleMarket c s o) (settleMarket c.rel s o) := by
  unfold settleMarket
  exact .bind (.refl _) fun _ _ => .bind (.refl _) fun _ _ => .bind (.refl _) fun _ _ =>
    .bind (changePosition_rel ..) fun _ _ => .refl _

theorem submitMarket_rel (c : Cfg) (s : State) (o : NewMarket) :
    Le (submitMarket c s o) (submitMarket c.rel s o) := by
  unfold submitMarket
  refine .bind (.refl _) fun r _ => ?_
  cases r with
  | error err => exact .refl _
  | ok _ =>
    refine .bind (.refl _) fun r _ => ?_
    cases r with
    | error err => exact .refl _
    | ok _ => exact .bind (settleMarket_rel ..) fun _ _ => .refl _

theorem appendLimit_rel (c : Cfg) (s : State) (o : Limit) :
    Le (appendLimit c s o) (appendLimit c.rel s o) := by
  unfold appendLimit
  refine .bind (.refl _) fun r _ => ?_
  cases r with
  | error err => exact .refl _
  | ok om' =>
    simp only
    split
    · exact .refl _
    · refine .bind (orderMargin_rel ..) fun m _ => ?_
      split
      · exact .bind (transfer_rel ..) fun _ _ => .bind (.refl _) fun _ _ => .refl _
      · split
        · exact .bind (transfer_rel ..) fun _ _ => .bind (.refl _) fun _ _ => .refl _
        · exact .refl _

theorem submitLimit_rel (c : Cfg) (s : State) (o : NewLimit) :
    Le (submitLimit c s o) (submitLimit c.rel s o) := by
  unfold submitLimit
  refine .bind (.refl _) fun r _ => ?_
  cases r with
  | error err => exact .refl _
  | ok _ =>
    refine .bind (.refl _) fun r _ => ?_
    cases r with
    | error err => exact .refl _
    | ok _ =>
      refine .bind (checkLimitOrder_rel ..) fun r _ => ?_
      cases r with
      | error err => exact .refl _
      | ok _ =>
        simp only
        split
        · exact .refl _
        · refine .bind (appendLimit_rel ..) fun r _ => ?_
          exact .refl _

theorem refund_rel (e : Env) (a : Accounts) (m n : Int) : Le (refund e a m n) (refund e.rel a m n) := by
  unfold refund
  split
  · exact transfer_rel ..
  · exact .refl _

theorem cancelLimit_rel (c : Cfg) (s : State) (b : CancelBy) :
    Le (cancelLimit c s b) (cancelLimit c.rel s b) := by
  unfold cancelLimit
  refine .bind (orderMargin_rel ..) fun r _ => .bind (.refl _) fun _ _ => ?_
  split
  · exact .refl _
  · exact .bind (.refl _) fun _ _ => .bind (orderMargin_rel ..) fun _ _ =>
      .bind (.refl _) fun _ _ => .bind (refund_rel ..) fun _ _ => .refl _

theorem amendLimit_rel (c : Cfg) (s : State) (id : Nat) (o : NewLimit) :
    Le (amendLimit c s id o) (amendLimit c.rel s id o) := by
  unfold amendLimit
  split
  · exact .refl _
  · refine .bind (.refl _) fun total _ => ?_
    simp only
    split
    · exact .bind (cancelLimit_rel ..) fun r _ => .refl _
    · refine .bind (.refl _) fun n _ => .bind (cancelLimit_rel ..) fun r _ => ?_
      obtain ⟨s1, r⟩ := r
      cases r with
      | error err => exact .refl _
      | ok x => exact submitLimit_rel ..

theorem debugMarginEq_rel (c : Cfg) (a : Accounts) (om : Book) (pos : Position) (p : Panic) :
    Le (debugMarginEq c a om pos p) (debugMarginEq c.rel a om pos p) := by
  refine ⟨fun x _ => ?_⟩
  cases x
  rfl

theorem applyFill_rel (c : Cfg) (ts : Int) (l : Loop) (o : Limit) (q : Int) :
    Le (applyFill c ts l o q) (applyFill c.rel ts l o q) := by
  unfold applyFill
  refine .bind (.refl _) fun r _ => ?_
  obtain ⟨o', f⟩ := r
  cases f with
  | some f => exact .refl _
  | none => exact .bind .debugP fun _ _ => .refl _

theorem settleLimit_rel (c : Cfg) (l : Loop) (o : Limit) (q : Int) :
    Le (settleLimit c l o q) (settleLimit c.rel l o q) := by
  unfold settleLimit
  exact .bind (.refl _) fun _ _ => .bind (changePosition_rel ..) fun _ _ => .refl _

theorem releaseMargin_rel (c : Cfg) (l : Loop) (m : Int) :
    Le (releaseMargin c l m) (releaseMargin c.rel l m) := by
  unfold releaseMargin
  exact .bind (orderMargin_rel ..) fun _ _ => .bind .debugP fun _ _ =>
    .bind (refund_rel ..) fun _ _ => .refl _

theorem filled_rel (b : Bool) (u : Update) (o : Limit) : Le (u.filled b o) (u.filled false o) := by
  cases u with
  | trade t =>
    simp only [Update.filled, Trade.filled]
    exact .bind .debugP fun _ _ => .bind .debugP fun _ _ => .refl _
  | candle t =>
    simp only [Update.filled, Candle.filled]
    exact .bind .debugP fun _ _ => .refl _
  | _ => exact .refl _

theorem matchOrder_rel (c : Cfg) (u : Update) (l : Loop) (o : Limit) :
    Le (matchOrder c u l o) (matchOrder c.rel u l o) := by
  unfold matchOrder
  refine .bind (filled_rel ..) fun r _ => ?_
  cases r with
  | none => exact .refl _
  | some q =>
    exact .bind .debugP fun _ _ => .bind (debugMarginEq_rel ..) fun _ _ =>
      .bind (applyFill_rel ..) fun _ _ => .bind (settleLimit_rel ..) fun _ _ =>
      .bind (releaseMargin_rel ..) fun _ _ => .refl _

theorem matchLoop_rel (c : Cfg) (u : Update) (os : List Limit) : ∀ l,
    Le (matchLoop c u l os) (matchLoop c.rel u l os) := by
  induction os with
  | nil => intro l; exact .refl _
  | cons o os ih =>
    intro l
    simp only [matchLoop]
    exact .bind (matchOrder_rel ..) fun _ _ => .bind (ih _) fun _ _ => .refl _

theorem checkActive_rel (c : Cfg) (s : State) (u : Update) :
    Le (checkActive c s u) (checkActive c.rel s u) := by
  unfold checkActive
  split
  · exact .refl _
  · exact .bind .debugP fun _ _ => .bind (matchLoop_rel ..) fun _ _ => .bind (.refl _) fun _ _ =>
      .bind .debugP fun _ _ => .bind .debugP fun _ _ => .bind .debugP fun _ _ =>
      .bind (debugMarginEq_rel ..) fun _ _ => .refl _

theorem liquidate_rel (c : Cfg) (s : State) : Le (liquidate c s) (liquidate c.rel s) := by
  unfold liquidate
  exact .bind (.refl _) fun _ _ => .bind (submitMarket_rel ..) fun _ _ => .refl _

theorem update_rel (b : Bool) (pf : PriceFilter) (m : MarketState) (u : Update) :
    Le (m.update b pf u) (m.update false pf u) := by
  refine ⟨fun x hx => ?_⟩
  simp only [MarketState.update, bind_ok] at hx ⊢
  obtain ⟨r, _, hx⟩ := hx
  cases r with
  | error err => simp at hx
  | ok _ => exact ⟨.ok (), rfl, hx⟩

theorem observe_rel (c : Cfg) (s : State) (u : Update) : Le (observe c s u) (observe c.rel s u) := by
  unfold observe
  exact .bind (update_rel ..) fun _ _ => .refl _

theorem updateState_rel (c : Cfg) (s : State) (u : Update) :
    Le (updateState c s u) (updateState c.rel s u) := by
  unfold updateState
  refine .bind (observe_rel ..) fun s1 _ => ?_
  have e : checkMaintenanceMargin c.rel s1.ms s1.pos = checkMaintenanceMargin c s1.ms s1.pos := rfl
  rw [e]
  split
  · exact .bind (liquidate_rel ..) fun _ _ => .refl _
  · exact .bind (checkActive_rel ..) fun _ _ => .refl _

theorem smart_rel (b : Bool) (ts : List Trade) (q : Bba) (pf : PriceFilter) :
    Le (SmartCandle.new b ts q pf) (SmartCandle.new false ts q pf) := by
  cases ts with
  | nil => exact .refl _
  | cons t ts =>
    simp only [SmartCandle.new]
    refine ⟨fun x hx => ?_⟩
    rw [bind_ok] at hx ⊢
    obtain ⟨ok1, _, hx⟩ := hx
    rw [bind_ok] at hx
    obtain ⟨_, _, hx⟩ := hx
    refine ⟨true, rfl, ?_⟩
    rw [bind_ok]
    refine ⟨(), rfl, ?_⟩
    revert hx
    refine (Le.bind (.refl _) (fun r _ => ?_)).ok x
    cases r with
    | error err => exact .refl _
    | ok _ => exact .bind .debugP fun _ _ => .refl _

theorem build_rel (b : Bool) (a : UpdateArg) : Le (a.build b) (a.build false) := by
  cases a with
  | smart ts q pf =>
    simp only [UpdateArg.build]
    exact .bind (smart_rel ..) fun _ _ => .refl _
  | _ => exact .refl _

theorem step_rel (c : Cfg) (s : State) (op : Op) : Le (step c s op) (step c.rel s op) := by
  cases op with
  | update a =>
    simp only [step]
    exact .bind (build_rel ..) fun _ _ => .bind (updateState_rel ..) fun _ _ => .refl _
  | checkActive a =>
    simp only [step]
    exact .bind (build_rel ..) fun _ _ => .bind (checkActive_rel ..) fun _ _ => .refl _
  | market side q uid =>
    simp only [step]
    split
    · exact .refl _
    · exact .bind (submitMarket_rel ..) fun _ _ => .refl _
  | limit side p q uid =>
    simp only [step]
    split
    · exact .refl _
    · exact .bind (submitLimit_rel ..) fun _ _ => .refl _
  | amend id side p q uid =>
    simp only [step]
    split
    · exact .refl _
    · exact .bind (amendLimit_rel ..) fun _ _ => .refl _
  | cancel b =>
    simp only [step]
    exact .bind (cancelLimit_rel ..) fun _ _ => .refl _

theorem run_rel (c : Cfg) (ops : List Op) : ∀ s, Le (run c s ops) (run c.rel s ops) := by
  induction ops with
  | nil => intro s; exact .refl _
  | cons op ops ih =>
    intro s
    simp only [run]
    exact .bind (step_rel ..) fun _ _ => ih _

theorem history_rel (c : Cfg) (ops : List Op) : ∀ s,
    Le (history c s ops) (history c.rel s ops) := by
  induction ops with
  | nil => intro s; exact .refl _
  | cons op ops ih =>
    intro s
    simp only [history]
    exact .bind (step_rel ..) fun _ _ => .bind (ih _) fun _ _ => .refl _

end Lfest
