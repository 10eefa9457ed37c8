import Verif.Model.Release
import Verif.Lemmas.NoOverflow

/-!
# A release build follows the unbounded program as long as results fit
-/

namespace Lfest.Rel

open Mach (chk In)

/-- Apply `τ` to the totals of an account. -/
def mapT (τ : Int → Int) (t : TAccount) : TAccount := ⟨τ t.debits, τ t.credits⟩

/-- Apply `τ` to the totals of all accounts. -/
def mapA (τ : Int → Int) (a : Accounts) : Accounts :=
  ⟨mapT τ a.wallet, mapT τ a.orderMargin, mapT τ a.positionMargin, mapT τ a.exchangeFee,
    mapT τ a.broker, mapT τ a.treasury⟩

/-- Apply `τ` to the totals of the accounts of an exchange. -/
def mapS (τ : Int → Int) (s : State) : State := { s with acct := mapA τ s.acct }

/-- Apply `τ` to the totals of the accounts during the matching loop. -/
def mapL (τ : Int → Int) (l : Loop) : Loop := { l with acct := mapA τ l.acct }

/-- Apply `τ` to the totals in the second component. -/
def mapP {α} (τ : Int → Int) (x : α × Accounts) : α × Accounts := (x.1, mapA τ x.2)

/-- Apply `τ` to the totals in the first component. -/
def mapR {α} (τ : Int → Int) (x : State × α) : State × α := (mapS τ x.1, x.2)

/-- Apply `τ` to the totals in the first component. -/
def mapM {α} (τ : Int → Int) (x : Loop × α) : Loop × α := (mapL τ x.1, x.2)

theorem get_map {τ : Int → Int} {a : Accounts} {i : AccountId} :
    (mapA τ a).get i = mapT τ (a.get i) := by cases i <;> rfl

theorem set_map {τ : Int → Int} {a : Accounts} {t : TAccount} {i : AccountId} :
    (mapA τ a).set (mapT τ t) i = mapA τ (a.set t i) := by cases i <;> rfl

theorem chk_ok {w x : Int} (h : In w x) : chk w x = .ok x := if_pos h

theorem chk_err {w x : Int} (h : ¬ In w x) : chk w x = .error .overflow := if_neg h

/-- The computation `l` overflows, or does the same as `u`, and then `r` does it up to `φ`. -/
def Ag {α β} (φ : α → β) (l u : Res α) (r : Res β) : Prop :=
  l = .error .overflow ∨ (l = u ∧ r = u.map φ)

theorem Ag.refl {α} (m : Res α) : Ag id m m m := .inr ⟨rfl, by cases m <;> rfl⟩

theorem Ag.ok {α β} {φ : α → β} {x : α} {y : β} (h : y = φ x) :
    Ag φ (.ok x) (.ok x) (.ok y) := .inr ⟨rfl, by rw [h]; rfl⟩

theorem Ag.error {α β} {φ : α → β} {p : Panic} :
    Ag φ (.error p) (.error p) (.error p) := .inr ⟨rfl, rfl⟩

theorem Ag.bind {α α' β β'} {φ : α → α'} {ψ : β → β'} {l u : Res α} {r : Res α'}
    {f g : α → Res β} {h : α' → Res β'} (a : Ag φ l u r)
    (k : ∀ x, u = .ok x → Ag ψ (f x) (g x) (h (φ x))) : Ag ψ (l >>= f) (u >>= g) (r >>= h) := by
  rcases a with a | ⟨a, b⟩
  · left; rw [a]; rfl
  · rw [a, b]
    cases hu : u with
    | error e => exact .error
    | ok x => exact k x hu

theorem ag_ok_bind {α α' β β'} {φ : α → α'} {ψ : β → β'} {l : Res α} {r : Res α'} {x : α}
    {f : α → Res β} {h : α' → Res β'} {u : Res β} (a : Ag φ l (.ok x) r)
    (k : Ag ψ (f x) u (h (φ x))) : Ag ψ (l >>= f) u (r >>= h) := by
  rcases a with a | ⟨a, b⟩
  · left; rw [a]; rfl
  · rw [a, b]; exact k

theorem Ag.assoc {α α' β β' γ γ'} {ψ : γ → γ'} {l : Res α} {r : Res α'} {f : α → Res β}
    {f' : α' → Res β'} {g : β → Res γ} {g' : β' → Res γ'} {u : Res γ}
    (h : Ag ψ (l >>= fun x => f x >>= g) u (r >>= fun x => f' x >>= g')) :
    Ag ψ ((l >>= f) >>= g) u ((r >>= f') >>= g') := by
  cases l <;> cases r <;> exact h

theorem Ag.ite {α β} {φ : α → β} {c : Prop} [i : Decidable c] [j : Decidable c] [k : Decidable c]
    {l l' u u' : Res α} {r r' : Res β} (h : Ag φ l u r) (h' : Ag φ l' u' r') :
    Ag φ (@_root_.ite _ c i l l') (@_root_.ite _ c j u u') (@_root_.ite _ c k r r') := by
  by_cases hc : c
  · simp only [if_pos hc]; exact h
  · simp only [if_neg hc]; exact h'

/-- `l` checks every result but the totals of the accounts. `π` delivers the results that fit, and
keeps `τ` of the totals. -/
structure Follows (l π : Arith) (τ : Int → Int) (w : Int) : Prop where
  ladd : ∀ x, l.add x = chk w x
  lmul : ∀ x, l.mul x = chk w x
  add : ∀ x, In w x → π.add x = .ok x
  mul : ∀ x, In w x → π.mul x = .ok x
  ltotal : ∀ x, l.total x = .error .overflow ∨ l.total x = .ok x
  total : ∀ x y, l.total (x + y) = .ok (x + y) → π.total (τ x + y) = .ok (τ (x + y))
  bal : ∀ x y, In w (x - y) → π.add (τ x - τ y) = .ok (x - y)

namespace Follows

variable {l π : Arith} {τ : Int → Int} {w : Int} (F : Follows l π τ w)
include F

theorem adds {x : Int} : Ag id (l.add x) (.ok x) (π.add x) := by
  rw [F.ladd]
  by_cases h : In w x
  · rw [F.add x h, chk_ok h]; exact .refl _
  · exact .inl (chk_err h)

theorem muls {x : Int} : Ag id (l.mul x) (.ok x) (π.mul x) := by
  rw [F.lmul]
  by_cases h : In w x
  · rw [F.mul x h, chk_ok h]; exact .refl _
  · exact .inl (chk_err h)

theorem totals {x y : Int} : Ag τ (l.total (x + y)) (.ok (x + y)) (π.total (τ x + y)) := by
  rcases F.ltotal (x + y) with h | h
  · exact .inl h
  · rw [F.total x y h, h]; exact .ok rfl

theorem dmuls {s a b : Int} : Ag id (dmul l s a b) (.ok (Lfest.dmul s a b)) (dmul π s a b) :=
  F.muls

theorem ddivs {s a b : Int} : Ag id (ddiv l s a b) (Lfest.ddiv s a b) (ddiv π s a b) := by
  unfold ddiv
  have := (Ag.refl (Lfest.ddiv s a b)).bind (ψ := id) (f := fun x => l.mul x)
    (g := fun x => .ok x) (h := fun x => π.mul x) (fun x _ => F.muls)
  rwa [Mach.bind_ok_right] at this

theorem balances {a : Accounts} {i : AccountId} :
    Ag id (balance l a i) (.ok (a.balance i)) (balance π (mapA τ a) i) := by
  unfold balance Accounts.balance
  rw [get_map, F.ladd]
  by_cases h : In w (a.get i).net
  · have := F.bal _ _ h
    simp only [mapT, TAccount.net] at this ⊢
    rw [this, chk_ok (show In w (_ - _) from h)]; exact .refl _
  · exact .inl (chk_err h)

theorem converts {e : Env} {q p : Int} :
    Ag id (convert l e q p) (Lfest.convert e q p) (convert π e q p) := by
  unfold convert Lfest.convert
  cases e.kind
  · exact F.dmuls
  · exact F.ddivs

theorem pnls {e : Env} {x y q : Int} :
    Ag id (pnl l e x y q) (Lfest.pnl e x y q) (pnl π e x y q) := by
  unfold pnl Lfest.pnl
  split
  · exact .refl _
  · cases e.kind
    · exact F.converts.bind fun _ _ => F.converts.bind fun _ _ => F.adds
    · exact F.converts.bind fun _ _ => F.converts.bind fun _ _ => F.adds

theorem weighted {s p0 w0 p1 w1 : Int} :
    Ag id (newWeightedPrice l s p0 w0 p1 w1) (Lfest.newWeightedPrice s p0 w0 p1 w1)
      (newWeightedPrice π s p0 w0 p1 w1) := by
  unfold newWeightedPrice Lfest.newWeightedPrice
  exact ag_ok_bind F.adds (ag_ok_bind F.dmuls (ag_ok_bind F.dmuls (ag_ok_bind F.adds F.ddivs)))

theorem quantity {o : Limit} :
    Ag id (totalQuantity l o) o.totalQuantity (totalQuantity π o) := by
  unfold totalQuantity Limit.totalQuantity
  cases o.fq with
  | unfilled => exact .refl _
  | filled c a => exact ag_ok_bind F.adds (.refl _)

theorem fills {s : Int} {o : Limit} {q ts : Int} :
    Ag id (fill l s o q ts) (o.fill s q ts) (fill π s o q ts) := by
  unfold fill Limit.fill
  refine (Ag.refl _).bind fun _ _ => (Ag.refl _).bind fun _ _ => ag_ok_bind F.adds ?_
  cases o.fq with
  | unfilled => exact .refl _
  | filled c a => exact F.weighted.bind fun _ _ => ag_ok_bind F.adds (.refl _)

theorem price {s : Int} {f : PriceFilter} {p m : Int} :
    Ag id (validatePrice l s f p m) (f.validate s p m) (validatePrice π s f p m) := by
  unfold validatePrice PriceFilter.validate
  split
  · exact .refl _
  split
  · exact .refl _
  split
  · exact .refl _
  refine ag_ok_bind F.adds ((Ag.refl _).bind fun r _ => ?_)
  dsimp only [id]
  split
  · exact .refl _
  refine ag_ok_bind F.dmuls ?_
  dsimp only [id]
  split
  · exact .refl _
  exact ag_ok_bind F.dmuls (.refl _)

theorem qty {f : QuantityFilter} {q : Int} :
    Ag id (validateQty l f q) (f.validate q) (validateQty π f q) := by
  unfold validateQty QuantityFilter.validate
  split
  · exact .refl _
  split
  · exact .refl _
  split
  · exact .refl _
  exact ag_ok_bind F.adds (.refl _)

theorem transfers {e : Env} {a : Accounts} {d k : AccountId} {x : Int} (he : e.debug = false) :
    Ag (mapA τ) (transfer l e a d k x) (Lfest.transfer e a d k x)
      (transfer π e (mapA τ a) d k x) := by
  unfold transfer Lfest.transfer
  refine (Ag.refl _).bind fun _ _ => (Ag.refl _).bind fun _ _ => ?_
  simp only [debugEquation, debugP, he, get_map]
  refine ag_ok_bind F.totals (ag_ok_bind F.totals (Ag.ok ?_))
  rw [← set_map, ← set_map]; rfl

theorem news {e : Env} {imr : Int} {a : Accounts} {q p f : Int} (he : e.debug = false) :
    Ag (mapP τ) (new l e imr a q p f) (Inner.new e imr a q p f)
      (new π e imr (mapA τ a) q p f) := by
  unfold new Inner.new
  refine (Ag.refl _).bind fun _ _ => (Ag.refl _).bind fun _ _ => ?_
  exact F.converts.bind fun _ _ => ag_ok_bind F.dmuls ((F.transfers he).bind fun _ _ => .ok rfl)

theorem increases {e : Env} {imr : Int} {a : Accounts} {i : Inner} {q p f : Int}
    (he : e.debug = false) :
    Ag (mapP τ) (increase l e imr a i q p f) (i.increase e imr a q p f)
      (increase π e imr (mapA τ a) i q p f) := by
  unfold increase Inner.increase
  refine (Ag.refl _).bind fun _ _ => (Ag.refl _).bind fun _ _ => ?_
  exact F.converts.bind fun _ _ => F.weighted.bind fun _ _ => ag_ok_bind F.dmuls
    ((F.transfers he).bind fun _ _ => ag_ok_bind F.adds (ag_ok_bind F.adds (.ok rfl)))

theorem settlesPnl {e : Env} {a : Accounts} {v : Int} (he : e.debug = false) :
    Ag (mapA τ) (settlePnl l e a v) (Lfest.settlePnl e a v) (settlePnl π e (mapA τ a) v) := by
  unfold settlePnl Lfest.settlePnl
  split
  · exact F.transfers he
  split
  · exact ag_ok_bind F.adds (F.transfers he)
  · exact .ok rfl

theorem settlesFees {e : Env} {a : Accounts} {v : Int} (he : e.debug = false) :
    Ag (mapP τ) (settleFees l e a v) (Lfest.settleFees e a v) (settleFees π e (mapA τ a) v) := by
  unfold settleFees Lfest.settleFees
  split
  · exact (F.transfers he).bind fun _ _ => .ok rfl
  · exact .ok rfl

theorem decreases {e : Env} {imr : Int} {a : Accounts} {i : Inner} {q p dir f : Int}
    (he : e.debug = false) :
    Ag (mapP τ) (decrease l e imr a i q p dir f) (i.decrease e imr a q p dir f)
      (decrease π e imr (mapA τ a) i q p dir f) := by
  unfold decrease Inner.decrease
  refine (Ag.refl _).bind fun _ _ => (Ag.refl _).bind fun _ _ => ag_ok_bind F.adds ?_
  refine (Ag.refl _).bind fun _ _ => ag_ok_bind F.adds ?_
  refine F.pnls.bind fun _ _ => (F.settlesPnl he).bind fun _ _ => ?_
  refine F.converts.bind fun _ _ => ag_ok_bind F.dmuls ((Ag.refl _).bind fun _ _ => ?_)
  exact (F.transfers he).bind fun _ _ => (F.settlesFees he).bind fun _ _ => .ok rfl

theorem flips {e : Env} {imr : Int} {a : Accounts} {i : Inner} {q p dir f : Int} {β : Type}
    {k : Inner × Accounts → β} {k' : Inner × Accounts → β} {φ : β → β}
    (he : e.debug = false) (hk : ∀ x, k' (mapP τ x) = φ (k x)) :
    Ag φ (flip l e imr a i q p dir f >>= fun x => .ok (k x))
      (do
        let (i', a') ← i.decrease e imr a i.qty p dir f
        assertP (i'.qty = 0) .flipQty
        assertP (a'.balance .positionMargin = 0) .flipMargin
        let x ← Inner.new e imr a' (q - i.qty) p 0
        .ok (k x))
      (flip π e imr (mapA τ a) i q p dir f >>= fun x => .ok (k' x)) := by
  unfold flip
  refine .assoc (ag_ok_bind F.adds (.assoc ((F.decreases he).bind fun x _ => ?_)))
  refine .assoc ((Ag.refl _).bind fun _ _ => .assoc (ag_ok_bind F.balances ?_))
  refine .assoc ((Ag.refl _).bind fun _ _ => ?_)
  exact (F.news he).bind fun _ _ => .ok (hk _)

omit F in
theorem noMargin {d : Bool} {a : Accounts} {p : Panic} (he : d = false) :
    Ag id (debugNoMargin l d a p) (debugP d (a.balance .positionMargin = 0) p)
      (debugNoMargin π d (mapA τ a) p) := by
  subst he
  exact .refl _

theorem changes {e : Env} {imr : Int} {a : Accounts} {pos : Position} {q p : Int} {side : Side}
    {f : Int} (he : e.debug = false) :
    Ag (mapP τ) (changePosition l e imr a pos q p side f)
      (Lfest.changePosition e imr a pos q p side f)
      (changePosition π e imr (mapA τ a) pos q p side f) := by
  unfold changePosition Lfest.changePosition
  refine (Ag.refl _).bind fun _ _ => ?_
  cases pos with
  | neutral =>
    refine (noMargin he).bind fun _ _ => ?_
    cases side <;> exact (F.news he).bind fun _ _ => .ok rfl
  | long i =>
    cases side with
    | buy => exact (F.increases he).bind fun _ _ => .ok rfl
    | sell =>
      dsimp only
      split
      · exact (F.decreases he).bind fun _ _ => .ok rfl
      split
      · exact (F.decreases he).bind fun _ _ => (noMargin he).bind fun _ _ => .ok rfl
      · exact F.flips he fun _ => rfl
  | short i =>
    cases side with
    | sell => exact (F.increases he).bind fun _ _ => .ok rfl
    | buy =>
      dsimp only
      split
      · exact (F.decreases he).bind fun _ _ => .ok rfl
      split
      · exact (F.decreases he).bind fun _ _ => (noMargin he).bind fun _ _ => .ok rfl
      · exact F.flips he fun _ => rfl

/-! ## Order margin and risk -/

theorem offset : ∀ (xs : List (Int × Int)) (pos : Int),
    Ag id (offsetOrders l pos xs) (.ok (Lfest.offsetOrders pos xs)) (offsetOrders π pos xs)
  | [], _ => .refl _
  | (p, q) :: xs, pos => by
    unfold offsetOrders Lfest.offsetOrders
    split
    · exact ag_ok_bind F.adds (ag_ok_bind F.adds (ag_ok_bind (offset xs _) (.refl _)))
    · exact .refl _

theorem sumsValue {e : Env} : ∀ (xs : List (Int × Int)) (acc : Int),
    Ag id (sumValue l e acc xs) (Lfest.sumValue e acc xs) (sumValue π e acc xs)
  | [], _ => .refl _
  | (_, _) :: xs, _ =>
    F.converts.bind fun _ _ => ag_ok_bind F.adds (sumsValue xs _)

theorem offsetsBuys {pos : Position} {xs : List (Int × Int)} :
    Ag id (offsetBuys l pos xs) (.ok (match pos with
      | .short p => Lfest.offsetOrders p.qty xs
      | _ => xs)) (offsetBuys π pos xs) := by
  unfold offsetBuys
  cases pos with
  | short p => exact F.offset xs _
  | _ => exact .refl _

theorem offsetsSells {pos : Position} {xs : List (Int × Int)} :
    Ag id (offsetSells l pos xs) (.ok (match pos with
      | .long p => Lfest.offsetOrders p.qty xs
      | _ => xs)) (offsetSells π pos xs) := by
  unfold offsetSells
  cases pos with
  | long p => exact F.offset xs _
  | _ => exact .refl _

theorem marginInternal {e : Env} {imr : Int} {b : Book} {pos : Position} {new : Option Limit} :
    Ag id (orderMarginInternal l e imr b pos new) (Lfest.orderMarginInternal e imr b pos new)
      (orderMarginInternal π e imr b pos new) := by
  unfold orderMarginInternal Lfest.orderMarginInternal
  refine (Ag.refl _).bind fun _ _ => ag_ok_bind F.offsetsBuys (ag_ok_bind F.offsetsSells ?_)
  exact (F.sumsValue _ _).bind fun _ _ => (F.sumsValue _ _).bind fun _ _ => F.dmuls

theorem margin {e : Env} {imr : Int} {b : Book} {pos : Position} :
    Ag id (orderMargin l e imr b pos) (Lfest.orderMargin e imr b pos)
      (orderMargin π e imr b pos) := F.marginInternal

theorem funds {c : Cfg} {q p f : Int} :
    Ag id (checkFunds l c q p f) (Lfest.checkFunds c q p f) (checkFunds π c q p f) := by
  unfold checkFunds Lfest.checkFunds
  exact F.converts.bind fun _ _ =>
    ag_ok_bind F.dmuls (ag_ok_bind F.dmuls (ag_ok_bind F.adds (.refl _)))

theorem market {c : Cfg} {pos : Position} {pm : Int} {side : Side} {q p wal : Int} :
    Ag id (checkMarketOrder l c pos pm side q p wal) (Lfest.checkMarketOrder c pos pm side q p wal)
      (checkMarketOrder π c pos pm side q p wal) := by
  unfold checkMarketOrder Lfest.checkMarketOrder
  cases side <;> cases pos <;> simp only [checkMarketBuy, checkMarketSell, checkFlip] <;>
    first
    | exact F.funds
    | (split
       · exact .refl _
       · exact ag_ok_bind F.adds (ag_ok_bind F.adds F.funds))

theorem limit {c : Cfg} {pos : Position} {o : Limit} {wal : Int} {om : Book} :
    Ag id (checkLimitOrder l c pos o wal om) (Lfest.checkLimitOrder c pos o wal om)
      (checkLimitOrder π c pos o wal om) := by
  unfold checkLimitOrder Lfest.checkLimitOrder
  exact F.margin.bind fun _ _ => F.marginInternal.bind fun _ _ => ag_ok_bind F.adds (.refl _)

theorem maintenance {c : Cfg} {ms : MarketState} {pos : Position} :
    Ag id (checkMaintenanceMargin l c ms pos) (.ok (Lfest.checkMaintenanceMargin c ms pos))
      (checkMaintenanceMargin π c ms pos) := by
  unfold checkMaintenanceMargin Lfest.checkMaintenanceMargin
  cases pos with
  | neutral => exact .refl _
  | long p =>
    unfold liquidationPriceLong
    refine .assoc (ag_ok_bind F.adds (ag_ok_bind F.dmuls ?_))
    change Ag id (if ms.bid < Lfest.liquidationPriceLong c.scale p.entry c.spec.maintenanceMargin
      then .ok (Except.error RiskError.liquidate) else .ok (Except.ok ())) _
      (if ms.bid < Lfest.liquidationPriceLong c.scale p.entry c.spec.maintenanceMargin
      then .ok (Except.error RiskError.liquidate) else .ok (Except.ok ()))
    by_cases h : ms.bid < Lfest.liquidationPriceLong c.scale p.entry c.spec.maintenanceMargin
    · simp only [if_pos h]; exact .refl _
    · simp only [if_neg h]; exact .refl _
  | short p =>
    unfold liquidationPriceShort
    refine .assoc (ag_ok_bind F.adds (ag_ok_bind F.dmuls ?_))
    change Ag id (if ms.ask > Lfest.liquidationPriceShort c.scale p.entry c.spec.maintenanceMargin
      then .ok (Except.error RiskError.liquidate) else .ok (Except.ok ())) _
      (if ms.ask > Lfest.liquidationPriceShort c.scale p.entry c.spec.maintenanceMargin
      then .ok (Except.error RiskError.liquidate) else .ok (Except.ok ()))
    by_cases h : ms.ask > Lfest.liquidationPriceShort c.scale p.entry c.spec.maintenanceMargin
    · simp only [if_pos h]; exact .refl _
    · simp only [if_neg h]; exact .refl _

/-! ## Market updates -/

theorem mids {s : Int} {m : MarketState} : Ag id (mid l s m) (.ok (m.mid s)) (mid π s m) :=
  ag_ok_bind F.adds F.muls

theorem aggregatesLoop : ∀ (xs : List (Int × Int)) (last sum : Int),
    Ag id (aggregateLoop l last sum xs) (.ok (Lfest.aggregateLoop last sum xs))
      (aggregateLoop π last sum xs)
  | [], _, _ => .refl _
  | (p, q) :: xs, last, sum => by
    unfold aggregateLoop Lfest.aggregateLoop
    refine ag_ok_bind F.adds ?_
    dsimp only [id]
    split
    · exact ag_ok_bind (aggregatesLoop xs _ _) (.refl _)
    · exact aggregatesLoop xs _ _

theorem aggregates {xs : List (Int × Int)} :
    Ag id (aggregate l xs) (.ok (Lfest.aggregate xs)) (aggregate π xs) := by
  cases xs with
  | nil => exact .refl _
  | cons x xs => exact F.aggregatesLoop _ _ _

theorem smart {d : Bool} {ts : List Trade} {b : Bba} {pf : PriceFilter} :
    Ag id (smartNew l d ts b pf) (SmartCandle.new d ts b pf) (smartNew π d ts b pf) := by
  unfold smartNew SmartCandle.new
  cases ts with
  | nil => exact .refl _
  | cons t0 rest =>
    refine (Ag.refl _).bind fun _ _ => (Ag.refl _).bind fun _ _ => ?_
    refine (Ag.refl _).bind fun r _ => ?_
    cases r with
    | error _ => exact .refl _
    | ok _ =>
      refine (Ag.refl _).bind fun _ _ => ?_
      exact ag_ok_bind F.aggregates (ag_ok_bind F.aggregates (.refl _))

theorem builds {d : Bool} {u : UpdateArg} : Ag id (build l d u) (u.build d) (build π d u) := by
  cases u with
  | smart ts b pf => exact F.smart.bind fun _ _ => .refl _
  | _ => exact .refl _

/-! ## The exchange -/

theorem settlesMarket {c : Cfg} {s : State} {o : FilledMarket} (he : c.env.debug = false) :
    Ag (mapS τ) (settleMarket l c s o) (Lfest.settleMarket c s o)
      (settleMarket π c (mapS τ s) o) := by
  unfold settleMarket Lfest.settleMarket
  refine (Ag.refl _).bind fun _ _ => (Ag.refl _).bind fun _ _ => ?_
  exact F.converts.bind fun _ _ => ag_ok_bind F.dmuls ((F.changes he).bind fun _ _ => .ok rfl)

theorem submitsMarket {c : Cfg} {s : State} {o : NewMarket} (he : c.env.debug = false) :
    Ag (mapR τ) (submitMarket l c s o) (Lfest.submitMarket c s o)
      (submitMarket π c (mapS τ s) o) := by
  unfold submitMarket Lfest.submitMarket
  refine F.qty.bind fun r _ => ?_
  cases r with
  | error _ => exact .ok rfl
  | ok _ =>
    refine ag_ok_bind F.balances (ag_ok_bind F.balances (F.market.bind fun r _ => ?_))
    cases r with
    | error _ => exact .ok rfl
    | ok _ => exact (F.settlesMarket he).bind fun _ _ => .ok rfl

theorem empties {b : Book} {a : Accounts} :
    Ag id (emptyCheck l b a) (assertP (b = [] → a.balance .orderMargin = 0) .emptyButMargin)
      (emptyCheck π b (mapA τ a)) := by
  unfold emptyCheck
  split
  · next h =>
    refine ag_ok_bind F.balances ?_
    have : assertP (b = [] → a.balance .orderMargin = 0) .emptyButMargin =
      assertP (a.balance .orderMargin = 0) .emptyButMargin := by simp [assertP, h]
    rw [this]; exact .refl _
  · next h =>
    have : assertP (b = [] → a.balance .orderMargin = 0) .emptyButMargin = .ok () := by
      simp [assertP, h]
    rw [this]; exact .refl _

theorem wallets {a : Accounts} :
    Ag id (walletCheck l a) (assertP (a.balance .wallet ≥ 0) .walletNegative)
      (walletCheck π (mapA τ a)) :=
  ag_ok_bind F.balances (.refl _)

theorem appendsChecks {s : State} :
    Ag (mapS τ) (appendChecks l s) (Lfest.appendChecks s) (appendChecks π (mapS τ s)) := by
  unfold appendChecks Lfest.appendChecks
  refine (Ag.refl _).bind fun _ _ => F.empties.bind fun _ _ => ?_
  exact F.wallets.bind fun _ _ => .ok rfl

theorem appends {c : Cfg} {s : State} {o : Limit} (he : c.env.debug = false) :
    Ag (mapR τ) (appendLimit l c s o) (Lfest.appendLimit c s o)
      (appendLimit π c (mapS τ s) o) := by
  unfold appendLimit Lfest.appendLimit
  refine (Ag.refl _).bind fun r _ => ?_
  cases r with
  | error _ => exact .ok rfl
  | ok om' =>
    dsimp only [id, mapS]
    cases Book.insert activeCap s.active o with
    | error _ => exact .ok rfl
    | ok r =>
      refine F.margin.bind fun _ _ => ag_ok_bind F.balances ?_
      dsimp only [id]
      split
      · refine ag_ok_bind F.adds ((F.transfers he).bind fun _ _ => ?_)
        exact F.appendsChecks.bind fun _ _ => .ok rfl
      split
      · refine ag_ok_bind F.adds ((F.transfers he).bind fun _ _ => ?_)
        exact F.appendsChecks.bind fun _ _ => .ok rfl
      · exact .ok rfl

theorem submitsLimit {c : Cfg} {s : State} {o : NewLimit} (he : c.env.debug = false) :
    Ag (mapR τ) (submitLimit l c s o) (Lfest.submitLimit c s o)
      (submitLimit π c (mapS τ s) o) := by
  unfold submitLimit Lfest.submitLimit
  refine F.qty.bind fun r _ => ?_
  cases r with
  | error _ => exact .ok rfl
  | ok _ =>
    refine ag_ok_bind F.mids (F.price.bind fun r _ => ?_)
    cases r with
    | error _ => exact .ok rfl
    | ok _ =>
      refine ag_ok_bind F.balances (F.limit.bind fun r _ => ?_)
      cases r with
      | error _ => exact .ok rfl
      | ok _ =>
        dsimp only [id, mapS]
        refine .ite (.ok rfl) ((F.appends he).bind fun r _ => ?_)
        obtain ⟨s', r⟩ := r
        cases r <;> exact .ok rfl

theorem refunds {e : Env} {a : Accounts} {m n : Int} (he : e.debug = false) :
    Ag (mapA τ) (refund l e a m n) (Lfest.refund e a m n) (refund π e (mapA τ a) m n) := by
  unfold refund Lfest.refund
  split
  · exact ag_ok_bind F.adds (F.transfers he)
  · exact .ok rfl

theorem cancels {c : Cfg} {s : State} {k : CancelBy} (he : c.env.debug = false) :
    Ag (mapR τ) (cancelLimit l c s k) (Lfest.cancelLimit c s k)
      (cancelLimit π c (mapS τ s) k) := by
  unfold cancelLimit Lfest.cancelLimit
  refine ag_ok_bind F.balances (F.margin.bind fun _ _ => (Ag.refl _).bind fun _ _ => ?_)
  dsimp only [id, mapS]
  cases s.active.removeCancel k with
  | none => exact .ok rfl
  | some r =>
    refine (Ag.refl _).bind fun _ _ => F.margin.bind fun _ _ => ?_
    refine (Ag.refl _).bind fun _ _ => (F.refunds he).bind fun _ _ => ?_
    exact (Ag.refl _).bind fun _ _ => F.empties.bind fun _ _ => .ok rfl

theorem amends {c : Cfg} {s : State} {id : Nat} {o : NewLimit} (he : c.env.debug = false) :
    Ag (mapR τ) (amendLimit l c s id o) (Lfest.amendLimit c s id o)
      (amendLimit π c (mapS τ s) id o) := by
  unfold amendLimit Lfest.amendLimit
  change Ag _ _ _ (match s.active.getById id with
    | none => _
    | some old => _)
  cases s.active.getById id with
  | none => exact .ok rfl
  | some old =>
    refine F.quantity.bind fun _ _ => ag_ok_bind F.adds (ag_ok_bind F.adds ?_)
    dsimp only [_root_.id]
    split
    · refine (F.cancels he).bind fun r _ => ?_
      obtain ⟨s', r⟩ := r
      cases r
      · exact .error
      · exact .ok rfl
    · refine (Ag.refl _).bind fun _ _ => (F.cancels he).bind fun r _ => ?_
      obtain ⟨s', r⟩ := r
      cases r with
      | error _ => exact .ok rfl
      | ok _ => exact F.submitsLimit he

omit F in
theorem marginEq {c : Cfg} {a : Accounts} {om : Book} {pos : Position} {p : Panic}
    (he : c.env.debug = false) :
    Ag id (debugMarginEq l c a om pos p) (Lfest.debugMarginEq c a om pos p)
      (debugMarginEq π c (mapA τ a) om pos p) := by
  unfold debugMarginEq Lfest.debugMarginEq
  simp only [he]
  exact .refl _

theorem applies {c : Cfg} {ts : Int} {x : Loop} {o : Limit} {q : Int} :
    Ag (mapM τ) (applyFill l c ts x o q) (Lfest.applyFill c ts x o q)
      (applyFill π c ts (mapL τ x) o q) := by
  unfold applyFill Lfest.applyFill
  refine F.fills.bind fun r _ => ?_
  obtain ⟨o', f⟩ := r
  cases f with
  | some f => exact (Ag.refl _).bind fun _ _ => .ok rfl
  | none =>
    refine (Ag.refl _).bind fun _ _ => (Ag.refl _).bind fun r _ => ?_
    cases r
    · exact .error
    · exact .ok rfl

theorem settlesLimit {c : Cfg} {x : Loop} {o : Limit} {q : Int} (he : c.env.debug = false) :
    Ag (mapL τ) (settleLimit l c x o q) (Lfest.settleLimit c x o q)
      (settleLimit π c (mapL τ x) o q) := by
  unfold settleLimit Lfest.settleLimit
  exact F.converts.bind fun _ _ => ag_ok_bind F.dmuls ((F.changes he).bind fun _ _ => .ok rfl)

theorem releases {c : Cfg} {x : Loop} {m : Int} (he : c.env.debug = false) :
    Ag (mapL τ) (releaseMargin l c x m) (Lfest.releaseMargin c x m)
      (releaseMargin π c (mapL τ x) m) := by
  unfold releaseMargin Lfest.releaseMargin
  refine F.margin.bind fun _ _ => (Ag.refl _).bind fun _ _ => ?_
  exact (F.refunds he).bind fun _ _ => .ok rfl

theorem matches_ {c : Cfg} {u : Update} {x : Loop} {o : Limit} (he : c.env.debug = false) :
    Ag (mapM τ) (matchOrder l c u x o) (Lfest.matchOrder c u x o)
      (matchOrder π c u (mapL τ x) o) := by
  unfold matchOrder Lfest.matchOrder
  refine (Ag.refl _).bind fun r _ => ?_
  cases r with
  | none => exact .ok rfl
  | some q =>
    refine (Ag.refl _).bind fun _ _ => ag_ok_bind F.balances ((marginEq he).bind fun _ _ => ?_)
    refine F.applies.bind fun _ _ => (F.settlesLimit he).bind fun _ _ => ?_
    exact (F.releases he).bind fun _ _ => .ok rfl

theorem loops {c : Cfg} {u : Update} (he : c.env.debug = false) : ∀ (os : List Limit) (x : Loop),
    Ag (mapM τ) (matchLoop l c u x os) (Lfest.matchLoop c u x os) (matchLoop π c u (mapL τ x) os)
  | [], _ => .ok rfl
  | _ :: os, _ =>
    (F.matches_ he).bind fun _ _ => (loops he os _).bind fun _ _ => .ok rfl

theorem checksActive {c : Cfg} {s : State} {u : Update} (he : c.env.debug = false) :
    Ag (mapS τ) (checkActive l c s u) (Lfest.checkActive c s u)
      (checkActive π c (mapS τ s) u) := by
  unfold checkActive Lfest.checkActive
  split
  · exact .ok rfl
  · refine (Ag.refl _).bind fun _ _ => (F.loops he _ _).bind fun _ _ => ?_
    refine (Ag.refl _).bind fun _ _ => (Ag.refl _).bind fun _ _ => ?_
    refine (Ag.refl _).bind fun _ _ => ?_
    simp only [debugEmpty, debugP, he]
    refine (Ag.refl (.ok ())).bind fun _ _ => ?_
    exact (marginEq he).bind fun _ _ => F.wallets.bind fun _ _ => .ok rfl

theorem liquidates {c : Cfg} {s : State} (he : c.env.debug = false) :
    Ag (mapS τ) (liquidate l c s) (Lfest.liquidate c s) (liquidate π c (mapS τ s)) := by
  unfold liquidate Lfest.liquidate
  refine (Ag.refl _).bind fun _ _ => (F.submitsMarket he).bind fun r _ => ?_
  obtain ⟨s', r⟩ := r
  cases r
  · exact .error
  · exact .ok rfl

theorem users {a : Accounts} :
    Ag id (userBalances l a) (.ok (Lfest.userBalances a)) (userBalances π (mapA τ a)) :=
  ag_ok_bind F.balances (ag_ok_bind F.balances (ag_ok_bind F.balances (.refl _)))

theorem observes {c : Cfg} {s : State} {u : Update} :
    Ag (mapS τ) (observe l c s u) (Lfest.observe c s u) (observe π c (mapS τ s) u) := by
  unfold observe Lfest.observe
  refine (Ag.refl _).bind fun ms' _ => ?_
  dsimp only [sampleLog, mapS, id]
  split
  · exact .assoc (ag_ok_bind F.users (.assoc (ag_ok_bind F.mids (.ok rfl))))
  · exact .ok rfl

theorem updates {c : Cfg} {s : State} {u : Update} (he : c.env.debug = false) :
    Ag (mapR τ) (updateState l c s u) (Lfest.updateState c s u)
      (updateState π c (mapS τ s) u) := by
  unfold updateState Lfest.updateState
  refine F.observes.bind fun s1 _ => ag_ok_bind F.maintenance ?_
  dsimp only [mapS, id]
  cases Lfest.checkMaintenanceMargin c s1.ms s1.pos with
  | error _ => exact (F.liquidates he).bind fun _ _ => .ok rfl
  | ok _ => exact (F.checksActive he).bind fun _ _ => .ok rfl

theorem steps {c : Cfg} {s : State} {op : Op} (he : c.env.debug = false) :
    Ag (mapR τ) (step l c s op) (Lfest.step c s op) (step π c (mapS τ s) op) := by
  unfold step Lfest.step
  cases op with
  | update a => exact F.builds.bind fun _ _ => (F.updates he).bind fun _ _ => .ok rfl
  | checkActive a => exact F.builds.bind fun _ _ => (F.checksActive he).bind fun _ _ => .ok rfl
  | market side q uid =>
    dsimp only
    cases NewMarket.new side q uid with
    | error _ => exact .ok rfl
    | ok o => exact (F.submitsMarket he).bind fun _ _ => .ok rfl
  | limit side p q uid =>
    dsimp only
    cases NewLimit.new side p q uid with
    | error _ => exact .ok rfl
    | ok o => exact (F.submitsLimit he).bind fun _ _ => .ok rfl
  | amend id side p q uid =>
    dsimp only
    cases NewLimit.new side p q uid with
    | error _ => exact .ok rfl
    | ok o => exact (F.amends he).bind fun _ _ => .ok rfl
  | cancel k => exact (F.cancels he).bind fun _ _ => .ok rfl

theorem runs {c : Cfg} (he : c.env.debug = false) : ∀ (ops : List Op) (s : State),
    Ag (mapS τ) (run l c s ops) (Lfest.run c s ops) (run π c (mapS τ s) ops)
  | [], _ => .ok rfl
  | _ :: ops, _ => (F.steps he).bind fun _ _ => runs he ops _

end Follows

end Lfest.Rel
