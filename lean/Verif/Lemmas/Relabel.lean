import Verif.Relabel
import Verif.Lemmas.Monad

/-! Lemmas for C74: every function of the model commutes with relabelling. -/

namespace Lfest

namespace Relabel

variable (l : Relabel)

/-- Computations that commute with a map of results. -/
theorem bind_map {α β γ δ} (x : Res α) (m : α → β) (f : β → Res γ) (g : α → Res δ) (n : δ → γ)
    (h : ∀ a, f (m a) = (g a).map n) : (x.map m >>= f) = (x >>= g).map n := by
  cases x with
  | error e => rfl
  | ok a => exact h a

theorem bind_same {α γ δ} (x : Res α) (f : α → Res γ) (g : α → Res δ) (n : δ → γ)
    (h : ∀ a, f a = (g a).map n) : (x >>= f) = (x >>= g).map n := by
  cases x with
  | error e => rfl
  | ok a => exact h a

theorem limit_id (o : Limit) : (l.limit o).id = o.id := rfl
theorem limit_uid (o : Limit) : (l.limit o).uid = l.limitId o.uid := rfl

theorem limit_inj {l : Relabel} (hf : Function.Injective l.limitId) :
    Function.Injective l.limit := by
  intro a b h
  cases a; cases b
  simp only [limit, Limit.mk.injEq] at h ⊢
  obtain ⟨h1, h2, h3, h4, h5, h6, h7⟩ := h
  exact ⟨hf h1, h2, h3, h4, h5, by omega, h7⟩

theorem book_inj {l : Relabel} (hf : Function.Injective l.limitId) {a b : Book} :
    a.map l.limit = b.map l.limit ↔ a = b :=
  ⟨fun h => List.map_inj_right (fun _ _ h => limit_inj hf h) |>.mp h, fun h => by rw [h]⟩

theorem sideOrders_eq (side : Side) (b : Book) (new : Option Limit) :
    sideOrders side (b.map l.limit) (new.map l.limit) = sideOrders side b new := by
  unfold sideOrders
  congr 1
  · rw [List.filter_map, List.map_map]; rfl
  · cases new <;> rfl

theorem orderMargin_eq (e : Env) (imr : Int) (b : Book) (pos : Position) :
    orderMargin e imr (b.map l.limit) pos = orderMargin e imr b pos := by
  unfold orderMargin orderMarginInternal
  have h1 := sideOrders_eq l .buy b none
  have h2 := sideOrders_eq l .sell b none
  simp only [Option.map_none] at h1 h2
  simp only [h1, h2]

theorem orderMarginWithOrder_eq (e : Env) (imr : Int) (b : Book) (pos : Position) (o : Limit) :
    orderMarginWithOrder e imr (b.map l.limit) pos (l.limit o) =
      orderMarginWithOrder e imr b pos o := by
  unfold orderMarginWithOrder orderMarginInternal
  have h1 := sideOrders_eq l .buy b (some o)
  have h2 := sideOrders_eq l .sell b (some o)
  simp only [Option.map_some] at h1 h2
  simp only [h1, h2]

theorem getById_eq (b : Book) (id : Nat) :
    Book.getById (b.map l.limit) id = (Book.getById b id).map l.limit := by
  unfold Book.getById
  rw [List.find?_map]
  rfl

theorem replaceFirst_eq (p q : Limit → Bool) (o : Limit) (hp : ∀ x, p (l.limit x) = q x) :
    ∀ b : Book, replaceFirst p (l.limit o) (b.map l.limit) = (replaceFirst q o b).map l.limit
  | [] => rfl
  | x :: xs => by
    simp only [List.map_cons, replaceFirst, hp, replaceFirst_eq p q o hp xs]
    split <;> rfl

theorem insert_eq (cap : Nat) (b : Book) (o : Limit) :
    Book.insert cap (b.map l.limit) (l.limit o) =
      (Book.insert cap b o).map (fun r => (r.1.map l.limit, r.2.map l.limit)) := by
  unfold Book.insert
  simp only [limit_id, getById_eq]
  cases Book.getById b o.id with
  | some old =>
    simp only [Option.map_some, Except.map]
    rw [replaceFirst_eq l _ (fun x => x.id == o.id) o (fun _ => rfl)]
  | none =>
    simp only [Option.map_none, List.length_map]
    split <;> simp [Except.map]

theorem position_eq (p q : Limit → Bool) (hp : ∀ x, p (l.limit x) = q x) :
    ∀ b : Book, position p (b.map l.limit) = position q b
  | [] => rfl
  | x :: xs => by simp only [List.map_cons, position, hp, position_eq p q hp xs]

theorem swapRemove_eq (b : Book) (i : Nat) :
    swapRemove (b.map l.limit) i = (swapRemove b i).map l.limit := by
  unfold swapRemove
  rw [List.getLast?_map]
  cases b.getLast? with
  | none => rfl
  | some z => simp [List.map_set, List.map_dropLast]

theorem removeBy_eq (p q : Limit → Bool) (hp : ∀ x, p (l.limit x) = q x) (b : Book) :
    Book.removeBy p (b.map l.limit) =
      (Book.removeBy q b).map (fun r => (l.limit r.1, r.2.map l.limit)) := by
  unfold Book.removeBy
  rw [position_eq l p q hp]
  cases position q b with
  | none => rfl
  | some i =>
    simp only [List.getElem?_map]
    cases b[i]? with
    | none => rfl
    | some o => simp [swapRemove_eq]

theorem removeCancel_eq {l : Relabel} (hf : Function.Injective l.limitId) (b : Book)
    (x : CancelBy) : Book.removeCancel (b.map l.limit) (l.cancelBy x) =
      (Book.removeCancel b x).map (fun r => (l.limit r.1, r.2.map l.limit)) := by
  cases x with
  | orderId id => exact removeBy_eq l _ _ (fun _ => rfl) b
  | userOrderId uid =>
    refine removeBy_eq l _ _ (fun x => ?_) b
    simp only [limit_uid]
    by_cases h : x.uid = uid
    · simp [h]
    · have : l.limitId x.uid ≠ l.limitId uid := fun e => h (hf e)
      rw [beq_eq_false_iff_ne.mpr h, beq_eq_false_iff_ne.mpr this]

theorem omRemove_eq {l : Relabel} (hf : Function.Injective l.limitId) (b : Book)
    (x : CancelBy) : omRemove (b.map l.limit) (l.cancelBy x) =
      (omRemove b x).map (List.map l.limit) := by
  unfold omRemove
  rw [removeCancel_eq hf]
  cases Book.removeCancel b x <;> rfl

theorem omUpdate_eq {l : Relabel} (hf : Function.Injective l.limitId) (cap : Nat) (b : Book)
    (o : Limit) : omUpdate cap (b.map l.limit) (l.limit o) =
      (omUpdate cap b o).map (fun r => r.map (List.map l.limit)) := by
  unfold omUpdate
  rw [insert_eq]
  refine bind_same _ _ _ _ (fun _ => ?_)
  cases Book.insert cap b o with
  | error err => rfl
  | ok r =>
    obtain ⟨b', old⟩ := r
    cases old with
    | none => rfl
    | some old =>
      simp only [Except.map, Option.map_some]
      have h1 : assertP (l.limit old ≠ l.limit o) .omSame = assertP (old ≠ o) .omSame := by
        unfold assertP
        simp only [ne_eq, (limit_inj hf).eq_iff]
      rw [h1]
      refine bind_same _ _ _ _ (fun _ => ?_)
      exact bind_same _ _ _ _ (fun _ => rfl)

theorem fill_eq (s : Int) (o : Limit) (q ts : Int) :
    Limit.fill s (l.limit o) q (ts + l.shift) =
      (Limit.fill s o q ts).map (fun r => (l.limit r.1, r.2.map l.filledLimit)) := by
  unfold Limit.fill
  refine bind_same _ _ _ _ (fun _ => ?_)
  refine bind_same _ _ _ _ (fun _ => ?_)
  show (match o.fq with | .unfilled => _ | .filled c avg => _) = _
  cases o.fq with
  | unfilled =>
    show (if q = o.remaining then _ else _) = _
    by_cases h : q = o.remaining
    · simp only [h, if_true]; rfl
    · simp only [if_neg h]; rfl
  | filled c avg =>
    refine bind_same _ _ _ _ (fun a => ?_)
    show (if o.remaining - q = 0 then _ else _) = Except.map _ (if o.remaining - q = 0 then _ else _)
    by_cases h : o.remaining - q = 0
    · rw [if_pos h, if_pos h]; rfl
    · rw [if_neg h, if_neg h]; rfl

theorem settleMarket_eq (c : Cfg) (s : State) (o : FilledMarket) :
    settleMarket c (l.state s) (l.filledMarket o) = (settleMarket c s o).map l.state := by
  unfold settleMarket
  refine bind_same _ _ _ _ (fun _ => ?_)
  refine bind_same _ _ _ _ (fun _ => ?_)
  refine bind_same _ _ _ _ (fun _ => ?_)
  exact bind_same _ _ _ _ (fun _ => rfl)

/-- A result of a public method with other labels. -/
def result {α} (m : α → α) (r : State × Except Error α) : State × Except Error α :=
  (l.state r.1, r.2.map m)

theorem submitMarket_eq (c : Cfg) (s : State) (o : NewMarket) :
    submitMarket c (l.state s) (l.newMarket o) =
      (submitMarket c s o).map (l.result l.filledMarket) := by
  unfold submitMarket
  refine bind_same _ _ _ _ (fun r => ?_)
  cases r with
  | error err => rfl
  | ok _ =>
    have ht : ∀ sd, touch (l.state s).ms sd = touch s.ms sd := by intro sd; cases sd <;> rfl
    simp only [ht]
    refine bind_same _ _ _ _ (fun r => ?_)
    cases r with
    | error err => rfl
    | ok _ =>
      have := settleMarket_eq l c { s with log := .marketSubmit o :: s.log, nextId := s.nextId + 1 }
        (o.intoFilled s.nextId s.ms.ts (touch s.ms o.side) s.ms.ts)
      refine Eq.trans (congrArg (· >>= _) this) ?_
      exact bind_map _ _ _ _ _ (fun _ => rfl)

theorem appendChecks_eq {l : Relabel} (hf : Function.Injective l.limitId) (s : State) :
    appendChecks (l.state s) = (appendChecks s).map l.state := by
  unfold appendChecks
  have h1 : assertP ((l.state s).om = (l.state s).active) .booksDiffer =
      assertP (s.om = s.active) .booksDiffer := by
    unfold assertP
    simp only [state, book_inj hf]
  have h2 : assertP ((l.state s).active = [] → (l.state s).acct.balance .orderMargin = 0)
      .emptyButMargin = assertP (s.active = [] → s.acct.balance .orderMargin = 0)
      .emptyButMargin := by
    unfold assertP
    simp only [state, List.map_eq_nil_iff]
  rw [h1]
  refine bind_same _ _ _ _ (fun _ => ?_)
  rw [h2]
  refine bind_same _ _ _ _ (fun _ => ?_)
  exact bind_same _ _ _ _ (fun _ => rfl)

theorem appendLimit_eq {l : Relabel} (hf : Function.Injective l.limitId) (c : Cfg) (s : State)
    (o : Limit) : appendLimit c (l.state s) (l.limit o) =
      (appendLimit c s o).map (l.result id) := by
  unfold appendLimit
  have h1 : omUpdate c.maxOpen (l.state s).om (l.limit o) = _ := omUpdate_eq hf c.maxOpen s.om o
  rw [h1]
  refine bind_map _ _ _ _ _ (fun r => ?_)
  cases r with
  | error err => rfl
  | ok om' =>
    have h2 : Book.insert activeCap (l.state s).active (l.limit o) = _ :=
      insert_eq l activeCap s.active o
    simp only [Except.map]
    rw [h2]
    cases Book.insert activeCap s.active o with
    | error err => rfl
    | ok r =>
      simp only [Except.map]
      rw [orderMargin_eq]
      refine bind_same _ _ _ _ (fun m => ?_)
      show (if m > s.acct.balance .orderMargin then _ else _) = Except.map _ (ite _ _ _)
      by_cases g : m > s.acct.balance .orderMargin
      · rw [if_pos g, if_pos g]
        refine bind_same _ _ _ _ (fun a => ?_)
        refine Eq.trans (congrArg (· >>= _)
          (appendChecks_eq hf { s with om := om', active := r.1, acct := a })) ?_
        exact bind_map _ _ _ _ _ (fun _ => rfl)
      · rw [if_neg g, if_neg g]
        show (if m < s.acct.balance .orderMargin then _ else _) = Except.map _ (ite _ _ _)
        by_cases g' : m < s.acct.balance .orderMargin
        · rw [if_pos g', if_pos g']
          refine bind_same _ _ _ _ (fun a => ?_)
          refine Eq.trans (congrArg (· >>= _)
            (appendChecks_eq hf { s with om := om', active := r.1, acct := a })) ?_
          exact bind_map _ _ _ _ _ (fun _ => rfl)
        · rw [if_neg g', if_neg g']; rfl

theorem checkLimitOrder_eq (c : Cfg) (pos : Position) (o : Limit) (w : Int) (om : Book) :
    checkLimitOrder c pos (l.limit o) w (om.map l.limit) = checkLimitOrder c pos o w om := by
  unfold checkLimitOrder
  rw [orderMargin_eq, orderMarginWithOrder_eq]

theorem submitLimit_eq {l : Relabel} (hf : Function.Injective l.limitId) (c : Cfg) (s : State)
    (o : NewLimit) : submitLimit c (l.state s) (l.newLimit o) =
      (submitLimit c s o).map (l.result l.limit) := by
  unfold submitLimit
  refine bind_same _ _ _ _ (fun r => ?_)
  cases r with
  | error err => rfl
  | ok _ =>
    refine bind_same _ _ _ _ (fun r => ?_)
    cases r with
    | error err => rfl
    | ok _ =>
      have h1 : checkLimitOrder c s.pos (l.limit (o.intoPending s.nextId s.ms.ts))
          (s.acct.balance .wallet) (s.om.map l.limit) = _ := checkLimitOrder_eq l c s.pos _ _ _
      refine Eq.trans (congrArg (· >>= _) h1) ?_
      refine bind_same _ _ _ _ (fun r => ?_)
      cases r with
      | error err => rfl
      | ok _ =>
        show (if marketable s.ms o.side o.price = true then _ else _) = Except.map _ (ite _ _ _)
        by_cases g : marketable s.ms o.side o.price = true
        · rw [if_pos g]
          refine Eq.trans ?_ (congrArg (Except.map (l.result l.limit)) (if_pos g)).symm
          rfl
        · rw [if_neg g]
          refine Eq.trans ?_ (congrArg (Except.map _) (if_neg g)).symm
          refine Eq.trans (congrArg (· >>= _) (appendLimit_eq hf c
            { s with log := .limitSubmit o :: s.log, nextId := s.nextId + 1 }
            (o.intoPending s.nextId s.ms.ts))) ?_
          refine bind_map _ _ _ _ _ (fun r => ?_)
          obtain ⟨s3, r⟩ := r
          cases r <;> rfl

theorem cancelLimit_eq {l : Relabel} (hf : Function.Injective l.limitId) (c : Cfg) (s : State)
    (b : CancelBy) : cancelLimit c (l.state s) (l.cancelBy b) =
      (cancelLimit c s b).map (l.result l.limit) := by
  unfold cancelLimit
  have h1 : orderMargin c.env c.spec.initMarginReq (l.state s).om (l.state s).pos = _ :=
    orderMargin_eq l c.env c.spec.initMarginReq s.om s.pos
  rw [h1]
  refine bind_same _ _ _ _ (fun m => ?_)
  refine bind_same _ _ _ _ (fun _ => ?_)
  have h2 : (l.state s).active.removeCancel (l.cancelBy b) = _ := removeCancel_eq hf s.active b
  rw [h2]
  cases s.active.removeCancel b with
  | none => cases b <;> rfl
  | some r =>
    simp only [Option.map_some]
    have h3 : omRemove (l.state s).om (l.cancelBy b) = _ := omRemove_eq hf s.om b
    rw [h3]
    refine bind_map _ _ _ _ _ (fun om' => ?_)
    have h4 : orderMargin c.env c.spec.initMarginReq (om'.map l.limit) (l.state s).pos = _ :=
      orderMargin_eq l c.env c.spec.initMarginReq om' s.pos
    rw [h4]
    refine bind_same _ _ _ _ (fun m' => ?_)
    refine bind_same _ _ _ _ (fun _ => ?_)
    refine bind_same _ _ _ _ (fun a => ?_)
    have h5 : assertP (om'.map l.limit = r.2.map l.limit) .booksDiffer =
        assertP (om' = r.2) .booksDiffer := by
      unfold assertP
      simp only [book_inj hf]
    rw [h5]
    refine bind_same _ _ _ _ (fun _ => ?_)
    have h6 : assertP (r.2.map l.limit = [] → a.balance .orderMargin = 0) .emptyButMargin =
        assertP (r.2 = [] → a.balance .orderMargin = 0) .emptyButMargin := by
      unfold assertP
      simp only [List.map_eq_nil_iff]
    rw [h6]
    exact bind_same _ _ _ _ (fun _ => rfl)

theorem amendLimit_eq {l : Relabel} (hf : Function.Injective l.limitId) (c : Cfg) (s : State)
    (id : Nat) (o : NewLimit) : amendLimit c (l.state s) id (l.newLimit o) =
      (amendLimit c s id o).map (l.result l.limit) := by
  unfold amendLimit
  have h1 : (l.state s).active.getById id = _ := getById_eq l s.active id
  rw [h1]
  cases s.active.getById id with
  | none => rfl
  | some old =>
    refine bind_same _ _ _ _ (fun total => ?_)
    show (if old.remaining + (o.qty - total) ≤ 0 then _ else _) = Except.map _ (ite _ _ _)
    have hc := cancelLimit_eq hf c s (.orderId id)
    by_cases g : old.remaining + (o.qty - total) ≤ 0
    · rw [if_pos g]
      refine Eq.trans ?_ (congrArg (Except.map _) (if_pos g)).symm
      refine Eq.trans (congrArg (· >>= _) hc) ?_
      refine bind_map _ _ _ _ _ (fun r => ?_)
      obtain ⟨s', r⟩ := r
      cases r <;> rfl
    · rw [if_neg g]
      refine Eq.trans ?_ (congrArg (Except.map _) (if_neg g)).symm
      have h2 : (l.newLimit o).setRemaining (old.remaining + (o.qty - total)) =
          (o.setRemaining (old.remaining + (o.qty - total))).map l.newLimit := by
        unfold NewLimit.setRemaining
        exact bind_same _ _ _ _ (fun _ => rfl)
      refine Eq.trans (congrArg (· >>= _) h2) ?_
      refine bind_map _ _ _ _ _ (fun o' => ?_)
      refine Eq.trans (congrArg (· >>= _) hc) ?_
      refine bind_map _ _ _ _ _ (fun r => ?_)
      obtain ⟨s', r⟩ := r
      cases r with
      | error err => rfl
      | ok _ => exact submitLimit_eq hf c s' o'

/-- The loop with other labels. -/
def loop (x : Loop) : Loop :=
  { x with om := x.om.map l.limit, log := x.log.map l.event,
           updates := x.updates.map l.limitUpdate }

/-- A market update with other labels. -/
def update : Update → Update
  | .bba b => .bba (l.bba b)
  | .trade t => .trade (l.trade t)
  | .candle k => .candle (l.candle k)
  | .smart k => .smart { k with bba := l.bba k.bba, ts := k.ts + l.shift }
  | .custom k => .custom { k with ts := k.ts + l.shift }

theorem update_ts (u : Update) : (l.update u).ts = u.ts + l.shift := by cases u <;> rfl
theorem update_canFill (u : Update) : (l.update u).canFill = u.canFill := by cases u <;> rfl

theorem filled_eq (d : Bool) (u : Update) (o : Limit) :
    (l.update u).filled d (l.limit o) = u.filled d o := by
  cases u <;> rfl

theorem anyTradeValid_eq (pf : PriceFilter) : ∀ ts : List Trade,
    anyTradeValid pf (ts.map l.trade) = anyTradeValid pf ts
  | [] => rfl
  | t :: ts => by
    rw [List.map_cons]
    unfold anyTradeValid
    simp only [anyTradeValid_eq pf ts]
    rfl

theorem lowHigh_eq : ∀ (ts : List Trade) (lo hi : Int),
    lowHigh lo hi (ts.map l.trade) = lowHigh lo hi ts
  | [], _, _ => rfl
  | t :: ts, _, _ => by
    rw [List.map_cons]
    unfold lowHigh
    rw [lowHigh_eq ts]
    rfl

theorem tradesOf_eq (side : Side) : ∀ ts : List Trade,
    tradesOf side (ts.map l.trade) = tradesOf side ts := by
  intro ts
  unfold tradesOf
  rw [List.filter_map, List.map_map]
  rfl

theorem smart_eq (d : Bool) (ts : List Trade) (b : Bba) (pf : PriceFilter) :
    SmartCandle.new d (ts.map l.trade) (l.bba b) pf = (SmartCandle.new d ts b pf).map
      (fun k => { k with bba := l.bba k.bba, ts := k.ts + l.shift }) := by
  cases ts with
  | nil => rfl
  | cons t0 rest =>
    rw [List.map_cons]
    unfold SmartCandle.new
    have h1 : debugAnyValid d pf (l.trade t0 :: rest.map l.trade) =
        debugAnyValid d pf (t0 :: rest) := by
      rw [← List.map_cons]
      unfold debugAnyValid
      rw [anyTradeValid_eq]
    have h2 : debugP d (∀ t ∈ l.trade t0 :: rest.map l.trade, t.qty > 0) .smartTradeQty =
        debugP d (∀ t ∈ t0 :: rest, t.qty > 0) .smartTradeQty := by
      unfold debugP assertP
      simp [trade]
    have h3 := tradesOf_eq l .buy (t0 :: rest)
    have h4 := tradesOf_eq l .sell (t0 :: rest)
    have h5 := lowHigh_eq l (t0 :: rest) t0.price t0.price
    have h6 : ((t0 :: rest).map l.trade).getLast (by simp) =
      l.trade ((t0 :: rest).getLast (by simp)) := List.getLast_map _
    simp only [List.map_cons] at h3 h4 h5 h6
    refine Eq.trans (congrArg (· >>= _) h1) ?_
    refine bind_same _ _ _ _ (fun _ => ?_)
    refine bind_same _ _ _ _ (fun _ => ?_)
    refine bind_same _ _ _ _ (fun r => ?_)
    cases r with
    | error err => rfl
    | ok _ =>
      refine Eq.trans (congrArg (· >>= _) h2) ?_
      refine bind_same _ _ _ _ (fun _ => ?_)
      have h5' : lowHigh (l.trade t0).price (l.trade t0).price (l.trade t0 :: rest.map l.trade) =
        _ := h5
      simp only [h3, h4, h5', h6]
      rfl

theorem build_eq (d : Bool) (a : UpdateArg) :
    (l.arg a).build d = (a.build d).map l.update := by
  cases a with
  | bba b => rfl
  | trade t => rfl
  | candle k => rfl
  | custom k => rfl
  | smart ts b pf =>
    simp only [arg, UpdateArg.build]
    rw [smart_eq]
    exact bind_map _ _ _ _ _ (fun _ => rfl)

theorem debugMarginEq_eq (c : Cfg) (a : Accounts) (om : Book) (pos : Position) (p : Panic) :
    debugMarginEq c a (om.map l.limit) pos p = debugMarginEq c a om pos p := by
  unfold debugMarginEq
  rw [orderMargin_eq]

theorem applyFill_eq {l : Relabel} (hf : Function.Injective l.limitId) (c : Cfg) (ts : Int)
    (x : Loop) (o : Limit) (q : Int) :
    applyFill c (ts + l.shift) (l.loop x) (l.limit o) q =
      (applyFill c ts x o q).map (fun r => (l.loop r.1, l.limit r.2)) := by
  unfold applyFill
  rw [fill_eq]
  refine bind_map _ _ _ _ _ (fun r => ?_)
  obtain ⟨o', f⟩ := r
  cases f with
  | some f =>
    have h : omRemove (l.loop x).om (.orderId (l.limit o').id) = _ :=
      omRemove_eq hf x.om (.orderId o'.id)
    simp only [Option.map_some]
    rw [h]
    refine bind_map _ _ _ _ _ (fun om' => ?_)
    simp [Except.map, loop, event, limitUpdate, limit]
  | none =>
    refine bind_same _ _ _ _ (fun _ => ?_)
    have h : omUpdate c.maxOpen (l.loop x).om (l.limit o') = _ := omUpdate_eq hf c.maxOpen x.om o'
    refine Eq.trans (congrArg (· >>= _) h) ?_
    refine bind_map _ _ _ _ _ (fun r => ?_)
    cases r with
    | error err => rfl
    | ok om' => simp [Except.map, loop, event, limitUpdate]

theorem settleLimit_eq (c : Cfg) (x : Loop) (o : Limit) (q : Int) :
    settleLimit c (l.loop x) (l.limit o) q = (settleLimit c x o q).map l.loop := by
  unfold settleLimit
  refine bind_same _ _ _ _ (fun _ => ?_)
  exact bind_same _ _ _ _ (fun _ => rfl)

theorem releaseMargin_eq (c : Cfg) (x : Loop) (m : Int) :
    releaseMargin c (l.loop x) m = (releaseMargin c x m).map l.loop := by
  unfold releaseMargin
  have h : orderMargin c.env c.spec.initMarginReq (l.loop x).om (l.loop x).pos = _ :=
    orderMargin_eq l c.env c.spec.initMarginReq x.om x.pos
  rw [h]
  refine bind_same _ _ _ _ (fun _ => ?_)
  refine bind_same _ _ _ _ (fun _ => ?_)
  exact bind_same _ _ _ _ (fun _ => rfl)

theorem matchOrder_eq {l : Relabel} (hf : Function.Injective l.limitId) (c : Cfg) (u : Update)
    (x : Loop) (o : Limit) :
    matchOrder c (l.update u) (l.loop x) (l.limit o) =
      (matchOrder c u x o).map (fun r => (l.loop r.1, l.limit r.2)) := by
  unfold matchOrder
  rw [filled_eq]
  refine bind_same _ _ _ _ (fun r => ?_)
  cases r with
  | none => rfl
  | some q =>
    refine bind_same _ _ _ _ (fun _ => ?_)
    have h1 : debugMarginEq c (l.loop x).acct (l.loop x).om (l.loop x).pos .matchMarginMismatch
      = _ := debugMarginEq_eq l c x.acct x.om x.pos .matchMarginMismatch
    refine Eq.trans (congrArg (· >>= _) h1) ?_
    refine bind_same _ _ _ _ (fun _ => ?_)
    rw [update_ts, applyFill_eq hf]
    refine bind_map _ _ _ _ _ (fun r => ?_)
    refine Eq.trans (congrArg (· >>= _) (settleLimit_eq l c r.1 r.2 q)) ?_
    refine bind_map _ _ _ _ _ (fun x2 => ?_)
    refine Eq.trans (congrArg (· >>= _) (releaseMargin_eq l c x2 _)) ?_
    exact bind_map _ _ _ _ _ (fun _ => rfl)

theorem matchLoop_eq {l : Relabel} (hf : Function.Injective l.limitId) (c : Cfg) (u : Update) :
    ∀ (os : List Limit) (x : Loop), matchLoop c (l.update u) (l.loop x) (os.map l.limit) =
      (matchLoop c u x os).map (fun r => (l.loop r.1, r.2.map l.limit))
  | [], x => rfl
  | o :: os, x => by
    rw [List.map_cons]
    unfold matchLoop
    rw [matchOrder_eq hf]
    refine bind_map _ _ _ _ _ (fun r => ?_)
    refine Eq.trans (congrArg (· >>= _) (matchLoop_eq hf c u os r.1)) ?_
    exact bind_map _ _ _ _ _ (fun _ => rfl)

theorem removeExecuted_eq : ∀ (ids : List Nat) (b : Book),
    removeExecuted (b.map l.limit) ids = (removeExecuted b ids).map (List.map l.limit)
  | [], b => rfl
  | id :: ids, b => by
    unfold removeExecuted Book.removeById
    rw [removeBy_eq l _ (fun o => o.id == id) (fun _ => rfl)]
    cases Book.removeBy (fun o => o.id == id) b with
    | none => rfl
    | some r => exact removeExecuted_eq ids r.2

theorem checkActive_eq {l : Relabel} (hf : Function.Injective l.limitId) (c : Cfg) (s : State)
    (u : Update) : checkActive c (l.state s) (l.update u) = (checkActive c s u).map l.state := by
  unfold checkActive
  rw [update_canFill]
  by_cases g : u.canFill = false
  · rw [if_pos g, if_pos g]; rfl
  · rw [if_neg g, if_neg g]
    have hb : ∀ (a b : Book) (p : Panic), debugP c.env.debug (a.map l.limit = b.map l.limit) p =
        debugP c.env.debug (a = b) p := by
      intro a b p
      unfold debugP assertP
      simp only [book_inj hf]
    refine Eq.trans (congrArg (· >>= _) (hb s.om s.active .booksDiffer)) ?_
    refine bind_same _ _ _ _ (fun _ => ?_)
    refine Eq.trans (congrArg (· >>= _) (matchLoop_eq hf c u s.active
      ⟨s.acct, s.pos, s.om, s.log, [], []⟩)) ?_
    refine bind_map _ _ _ _ _ (fun r => ?_)
    refine Eq.trans (congrArg (· >>= _) (removeExecuted_eq l r.1.ids r.2)) ?_
    refine bind_map _ _ _ _ _ (fun active' => ?_)
    refine bind_same _ _ _ _ (fun _ => ?_)
    refine Eq.trans (congrArg (· >>= _) (hb r.1.om active' .booksDiffer)) ?_
    refine bind_same _ _ _ _ (fun _ => ?_)
    have h6 : debugP c.env.debug (active'.map l.limit = [] → r.1.acct.balance .orderMargin = 0)
        .emptyButMargin =
        debugP c.env.debug (active' = [] → r.1.acct.balance .orderMargin = 0)
        .emptyButMargin := by
      unfold debugP assertP
      simp only [List.map_eq_nil_iff]
    refine Eq.trans (congrArg (· >>= _) h6) ?_
    refine bind_same _ _ _ _ (fun _ => ?_)
    refine Eq.trans (congrArg (· >>= _) (debugMarginEq_eq l c r.1.acct r.1.om r.1.pos _)) ?_
    refine bind_same _ _ _ _ (fun _ => ?_)
    exact bind_same _ _ _ _ (fun _ => rfl)

theorem liquidate_eq {l : Relabel} (h0 : l.marketId 0 = 0) (c : Cfg) (s : State) :
    liquidate c (l.state s) = (liquidate c s).map l.state := by
  unfold liquidate
  have h1 : liquidationOrder (l.state s).pos = (liquidationOrder s.pos).map l.newMarket := by
    show liquidationOrder s.pos = _
    unfold liquidationOrder
    cases s.pos with
    | neutral => rfl
    | long p =>
      simp only [NewMarket.new]
      split <;> simp_all [Except.map, newMarket]
      rename_i h; split at h <;> simp_all
      rw [← h, h0]
    | short p =>
      simp only [NewMarket.new]
      split <;> simp_all [Except.map, newMarket]
      rename_i h; split at h <;> simp_all
      rw [← h, h0]
  rw [h1]
  refine bind_map _ _ _ _ _ (fun o => ?_)
  rw [submitMarket_eq]
  refine bind_map _ _ _ _ _ (fun r => ?_)
  obtain ⟨s', r⟩ := r
  cases r <;> rfl

theorem fire_eq (t : Trigger) (ts : Int) :
    (l.trigger t).fire (ts + l.shift) = (l.trigger (t.fire ts).1, (t.fire ts).2) := by
  obtain ⟨i, la, b⟩ := t
  cases b with
  | true => simp [trigger, Trigger.fire]
  | false =>
    by_cases h : ts ≥ la + i
    · have h' : ts + l.shift ≥ la + l.shift + i := by omega
      simp only [trigger, Trigger.fire, Bool.false_eq_true, if_false, if_pos h, if_pos h']
      simp; omega
    · have h' : ¬ ts + l.shift ≥ la + l.shift + i := by omega
      simp only [trigger, Trigger.fire, Bool.false_eq_true, if_false, if_neg h, if_neg h']

theorem observe_eq (c : Cfg) (s : State) (u : Update) :
    observe c (l.state s) (l.update u) = (observe c s u).map l.state := by
  unfold observe
  have h1 : (l.state s).ms.update c.env.debug c.spec.priceFilter (l.update u) =
      (s.ms.update c.env.debug c.spec.priceFilter u).map l.market := by
    unfold MarketState.update
    have : debugValidate c.env.debug c.spec.priceFilter (l.update u) =
        debugValidate c.env.debug c.spec.priceFilter u := by cases u <;> rfl
    rw [this]
    refine bind_same _ _ _ _ (fun r => ?_)
    cases r with
    | error err => rfl
    | ok _ =>
      cases u with
      | custom k => cases hk : k.market <;> simp [update, Update.applyQuotes, hk] <;> rfl
      | _ => rfl
  rw [h1]
  refine bind_map _ _ _ _ _ (fun ms' => ?_)
  rw [update_ts]
  have h2 : (l.state s).trigger.fire (u.ts + l.shift) = _ := fire_eq l s.trigger u.ts
  simp only [h2]
  cases (s.trigger.fire u.ts).2 <;> rfl

theorem updateState_eq {l : Relabel} (hf : Function.Injective l.limitId) (h0 : l.marketId 0 = 0)
    (c : Cfg) (s : State) (u : Update) : updateState c (l.state s) (l.update u) =
      (updateState c s u).map (l.result (List.map l.limitUpdate)) := by
  unfold updateState
  rw [observe_eq]
  refine bind_map _ _ _ _ _ (fun s1 => ?_)
  have h1 : checkMaintenanceMargin c (l.state s1).ms (l.state s1).pos =
      checkMaintenanceMargin c s1.ms s1.pos := rfl
  rw [h1]
  cases checkMaintenanceMargin c s1.ms s1.pos with
  | error err =>
    refine Eq.trans (congrArg (· >>= _) (liquidate_eq h0 c s1)) ?_
    exact bind_map _ _ _ _ _ (fun _ => rfl)
  | ok _ =>
    refine Eq.trans (congrArg (· >>= _) (checkActive_eq hf c s1 u)) ?_
    exact bind_map _ _ _ _ _ (fun _ => rfl)

theorem step_eq {l : Relabel} (hf : Function.Injective l.limitId) (h0 : l.marketId 0 = 0)
    (c : Cfg) (s : State) (op : Op) : step c (l.state s) (l.op op) =
      (step c s op).map (fun r => (l.state r.1, l.resp r.2)) := by
  cases op with
  | update a =>
    show (((l.arg a).build c.env.debug) >>= _) = _
    rw [build_eq]
    refine bind_map _ _ _ _ _ (fun u => ?_)
    rw [updateState_eq hf h0]
    refine bind_map _ _ _ _ _ (fun r => ?_)
    obtain ⟨s', r⟩ := r
    cases r <;> rfl
  | checkActive a =>
    show (((l.arg a).build c.env.debug) >>= _) = _
    rw [build_eq]
    refine bind_map _ _ _ _ _ (fun u => ?_)
    rw [checkActive_eq hf]
    exact bind_map _ _ _ _ _ (fun _ => rfl)
  | market side q uid =>
    simp only [Relabel.op, step, NewMarket.new]
    by_cases g : q ≤ 0
    · simp only [if_pos g]; rfl
    · simp only [if_neg g]
      refine Eq.trans (congrArg (· >>= _) (submitMarket_eq l c s ⟨uid, side, q⟩)) ?_
      refine bind_map _ _ _ _ _ (fun r => ?_)
      obtain ⟨s', r⟩ := r
      cases r <;> rfl
  | limit side p q uid =>
    simp only [Relabel.op, step, NewLimit.new]
    by_cases g : p ≤ 0
    · simp only [if_pos g]; rfl
    · simp only [if_neg g]
      by_cases g' : q ≤ 0
      · simp only [if_pos g']; rfl
      · simp only [if_neg g']
        refine Eq.trans (congrArg (· >>= _) (submitLimit_eq hf c s ⟨uid, side, p, q⟩)) ?_
        refine bind_map _ _ _ _ _ (fun r => ?_)
        obtain ⟨s', r⟩ := r
        cases r <;> rfl
  | amend id side p q uid =>
    simp only [Relabel.op, step, NewLimit.new]
    by_cases g : p ≤ 0
    · simp only [if_pos g]; rfl
    · simp only [if_neg g]
      by_cases g' : q ≤ 0
      · simp only [if_pos g']; rfl
      · simp only [if_neg g']
        refine Eq.trans (congrArg (· >>= _) (amendLimit_eq hf c s id ⟨uid, side, p, q⟩)) ?_
        refine bind_map _ _ _ _ _ (fun r => ?_)
        obtain ⟨s', r⟩ := r
        cases r <;> rfl
  | cancel b =>
    simp only [Relabel.op, step]
    rw [cancelLimit_eq hf]
    refine bind_map _ _ _ _ _ (fun r => ?_)
    obtain ⟨s', r⟩ := r
    cases r <;> rfl

end Relabel

end Lfest
