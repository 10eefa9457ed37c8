import Verif.SpecAudit
import Verif.Props.Ledger
import Verif.Props.Orders
import Verif.Props.Matching
import Verif.Props.Tracker
import Verif.Props.Risk
import Verif.Props.Dust

/-!
# C98: the answers tell everything
-/

namespace Lfest

open Spec Audit

/-- Of several orders with different ids, the one looked for is found. -/
theorem find_by_id {l : List Limit} (hn : (l.map Limit.id).Nodup) {o : Limit} (ho : o ∈ l) :
    l.find? (fun x => x.id == o.id) = some o := by
  induction l with
  | nil => cases ho
  | cons y ys ih =>
    simp only [List.map_cons, List.nodup_cons, List.mem_map, not_exists, not_and] at hn
    rcases List.mem_cons.1 ho with rfl | h
    · simp
    · have : y.id ≠ o.id := fun e => hn.1 o h e.symm
      rw [List.find?_cons_of_neg (by simpa using this)]
      exact ih hn.2 h

/-- The client knows the same open orders as the exchange. -/
structure Knows (s : State) (k : Client) : Prop where
  market : k.market = s.ms
  orders : k.orders.Perm s.active
  fills : k.fills = fills s.log

theorem Knows.filled {c : Cfg} {s : State} {k : Client} (h : Knows s k) (hi : Inv c s) {o : Limit}
    (ho : o ∈ s.active) : k.filled o.id = o.filledQuantity := by
  have hn : (k.orders.map Limit.id).Nodup := (h.orders.map Limit.id).nodup_iff.2 hi.nodup
  simp only [Client.filled, find_by_id hn (h.orders.mem_iff.2 ho)]

/-- A report names its order. -/
theorem about_report (e : Env) (ts : Int) (o : Limit) (q : Int) :
    about (report e ts o q) = o.id := by
  unfold report; split <;> rfl

/-- What the reports say about an order is what became of it. -/
theorem told_reports {e : Env} {u : UpdateArg} {ts : Int} (ht : updateTime u = some ts)
    {l : List Limit} (hn : (l.map Limit.id).Nodup) {o : Limit} (ho : o ∈ l) :
    told (reports e u l) o = survivor e u o := by
  have key : ∀ l : List Limit, (l.map Limit.id).Nodup → o ∈ l →
      (reports e u l).find? (fun x => about x == o.id) =
        (fillRule u o).map (report e ts o) := by
    intro l
    induction l with
    | nil => intro _ h; cases h
    | cons y ys ih =>
      intro hn ho
      simp only [List.map_cons, List.nodup_cons, List.mem_map, not_exists, not_and] at hn
      have hrest : ∀ z : Limit, (∀ x ∈ ys, x.id ≠ z.id) →
          (reports e u ys).find? (fun x => about x == z.id) = none := by
        intro z hz
        rw [List.find?_eq_none]
        intro x hx
        simp only [reports, List.mem_filterMap] at hx
        obtain ⟨w, hw, hx⟩ := hx
        rw [ht] at hx
        cases hf : fillRule u w with
        | none => rw [hf] at hx; cases hx
        | some q =>
          rw [hf] at hx; cases hx
          rw [about_report]; simpa using hz w hw
      have hc : reports e u (y :: ys) =
          ((fillRule u y).map (report e ts y)).toList ++ reports e u ys := by
        simp only [reports, List.filterMap_cons, ht]
        cases fillRule u y <;> simp
      rw [hc]
      rcases List.mem_cons.1 ho with rfl | h
      · cases hf : fillRule u o with
        | none => simpa [hf] using hrest o (fun x hx => hn.1 x hx)
        | some q => simp [about_report]
      · have hne : y.id ≠ o.id := fun e => hn.1 o h e.symm
        cases hf : fillRule u y with
        | none => simpa using ih hn.2 h
        | some q => simpa [about_report, hne] using ih hn.2 h
  unfold told survivor
  rw [key l hn ho]
  cases fillRule u o with
  | none => rfl
  | some q =>
    simp only [Option.map_some, report]
    by_cases hq : q = o.remaining
    · simp [hq]
    · simp [hq]

theorem Knows.inferred {c : Cfg} {s : State} {k : Client} (h : Knows s k) (hi : Inv c s)
    {u : UpdateArg} {ts : Int} (ht : updateTime u = some ts) :
    (reports c.env u s.active).map k.inferred = makerFills u s.active := by
  have key : ∀ l : List Limit, (∀ o ∈ l, o ∈ s.active) →
      (reports c.env u l).map k.inferred = makerFills u l := by
    intro l
    induction l with
    | nil => intro _; rfl
    | cons y ys ih =>
      intro hl
      have h1 := ih (fun o ho => hl o (List.mem_cons_of_mem _ ho))
      have h2 := h.filled hi (hl y List.mem_cons_self)
      simp only [reports, makerFills, List.filterMap_cons, ht] at h1 ⊢
      cases hf : fillRule u y with
      | none => simpa [hf] using h1
      | some q =>
        simp only [Option.map_some, List.map_cons, h1, List.cons.injEq, and_true]
        unfold report
        split
        · next hq => simp only [Client.inferred, h2, hq, Fill.mk.injEq, true_and]; omega
        · simp only [Client.inferred, filledBy, Limit.filledQuantity, Fill.mk.injEq, true_and]
          have : k.filled y.id = y.filledQuantity := h2
          simp only [Limit.filledQuantity] at this
          omega
  exact key s.active (fun _ h => h)

/-- Cancelling takes out the order with that id. -/
theorem filter_out {l a b : List Limit} {o : Limit} (hn : (l.map Limit.id).Nodup)
    (e : l = a ++ o :: b) : l.filter (fun x => decide (x.id ≠ o.id)) = a ++ b := by
  subst e
  simp only [List.map_append, List.map_cons, List.nodup_append, List.nodup_cons, List.mem_map,
    List.mem_cons, not_exists, not_and, ne_eq] at hn
  rw [List.filter_append, List.filter_cons_of_neg (by simp)]
  congr 1
  · rw [List.filter_eq_self]
    intro x hx
    simpa using hn.2.2 x.id ⟨x, hx, rfl⟩ o.id (.inl rfl)
  · rw [List.filter_eq_self]
    intro x hx
    simpa using fun e => hn.2.1.1 x hx e

theorem Knows.without {s : State} {k : Client} (h : Knows s k) (id : Nat) :
    (k.without id).Perm (s.active.filter (fun o => decide (o.id ≠ id))) := h.orders.filter _

/-- An amendment of an open order does not fail for lack of the order. -/
theorem amend_known {c : Cfg} {s s' : State} (hi : Inv c s) {old : Limit} (ho : old ∈ s.active)
    {n : NewLimit} {err : Error} (h : amendLimit c s old.id n = .ok (s', .error err)) :
    (∀ i, err ≠ .orderIdNotFound i) ∧ err ≠ .orderNoLongerActive := by
  have hfind : s.active.getById old.id = some old := find_by_id hi.nodup ho
  rcases amendLimit_cases h with ⟨hn, _⟩ | ⟨_, total, _, _, ⟨_, he, _⟩ | ⟨_, h⟩⟩
  · rw [hfind] at hn; cases hn
  · cases he; exact ⟨fun _ e => (by cases e), fun e => (by cases e)⟩
  · rcases h with ⟨err', hc, _⟩ | ⟨s1, x, hc, hs⟩
    · obtain ⟨_, ⟨hn, _⟩ | ⟨_, _, _, _, _, _, _, _, _, _, _, he⟩⟩ := cancelLimit_ok hc
      · exfalso
        obtain ⟨_, _, h1⟩ := removeById_isSome ⟨old, ho, rfl⟩
        exact absurd (hn.symm.trans h1) (by simp)
      · cases he
    · have hf : ∀ x ∈ s1.active, x.id < s1.nextId :=
        fun x hx => ((cancelLimit_inv hi hc).orders x hx).fresh
      rcases submitLimit_err hf hs with ⟨e, rfl⟩ | ⟨e, rfl⟩ | rfl <;>
        exact ⟨fun _ e => (by cases e), fun e => (by cases e)⟩

/-- One call. -/
theorem Knows.step {c : Cfg} {s s' : State} {k : Client} {op : Op} {r : Resp} (hr : Reachable c s)
    (h : Knows s k) (ha : audible op) (hst : Lfest.step c s op = .ok (s', r)) :
    Knows s' (k.hear (op, r)) := by
  have hi := hr.inv
  have hms : (∀ u, op ≠ .update u) → s'.ms = s.ms := fun hu => C43_other_calls c s s' op r hr hu hst
  rcases step_cases hst with ⟨u, u', x, rfl, hb, hu, rfl⟩ | ⟨_, _, rfl, _⟩ | ⟨err, rfl, rfl⟩ |
    ⟨side, q, uid, x, rfl, _, _, rfl⟩ | ⟨side, p, q, uid, x, rfl, _, _, _, rfl⟩ |
    ⟨id, side, p, q, uid, x, rfl, _, _, hamend, rfl⟩ | ⟨b, x, rfl, _, rfl⟩
  · obtain ⟨ht, hs1, hq⟩ := C43_update c s s' u _ hr hst
    have hm : s'.ms = seen s.ms [.update u] := by
      simp only [seen, ← hq, ht, Option.getD_some, ← hs1]
    have hm' : seen k.market [.update u] = s'.ms := by rw [hm, h.market]
    cases x with
    | ok ups =>
      obtain ⟨h1, h2, _, h4, _⟩ := update_spec hi hst
      refine ⟨hm', ?_, ?_⟩
      · refine (List.Perm.filterMap _ h.orders).trans ?_
        refine List.Perm.trans ?_ h1.symm
        rw [h2]
        have : ∀ l : List Limit, (∀ o ∈ l, o ∈ s.active) →
            l.filterMap (told (reports c.env u s.active)) = l.filterMap (survivor c.env u) := by
          intro l
          induction l with
          | nil => intro _; rfl
          | cons y ys ih =>
            intro hl
            simp only [List.filterMap_cons, told_reports ht hi.nodup (hl y List.mem_cons_self),
              ih (fun o ho => hl o (List.mem_cons_of_mem _ ho))]
        rw [this _ (fun _ h => h)]
      · show (ups.map k.inferred).reverse ++ k.fills = _
        rw [h4, h2, h.inferred hi ht, h.fills]
    | error err =>
      obtain ⟨_, h2, h3, _⟩ := C30_liquidation_flattens c s s' u err hr hst
      refine ⟨hm', ?_, ?_⟩
      · show k.orders.Perm s'.active
        rw [h3]; exact h.orders
      · show k.closed (seen k.market [.update u]) :: k.fills = _
        obtain ⟨ops, ho⟩ := hr
        have hp := (C06_position_quantity c ops s ho).1
        rw [h2, hm']
        simp only [Client.closed, closingFill, h.fills, ← hp, ← hq]
  · cases ha
  · cases op <;> exact h
  · have hm := hms (fun u e => by cases e)
    cases x with
    | ok f =>
      obtain ⟨h1, h2, _, h3, _⟩ := C21_market_order c s s' hr side q uid f hst
      refine ⟨h.market.trans hm.symm, ?_, ?_⟩
      · show k.orders.Perm s'.active
        rw [h3]; exact h.orders
      · show (⟨false, f.side, f.avgFillPrice, f.filledQty⟩ : Fill) :: k.fills = _
        rw [h2, h1, h.fills]
    | error err =>
      obtain ⟨h1, _⟩ := C17_rejected_market c s s' side q uid err hst
      have h2 := C03_quiet_calls c s s' _ _ hst (by simp [quiet])
      exact ⟨h.market.trans hm.symm, by rw [h1]; exact h.orders, h.fills.trans h2.symm⟩
  · have hm := hms (fun u e => by cases e)
    have h2 := C03_quiet_calls c s s' _ _ hst (by simp [quiet])
    cases x with
    | ok o =>
      obtain ⟨_, h1, _⟩ := C18_accepted_limit c s s' hr side p q uid o hst
      refine ⟨h.market.trans hm.symm, ?_, h.fills.trans h2.symm⟩
      show (k.orders ++ [o]).Perm s'.active
      rw [h1]; exact h.orders.append_right _
    | error err =>
      obtain ⟨h1, _⟩ := C17_rejected_limit c s s' hr side p q uid err hst
      exact ⟨h.market.trans hm.symm, by rw [h1]; exact h.orders, h.fills.trans h2.symm⟩
  · have hm := hms (fun u e => by cases e)
    have h2 := C03_quiet_calls c s s' _ _ hst (by simp [quiet])
    by_cases hex : ∃ old ∈ s.active, old.id = id
    · obtain ⟨old, hold, rfl⟩ := hex
      obtain ⟨_, h3, h4, _⟩ := C20_amend c s s' hr old hold side p q uid x hst
      cases x with
      | ok o =>
        refine ⟨h.market.trans hm.symm, ?_, h.fills.trans h2.symm⟩
        show (k.without old.id ++ [o]).Perm s'.active
        refine List.Perm.trans ?_ (h3 o rfl).2.2.2.symm
        exact ((h.without old.id).append_right _).trans (List.perm_append_singleton _ _)
      | error err =>
        have h5 : Knows s' { k with orders := k.without old.id } :=
          ⟨h.market.trans hm.symm, (h.without old.id).trans (h4 err rfl).symm, h.fills.trans h2.symm⟩
        have h6 := amend_known hi hold hamend
        cases err with
        | orderIdNotFound i => exact absurd rfl (h6.1 i)
        | orderNoLongerActive => exact absurd rfl h6.2
        | _ => exact h5
    · obtain ⟨rfl, h3, h4⟩ := C20_amend_unknown c s s' id
        (fun o ho e => hex ⟨o, ho, e⟩) side p q uid x hst
      by_cases hl : id < s'.nextId
      · rw [h3 hl]; exact h
      · rw [h4 (by omega)]; exact h
  · have hm := hms (fun u e => by cases e)
    have h2 := C03_quiet_calls c s s' _ _ hst (by simp [quiet])
    cases x with
    | ok o =>
      obtain ⟨⟨a, z, h1, _, _, h3⟩, _⟩ := C19_cancel_removes c s s' b o hst
      refine ⟨h.market.trans hm.symm, ?_, h.fills.trans h2.symm⟩
      show (k.without o.id).Perm s'.active
      refine (h.without o.id).trans ?_
      rw [filter_out hi.nodup h1]; exact h3.symm
    | error err =>
      have := ((C19_cancel_errors c s s' b _ hst).2 err rfl).1
      rw [this]; exact h

/-- C98: what a client infers from the answers is what the account tracker was told about fills, and
the orders it knows to be open are the active orders, after every history without
`check_active_orders`. -/
theorem C98_answers_tell_all (c : Cfg) (ops : List Op) (s : State) (tr : List (Op × Resp))
    (ha : ∀ op ∈ ops, audible op) (h : history c (State.init c) ops = .ok (s, tr)) :
    (Client.new.hears tr).fills = fills s.log ∧ (Client.new.hears tr).orders.Perm s.active ∧
    (Client.new.hears tr).market = s.ms := by
  have key : ∀ (ops : List Op) (s s' : State) (tr : List (Op × Resp)) (k : Client),
      Reachable c s → Knows s k → (∀ op ∈ ops, audible op) →
      history c s ops = .ok (s', tr) → Knows s' (k.hears tr) := by
    intro ops
    induction ops with
    | nil =>
      intro s s' tr k _ hk _ h
      simp only [history, ok_inj, Prod.mk.injEq] at h
      obtain ⟨rfl, rfl⟩ := h
      exact hk
    | cons op ops ih =>
      intro s s' tr k hr hk ha h
      simp only [history, bind_ok, ok_inj, Prod.mk.injEq] at h
      obtain ⟨⟨s1, r⟩, h1, ⟨s2, tr2⟩, h2, rfl, rfl⟩ := h
      exact ih s1 s2 tr2 _ (hr.step h1) (hk.step hr (ha op List.mem_cons_self) h1)
        (fun x hx => ha x (List.mem_cons_of_mem _ hx)) h2
  have := key ops _ s tr Client.new ⟨[], rfl⟩
    ⟨rfl, List.Perm.refl _, by simp [Client.new, State.init, fills]⟩ ha h
  exact ⟨this.fills, this.orders, this.market⟩

/-- C98, the account: position, entry price, fees, margin and equity of the account are those of the
fills the client has inferred, to the last unit. -/
theorem C98_account (c : Cfg) (ops : List Op) (s : State) (tr : List (Op × Resp))
    (ha : ∀ op ∈ ops, audible op) (h : history c (State.init c) ops = .ok (s, tr)) :
    let book := ledger c (Client.new.hears tr).fills
    s.pos.quantity = book.qty ∧ s.pos.entryPrice = book.entry ∧
    s.pos.outstandingFees = book.owed ∧ s.feesPaid = book.paid ∧
    s.acct.balance .positionMargin = Ref.locked c (Client.new.hears tr).fills ∧
    equity s = c.start + book.realised - book.paid := by
  intro book
  have hk := (C98_answers_tell_all c ops s tr ha h).1
  have hrun := history_run h
  have hr : Reachable c s := ⟨ops, hrun⟩
  have hl := hr.linv.ledger
  obtain ⟨h1, h2⟩ := C02_equity c ops s hrun
  have hb : book = ledger c (fills s.log) := by rw [← hk]
  have hpm := C11_position_margin c s hr
  change ledgerOf s.pos _ _ = ledger c (fills s.log) at hl
  rw [hb, ← h2, hk]
  refine ⟨?_, ?_, ?_, rfl, hpm, h1⟩ <;> rw [← hl] <;> rfl

/-- A limit order filled in two parts, an amendment, a rejected order, a cancellation, a market order,
a reversal by a candle and a liquidation. -/
def Ex.audited : List Op :=
  [.update (.bba ⟨Ex.d 100, Ex.d 101, 1⟩), .limit .buy (Ex.d 99) (Ex.d 3) 1,
   .limit .sell (Ex.d 110) (Ex.d 7) 2, .limit .buy (Ex.d 200) (Ex.d 1) 3,
   .update (.trade ⟨2, Ex.d 98, Ex.d 1, .sell⟩), .amend 0 .buy (Ex.d 99) (Ex.d 4) 4,
   .update (.trade ⟨3, Ex.d 97, Ex.d 2, .sell⟩), .cancel (.userOrderId 4),
   .amend 0 .buy (Ex.d 98) (Ex.d 4) 5, .market .buy (Ex.d 1) 6,
   .update (.candle ⟨Ex.d 112, Ex.d 113, Ex.d 99, Ex.d 114, 4⟩),
   .update (.bba ⟨Ex.d 300, Ex.d 301, 5⟩)]

example : (∀ op ∈ Ex.audited, audible op) := by simp [Ex.audited, audible]

example : (match history Ex.linR (State.init Ex.linR) Ex.audited with
    | .ok (_, tr) => decide ((Client.new.hears tr).fills =
        [⟨false, .buy, Ex.d 301, Ex.d 3⟩, ⟨true, .sell, Ex.d 110, Ex.d 7⟩,
         ⟨false, .buy, Ex.d 101, Ex.d 1⟩, ⟨true, .buy, Ex.d 99, Ex.d 2⟩,
         ⟨true, .buy, Ex.d 99, Ex.d 1⟩] ∧ (tr.filter (fun x => !Ex.isOk x.2)).length = 3)
    | .error _ => false) = true := by decide +kernel
/-- C98, the exception: `check_active_orders` fills orders and says nothing. -/
theorem C98_silent_fills : ∃ c u s s' tr, history c (State.init c) Ex.ops1 = .ok (s, tr) ∧
    (∀ op ∈ Ex.ops1, audible op) ∧ step c s (.checkActive u) = .ok (s', .unit) ∧
    (Client.new.hears (tr ++ [(.checkActive u, .unit)])).fills ≠ fills s'.log ∧
    s'.pos ≠ s.pos := by
  have h : (match history Ex.lin (State.init Ex.lin) Ex.ops1 with
    | .ok (s, tr) => match step Ex.lin s (.checkActive (.trade ⟨2, Ex.d 111, Ex.d 2, .buy⟩)) with
      | .ok (s', r) => decide (r = .unit ∧ (Client.new.hears (tr ++
          [(.checkActive (.trade ⟨2, Ex.d 111, Ex.d 2, .buy⟩), .unit)])).fills ≠ fills s'.log ∧
          s'.pos ≠ s.pos)
      | .error _ => false
    | .error _ => false) = true := by decide +kernel
  split at h
  · next s tr h1 =>
    split at h
    · next s' r h2 =>
      have := of_decide_eq_true h
      obtain ⟨rfl, h3, h4⟩ := this
      exact ⟨Ex.lin, _, s, s', tr, h1, by simp [Ex.ops1, audible], h2, h3, h4⟩
    · cases h
  · cases h

end Lfest
