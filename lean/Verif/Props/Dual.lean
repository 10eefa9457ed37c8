import Verif.Lemmas.Dual
import Verif.Props.Reference
import Verif.Props.Ledger
import Verif.Props.Flow
import Verif.Props.WindDown
import Verif.Props.Calls

/-!
# C142: an inverse contract is a linear contract seen from the other currency

The two exchanges get the same calls, one at prices `p` and the other at `1/p`, with the sides swapped.
-/

namespace Lfest
open Spec

namespace Dual

variable {c c' : Cfg}

theorem view_qty {s : State} (h : Reachable c s) : (Ref.view c s).book.qty = netBought (fills s.log) := by
  obtain ⟨ops, hr⟩ := h
  exact (C06_position_quantity c ops s hr).1

/-- What the fills of a call have to do with those before it. -/
theorem neverAdds_step {s s1 : State} {o : Op} {r : Resp} (hr : Reachable c s)
    (h : step c s o = .ok (s1, r)) (hn : closesOut r = false) (ha : neverAdds (fills s1.log)) :
    neverAdds (fills s.log) ∧
    (∀ u, o = .update u ∨ o = .checkActive u →
      steps (Ref.view c s).book.qty (makerFills u (Ref.view c s).orders)) ∧
    (∀ side q uid f, o = .market side q uid → r = .market (.ok f) →
      (Ref.view c s).book.qty = 0 ∨ 0 < opposing (Ref.view c s).book.qty side) := by
  rw [view_qty hr]
  have same : fills s1.log = fills s.log →
      (∀ u, o ≠ .update u ∧ o ≠ .checkActive u) → (∀ f, r ≠ .market (.ok f)) →
      neverAdds (fills s.log) ∧
      (∀ u, o = .update u ∨ o = .checkActive u →
        steps (netBought (fills s.log)) (makerFills u (Ref.view c s).orders)) ∧
      (∀ side q uid f, o = .market side q uid → r = .market (.ok f) →
        netBought (fills s.log) = 0 ∨ 0 < opposing (netBought (fills s.log)) side) := by
    intro e h1 h2
    rw [e] at ha
    refine ⟨ha, fun u hu => ?_, fun side q uid f _ hf => absurd hf (h2 f)⟩
    rcases hu with hu | hu
    · exact absurd hu (h1 u).1
    · exact absurd hu (h1 u).2
  have hlog := step_calls hr.inv hr.linv.wf h
  cases o with
  | update a =>
    obtain ⟨ups, rfl⟩ := update_answer h hn
    rw [(update_spec hr.inv h).2.2.2.1] at ha
    obtain ⟨h1, h2⟩ := neverAdds_steps _ _ ha
    refine ⟨h1, fun u hu => ?_, fun side q uid f e => by cases e⟩
    rcases hu with hu | hu
    · cases hu; exact h2
    · cases hu
  | checkActive a =>
    simp only [step, bind_ok, ok_inj, Prod.mk.injEq] at h
    obtain ⟨u, hb, s2, h, rfl, rfl⟩ := h
    rw [(checkActive_spec hb hr.inv h).2.2.1] at ha
    obtain ⟨h1, h2⟩ := neverAdds_steps _ _ ha
    refine ⟨h1, fun u hu => ?_, fun side q uid f e => by cases e⟩
    rcases hu with hu | hu
    · cases hu
    · cases hu; exact h2
  | market side q uid =>
    rcases r with (_ | _) | _ | (_ | _) | (_ | _) | _ <;> simp only [calls] at hlog
    case market.ok f =>
      have e : fills s1.log = ⟨false, side, touchPrice s.ms side, q⟩ :: fills s.log := by
        rw [hlog]; simp [takerCalls, fills]
      rw [e] at ha
      refine ⟨ha.2, fun u hu => ?_, fun _ _ _ _ e _ => ?_⟩
      · rcases hu with hu | hu <;> cases hu
      · cases e; exact ha.1
    all_goals
      refine same (by rw [hlog]; simp [fills]) (fun u => ⟨by simp, by simp⟩) (fun f => by simp)
  | limit side p q uid =>
    rcases step_cases h with ⟨a, u, x, e, _⟩ | ⟨a, u, e, _⟩ | ⟨err, rfl, rfl⟩ | ⟨_, _, _, _, e, _⟩ |
      ⟨_, _, _, _, x, e, _, _, h, rfl⟩ | ⟨_, _, _, _, _, _, e, _⟩ | ⟨_, _, e, _⟩ <;> try cases e
    · exact same rfl (fun u => ⟨by simp, by simp⟩) (fun f => by simp)
    · exact same (fills_submitLimit h) (fun u => ⟨by simp, by simp⟩) (fun f => by simp)
  | amend id side p q uid =>
    rcases step_cases h with ⟨a, u, x, e, _⟩ | ⟨a, u, e, _⟩ | ⟨err, rfl, rfl⟩ | ⟨_, _, _, _, e, _⟩ |
      ⟨_, _, _, _, x, e, _, _, h, rfl⟩ | ⟨_, _, _, _, _, x, e, _, _, h, rfl⟩ | ⟨_, _, e, _⟩ <;> try cases e
    · exact same rfl (fun u => ⟨by simp, by simp⟩) (fun f => by simp)
    · exact same (fills_amendLimit h) (fun u => ⟨by simp, by simp⟩) (fun f => by simp)
  | cancel b =>
    rcases step_cases h with ⟨a, u, x, e, _⟩ | ⟨a, u, e, _⟩ | ⟨err, rfl, rfl⟩ | ⟨_, _, _, _, e, _⟩ |
      ⟨_, _, _, _, x, e, _, _, h, rfl⟩ | ⟨_, _, _, _, _, x, e, _, _, h, rfl⟩ | ⟨_, x, e, h, rfl⟩ <;> try cases e
    · exact same rfl (fun u => ⟨by simp, by simp⟩) (fun f => by simp)
    · exact same (fills_cancelLimit h) (fun u => ⟨by simp, by simp⟩) (fun f => by simp)

theorem neverAdds_history : ∀ (ops : List Op) {s t : State} {tr : List (Op × Resp)}, Reachable c s →
    history c s ops = .ok (t, tr) → (∀ x ∈ tr, closesOut x.2 = false) → neverAdds (fills t.log) →
    neverAdds (fills s.log)
  | [], s, t, tr, _, h, _, ha => by
    simp only [history, ok_inj, Prod.mk.injEq] at h
    rw [h.1]; exact ha
  | o :: ops, s, t, tr, hr, h, hn, ha => by
    simp only [history, bind_ok, ok_inj, Prod.mk.injEq] at h
    obtain ⟨⟨s1, r⟩, h1, ⟨t2, vr⟩, h2, rfl, rfl⟩ := h
    have := neverAdds_history ops (hr.step h1) h2 (fun x hx => hn x (List.mem_cons_of_mem _ hx)) ha
    exact (neverAdds_step hr h1 (hn _ (List.mem_cons_self ..)) this).1

theorem call_dual (h : Terms c c') {o o' : Op} (ho : op c.env.scale o o') {x y : Ref.Exchange}
    (t : Twins c.env.scale x y)
    (hx : closesOut (x.call c o).2 = false) (hy : closesOut (y.call c' o').2 = false)
    (hr : priceRefused (x.call c o).2 = false) (hr' : priceRefused (y.call c' o').2 = false)
    (hm : ∀ u, o = .update u ∨ o = .checkActive u → steps x.book.qty (makerFills u x.orders))
    (ha : ∀ side q uid f, o = .market side q uid → (x.call c o).2 = .market (.ok f) →
      x.book.qty = 0 ∨ 0 < opposing x.book.qty side) :
    Twins c.env.scale (x.call c o).1 (y.call c' o').1 ∧ resp c.env.scale (x.call c o).2 (y.call c' o').2 := by
  cases o <;> cases o' <;> simp only [op] at ho
  · rename_i u u'
    obtain ⟨q1, q2, q3⟩ := seen_dual ho (.inl t.quotes) t.ts t.step
    exact update_dual h ho ⟨q1, q2, q3, t.orders, t.next, t.book, t.reserved, t.locked⟩ hx hy (hm u (.inl rfl))
  · rename_i u u'
    exact ⟨matchAll_dual h ho t (hm u (.inr rfl)), trivial⟩
  · rename_i side q uid _ _ _
    obtain ⟨rfl, rfl, rfl⟩ := ho
    simp only [Ref.Exchange.call] at ha ⊢
    split
    · exact ⟨t, rfl⟩
    · rename_i hq
      refine marketOrder_dual h t side _ _ (fun f hf => ha side _ _ f rfl ?_)
      rw [if_neg hq]
      simp only [hf]
  · rename_i side p q uid _ p' _ _
    obtain ⟨rfl, hp, rfl, rfl⟩ := ho
    have h1 : ¬ p ≤ 0 := by have := hp.1; omega
    have h2 : ¬ p' ≤ 0 := by have := price_pos (scale_pos c.env) hp; omega
    simp only [Ref.Exchange.call, if_neg h1, if_neg h2] at hr hr' ⊢
    split
    · exact ⟨t, rfl⟩
    · rename_i hq
      rw [if_neg hq] at hr hr'
      exact limitOrder_dual h t hp hr hr'
  · rename_i id side p q uid _ _ p' _ _
    obtain ⟨rfl, rfl, hp, rfl, rfl⟩ := ho
    have h1 : ¬ p ≤ 0 := by have := hp.1; omega
    have h2 : ¬ p' ≤ 0 := by have := price_pos (scale_pos c.env) hp; omega
    simp only [Ref.Exchange.call, if_neg h1, if_neg h2] at hr hr' ⊢
    split
    · exact ⟨t, rfl⟩
    · rename_i hq
      rw [if_neg hq] at hr hr'
      exact amend_dual h t hp hr hr'
  · subst ho
    exact cancel_dual h t _

theorem view_init (c : Cfg) : Ref.view c (State.init c) = Ref.Exchange.new := by
  simp [Ref.view, State.init, Ref.Exchange.new, Accounts.new, Accounts.balance, Accounts.get,
    TAccount.net, State.feesPaid, MarketState.init, Position.quantity, Position.entryPrice,
    Position.outstandingFees, Ledger.empty]

/-- The first quotes. -/
theorem first_dual (h : Terms c c') {u u' : UpdateArg} (hu : arg c.env.scale u u') (hq : setsQuotes u = true) :
    Twins c.env.scale (Ref.Exchange.new.call c (.update u)).1 (Ref.Exchange.new.call c' (.update u')).1 ∧
    resp c.env.scale (Ref.Exchange.new.call c (.update u)).2 (Ref.Exchange.new.call c' (.update u')).2 := by
  obtain ⟨q1, q2, q3⟩ := seen_dual hu (m := Ref.Exchange.new.market) (m' := Ref.Exchange.new.market)
    (.inr hq) rfl rfl
  have e : ∀ (c : Cfg) (u : UpdateArg),
      ({ Ref.Exchange.new with market := seen Ref.Exchange.new.market [.update u] } : Ref.Exchange).underwater c
        = false := by
    intro c u
    simp [Ref.Exchange.underwater, Ref.Exchange.new, Ledger.empty]
  refine update_dual h hu ⟨q1, q2, q3, trivial, rfl, ⟨rfl, fun h => absurd rfl h, rfl, rfl, rfl⟩, rfl, rfl⟩ ?_ ?_
    trivial
  · rw [update_up (by rw [e]; simp)]; rfl
  · rw [update_up (by rw [e]; simp)]; rfl

theorem dual_from (h : Terms c c') (hcap : c.maxOpen ≤ 10000) : ∀ (ops ops' : List Op) {s s' t t' : State}
    {tr tr' : List (Op × Resp)}, along (op c.env.scale) ops ops' → Reachable c s → Reachable c' s' →
    history c s ops = .ok (t, tr) → history c' s' ops' = .ok (t', tr') →
    Twins c.env.scale (Ref.view c s) (Ref.view c' s') →
    (∀ x ∈ tr ++ tr', closesOut x.2 = false ∧ priceRefused x.2 = false) → neverAdds (fills t.log) →
    Twins c.env.scale (Ref.view c t) (Ref.view c' t') ∧
    along (fun x y => resp c.env.scale x.2 y.2) tr tr'
  | [], [], s, s', t, t', tr, tr', _, _, _, e, e', ht, _, _ => by
    simp only [history, ok_inj, Prod.mk.injEq] at e e'
    obtain ⟨rfl, rfl⟩ := e
    obtain ⟨rfl, rfl⟩ := e'
    exact ⟨ht, trivial⟩
  | [], _ :: _, _, _, _, _, _, _, ho, _, _, _, _, _, _, _ => by cases ho
  | _ :: _, [], _, _, _, _, _, _, ho, _, _, _, _, _, _, _ => by cases ho
  | o :: ops, o' :: ops', s, s', t, t', tr, tr', ho, hr, hr', e, e', ht, hn, ha => by
    simp only [history, bind_ok, ok_inj, Prod.mk.injEq] at e e'
    obtain ⟨⟨s1, r⟩, h1, ⟨t2, vr⟩, h2, rfl, rfl⟩ := e
    obtain ⟨⟨s1', r'⟩, h1', ⟨t2', vr'⟩, h2', rfl, rfl⟩ := e'
    have n1 := hn (o, r) (by simp)
    have n2 := hn (o', r') (by simp)
    have n3 : ∀ x ∈ vr ++ vr', closesOut x.2 = false ∧ priceRefused x.2 = false := by
      intro x hx
      refine hn x ?_
      simp only [List.mem_append] at hx
      rcases hx with hx | hx <;> simp [hx]
    have a1 := neverAdds_history ops (hr.step h1) h2 (fun x hx => (n3 x (by simp [hx])).1) ha
    obtain ⟨_, a2, a3⟩ := neverAdds_step hr h1 n1.1 a1
    have k := C65_every_call c s s1 o r hcap hr h1
    have k' := C65_every_call c' s' s1' o' r' (by rw [h.places]; exact hcap) hr' h1'
    have d := call_dual h ho.1 ht (by rw [k]; exact n1.1) (by rw [k']; exact n2.1) (by rw [k]; exact n1.2)
      (by rw [k']; exact n2.2) a2 (fun side q uid f e1 e2 => a3 side q uid f e1 (by rw [k] at e2; exact e2))
    rw [k, k'] at d
    obtain ⟨d1, d2⟩ := dual_from h hcap ops ops' ho.2 (hr.step h1) (hr'.step h1') h2 h2' d.1 n3 ha
    exact ⟨d1, d.2, d2⟩

end Dual

/-- C142: an exchange for an inverse contract, and one for a linear contract that gets the same calls with
reciprocal prices and swapped sides, give the same answers seen from the other side. The quotes, the active
orders and the entry price are the other side's, the positions are opposite, and the fees and the balances of
all accounts are the same. The first call brings quotes, nothing is liquidated, no limit order is turned down by
a price filter, and no fill adds to a position. -/
theorem C142_other_side (c c' : Cfg) (u : UpdateArg) (ops ops' : List Op) (s s' : State)
    (tr tr' : List (Op × Resp)) (ht : Dual.Terms c c') (hcap : c.maxOpen ≤ 10000)
    (hu : Dual.setsQuotes u = true) (ho : Dual.along (Dual.op c.env.scale) (.update u :: ops) ops')
    (h : history c (State.init c) (.update u :: ops) = .ok (s, tr))
    (h' : history c' (State.init c') ops' = .ok (s', tr'))
    (hn : ∀ x ∈ tr ++ tr', closesOut x.2 = false ∧ Dual.priceRefused x.2 = false)
    (ha : Dual.neverAdds (fills s.log)) :
    Dual.along (fun x y => Dual.resp c.env.scale x.2 y.2) tr tr' ∧
    Dual.quotes c.env.scale s.ms.bid s.ms.ask s'.ms.bid s'.ms.ask ∧
    Dual.along (Dual.limit c.env.scale) s.active s'.active ∧ s'.nextId = s.nextId ∧
    s'.pos.quantity = -s.pos.quantity ∧
    (s.pos.quantity ≠ 0 → Dual.price c.env.scale s.pos.entryPrice s'.pos.entryPrice) ∧
    s'.pos.outstandingFees = s.pos.outstandingFees ∧ ∀ a, s'.acct.balance a = s.acct.balance a := by
  obtain ⟨o', ops', rfl⟩ : ∃ o' rest, ops' = o' :: rest := by
    cases ops' with
    | nil => cases ho
    | cons a l => exact ⟨a, l, rfl⟩
  obtain ⟨u', rfl⟩ : ∃ u', o' = .update u' := by
    have := ho.1
    cases o' <;> simp only [Dual.op] at this
    exact ⟨_, rfl⟩
  have run1 := history_run h
  have run2 := history_run h'
  simp only [history, bind_ok, ok_inj, Prod.mk.injEq] at h h'
  obtain ⟨⟨s1, r⟩, h1, ⟨t2, vr⟩, h2, rfl, rfl⟩ := h
  obtain ⟨⟨s1', r'⟩, h1', ⟨t2', vr'⟩, h2', rfl, rfl⟩ := h'
  have r1 : Reachable c (State.init c) := ⟨[], rfl⟩
  have r2 : Reachable c' (State.init c') := ⟨[], rfl⟩
  have k := C65_every_call c _ s1 _ r hcap r1 h1
  have k' := C65_every_call c' _ s1' _ r' (by rw [ht.places]; exact hcap) r2 h1'
  rw [Dual.view_init] at k k'
  have d := Dual.first_dual ht ho.1 hu
  rw [k, k'] at d
  have n3 : ∀ x ∈ vr ++ vr', closesOut x.2 = false ∧ Dual.priceRefused x.2 = false := by
    intro x hx
    refine hn x ?_
    simp only [List.mem_append] at hx
    rcases hx with hx | hx <;> simp [hx]
  obtain ⟨d1, d2⟩ := Dual.dual_from ht hcap ops ops' ho.2 (r1.step h1) (r2.step h1') h2 h2' d.1 n3 ha
  have run1 : run c (State.init c) (.update u :: ops) = .ok t2 := run1
  have run2 : run c' (State.init c') (.update u' :: ops') = .ok t2' := run2
  have a1 := (C01_double_entry c _ _ run1).2
  have a2 := (C01_double_entry c' _ _ run2).2
  have p1 : t2.acct.balance .broker = 0 := by
    simp [Accounts.balance, Accounts.get, a1.2, TAccount.net]
  have p2 : t2'.acct.balance .broker = 0 := by
    simp [Accounts.balance, Accounts.get, a2.2, TAccount.net]
  have a1 := a1.1
  have a2 := a2.1
  have q1 := d1.book.paid
  have q2 := d1.book.realised
  have q3 := d1.reserved
  have q4 := d1.locked
  have q5 := ht.start
  simp only [Ref.view, State.feesPaid] at q1 q2 q3 q4
  refine ⟨⟨d.2, d2⟩, d1.quotes, d1.orders, d1.next, d1.book.qty, d1.book.entry, d1.book.owed, fun a => ?_⟩
  show t2'.acct.balance a = t2.acct.balance a
  cases a <;> omega

/-! ## The hypotheses are met, and why they are needed -/

/-- An inverse contract with fine steps. -/
def Ex.fineInv : Cfg := { Ex.fine with env := { Ex.fine.env with kind := .inverse } }

/-- Quotes 100 / 125. Buy 1000 at market, rest a sell of 1000 at 160 and a buy of 400 at 80. A trade fills 400 of
the sell. Amend the buy to 100. A candle fills the rest of the sell, then the buy, and quotes 160 / 200. An order
at 200 crosses the book. Sell 1000 at market, flipping the position. -/
def Ex.calls : List Op :=
  [.update (.bba ⟨Ex.d 100, Ex.d 125, 1⟩), .market .buy (Ex.d 1000) 0, .limit .sell (Ex.d 160) (Ex.d 1000) 1,
   .limit .buy (Ex.d 80) (Ex.d 400) 2, .update (.trade ⟨2, Ex.d 200, Ex.d 400, .buy⟩),
   .amend 2 .buy (Ex.d 100) (Ex.d 400) 2, .update (.candle ⟨Ex.d 160, Ex.d 200, Ex.d 80, Ex.d 200, 3⟩),
   .limit .buy (Ex.d 200) (Ex.d 1) 3, .market .sell (Ex.d 1000) 0]

/-- The same calls from the other side: quotes 0.008 / 0.01, a market sell, … -/
def Ex.callsOther : List Op :=
  [.update (.bba ⟨800, 1000, 1⟩), .market .sell (Ex.d 1000) 0, .limit .buy 625 (Ex.d 1000) 1,
   .limit .sell 1250 (Ex.d 400) 2, .update (.trade ⟨2, 500, Ex.d 400, .sell⟩),
   .amend 2 .sell 1000 (Ex.d 400) 2, .update (.candle ⟨500, 625, 500, 1250, 3⟩),
   .limit .sell 500 (Ex.d 1) 3, .market .buy (Ex.d 1000) 0]

/-- The hypotheses are met by the calls above. The inverse contract ends short 600 at 160 and the linear one long
600 at 0.00625, with the same wallet. -/
example : Dual.Terms Ex.fineInv Ex.fine := by constructor <;> rfl

example : Dual.along (Dual.op Ex.fineInv.env.scale) Ex.calls Ex.callsOther := by decide +kernel

example : (match history Ex.fineInv (State.init Ex.fineInv) Ex.calls,
      history Ex.fine (State.init Ex.fine) Ex.callsOther with
    | .ok (s, tr), .ok (s', tr') =>
      (tr ++ tr').all (fun x => !closesOut x.2 && !Dual.priceRefused x.2) && decide (Dual.neverAdds (fills s.log)) &&
      decide ((fills s.log).length = 5) && decide (s.pos.quantity = -(Ex.d 600)) &&
      decide (s.pos.entryPrice = Ex.d 160) && decide (s'.pos.quantity = Ex.d 600) &&
      decide (s'.pos.entryPrice = 625) && decide (s.acct.balance .wallet = s'.acct.balance .wallet) &&
      decide (s.acct.balance .wallet = 99948940)
    | _, _ => false) = true := by
  decide +kernel

/-- C142 fails once a fill adds to a position: an inverse contract averages the prices of its fills, as if it
were linear. After buying 1000 at 100 and 1000 at 200 the entry price is 150, and 0.0075 on the other side. -/
theorem C142_not_when_adding :
    ∃ (ops ops' : List Op) (s s' : State) (tr tr' : List (Op × Resp)),
      Dual.along (Dual.op Ex.fineInv.env.scale) ops ops' ∧
      history Ex.fineInv (State.init Ex.fineInv) ops = .ok (s, tr) ∧
      history Ex.fine (State.init Ex.fine) ops' = .ok (s', tr') ∧
      (∀ x ∈ tr ++ tr', closesOut x.2 = false ∧ Dual.priceRefused x.2 = false) ∧
      s.pos.entryPrice = Ex.d 150 ∧ s'.pos.entryPrice = 750 ∧
      ¬ Dual.price Ex.fineInv.env.scale s.pos.entryPrice s'.pos.entryPrice := by
  let ops : List Op := [.update (.bba ⟨Ex.d 80, Ex.d 100, 1⟩), .market .buy (Ex.d 1000) 0,
    .update (.bba ⟨Ex.d 160, Ex.d 200, 2⟩), .market .buy (Ex.d 1000) 0]
  let ops' : List Op := [.update (.bba ⟨1000, 1250, 1⟩), .market .sell (Ex.d 1000) 0,
    .update (.bba ⟨500, 625, 2⟩), .market .sell (Ex.d 1000) 0]
  have h : (match history Ex.fineInv (State.init Ex.fineInv) ops, history Ex.fine (State.init Ex.fine) ops' with
    | .ok (s, tr), .ok (s', tr') => decide (Dual.along (Dual.op Ex.fineInv.env.scale) ops ops' ∧
        (∀ x ∈ tr ++ tr', closesOut x.2 = false ∧ Dual.priceRefused x.2 = false) ∧
        s.pos.entryPrice = Ex.d 150 ∧ s'.pos.entryPrice = 750 ∧
        ¬ Dual.price Ex.fineInv.env.scale s.pos.entryPrice s'.pos.entryPrice)
    | _, _ => false) = true := by
    decide +kernel
  split at h
  · rename_i s tr s' tr' e e'
    obtain ⟨h1, h2⟩ := of_decide_eq_true h
    exact ⟨ops, ops', s, s', tr, tr', h1, e, e', h2⟩
  · cases h

/-- C142 fails for liquidations: the limits are a fraction of the entry price for both kinds of contracts, so the
reciprocal of one is not the other. Half below an entry at 100 is 50, half above 0.01 is 0.015, the reciprocal of
66.7. At a bid of 62.5 the linear contract is liquidated and the inverse one is not. -/
theorem C142_not_for_liquidations :
    ∃ (ops ops' : List Op) (s s' : State) (tr tr' : List (Op × Resp)),
      Dual.along (Dual.op Ex.fineInv.env.scale) ops ops' ∧
      history Ex.fineInv (State.init Ex.fineInv) ops = .ok (s, tr) ∧
      history Ex.fine (State.init Ex.fine) ops' = .ok (s', tr') ∧
      (∀ x ∈ tr, closesOut x.2 = false) ∧ Dual.neverAdds (fills s.log) ∧
      (∃ x ∈ tr', closesOut x.2 = true) ∧ s.pos.quantity = Ex.d 1000 ∧ s'.pos.quantity = 0 := by
  let ops : List Op := [.update (.bba ⟨Ex.d 80, Ex.d 100, 1⟩), .market .buy (Ex.d 1000) 0,
    .update (.bba ⟨6250000, Ex.d 100, 2⟩)]
  let ops' : List Op := [.update (.bba ⟨1000, 1250, 1⟩), .market .sell (Ex.d 1000) 0,
    .update (.bba ⟨1000, 1600, 2⟩)]
  have h : (match history Ex.fineInv (State.init Ex.fineInv) ops, history Ex.fine (State.init Ex.fine) ops' with
    | .ok (s, tr), .ok (s', tr') => decide (Dual.along (Dual.op Ex.fineInv.env.scale) ops ops' ∧
        (∀ x ∈ tr, closesOut x.2 = false) ∧ Dual.neverAdds (fills s.log) ∧
        (∃ x ∈ tr', closesOut x.2 = true) ∧ s.pos.quantity = Ex.d 1000 ∧ s'.pos.quantity = 0)
    | _, _ => false) = true := by
    decide +kernel
  split at h
  · rename_i s tr s' tr' e e'
    obtain ⟨h1, h2⟩ := of_decide_eq_true h
    exact ⟨ops, ops', s, s', tr, tr', h1, e, e', h2⟩
  · cases h

end Lfest
