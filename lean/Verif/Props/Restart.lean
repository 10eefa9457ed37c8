import Verif.Lemmas.Restart
import Verif.Props.Clean

/-!
# C118: only the present account matters
-/

namespace Lfest

open Spec

theorem pos_same {p q : Position} (hp : PosWF p) (hq : PosWF q)
    (h1 : p.quantity = q.quantity) (h2 : p.entryPrice = q.entryPrice)
    (h3 : p.outstandingFees = q.outstandingFees) : p = q := by
  revert h1 h2 h3 hp hq
  cases p with
  | neutral =>
    cases q <;> simp only [PosWF, Position.quantity, Position.entryPrice,
      Position.outstandingFees] <;> intros <;> first | rfl | omega
  | long p =>
    cases q <;> simp only [PosWF, Position.quantity, Position.entryPrice,
      Position.outstandingFees] <;> intros
    · omega
    · next q _ _ a b d => cases p; cases q; simp_all
    · omega
  | short p =>
    cases q <;> simp only [PosWF, Position.quantity, Position.entryPrice,
      Position.outstandingFees] <;> intros
    · omega
    · omega
    · next q _ _ a b d => cases p; cases q; simp_all

/-- The starting balances differ by what has been gained since. -/
theorem like_restart {c d : Cfg} {s t : State} {k : Nat} (hd : c.like d) (hs : Reachable c s)
    (ht : Reachable d t) (h : SameAccount k t s) : ∃ a b,
    c = restart a b c.sampleSecs d ∧ a = s.feesPaid - t.feesPaid ∧
    Ref.view c s = moved k a b s.ms.step (Ref.view d t) := by
  have w1 := C65_wallet c s hs
  have w2 := C65_wallet d t ht
  have hw := h.wallet
  refine ⟨(Ref.view c s).book.paid - (Ref.view d t).book.paid,
    (Ref.view c s).book.realised - (Ref.view d t).book.realised, ?_, rfl, ?_⟩
  · obtain ⟨h1, h2, h3⟩ := hd
    have e1 : (Ref.view c s).reserved = (Ref.view d t).reserved := h.orderMargin
    have e2 : (Ref.view c s).locked = (Ref.view d t).locked := h.positionMargin
    rw [w1, w2] at hw
    simp only [Ref.Exchange.wallet, e1, e2] at hw
    have e3 : c.start = d.start - ((Ref.view c s).book.realised - (Ref.view d t).book.realised) +
        ((Ref.view c s).book.paid - (Ref.view d t).book.paid) := by omega
    revert e3
    generalize (Ref.view c s).book.realised - (Ref.view d t).book.realised = b
    generalize (Ref.view c s).book.paid - (Ref.view d t).book.paid = a
    intro e3
    cases c; cases d
    simp_all [restart]
  · have e1 := h.orders
    have e2 := h.next
    have e3 := h.position
    have e4 := h.orderMargin
    have e5 := h.positionMargin
    have e6 := h.bid
    have e7 := h.ask
    have e8 := h.time
    have em : s.ms = { t.ms with step := s.ms.step } := by
      dsimp only
      rw [← e6, ← e7, ← e8]
    simp only [Ref.view, moved, e1, e2, e3, e4, e5, ← em, Ref.Exchange.mk.injEq, Ledger.mk.injEq,
      true_and, and_true]
    omega

/-- … and back. -/
theorem same_moved {d : Cfg} {s t : State} {k i : Nat} {a b : Int}
    (hs : Reachable (restart a b i d) s) (ht : Reachable d t)
    (h : Ref.view (restart a b i d) s = moved k a b s.ms.step (Ref.view d t)) :
    SameAccount k t s := by
  have w1 := C65_wallet _ s hs
  have w2 := C65_wallet d t ht
  have hw := wallet_moved (k := k) (a := a) (b := b) (i := i) (n := s.ms.step) (c := d)
    (x := Ref.view d t)
  rw [← h, ← w1, ← w2] at hw
  have p1 : PosWF s.pos := hs.linv.wf
  have p2 : PosWF t.pos := ht.linv.wf
  simp only [Ref.view, moved, Ref.Exchange.mk.injEq, Ledger.mk.injEq] at h
  obtain ⟨h1, h2, h3, ⟨h4, h5, h6, _⟩, h7, h8⟩ := h
  exact ⟨by rw [h1], by rw [h1], by rw [h1], pos_same p1 p2 h4 h5 h6, h2, h3, hw, h7, h8⟩

theorem step_twin {d : Cfg} {s t : State} {k i : Nat} {a b : Int} {op : Op}
    (hd : soundConfig d) (hs : Reachable (restart a b i d) s) (ht : Reachable d t)
    (h : Ref.view (restart a b i d) s = moved k a b s.ms.step (Ref.view d t)) :
    (∀ t' r, step d t op = .ok (t', r) →
      ∃ s', step (restart a b i d) s (Later.op k op) = .ok (s', Later.resp k r) ∧
        Ref.view (restart a b i d) s' = moved k a b s'.ms.step (Ref.view d t')) ∧
    ((∃ p, step d t op = .error p) →
      ∃ p, step (restart a b i d) s (Later.op k op) = .error p) := by
  have hc : soundConfig (restart a b i d) := hd
  have hret := returns_moved (k := k) (a := a) (b := b) (i := i) (n := s.ms.step) (c := d)
    (x := Ref.view d t) op
  rw [← h] at hret
  constructor
  · intro t' r hst
    obtain ⟨s', r', hst'⟩ := (C88_returns _ s (Later.op k op) hc hs).2
      (hret.2 ((C88_returns d t op hd ht).1 ⟨t', r, hst⟩))
    have c1 := C65_every_call d t t' op r hd.2.2.2.2 ht hst
    have c2 := C65_every_call _ s s' _ r' hc.2.2.2.2 hs hst'
    obtain ⟨n', hm⟩ := call_moved (k := k) (a := a) (b := b) (i := i) (n := s.ms.step) (c := d)
      (x := Ref.view d t) op
    rw [← h, c1, c2] at hm
    simp only [Prod.mk.injEq] at hm
    obtain ⟨hv, rfl⟩ := hm
    refine ⟨s', hst', ?_⟩
    have : s'.ms.step = n' := by
      have := congrArg (fun x : Ref.Exchange => x.market.step) hv
      exact this
    rw [this]; exact hv
  · intro hp
    exact (C88_panics _ s _ hc hs).2 (fun hr => (C88_panics d t op hd ht).1 hp (hret.1 hr))

theorem history_twin {d : Cfg} {k i : Nat} {a b : Int} (hd : soundConfig d) (ops : List Op) :
    ∀ {s t : State}, Reachable (restart a b i d) s → Reachable d t →
    Ref.view (restart a b i d) s = moved k a b s.ms.step (Ref.view d t) →
    (∀ t' tr, history d t ops = .ok (t', tr) →
      ∃ s', history (restart a b i d) s (ops.map (Later.op k)) =
          .ok (s', tr.map fun e => (Later.op k e.1, Later.resp k e.2)) ∧
        Reachable (restart a b i d) s' ∧ Reachable d t' ∧
        Ref.view (restart a b i d) s' = moved k a b s'.ms.step (Ref.view d t')) ∧
    ((∃ p, history d t ops = .error p) →
      ∃ p, history (restart a b i d) s (ops.map (Later.op k)) = .error p) := by
  induction ops with
  | nil =>
    intro s t hs ht h
    refine ⟨fun t' tr e => ?_, fun ⟨p, e⟩ => by cases e⟩
    simp only [history, ok_inj, Prod.mk.injEq] at e
    obtain ⟨rfl, rfl⟩ := e
    exact ⟨s, rfl, hs, ht, h⟩
  | cons op ops ih =>
    intro s t hs ht h
    have hst := step_twin (op := op) hd hs ht h
    cases h1 : step d t op with
    | error p =>
      obtain ⟨p', hp'⟩ := hst.2 ⟨p, h1⟩
      refine ⟨fun t' tr e => ?_, fun _ => ⟨p', ?_⟩⟩
      · simp only [history, h1] at e; cases e
      · simp only [List.map_cons, history, hp']; rfl
    | ok x =>
      obtain ⟨t1, r⟩ := x
      obtain ⟨s1, hs1, hv⟩ := hst.1 t1 r h1
      have ih' := ih (hs.step hs1) (ht.step h1) hv
      cases h2 : history d t1 ops with
      | error p =>
        obtain ⟨p', hp'⟩ := ih'.2 ⟨p, h2⟩
        refine ⟨fun t' tr e => ?_, fun _ => ⟨p', ?_⟩⟩
        · simp only [history, h1] at e
          change (history d t1 ops >>= _) = _ at e
          rw [h2] at e; cases e
        · simp only [List.map_cons, history, hs1]
          change (history _ s1 _ >>= _) = _
          rw [hp']; rfl
      | ok y =>
        obtain ⟨t2, tr2⟩ := y
        obtain ⟨s2, e2, r1, r2, hv2⟩ := ih'.1 t2 tr2 h2
        refine ⟨fun t' tr e => ?_, fun ⟨p, e⟩ => ?_⟩
        · simp only [history, h1] at e
          change (history d t1 ops >>= _) = _ at e
          rw [h2] at e
          cases e
          refine ⟨s2, ?_, r1, r2, hv2⟩
          simp only [List.map_cons, history, hs1]
          change (history _ s1 _ >>= _) = _
          rw [e2]; rfl
        · simp only [history, h1] at e
          change (history d t1 ops >>= _) = _ at e
          rw [h2] at e; cases e

/-- C118: two accounts that look the same now, on exchanges with the same contract, are treated the
same from now on, whatever happened before and whatever the starting balances were. Every sequence
of calls gets the same answers, up to the order ids, and leads to accounts that again look the same,
with the same fees paid in between; or it panics on both. -/
theorem C118_only_the_present (c d : Cfg) (s t : State) (k : Nat) (ops : List Op)
    (hc : soundConfig c) (hd : c.like d) (hs : Reachable c s) (ht : Reachable d t)
    (h : SameAccount k t s) :
    (∀ t' tr, history d t ops = .ok (t', tr) →
      ∃ s', history c s (ops.map (Later.op k)) =
          .ok (s', tr.map fun e => (Later.op k e.1, Later.resp k e.2)) ∧
        SameAccount k t' s' ∧
        s'.feesPaid - s.feesPaid = t'.feesPaid - t.feesPaid ∧
        s'.acct.balance .treasury - s.acct.balance .treasury =
          t'.acct.balance .treasury - t.acct.balance .treasury) ∧
    ((∃ p, history d t ops = .error p) ↔
      ∃ p, history c s (ops.map (Later.op k)) = .error p) := by
  have hsd : soundConfig d := by
    obtain ⟨h1, h2, h3⟩ := hd
    unfold soundConfig at *
    rw [← h1, ← h2, ← h3]; exact hc
  obtain ⟨a, b, hcd, _, hv⟩ := like_restart hd hs ht h
  generalize c.sampleSecs = i at hcd
  subst hcd
  have hh := history_twin hsd ops hs ht hv
  have hok : ∀ t' tr, history d t ops = .ok (t', tr) →
      ∃ s', history (restart a b i d) s (ops.map (Later.op k)) =
          .ok (s', tr.map fun e => (Later.op k e.1, Later.resp k e.2)) ∧
        SameAccount k t' s' ∧
        s'.feesPaid - s.feesPaid = t'.feesPaid - t.feesPaid ∧
        s'.acct.balance .treasury - s.acct.balance .treasury =
          t'.acct.balance .treasury - t.acct.balance .treasury := by
    intro t' tr e
    obtain ⟨s', e', r1, r2, hv'⟩ := hh.1 t' tr e
    refine ⟨s', e', same_moved r1 r2 hv', ?_, ?_⟩
    · have f1 := congrArg (fun x : Ref.Exchange => x.book.paid) hv
      have f2 := congrArg (fun x : Ref.Exchange => x.book.paid) hv'
      simp only [Ref.view, moved] at f1 f2
      omega
    · have f1 := congrArg (fun x : Ref.Exchange => x.book.realised) hv
      have f2 := congrArg (fun x : Ref.Exchange => x.book.realised) hv'
      simp only [Ref.view, moved] at f1 f2
      omega
  refine ⟨hok, hh.2, fun ⟨p, hp⟩ => ?_⟩
  cases e : history d t ops with
  | error q => exact ⟨q, rfl⟩
  | ok y =>
    obtain ⟨t', tr⟩ := y
    obtain ⟨s', e', _⟩ := hok t' tr e
    rw [hp] at e'; cases e'

/-! ## A flat account -/

theorem flat_update {c : Cfg} {x : Ref.Exchange} (u : UpdateArg) (ho : x.orders = [])
    (hq : x.book.qty = 0) :
    x.update c u = ({ x with market := seen x.market [.update u] }, .ok []) := by
  simp [Ref.Exchange.update, Ref.Exchange.underwater, hq, Ref.Exchange.matchAll, ho, reports]

theorem flat_updateReturns {c : Cfg} {x : Ref.Exchange} (u : UpdateArg) (ho : x.orders = [])
    (hq : x.book.qty = 0) (hl : x.reserved = 0) :
    x.updateReturns c u ↔ (c.env.debug = true → updateOk c.spec.priceFilter u) ∧
      (mayFill u = true → 0 ≤ x.wallet c) := by
  have e0 : marginReq c [] 0 = 0 := by
    simp [marginReq, sideValue, share, larger]
  simp [Ref.Exchange.updateReturns, Ref.Exchange.underwater, hq, Ref.Exchange.matchAllReturns,
    Ref.Exchange.matchAll, ho, Ref.Exchange.eachReturns, Ref.Exchange.required, hl, e0,
    Ref.Exchange.wallet]

theorem idle_update {c d : Cfg} {s t : State} {u : UpdateArg} (hc : soundConfig c)
    (hd : c.like d) (hs : Reachable c s) (ht : Reachable d t) (hi : idle s) (hj : idle t)
    (hw : s.acct.balance .wallet = t.acct.balance .wallet) (hn : t.nextId = 0)
    (hu : setsQuotes u = true) :
    (∀ t' r, step d t (.update u) = .ok (t', r) → ∃ s', step c s (.update u) = .ok (s', r) ∧
      SameAccount s.nextId t' s' ∧ s'.feesPaid = s.feesPaid ∧ t'.feesPaid = t.feesPaid ∧
      s'.acct.balance .treasury = s.acct.balance .treasury ∧
      t'.acct.balance .treasury = t.acct.balance .treasury) ∧
    ((∃ p, step d t (.update u) = .error p) → ∃ p, step c s (.update u) = .error p) := by
  have hsd : soundConfig d := by
    obtain ⟨h1, h2, h3⟩ := hd
    unfold soundConfig at *
    rw [← h1, ← h2, ← h3]; exact hc
  obtain ⟨i1, i2, i3, i4⟩ := hi
  obtain ⟨j1, j2, j3, j4⟩ := hj
  have q1 : (Ref.view c s).book.qty = 0 := by simp [Ref.view, i1, Position.quantity]
  have q2 : (Ref.view d t).book.qty = 0 := by simp [Ref.view, j1, Position.quantity]
  have w1 := C65_wallet c s hs
  have w2 := C65_wallet d t ht
  have r1 := flat_updateReturns (c := c) u (x := Ref.view c s) i2 q1 i3
  have r2 := flat_updateReturns (c := d) u (x := Ref.view d t) j2 q2 j3
  rw [← w1] at r1
  rw [← w2, ← hw, ← hd.1, ← hd.2.2] at r2
  have hret : (Ref.view d t).returns d (.update u) ↔ (Ref.view c s).returns c (.update u) := by
    simp only [Ref.Exchange.returns, r1, r2, hd.1]
  constructor
  · intro t' r hst
    have hr2 := (C88_returns d t _ hsd ht).1 ⟨t', r, hst⟩
    obtain ⟨s', r', hst'⟩ := (C88_returns c s (.update u) hc hs).2 (hret.1 hr2)
    have c1 := C65_every_call d t t' _ r hsd.2.2.2.2 ht hst
    have c2 := C65_every_call c s s' _ r' hc.2.2.2.2 hs hst'
    simp only [Ref.Exchange.call] at c1 c2
    rw [flat_update u (x := Ref.view d t) j2 q2] at c1
    rw [flat_update u (x := Ref.view c s) i2 q1] at c2
    simp only [Prod.mk.injEq] at c1 c2
    obtain ⟨v1, rfl⟩ := c1
    obtain ⟨v2, rfl⟩ := c2
    have hm := hr2.1
    simp only [Ref.view, Ref.Exchange.mk.injEq, Ledger.mk.injEq] at v1 v2
    obtain ⟨a1, a2, a3, ⟨a4, a5, a6, a7, a8⟩, a9, a10⟩ := v1
    obtain ⟨b1, b2, b3, ⟨b4, b5, b6, b7, b8⟩, b9, b10⟩ := v2
    have w3 := C65_wallet c s' (hs.step hst')
    have w4 := C65_wallet d t' (ht.step hst)
    have hms : s'.ms.bid = t'.ms.bid ∧ s'.ms.ask = t'.ms.ask ∧ s'.ms.ts = t'.ms.ts := by
      rw [← a1, ← b1]
      simp only [seen]
      cases u with
      | bba y => exact ⟨rfl, rfl, rfl⟩
      | candle y => exact ⟨rfl, rfl, rfl⟩
      | smart ts y f =>
        refine ⟨rfl, rfl, ?_⟩
        simp only [Ref.makes] at hm
        simp only [updateTime]
        cases hg : ts.getLast? with
        | none => exact absurd (List.getLast?_eq_none_iff.1 hg) hm.1
        | some z => rfl
      | trade y => cases hu
      | custom y => cases hu
    refine ⟨s', hst', ⟨hms.1, hms.2.1, hms.2.2, ?_, ?_, ?_, ?_, ?_, ?_⟩, ?_, ?_, ?_, ?_⟩
    · rw [i1] at b4 b5 b6
      rw [j1] at a4 a5 a6
      exact pos_same (hs.step hst').linv.wf (ht.step hst).linv.wf (by rw [← b4, ← a4])
        (by rw [← b5, ← a5]) (by rw [← b6, ← a6])
    · rw [← a2, ← b2, i2, j2]; rfl
    · rw [← a3, ← b3, hn, Nat.zero_add]
    · rw [w3, w4]
      simp only [Ref.Exchange.wallet, Ref.view] at w1 w2 ⊢
      rw [← a7, ← b7, ← a8, ← b8, ← a9, ← b9, ← a10, ← b10]
      omega
    · omega
    · omega
    · exact b7.symm
    · exact a7.symm
    · omega
    · omega
  · intro hp
    exact (C88_panics c s _ hc hs).2 (fun hr => (C88_panics d t _ hsd ht).1 hp (hret.2 hr))

/-- C118: from the next quotes on, an account without position, orders and margins goes on like a
new one whose starting balance is what is in the wallet. All calls get the answers of a new
exchange, with order ids that go on counting; fees and profits are the same; and the same calls
panic. -/
theorem C118_starts_afresh (c : Cfg) (s : State) (u : UpdateArg) (ops : List Op)
    (hc : soundConfig c) (hs : Reachable c s) (hi : idle s) (hu : setsQuotes u = true)
    (d : Cfg) (hd : d = { c with start := s.acct.balance .wallet }) :
    (∀ t tr, history d (State.init d) (.update u :: ops) = .ok (t, tr) →
      ∃ s', history c s ((.update u :: ops).map (Later.op s.nextId)) =
          .ok (s', tr.map fun e => (Later.op s.nextId e.1, Later.resp s.nextId e.2)) ∧
        SameAccount s.nextId t s' ∧
        s'.feesPaid = s.feesPaid + t.feesPaid ∧
        s'.acct.balance .treasury =
          s.acct.balance .treasury + (t.acct.balance .treasury + d.start)) ∧
    ((∃ p, history d (State.init d) (.update u :: ops) = .error p) ↔
      ∃ p, history c s ((.update u :: ops).map (Later.op s.nextId)) = .error p) := by
  have hl : c.like d := by subst hd; exact ⟨rfl, rfl, rfl⟩
  have ht : Reachable d (State.init d) := ⟨[], rfl⟩
  have hz : ∀ a, (State.init d).acct.balance a = match a with
      | .wallet => d.start | .treasury => -d.start | _ => 0 := by
    intro a
    cases a <;> simp [State.init, Accounts.new, Accounts.balance, Accounts.get, TAccount.net]
  have hj : idle (State.init d) := ⟨rfl, rfl, hz .orderMargin, hz .positionMargin⟩
  have hw : s.acct.balance .wallet = (State.init d).acct.balance .wallet := by
    rw [hz]; subst hd; rfl
  have h1 := idle_update hc hl hs ht hi hj hw rfl hu
  have hop : Later.op s.nextId (.update u) = .update u := by
    cases u <;> first | rfl | cases hu
  simp only [List.map_cons, hop]
  have hf : (State.init d).feesPaid = 0 := hz .exchangeFee
  cases e1 : step d (State.init d) (.update u) with
  | error p =>
    obtain ⟨p', hp'⟩ := h1.2 ⟨p, e1⟩
    refine ⟨fun t tr e => ?_, fun _ => ⟨p', ?_⟩, fun _ => ⟨p, ?_⟩⟩
    · simp only [history, e1] at e; cases e
    · simp only [history, hp']; rfl
    · simp only [history, e1]; rfl
  | ok y =>
    obtain ⟨t1, r⟩ := y
    obtain ⟨s1, es, hsame, f1, f2, f3, f4⟩ := h1.1 t1 r e1
    have hr : Later.resp s.nextId r = r := by
      have hsd : soundConfig d := by subst hd; exact hc
      have c1 := C65_every_call d _ t1 _ r hsd.2.2.2.2 ht e1
      simp only [Ref.Exchange.call] at c1
      rw [flat_update u rfl rfl] at c1
      simp only [Prod.mk.injEq] at c1
      rw [← c1.2]; rfl
    have hh := C118_only_the_present c d s1 t1 s.nextId ops hc hl (hs.step es) (ht.step e1) hsame
    constructor
    · intro t tr e
      simp only [history, e1] at e
      change (history d t1 ops >>= _) = _ at e
      cases e2 : history d t1 ops with
      | error p => rw [e2] at e; cases e
      | ok z =>
        obtain ⟨t2, tr2⟩ := z
        rw [e2] at e
        cases e
        obtain ⟨s2, h2, hs2, g1, g2⟩ := hh.1 t2 tr2 e2
        refine ⟨s2, ?_, hs2, ?_, ?_⟩
        · simp only [history, es]
          change (history c s1 _ >>= _) = _
          rw [h2]
          simp only [List.map_cons, hop, hr]; rfl
        · dsimp only; omega
        · have := hz .treasury
          dsimp only at this ⊢
          omega
    · constructor
      · intro ⟨p, e⟩
        simp only [history, e1] at e
        change (history d t1 ops >>= _) = _ at e
        cases e2 : history d t1 ops with
        | ok z => rw [e2] at e; cases e
        | error q =>
          obtain ⟨p', hp'⟩ := hh.2.1 ⟨q, e2⟩
          refine ⟨p', ?_⟩
          simp only [history, es]
          change (history c s1 _ >>= _) = _
          rw [hp']; rfl
      · intro ⟨p, e⟩
        simp only [history, es] at e
        change (history c s1 _ >>= _) = _ at e
        cases e2 : history c s1 (ops.map (Later.op s.nextId)) with
        | ok z => rw [e2] at e; cases e
        | error q =>
          obtain ⟨p', hp'⟩ := hh.2.2 ⟨q, e2⟩
          refine ⟨p', ?_⟩
          simp only [history, e1]
          change (history d t1 ops >>= _) = _
          rw [hp']; rfl

/-- Five bought and sold again at a loss: the account is idle, two order ids are used up, and there is
less in the wallet than at the start … -/
example : Ex.after Ex.lin [.update (.bba ⟨Ex.d 100, Ex.d 101, 1⟩), .market .buy (Ex.d 5) 0,
      .market .sell (Ex.d 5) 0]
    (fun s => decide (idle s ∧ s.nextId = 2 ∧ s.acct.balance .wallet = 99439700 ∧
      0 < s.feesPaid)) = true := by decide +kernel

/-- … and then the calls of `Ex.ops3` (an order, resting orders, a partial fill, a cancellation by id,
a flip) get the answers of a new exchange with that starting balance, with ids larger by two. -/
example : Ex.after Ex.linR [.update (.bba ⟨Ex.d 100, Ex.d 101, 1⟩), .market .buy (Ex.d 5) 0,
      .market .sell (Ex.d 5) 0]
    (fun s =>
      let d : Cfg := { Ex.linR with start := s.acct.balance .wallet }
      match history d (State.init d) Ex.ops3,
        history Ex.linR s (Ex.ops3.map (Later.op 2)) with
      | .ok (t, tr), .ok (s', tr') =>
        decide (tr' = tr.map (fun e => (Later.op 2 e.1, Later.resp 2 e.2)) ∧ tr' ≠ tr ∧
          s'.pos = t.pos ∧ s'.pos ≠ .neutral ∧ s'.active = t.active.map (Rename.limit (· + 2)) ∧
          s'.feesPaid ≠ t.feesPaid ∧ Ex.ops3.map (Later.op 2) ≠ Ex.ops3)
      | _, _ => false) = true := by decide +kernel

/-- The hypotheses of `C118_only_the_present` hold with a position and resting orders: the new
exchange after `Ex.ops2`, and the old one after the same calls. -/
example : ∃ (c d : Cfg) (s t : State), soundConfig c ∧ c.like d ∧ c.start ≠ d.start ∧
    Reachable c s ∧ Reachable d t ∧ SameAccount 2 t s ∧ t.active ≠ [] ∧ t.pos ≠ .neutral := by
  let past : List Op := [.update (.bba ⟨Ex.d 100, Ex.d 101, 1⟩), .market .buy (Ex.d 5) 0,
    .market .sell (Ex.d 5) 0]
  let d : Cfg := { Ex.lin with start := 99439700 }
  obtain ⟨s, hs⟩ : ∃ s, run Ex.lin (State.init Ex.lin) (past ++ Ex.ops2) = .ok s := by
    cases h : run Ex.lin (State.init Ex.lin) (past ++ Ex.ops2) with
    | ok s => exact ⟨s, rfl⟩
    | error p =>
      exact absurd (show Ex.after Ex.lin (past ++ Ex.ops2) (fun _ => true) = true by decide +kernel)
        (by simp only [Ex.after, h]; decide)
  obtain ⟨t, ht⟩ : ∃ t, run d (State.init d) Ex.ops2 = .ok t := by
    cases h : run d (State.init d) Ex.ops2 with
    | ok s => exact ⟨s, rfl⟩
    | error p =>
      exact absurd (show Ex.after d Ex.ops2 (fun _ => true) = true by decide +kernel)
        (by simp only [Ex.after, h]; decide)
  have key : (match run Ex.lin (State.init Ex.lin) (past ++ Ex.ops2),
      run d (State.init d) Ex.ops2 with
    | .ok s, .ok t => decide (s.ms.bid = t.ms.bid ∧ s.ms.ask = t.ms.ask ∧ s.ms.ts = t.ms.ts ∧
        s.pos = t.pos ∧ s.active = t.active.map (Rename.limit (· + 2)) ∧ s.nextId = t.nextId + 2 ∧
        s.acct.balance .wallet = t.acct.balance .wallet ∧
        s.acct.balance .orderMargin = t.acct.balance .orderMargin ∧
        s.acct.balance .positionMargin = t.acct.balance .positionMargin ∧ t.active ≠ [] ∧
        t.pos ≠ .neutral)
    | _, _ => false) = true := by decide +kernel
  rw [hs, ht] at key
  obtain ⟨h1, h2, h3, h4, h5, h6, h7, h8, h9, h10, h11⟩ := of_decide_eq_true key
  exact ⟨Ex.lin, d, s, t, by unfold soundConfig; decide, ⟨rfl, rfl, rfl⟩, by decide, ⟨_, hs⟩, ⟨_, ht⟩,
    ⟨h1, h2, h3, h4, h5, h6, h7, h8, h9⟩, h10, h11⟩

/-- The update has to bring quotes: after a mere trade the idle account still knows its old quotes and
buys at 101, whereas on a new exchange there is nothing to buy at. -/
example : Ex.after Ex.lin [.update (.bba ⟨Ex.d 100, Ex.d 101, 1⟩), .market .buy (Ex.d 5) 0,
      .market .sell (Ex.d 5) 0]
    (fun s =>
      let d : Cfg := { Ex.lin with start := s.acct.balance .wallet }
      let ops : List Op := [.update (.trade ⟨2, Ex.d 100, Ex.d 1, .buy⟩), .market .buy (Ex.d 5) 0]
      match history Ex.lin s ops, history d (State.init d) ops with
      | .ok (s', _), .error _ => decide (s'.pos.entryPrice = Ex.d 101)
      | _, _ => false) = true := by decide +kernel

end Lfest
