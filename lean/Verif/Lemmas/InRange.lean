import Verif.Lemmas.NoOverflowStep

/-!
# What the bounded exchange stores fits
-/

namespace Lfest.Mach

open Spec

variable {w : Int} {c : Cfg} {e : Env}

theorem chk_in {x y : Int} (h : chk w x = .ok y) : y = x ∧ In w y := by
  unfold chk at h
  split at h
  · cases h; exact ⟨rfl, by assumption⟩
  · cases h

theorem ddiv_in {s a b y : Int} (h : ddiv w s a b = .ok y) : In w y := by
  simp only [ddiv, bind_ok] at h
  obtain ⟨_, _, h⟩ := h
  exact (chk_in h).2

theorem dmul_in {s a b y : Int} (h : dmul w s a b = .ok y) : In w y := (chk_in h).2

theorem newWeightedPrice_in {s p0 w0 p1 w1 y : Int} (h : newWeightedPrice w s p0 w0 p1 w1 = .ok y) :
    In w y := by
  simp only [newWeightedPrice, bind_ok] at h
  obtain ⟨_, _, _, _, _, _, _, _, h⟩ := h
  exact ddiv_in h

/-- The totals of all accounts fit. -/
def AcctIn (w : Int) (a : Accounts) : Prop := ∀ i, In w (a.get i).debits ∧ In w (a.get i).credits

theorem transfer_in {a a' : Accounts} {d k : AccountId} {x : Int} (ha : AcctIn w a)
    (h : transfer w e a d k x = .ok a') : AcctIn w a' := by
  simp only [transfer, bind_ok, assertP_ok, ok_inj] at h
  obtain ⟨_, _, _, _, y, hy, z, hz, _, _, rfl⟩ := h
  have hy := (chk_in hy).2
  have hz := (chk_in hz).2
  have hget : ∀ (a : Accounts) (t : TAccount) (i j : AccountId),
      (a.set t i).get j = if i = j then t else a.get j := by
    intro a t i j
    cases i <;> cases j <;> simp [Accounts.set, Accounts.get]
  intro i
  rw [hget]
  split
  · exact ⟨hy, (ha d).2⟩
  rw [hget]
  split
  · exact ⟨(ha k).1, hz⟩
  · exact ha i

/-- Quantity, entry price and fees fit. -/
def InnerIn (w : Int) (p : Inner) : Prop := In w p.qty ∧ In w p.entry ∧ In w p.fees

theorem new_in {imr q p f : Int} {a : Accounts} {r : Inner × Accounts} (ha : AcctIn w a)
    (hq : In w q) (hp : In w p) (hf : In w f) (h : new w e imr a q p f = .ok r) :
    InnerIn w r.1 ∧ AcctIn w r.2 := by
  simp only [new, bind_ok, assertP_ok, ok_inj] at h
  obtain ⟨_, _, _, _, _, _, _, _, a', h, rfl⟩ := h
  exact ⟨⟨hq, hp, hf⟩, transfer_in ha h⟩

theorem increase_in {imr q p f : Int} {a : Accounts} {i : Inner} {r : Inner × Accounts}
    (ha : AcctIn w a) (h : increase w e imr a i q p f = .ok r) : InnerIn w r.1 ∧ AcctIn w r.2 := by
  simp only [increase, bind_ok, assertP_ok, ok_inj] at h
  obtain ⟨_, _, _, _, _, _, _, h1, _, _, a', h2, _, h3, _, h4, rfl⟩ := h
  exact ⟨⟨(chk_in h3).2, newWeightedPrice_in h1, (chk_in h4).2⟩, transfer_in ha h2⟩

theorem settlePnl_in {a a' : Accounts} {v : Int} (ha : AcctIn w a)
    (h : settlePnl w e a v = .ok a') : AcctIn w a' := by
  unfold settlePnl at h
  split at h
  · exact transfer_in ha h
  split at h
  · exact transfer_in ha h
  · cases h; exact ha

theorem settleFees_in {a : Accounts} {f : Int} {r : Int × Accounts} (ha : AcctIn w a)
    (hf : In w f) (h : settleFees w e a f = .ok r) : In w r.1 ∧ AcctIn w r.2 := by
  unfold settleFees at h
  split at h
  · simp only [bind_ok, ok_inj] at h
    obtain ⟨a', h, rfl⟩ := h
    exact ⟨by unfold In at *; simp only; omega, transfer_in ha h⟩
  · cases h; exact ⟨hf, ha⟩

theorem decrease_in {imr q p d f : Int} {a : Accounts} {i : Inner} {r : Inner × Accounts}
    (ha : AcctIn w a) (hi : InnerIn w i) (h : decrease w e imr a i q p d f = .ok r) :
    InnerIn w r.1 ∧ AcctIn w r.2 := by
  simp only [decrease, bind_ok, assertP_ok, debugP_ok, ok_inj, Prod.exists] at h
  obtain ⟨_, _, _, _, _, h1, _, _, _, h2, _, _, a1, h3, _, _, _, _, _, _, a2, h4, f', a3, h5, rfl⟩ := h
  have h6 := settleFees_in (transfer_in (settlePnl_in ha h3) h4) (chk_in h2).2 h5
  exact ⟨⟨(chk_in h1).2, hi.2.1, h6.1⟩, h6.2⟩

theorem flip_in {imr q p d f : Int} {a : Accounts} {i : Inner} {r : Inner × Accounts}
    (ha : AcctIn w a) (hi : InnerIn w i) (hp : In w p) (h : flip w e imr a i q p d f = .ok r) :
    InnerIn w r.1 ∧ AcctIn w r.2 := by
  simp only [flip, bind_ok, assertP_ok, Prod.exists] at h
  obtain ⟨_, h1, p', a', h2, _, _, _, _, _, _, h3⟩ := h
  have hw := (chk_in h1).2
  exact new_in (decrease_in ha hi h2).2 hw hp (by unfold In at *; omega) h3

/-- The position fits. -/
def PosIn (w : Int) (pos : Position) : Prop :=
  match pos with
  | .neutral => True
  | .long p => InnerIn w p
  | .short p => InnerIn w p

theorem changePosition_in {imr q p f : Int} {side : Side} {a : Accounts} {pos : Position}
    {r : Position × Accounts} (ha : AcctIn w a) (hpos : PosIn w pos) (hq : In w q) (hp : In w p)
    (hf : In w f) (h : changePosition w e imr a pos q p side f = .ok r) :
    PosIn w r.1 ∧ AcctIn w r.2 := by
  simp only [changePosition, bind_ok, debugP_ok] at h
  obtain ⟨_, _, h⟩ := h
  cases pos with
  | neutral =>
    cases side <;> simp only [bind_ok, Prod.exists, ok_inj] at h <;>
      obtain ⟨_, _, p', a', h, rfl⟩ := h <;> exact new_in ha hq hp hf h
  | long i =>
    cases side
    · simp only [bind_ok, Prod.exists, ok_inj] at h
      obtain ⟨p', a', h, rfl⟩ := h
      exact increase_in ha h
    · simp only at h
      split at h
      · simp only [bind_ok, Prod.exists, ok_inj] at h
        obtain ⟨p', a', h, rfl⟩ := h
        exact decrease_in ha hpos h
      split at h
      · simp only [bind_ok, Prod.exists, ok_inj] at h
        obtain ⟨p', a', h, _, _, rfl⟩ := h
        exact ⟨trivial, (decrease_in ha hpos h).2⟩
      · simp only [bind_ok, Prod.exists, ok_inj] at h
        obtain ⟨p', a', h, rfl⟩ := h
        exact flip_in ha hpos hp h
  | short i =>
    cases side
    · simp only at h
      split at h
      · simp only [bind_ok, Prod.exists, ok_inj] at h
        obtain ⟨p', a', h, rfl⟩ := h
        exact decrease_in ha hpos h
      split at h
      · simp only [bind_ok, Prod.exists, ok_inj] at h
        obtain ⟨p', a', h, _, _, rfl⟩ := h
        exact ⟨trivial, (decrease_in ha hpos h).2⟩
      · simp only [bind_ok, Prod.exists, ok_inj] at h
        obtain ⟨p', a', h, rfl⟩ := h
        exact flip_in ha hpos hp h
    · simp only [bind_ok, Prod.exists, ok_inj] at h
      obtain ⟨p', a', h, rfl⟩ := h
      exact increase_in ha h

/-- The amounts of an order fit. -/
def OrderIn (w : Int) (o : Limit) : Prop := ∀ x ∈ orderAmounts o, In w x

/-- The amounts of all orders fit. -/
def BookIn (w : Int) (b : Book) : Prop := ∀ o ∈ b, OrderIn w o

theorem OrderIn.price {o : Limit} (h : OrderIn w o) : In w o.price := h _ (by simp [orderAmounts])

theorem OrderIn.rem {o : Limit} (h : OrderIn w o) : In w o.remaining := h _ (by simp [orderAmounts])

theorem fill_in {s q ts : Int} {o : Limit} {r : Limit × Option FilledLimit} (ho : OrderIn w o)
    (h : fill w s o q ts = .ok r) : OrderIn w r.1 ∧ In w q ∧ r.1.price = o.price := by
  have hp := ho.price
  simp only [fill, bind_ok, assertP_ok] at h
  obtain ⟨_, h1, _, h2, rest, h3, h⟩ := h
  have hq : In w q := by have := ho.rem; unfold In at *; omega
  have hr := (chk_in h3).2
  split at h
  · split at h <;> cases h <;> refine ⟨?_, hq, rfl⟩ <;> intro x hx <;>
      simp [orderAmounts] at hx <;> rcases hx with rfl | rfl | rfl | rfl <;> assumption
  · simp only [bind_ok] at h
    obtain ⟨avg, h4, sum, h5, h⟩ := h
    have := newWeightedPrice_in h4
    have := (chk_in h5).2
    split at h <;> cases h <;> refine ⟨?_, hq, rfl⟩ <;> intro x hx <;>
      simp [orderAmounts] at hx <;> rcases hx with rfl | rfl | rfl | rfl <;> assumption

theorem replaceFirst_in {o : Limit} (ho : OrderIn w o) (p : Limit → Bool) :
    ∀ {b : Book}, BookIn w b → BookIn w (replaceFirst p o b)
  | [], h => h
  | x :: b, h => by
    have hx := h x (by simp)
    have hb : BookIn w b := fun y hy => h y (by simp [hy])
    unfold replaceFirst
    split <;> intro y hy <;> simp only [List.mem_cons] at hy <;> rcases hy with rfl | hy
    · exact ho
    · exact hb y hy
    · exact hx
    · exact replaceFirst_in ho p hb y hy

theorem insert_in {cap : Nat} {b : Book} {o : Limit} {r : Book × Option Limit} (hb : BookIn w b)
    (ho : OrderIn w o) (h : Book.insert cap b o = .ok r) : BookIn w r.1 := by
  unfold Book.insert at h
  split at h
  · cases h; exact replaceFirst_in ho _ hb
  split at h
  · cases h
  · cases h
    intro x hx
    simp only [List.mem_append, List.mem_singleton] at hx
    rcases hx with hx | rfl
    · exact hb x hx
    · exact ho

theorem omUpdate_in {cap : Nat} {b b' : Book} {o : Limit} (hb : BookIn w b) (ho : OrderIn w o)
    (h : omUpdate cap b o = .ok (.ok b')) : BookIn w b' := by
  rcases (omUpdate_ok h).2 with ⟨_, _, rfl⟩ | ⟨_, _, _, rfl⟩
  · intro x hx
    simp only [List.mem_append, List.mem_singleton] at hx
    rcases hx with hx | rfl
    · exact hb x hx
    · exact ho
  · exact replaceFirst_in ho _ hb

theorem removeCancel_in {b b' : Book} {k : CancelBy} {o : Limit} (hb : BookIn w b)
    (h : b.removeCancel k = some (o, b')) : BookIn w b' := by
  obtain ⟨xs, ys, rfl, hp⟩ := removeCancel_some h
  intro x hx
  rw [hp.mem_iff] at hx
  refine hb x ?_
  simp only [List.mem_append, List.mem_cons] at hx ⊢
  rcases hx with hx | hx <;> simp [hx]

theorem omRemove_in {b b' : Book} {k : CancelBy} (hb : BookIn w b) (h : omRemove b k = .ok b') :
    BookIn w b' := by
  obtain ⟨_, h⟩ := omRemove_ok h
  exact removeCancel_in hb h

theorem removeExecuted_in : ∀ {ids : List Nat} {b b' : Book}, BookIn w b →
    removeExecuted b ids = .ok b' → BookIn w b'
  | [], b, b', hb, h => by simp only [removeExecuted, ok_inj] at h; subst h; exact hb
  | id :: ids, b, b', hb, h => by
    simp only [removeExecuted, bind_ok, expectSome_ok] at h
    obtain ⟨r, h1, h2⟩ := h
    exact removeExecuted_in (removeCancel_in (k := .orderId id) hb h1) h2

/-- Everything the exchange stores fits. -/
structure StateIn (w : Int) (s : State) : Prop where
  bid : In w s.ms.bid
  ask : In w s.ms.ask
  acct : AcctIn w s.acct
  pos : PosIn w s.pos
  active : BookIn w s.active
  om : BookIn w s.om

theorem settleMarket_in {s s' : State} {o : FilledMarket} (hs : StateIn w s) (hq : In w o.qty)
    (hp : In w o.avgFillPrice) (h : settleMarket w c s o = .ok s') : StateIn w s' := by
  simp only [settleMarket, bind_ok, assertP_ok, Prod.exists, ok_inj] at h
  obtain ⟨_, _, _, _, _, _, _, h1, pos, acct, h2, rfl⟩ := h
  have := changePosition_in hs.acct hs.pos hq hp (dmul_in h1) h2
  exact { hs with acct := this.2, pos := this.1 }

theorem submitMarket_in {s : State} {o : NewMarket} {r} (hs : StateIn w s) (hq : In w o.qty)
    (h : submitMarket w c s o = .ok r) : StateIn w r.1 := by
  simp only [submitMarket, bind_ok] at h
  obtain ⟨_, _, h⟩ := h
  split at h
  · cases h; exact { hs with }
  simp only [bind_ok] at h
  obtain ⟨_, _, _, _, _, _, h⟩ := h
  split at h
  · cases h; exact { hs with }
  simp only [bind_ok, ok_inj] at h
  obtain ⟨s3, h, rfl⟩ := h
  refine settleMarket_in (s' := s3) ?_ hq ?_ h
  · exact { hs with }
  simp only [NewMarket.intoFilled]
  cases o.side
  · exact hs.ask
  · exact hs.bid

theorem liquidate_in {s s' : State} (hs : StateIn w s) (h : liquidate w c s = .ok s') :
    StateIn w s' := by
  simp only [liquidate, bind_ok] at h
  obtain ⟨o, ho, r, h, h'⟩ := h
  have hq : In w o.qty := by
    have hp := hs.pos
    unfold liquidationOrder at ho
    cases hpos : s.pos with
    | neutral => simp [hpos] at ho
    | long p =>
      rw [hpos] at ho hp
      cases hm : NewMarket.new .sell p.qty 0 with
      | error e => simp [hm] at ho
      | ok o' =>
        simp only [hm, ok_inj] at ho
        subst ho
        obtain ⟨_, rfl⟩ := newMarket_ok hm
        exact hp.1
    | short p =>
      rw [hpos] at ho hp
      cases hm : NewMarket.new .buy p.qty 0 with
      | error e => simp [hm] at ho
      | ok o' =>
        simp only [hm, ok_inj] at ho
        subst ho
        obtain ⟨_, rfl⟩ := newMarket_ok hm
        exact hp.1
  have := submitMarket_in hs hq h
  obtain ⟨s1, r⟩ := r
  cases r with
  | error e => cases h'
  | ok x => cases h'; exact this

theorem appendLimit_in {s : State} {o : Limit} {r} (hs : StateIn w s) (ho : OrderIn w o)
    (h : appendLimit w c s o = .ok r) : StateIn w r.1 := by
  simp only [appendLimit, bind_ok] at h
  obtain ⟨x, h1, h⟩ := h
  cases x with
  | error e => cases h; exact hs
  | ok om' =>
    have hom := omUpdate_in hs.om ho h1
    simp only at h
    cases hi : Book.insert activeCap s.active o with
    | error e => rw [hi] at h; cases h; exact { hs with om := hom }
    | ok r1 =>
      obtain ⟨active', _⟩ := r1
      have hac := insert_in hs.active ho hi
      simp only [hi, bind_ok] at h
      obtain ⟨_, _, _, _, h⟩ := h
      have hk : ∀ (s1 s2 : State), appendChecks w s1 = .ok s2 → s2 = s1 := by
        intro s1 s2 h
        simp only [appendChecks, bind_ok, ok_inj] at h
        obtain ⟨_, _, _, _, _, _, rfl⟩ := h
        rfl
      split at h
      · simp only [bind_ok, ok_inj] at h
        obtain ⟨_, _, a, h2, s3, h3, rfl⟩ := h
        rw [hk _ _ h3]
        exact { hs with om := hom, active := hac, acct := transfer_in hs.acct h2 }
      split at h
      · simp only [bind_ok, ok_inj] at h
        obtain ⟨_, _, a, h2, s3, h3, rfl⟩ := h
        rw [hk _ _ h3]
        exact { hs with om := hom, active := hac, acct := transfer_in hs.acct h2 }
      · cases h
        exact { hs with om := hom, active := hac }

theorem pending_in {o : NewLimit} {id : Nat} {ts : Int} (hp : In w o.price) (hq : In w o.qty) :
    OrderIn w (o.intoPending id ts) := by
  intro x hx
  simp only [orderAmounts, NewLimit.intoPending, List.append_nil, List.mem_cons,
    List.not_mem_nil, or_false] at hx
  rcases hx with rfl | rfl <;> assumption

theorem submitLimit_in {s : State} {o : NewLimit} {r} (hs : StateIn w s) (hp : In w o.price)
    (hq : In w o.qty) (h : submitLimit w c s o = .ok r) : StateIn w r.1 := by
  simp only [submitLimit, bind_ok] at h
  obtain ⟨_, _, h⟩ := h
  split at h
  · cases h; exact { hs with }
  simp only [bind_ok] at h
  obtain ⟨_, _, _, _, h⟩ := h
  split at h
  · cases h; exact { hs with }
  simp only [bind_ok] at h
  obtain ⟨_, _, _, _, h⟩ := h
  split at h
  · cases h; exact { hs with }
  split at h
  · cases h; exact { hs with }
  simp only [bind_ok] at h
  obtain ⟨x, h, h'⟩ := h
  have := appendLimit_in (by exact { hs with }) (pending_in hp hq) h
  obtain ⟨s3, y⟩ := x
  cases y <;> cases h' <;> exact this

theorem refund_in {a a' : Accounts} {x y : Int} (ha : AcctIn w a)
    (h : refund w e a x y = .ok a') : AcctIn w a' := by
  unfold refund at h
  split at h
  · simp only [bind_ok] at h
    obtain ⟨_, _, h⟩ := h
    exact transfer_in ha h
  · cases h; exact ha

theorem cancelLimit_in {s : State} {k : CancelBy} {r} (hs : StateIn w s)
    (h : cancelLimit w c s k = .ok r) : StateIn w r.1 := by
  simp only [cancelLimit, bind_ok, assertP_ok] at h
  obtain ⟨_, _, _, _, _, _, h⟩ := h
  split at h
  · cases h; exact hs
  · next h1 =>
    simp only [bind_ok, assertP_ok, ok_inj] at h
    obtain ⟨om', h2, _, _, _, _, a, h3, _, _, _, _, rfl⟩ := h
    exact { hs with
      active := removeCancel_in hs.active h1, om := omRemove_in hs.om h2
      acct := refund_in hs.acct h3 }

theorem amendLimit_in {s : State} {id : Nat} {o : NewLimit} {r} (hs : StateIn w s)
    (hp : In w o.price) (h : amendLimit w c s id o = .ok r) : StateIn w r.1 := by
  unfold amendLimit at h
  split at h
  · cases h; exact hs
  simp only [bind_ok] at h
  obtain ⟨_, _, _, _, leaves, hl, h⟩ := h
  split at h
  · simp only [bind_ok] at h
    obtain ⟨⟨s', x⟩, h, h'⟩ := h
    have hs' := cancelLimit_in hs h
    cases x
    · cases h'
    · cases h'; exact hs'
  · simp only [bind_ok, NewLimit.setRemaining, assertP_ok, ok_inj] at h
    obtain ⟨o', ⟨_, _, rfl⟩, ⟨s', x⟩, h, h'⟩ := h
    have hs' := cancelLimit_in hs h
    cases x
    · cases h'; exact hs'
    · exact submitLimit_in (o := { o with qty := leaves }) hs' hp (chk_in hl).2 h'

theorem matchOrder_in {u : Update} {l : Loop} {o : Limit} {r} (ha : AcctIn w l.acct)
    (hp : PosIn w l.pos) (hb : BookIn w l.om) (ho : OrderIn w o)
    (h : matchOrder w c u l o = .ok r) :
    AcctIn w r.1.acct ∧ PosIn w r.1.pos ∧ BookIn w r.1.om ∧ OrderIn w r.2 := by
  simp only [matchOrder, bind_ok] at h
  obtain ⟨x, _, h⟩ := h
  cases x with
  | none => cases h; exact ⟨ha, hp, hb, ho⟩
  | some q =>
    simp only [bind_ok, Prod.exists, ok_inj] at h
    obtain ⟨_, _, _, _, _, _, l1, o1, h1, l2, h2, l3, h3, rfl⟩ := h
    have hf : In w q ∧ OrderIn w o1 ∧ l1.acct = l.acct ∧ l1.pos = l.pos ∧ BookIn w l1.om := by
      simp only [applyFill, bind_ok] at h1
      obtain ⟨⟨o', f⟩, h4, h5⟩ := h1
      have hfi := fill_in ho h4
      cases f with
      | none =>
        simp only [bind_ok] at h5
        obtain ⟨_, _, y, h6, h7⟩ := h5
        cases y with
        | error e => cases h7
        | ok om' => cases h7; exact ⟨hfi.2.1, hfi.1, rfl, rfl, omUpdate_in hb hfi.1 h6⟩
      | some f =>
        simp only [bind_ok, ok_inj, Prod.mk.injEq] at h5
        obtain ⟨om', h6, rfl, rfl⟩ := h5
        exact ⟨hfi.2.1, hfi.1, rfl, rfl, omRemove_in hb h6⟩
    obtain ⟨f1, f2, f3, f4, f5⟩ := hf
    simp only [settleLimit, bind_ok, Prod.exists, ok_inj] at h2
    obtain ⟨_, _, _, h4, p', a', h5, rfl⟩ := h2
    have hc := changePosition_in (f3 ▸ ha) (f4 ▸ hp) f1 f2.price (dmul_in h4) h5
    simp only [releaseMargin, bind_ok, ok_inj] at h3
    obtain ⟨_, _, _, _, a, h6, rfl⟩ := h3
    exact ⟨refund_in hc.2 h6, hc.1, f5, f2⟩

theorem matchLoop_in {u : Update} : ∀ (os : List Limit) (l : Loop) {r}, AcctIn w l.acct →
    PosIn w l.pos → BookIn w l.om → BookIn w os → matchLoop w c u l os = .ok r →
      AcctIn w r.1.acct ∧ PosIn w r.1.pos ∧ BookIn w r.1.om ∧ BookIn w r.2
  | [], l, r, ha, hp, hb, ho, h => by cases h; exact ⟨ha, hp, hb, ho⟩
  | o :: os, l, r, ha, hp, hb, ho, h => by
    simp only [matchLoop, bind_ok, Prod.exists, ok_inj] at h
    obtain ⟨l1, o1, h1, l2, os', h2, rfl⟩ := h
    obtain ⟨a1, a2, a3, a4⟩ := matchOrder_in ha hp hb (ho o (by simp)) h1
    obtain ⟨b1, b2, b3, b4⟩ := matchLoop_in os l1 a1 a2 a3 (fun x hx => ho x (by simp [hx])) h2
    refine ⟨b1, b2, b3, fun x hx => ?_⟩
    simp only [List.mem_cons] at hx
    rcases hx with rfl | hx
    · exact a4
    · exact b4 x hx

theorem checkActive_in {s s' : State} {u : Update} (hs : StateIn w s)
    (h : checkActive w c s u = .ok s') : StateIn w s' := by
  unfold checkActive at h
  split at h
  · cases h; exact { hs with }
  simp only [bind_ok, Prod.exists, ok_inj] at h
  obtain ⟨_, _, l, os, h1, active', h2, _, _, _, _, _, _, _, _, _, _, rfl⟩ := h
  obtain ⟨b1, b2, b3, b4⟩ := matchLoop_in _ _ hs.acct hs.pos hs.om hs.active h1
  exact { hs with acct := b1, pos := b2, om := b3, active := removeExecuted_in b4 h2 }

theorem step_in {s s' : State} {op : Op} {r : Resp} (hs : StateIn w s)
    (hi : ∀ x ∈ inputs op, In w x) (h : step w c s op = .ok (s', r)) : StateIn w s' := by
  cases op with
  | update a =>
    simp only [step, bind_ok, Prod.exists, ok_inj, Prod.mk.injEq] at h
    obtain ⟨u, hu, s1, x, h, rfl, rfl⟩ := h
    have hb := agree_build (w := w) (d := c.env.debug) (u := a) |>.resolve_left (by rw [hu]; simp)
    rw [hu] at hb
    simp only [updateState, bind_ok] at h
    obtain ⟨s2, h1, z, _, h⟩ := h
    have ho := agree_observe (w := w) (c := c) (s := s) (u := u) |>.resolve_left (by rw [h1]; simp)
    rw [h1] at ho
    obtain ⟨f1, f2, f3, f4, _, _⟩ := observe_fields ho.symm
    have hq := (observe_quotes hb.symm ho.symm).1
    have hq' : In w s2.ms.bid ∧ In w s2.ms.ask := by
      cases a with
      | trade t =>
        simp only [quotesAfter, Prod.mk.injEq] at hq
        rw [hq.1, hq.2]; exact ⟨hs.bid, hs.ask⟩
      | custom k =>
        cases hk : k.market with
        | none =>
          simp only [quotesAfter, hk, Prod.mk.injEq] at hq
          rw [hq.1, hq.2]; exact ⟨hs.bid, hs.ask⟩
        | some x =>
          simp only [quotesAfter, hk, Prod.mk.injEq] at hq
          rw [hq.1, hq.2]
          exact ⟨hi _ (by simp [inputs, quotesOf, hk]), hi _ (by simp [inputs, quotesOf, hk])⟩
      | _ =>
        simp only [quotesAfter, Prod.mk.injEq] at hq
        rw [hq.1, hq.2]
        exact ⟨hi _ (by simp [inputs, quotesOf]), hi _ (by simp [inputs, quotesOf])⟩
    have hs2 : StateIn w s2 :=
      ⟨hq'.1, hq'.2, f1 ▸ hs.acct, f2 ▸ hs.pos, f3 ▸ hs.active, f4 ▸ hs.om⟩
    cases z with
    | error e =>
      simp only [bind_ok, ok_inj, Prod.mk.injEq] at h
      obtain ⟨s3, h, rfl, rfl⟩ := h
      exact liquidate_in hs2 h
    | ok e =>
      simp only [bind_ok, ok_inj, Prod.mk.injEq] at h
      obtain ⟨s3, h, rfl, rfl⟩ := h
      exact checkActive_in hs2 h
  | checkActive a =>
    simp only [step, bind_ok, ok_inj, Prod.mk.injEq] at h
    obtain ⟨u, hu, s1, h, rfl, rfl⟩ := h
    exact checkActive_in hs h
  | market side qty uid =>
    simp only [step] at h
    split at h
    · cases h; exact hs
    · next o ho =>
      obtain ⟨_, rfl⟩ := newMarket_ok ho
      simp only [bind_ok, Prod.exists, ok_inj, Prod.mk.injEq] at h
      obtain ⟨s1, x, h, rfl, rfl⟩ := h
      exact submitMarket_in hs (hi qty (by simp [inputs])) h
  | limit side price qty uid =>
    simp only [step] at h
    split at h
    · cases h; exact hs
    · next o ho =>
      obtain ⟨_, _, rfl⟩ := newLimit_ok ho
      simp only [bind_ok, Prod.exists, ok_inj, Prod.mk.injEq] at h
      obtain ⟨s1, x, h, rfl, rfl⟩ := h
      exact submitLimit_in hs (hi price (by simp [inputs])) (hi qty (by simp [inputs])) h
  | amend id side price qty uid =>
    simp only [step] at h
    split at h
    · cases h; exact hs
    · next o ho =>
      obtain ⟨_, _, rfl⟩ := newLimit_ok ho
      simp only [bind_ok, Prod.exists, ok_inj, Prod.mk.injEq] at h
      obtain ⟨s1, x, h, rfl, rfl⟩ := h
      exact amendLimit_in hs (hi price (by simp [inputs])) h
  | cancel k =>
    simp only [step, bind_ok, Prod.exists, ok_inj, Prod.mk.injEq] at h
    obtain ⟨s1, x, h, rfl, rfl⟩ := h
    exact cancelLimit_in hs h

theorem stateIn_iff {s : State} (hw : 0 ≤ w) :
    StateIn w s ↔ ∀ x ∈ amounts s, -w ≤ x ∧ x ≤ w := by
  have h0 : In w 0 := by unfold In; omega
  have hb : ∀ b : Book, BookIn w b ↔ ∀ x ∈ b.flatMap orderAmounts, -w ≤ x ∧ x ≤ w := by
    intro b
    constructor
    · intro h x hx
      obtain ⟨o, ho, hx⟩ := List.mem_flatMap.1 hx
      exact h o ho x hx
    · intro h o ho x hx
      exact h x (List.mem_flatMap.2 ⟨o, ho, hx⟩)
  have ha : ∀ a : Accounts, AcctIn w a ↔ ∀ x ∈ accountAmounts a, -w ≤ x ∧ x ≤ w := by
    intro a
    constructor
    · intro h x hx
      have h1 := h .wallet
      have h2 := h .orderMargin
      have h3 := h .positionMargin
      have h4 := h .exchangeFee
      have h5 := h .broker
      have h6 := h .treasury
      simp only [accountAmounts, List.mem_cons, List.not_mem_nil, or_false, In, Accounts.get] at *
      omega
    · intro h i
      cases i <;> exact ⟨h _ (by simp [accountAmounts, Accounts.get]),
        h _ (by simp [accountAmounts, Accounts.get])⟩
  have hp : PosIn w s.pos ↔ In w s.pos.quantity ∧ In w s.pos.entryPrice ∧
      In w s.pos.outstandingFees := by
    cases s.pos <;>
      simp only [PosIn, InnerIn, Position.quantity, Position.entryPrice, Position.outstandingFees,
        In] <;> (try simp only [true_iff]) <;> omega
  unfold amounts
  constructor
  · intro h x hx
    have h1 := (ha _).1 h.acct x
    have h2 := (hb _).1 h.active x
    have h3 := (hb _).1 h.om x
    have h4 := hp.1 h.pos
    have h5 := h.bid
    have h6 := h.ask
    simp only [List.mem_append, List.mem_cons, List.not_mem_nil, or_false] at hx
    rcases hx with ((hx | hx) | hx) | hx
    · rcases hx with rfl | rfl | rfl | rfl | rfl
      · exact h5
      · exact h6
      · exact h4.1
      · exact h4.2.1
      · exact h4.2.2
    · exact h1 hx
    · exact h2 hx
    · exact h3 hx
  · intro h
    refine ⟨h _ (by simp), h _ (by simp), (ha _).2 fun x hx => h x (by simp [hx]),
      hp.2 ⟨h _ (by simp), h _ (by simp), h _ (by simp)⟩, (hb _).2 fun x hx => h x ?_,
      (hb _).2 fun x hx => h x ?_⟩ <;> simp only [List.mem_append] <;> simp only [hx, or_true, true_or]

theorem run_in : ∀ {ops : List Op} {s s' : State}, StateIn w s →
    (∀ op ∈ ops, ∀ x ∈ inputs op, In w x) → run w c s ops = .ok s' → StateIn w s'
  | [], s, s', hs, _, h => by cases h; exact hs
  | op :: ops, s, s', hs, hi, h => by
    simp only [run, bind_ok, Prod.exists] at h
    obtain ⟨s1, r, h1, h2⟩ := h
    exact run_in (step_in hs (hi op (by simp)) h1) (fun o ho => hi o (by simp [ho])) h2

end Lfest.Mach
