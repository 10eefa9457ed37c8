import Verif.Reference
import Verif.Lemmas.Calls

/-! The modelled code agrees with the reference exchange. -/

namespace Lfest

open Spec Ref

theorem any_lt_of_aboveMax (mx : Option Int) (x : Int) :
    mx.any (fun m => decide (m < x)) = aboveMax mx x := by
  cases mx <;> simp [aboveMax]

theorem any_lt_of_belowMin (mn : Option Int) (x : Int) :
    mn.any (fun m => decide (x < m)) = belowMin mn x := by
  cases mn <;> simp [belowMin]

theorem quantityError_ok {f : QuantityFilter} {q : Int} {r} (h : f.validate q = .ok r) :
    (∃ err, r = .error err ∧ quantityError f q = some err) ∨
    (r = .ok () ∧ quantityError f q = none) := by
  unfold QuantityFilter.validate at h
  unfold quantityError
  rw [any_lt_of_aboveMax, any_lt_of_belowMin]
  split at h
  · next h0 => simp only [ok_inj] at h; subst h; simp [h0]
  · next h0 =>
    rw [if_neg h0]
    split at h
    · next h1 => simp only [ok_inj] at h; subst h; simp [h1]
    · next h1 =>
      rw [if_neg h1]
      split at h
      · next h2 => simp only [ok_inj] at h; subst h; simp [h2]
      · next h2 =>
        rw [if_neg h2]
        simp only [bind_ok, drem_ok] at h
        obtain ⟨x, ⟨_, rfl⟩, h⟩ := h
        simp only [ne_eq, tmod_dvd] at h
        split at h
        · next h3 => simp only [ok_inj] at h; subst h; simp [h3]
        · next h3 => simp only [ok_inj] at h; subst h; rw [if_neg h3]; simp

theorem priceError_ok {e : Env} {f : PriceFilter} {p m : Int} {r}
    (h : f.validate e.scale p m = .ok r) :
    (∃ err, r = .error err ∧ priceError e f p m = some err) ∨
    (r = .ok () ∧ priceError e f p m = none) := by
  unfold PriceFilter.validate at h
  unfold priceError
  rw [any_lt_of_aboveMax, any_lt_of_belowMin]
  split at h
  · next h0 => simp only [ok_inj] at h; subst h; simp [h0]
  · next h0 =>
    rw [if_neg h0]
    split at h
    · next h1 => simp only [ok_inj] at h; subst h; simp [h1]
    · next h1 =>
      rw [if_neg h1]
      split at h
      · next h2 => simp only [ok_inj] at h; subst h; simp [h2]
      · next h2 =>
        rw [if_neg h2]
        simp only [bind_ok, drem_ok] at h
        obtain ⟨x, ⟨_, rfl⟩, h⟩ := h
        simp only [ne_eq, tmod_dvd] at h
        split at h
        · next h3 => simp only [ok_inj] at h; subst h; simp [h3]
        · next h3 =>
          rw [if_neg h3]
          split at h
          · next h4 =>
            simp only [ok_inj] at h; subst h
            rw [if_pos ⟨h4.2, h4.1⟩]; simp
          · next h4 =>
            rw [if_neg (fun k => h4 ⟨k.2, k.1⟩)]
            split at h
            · next h5 =>
              simp only [ok_inj] at h; subst h
              rw [if_pos ⟨h5.2, h5.1⟩]; simp
            · next h5 =>
              simp only [ok_inj] at h; subst h
              rw [if_neg (fun k => h5 ⟨k.2, k.1⟩)]; simp

theorem crossing_eq (m : MarketState) (side : Side) (p : Int) :
    crossing m side p = marketable m side p := by
  cases side <;> simp [crossing, marketable]

theorem takeOut_append {p : Limit → Bool} {xs ys : List Limit} {o : Limit} (ho : p o = true)
    (hx : ∀ x ∈ xs, p x = false) :
    takeOut p (xs ++ o :: ys) = swapRemove (xs ++ o :: ys) xs.length := by
  induction xs with
  | nil =>
    rcases List.eq_nil_or_concat ys with rfl | ⟨zs, z, rfl⟩
    · simp [takeOut, ho, swapRemove]
    · have := swapRemove_mid [] zs o z
      simp only [List.nil_append, List.length_nil, List.concat_eq_append] at this ⊢
      rw [this]
      simp [takeOut, ho]
  | cons x xs ih =>
    have h1 := ih (fun y hy => hx y (by simp [hy]))
    have h2 : p x = false := hx x (by simp)
    simp only [List.cons_append, takeOut, h2, Bool.false_eq_true, if_false, h1]
    rcases List.eq_nil_or_concat ys with rfl | ⟨zs, z, rfl⟩
    · have e1 := swapRemove_last xs o
      have e2 := swapRemove_last (x :: xs) o
      simp only [List.cons_append, List.length_cons] at e2
      rw [e1, List.length_cons, e2]
    · have e1 := swapRemove_mid xs zs o z
      have e2 := swapRemove_mid (x :: xs) zs o z
      simp only [List.cons_append, List.length_cons, List.concat_eq_append] at e1 e2 ⊢
      rw [e1, e2]

theorem removeBy_takeOut {p : Limit → Bool} {b b' : Book} {o : Limit}
    (h : Book.removeBy p b = some (o, b')) : b.find? p = some o ∧ b' = takeOut p b := by
  obtain ⟨xs, ys, rfl, ho, hx, hb, _⟩ := removeBy_some h
  refine ⟨?_, by rw [hb, takeOut_append ho hx]⟩
  rw [List.find?_append, List.find?_eq_none.2 (by simpa using hx)]
  simp [ho]

theorem removeCancel_eq (b : Book) (x : CancelBy) : b.removeCancel x = Book.removeBy (names x) b := by
  cases x <;> rfl

theorem changePosition_locked {c : Cfg} {a a' : Accounts} {pos pos' : Position}
    {f : Spec.Fill} (hp : PosWF pos) (paid realised : Int)
    (h : changePosition c.env c.spec.initMarginReq a pos f.qty f.price f.side (f.fee c)
      = .ok (pos', a')) :
    a'.balance .positionMargin =
      lockedAfter c (ledgerOf pos paid realised) (a.balance .positionMargin) f := by
  obtain ⟨maker, side, price, qty⟩ := f
  simp only [changePosition, bind_ok, debugP_ok] at h
  generalize hfee : Spec.Fill.fee c ⟨maker, side, price, qty⟩ = fee at h
  obtain ⟨_, _, h⟩ := h
  have hl : ∀ q : Int, larger q 0 = if 0 < q then q else 0 := by
    intro q; unfold larger; split <;> split <;> omega
  cases pos with
  | neutral =>
    simp only [bind_ok, debugP_ok] at h
    obtain ⟨_, _, h⟩ := h
    cases side
    all_goals
      simp only [bind_ok, ok_inj, Prod.mk.injEq] at h
      obtain ⟨r, hr, rfl, rfl⟩ := h
      obtain ⟨h1, h2, _, h3, h4⟩ := Inner.new_ok hr
      have := h4.bal .positionMargin
      simpa [lockedAfter, ledgerOf, Position.quantity, opposing, hl, initial, mv] using this
  | long p =>
    have hp : 0 < p.qty := hp
    have hne : p.qty ≠ 0 := by omega
    cases side
    · simp only [bind_ok, ok_inj, Prod.mk.injEq] at h
      obtain ⟨r, hr, rfl, rfl⟩ := h
      obtain ⟨h1, h2, _, h3, h4⟩ := Inner.increase_ok hr
      have := h4.bal .positionMargin
      have h0 : ¬ p.qty < 0 := by omega
      simpa [lockedAfter, ledgerOf, Position.quantity, opposing, hl, initial, mv, h0] using this
    · simp only at h
      split at h
      · next hq =>
        simp only [bind_ok, ok_inj, Prod.mk.injEq] at h
        obtain ⟨r, hr, rfl, rfl⟩ := h
        obtain ⟨h1, h2, _, h3, h4⟩ := Inner.decrease_ok hr
        have := h4.bal .positionMargin
        simp [reduceDelta] at this
        simp [lockedAfter, ledgerOf, Position.quantity, Position.entryPrice, opposing, hl, initial,
          hp, hne, h2, this]
        omega
      · split at h
        · next hq =>
          simp only [bind_ok, debugP_ok, ok_inj, Prod.mk.injEq] at h
          obtain ⟨r, hr, _, _, rfl, rfl⟩ := h
          obtain ⟨h1, h2, _, h3, h4⟩ := Inner.decrease_ok hr
          have := h4.bal .positionMargin
          simp [reduceDelta] at this
          simp [lockedAfter, ledgerOf, Position.quantity, Position.entryPrice, opposing, hl, initial,
            hp, hne, h2, this]
          omega
        · next hq hq' =>
          simp only [bind_ok, assertP_ok, ok_inj, Prod.mk.injEq] at h
          obtain ⟨r, hr, _, _, _, hz, r', hr', rfl, rfl⟩ := h
          obtain ⟨h1, h2, _, h3, h4⟩ := Inner.new_ok hr'
          have := h4.bal .positionMargin
          have hn : ¬ qty ≤ p.qty := by omega
          simp [mv] at this
          simp [lockedAfter, ledgerOf, Position.quantity, opposing, hl, initial, hp, hne, hn, this, hz]
  | short p =>
    have hp : 0 < p.qty := hp
    have hne : p.qty ≠ 0 := by omega
    cases side
    · simp only at h
      split at h
      · next hq =>
        simp only [bind_ok, ok_inj, Prod.mk.injEq] at h
        obtain ⟨r, hr, rfl, rfl⟩ := h
        obtain ⟨h1, h2, _, h3, h4⟩ := Inner.decrease_ok hr
        have := h4.bal .positionMargin
        simp [reduceDelta] at this
        simp [lockedAfter, ledgerOf, Position.quantity, Position.entryPrice, opposing, hl, initial,
          hp, hne, h2, this]
        omega
      · split at h
        · next hq =>
          simp only [bind_ok, debugP_ok, ok_inj, Prod.mk.injEq] at h
          obtain ⟨r, hr, _, _, rfl, rfl⟩ := h
          obtain ⟨h1, h2, _, h3, h4⟩ := Inner.decrease_ok hr
          have := h4.bal .positionMargin
          simp [reduceDelta] at this
          simp [lockedAfter, ledgerOf, Position.quantity, Position.entryPrice, opposing, hl, initial,
            hp, hne, h2, this]
          omega
        · next hq hq' =>
          simp only [bind_ok, assertP_ok, ok_inj, Prod.mk.injEq] at h
          obtain ⟨r, hr, _, _, _, hz, r', hr', rfl, rfl⟩ := h
          obtain ⟨h1, h2, _, h3, h4⟩ := Inner.new_ok hr'
          have := h4.bal .positionMargin
          have hn : ¬ qty ≤ p.qty := by omega
          simp [mv] at this
          simp [lockedAfter, ledgerOf, Position.quantity, opposing, hl, initial, hp, hne, hn, this, hz]
    · simp only [bind_ok, ok_inj, Prod.mk.injEq] at h
      obtain ⟨r, hr, rfl, rfl⟩ := h
      obtain ⟨h1, h2, _, h3, h4⟩ := Inner.increase_ok hr
      have := h4.bal .positionMargin
      have h0 : ¬ p.qty < 0 := by omega
      simpa [lockedAfter, ledgerOf, Position.quantity, opposing, hl, initial, mv, h0] using this

/-- The reference view of the matching loop. -/
def Loop.view (c : Cfg) (m : MarketState) (n : Nat) (l : Loop) : Exchange :=
  { market := m, orders := l.om, next := n,
    book := ledgerOf l.pos (l.acct.balance .exchangeFee) (-c.start - l.acct.balance .treasury),
    reserved := l.acct.balance .orderMargin, locked := l.acct.balance .positionMargin }

/-- What the matching loop maintains. -/
structure LoopWF (l : Loop) : Prop where
  nodup : IdsNodup l.om
  rem : ∀ o ∈ l.om, 0 ≤ o.remaining
  wf : PosWF l.pos

theorem matchOrder_ref {c : Cfg} {a : UpdateArg} {u : Update} {l l' : Loop} {o o' : Limit}
    (m : MarketState) (n : Nat) (hb : a.build c.env.debug = .ok u) (hl : LoopWF l)
    (ho : o ∈ l.om) (h : matchOrder c u l o = .ok (l', o')) :
    LoopWF l' ∧ l'.view c m n = (l.view c m n).matched c a o ∧
    ∀ x ∈ l.om, x.id ≠ o.id → x ∈ l'.om := by
  obtain ⟨x, hout, rfl, _, _, _, hom⟩ := matchOrder_out h
  have hsp := hout.spec hb
  simp only [matchOrder, bind_ok] at h
  obtain ⟨r, hr, h⟩ := h
  cases r with
  | none =>
    simp only [ok_inj, Prod.mk.injEq] at h; obtain ⟨rfl, _⟩ := h
    have := filled_eq hb hr
    exact ⟨hl, by simp [Exchange.matched, ← this], fun x hx _ => hx⟩
  | some q =>
    have hfr := filled_eq hb hr
    rcases hsp with ⟨hn, _⟩ | ⟨q', hq', hq0, hqle, rfl⟩
    · rw [hn] at hfr; simp at hfr
    rw [← hfr] at hq'
    simp only [Option.some.injEq] at hq'; subst hq'
    simp only [bind_ok, debugP_ok, ok_inj, Prod.mk.injEq] at h
    obtain ⟨_, _, _, _, ⟨l1, o1⟩, h1, l2, h2, l3, h3, rfl, rfl⟩ := h
    obtain ⟨r, hf, ha, hpo, _, hm⟩ := applyFill_ok h1
    obtain ⟨hcp, ho2, _⟩ := settleLimit_ok h2
    obtain ⟨k, hk, hp3, ho3, _, _, _, _, h4⟩ := releaseMargin_ok h3
    obtain ⟨f1, f2, f3, _, _, f6, f7, f8⟩ := fill_fixed hf
    have hwl : PosWF l1.pos := hpo ▸ hl.wf
    have hled := changePosition_ledger (f := ⟨true, o.side, o.price, q⟩) (k := -c.start) hwl hcp
    have hloc := changePosition_locked (f := ⟨true, o.side, o.price, q⟩) hwl
      (l1.acct.balance .exchangeFee) (-c.start - l1.acct.balance .treasury) hcp
    have horders : l3.om = if q = o.remaining then takeOut (fun y => y.id == o.id) l.om
        else l.om.map (fun y => if y.id = o.id then filledBy c.env o q else y) := by
      rcases hom with ⟨h0, _⟩ | ⟨hfull, hrm⟩ | ⟨hfull, hup⟩
      · simp at h0
      · simp only [Out.full, report] at hfull
        split
        · next he =>
          obtain ⟨y, hy⟩ := omRemove_ok hrm
          exact (removeBy_takeOut hy).2
        · next he => rw [if_neg he] at hfull; simp [LimitUpdate.isFull] at hfull
      · simp only [Out.full, report] at hfull
        split
        · next he => rw [if_pos he] at hfull; simp [LimitUpdate.isFull] at hfull
        · next he =>
          obtain ⟨hpos, h5⟩ := omUpdate_ok hup
          rcases h5 with ⟨h5, _⟩ | ⟨old, h5, _, h6⟩
          · exact absurd rfl (getById_none.1 h5 o ho)
          · rw [h6, replaceFirst_eq_map hl.nodup]; rfl
    have hperm : IdsNodup l3.om ∧ (∀ x ∈ l3.om, 0 ≤ x.remaining) ∧
        ∀ x ∈ l.om, x.id ≠ o.id → x ∈ l3.om := by
      rw [horders]
      split
      · obtain ⟨y, b', hy⟩ := removeById_isSome ⟨o, ho, rfl⟩
        have e := (removeBy_takeOut hy).2
        obtain ⟨_, _, hp, hn, _⟩ := removeById_some hl.nodup hy
        rw [← e]
        refine ⟨hn, fun x hx => hl.rem x ?_, fun x hx hxo => ?_⟩
        · rw [hp.mem_iff] at hx; exact (List.mem_filter.1 hx).1
        · rw [hp.mem_iff]; exact List.mem_filter.2 ⟨hx, by simpa using hxo⟩
      · refine ⟨?_, ?_, ?_⟩
        · exact hl.nodup.map_put (filledBy c.env o q)
        · intro x hx
          obtain ⟨y, hy, rfl⟩ := List.mem_map.1 hx
          split
          · simp only [filledBy]; omega
          · exact hl.rem y hy
        · intro x hx hxo
          exact List.mem_map.2 ⟨x, hx, if_neg hxo⟩
    have hreq := orderMargin_ok (hled.2.1) (by rw [← ho3]; exact hperm.2.1) hk
    have hbal : l2.acct.balance .orderMargin = l.acct.balance .orderMargin := by
      rw [hled.2.2.2.1, ha]
    refine ⟨⟨hperm.1, hperm.2.1, hp3 ▸ hled.2.1⟩, ?_, hperm.2.2⟩
    have hq2 : l2.pos.quantity = ((l.view c m n).book.fill c ⟨true, o.side, o.price, q⟩).qty := by
      have := congrArg Ledger.qty hled.2.2.1
      rw [hpo, ha] at this
      exact this
    have hres : l3.acct.balance .orderMargin = smaller k (l.acct.balance .orderMargin) ∧
        l3.acct.balance .exchangeFee = l2.acct.balance .exchangeFee ∧
        l3.acct.balance .treasury = l2.acct.balance .treasury ∧
        l3.acct.balance .positionMargin = l2.acct.balance .positionMargin := by
      unfold smaller
      rcases h4 with ⟨h4, h5⟩ | ⟨h4, h5⟩
      · rw [if_pos (by omega)]
        simp only [transfer_balance h5]; simp; omega
      · rw [h5]; refine ⟨?_, rfl, rfl, rfl⟩
        split <;> omega
    obtain ⟨r1, r2, r3, r4⟩ := hres
    simp only [Exchange.matched, ← hfr]
    simp only [Loop.view, Exchange.fill, Exchange.required, Exchange.mk.injEq, true_and]
    refine ⟨horders, ?_, ?_, ?_⟩
    · rw [hp3, r2, r3, hled.2.2.1, hpo, ha]
    · rw [r1, hreq, ← ho3, horders, hq2]; rfl
    · rw [r4, hloc, hpo, ha]

theorem matchLoop_ref {c : Cfg} {a : UpdateArg} {u : Update} (m : MarketState) (n : Nat)
    (hb : a.build c.env.debug = .ok u) {os : List Limit} :
    ∀ {l l' : Loop} {os'}, LoopWF l → IdsNodup os → (∀ o ∈ os, o ∈ l.om) →
      matchLoop c u l os = .ok (l', os') →
      l'.view c m n = os.foldl (Exchange.matched c a) (l.view c m n) := by
  induction os with
  | nil =>
    intro l l' os' _ _ _ h
    simp only [matchLoop, ok_inj, Prod.mk.injEq] at h; obtain ⟨rfl, rfl⟩ := h
    rfl
  | cons o os ih =>
    intro l l' os' hl hn hm h
    simp only [matchLoop, bind_ok, ok_inj, Prod.mk.injEq] at h
    obtain ⟨⟨l1, o1⟩, h1, ⟨l2, os2⟩, h2, rfl, rfl⟩ := h
    have hno := (IdsNodup.split (xs := []) hn).1
    have hn' := (IdsNodup.split (xs := []) hn).2
    simp only [List.nil_append] at hno hn'
    obtain ⟨hl1, hv, hfwd⟩ := matchOrder_ref m n hb hl (hm o (by simp)) h1
    rw [List.foldl_cons, ← hv]
    exact ih hl1 hn' (fun x hx => hfwd x (hm x (by simp [hx])) (hno x hx)) h2

theorem checkActive_ref {c : Cfg} {s s' : State} {a : UpdateArg} {u : Update}
    (hb : a.build c.env.debug = .ok u) (hi : Inv c s) (hw : PosWF s.pos)
    (hcap : c.maxOpen ≤ 10000) (h : checkActive c s u = .ok s') :
    Ref.view c s' = (Ref.view c s).matchAll c a := by
  cases hf : u.canFill with
  | false =>
    have hn := canFill_none hb hf
    rw [checkActive_bba h hf]
    have : ∀ (os : List Limit) (x : Exchange), os.foldl (Exchange.matched c a) x = x := by
      intro os
      induction os with
      | nil => intro x; rfl
      | cons o os ih => intro x; rw [List.foldl_cons, ih]; simp [Exchange.matched, hn]
    rw [Exchange.matchAll, this]; rfl
  | true =>
    have hi' := checkActive_inv hi h
    obtain ⟨l, orders, active', h1, h2, _, _, rfl⟩ := checkActive_ok h hf
    have hs := hi.sync hcap
    have hs' : l.om = active' := hi'.sync hcap
    have := matchLoop_ref s.ms s.nextId hb (l := s.loop)
      ⟨by simpa [State.loop, hs] using hi.nodup,
        by simp only [State.loop, hs]; exact fun o ho => Int.le_of_lt (hi.orders o ho).rem, hw⟩
      hi.nodup (by simp [State.loop, hs]) h1
    have e1 : Loop.view c s.ms s.nextId s.loop = Ref.view c s := by
      simp [Loop.view, Ref.view, State.loop, hs, ledgerOf, State.feesPaid]
    rw [e1] at this
    rw [Exchange.matchAll]
    refine Eq.trans ?_ this
    simp [Loop.view, Ref.view, ledgerOf, State.feesPaid, hs']

theorem view_wallet {c : Cfg} {s : State} (hl : LInv c s.core) :
    (Ref.view c s).wallet c = s.acct.balance .wallet := by
  have h1 := hl.sums
  have h2 := hl.broker
  simp only [State.core] at h1 h2
  simp only [Accounts.debitSum, Accounts.creditSum, h2] at h1
  simp only [Exchange.wallet, Ref.view, State.feesPaid, Accounts.balance, Accounts.get,
    TAccount.net]
  omega

theorem submitMarket_ref {c : Cfg} {s s' : State} {o : NewMarket} {r} (hl : LInv c s.core)
    (h : submitMarket c s o = .ok (s', r)) :
    (Ref.view c s).marketOrder c o.side o.qty o.uid = (Ref.view c s', r) := by
  have hw : PosWF s.pos := hl.wf
  have hwal := view_wallet hl
  have haff : affordable c (Ref.view c s) o.side o.qty = true ↔ marketAllowed c s o.side o.qty := by
    have e1 : (Ref.view c s).book.qty = s.pos.quantity := rfl
    have e2 : (Ref.view c s).market = s.ms := rfl
    have e3 : (Ref.view c s).locked = s.acct.balance .positionMargin := rfl
    unfold affordable marketAllowed
    rw [hwal, e1, e2, e3]
    simp only
    split
    · simp
    · split
      · next hq => simp [hq]
      · next hq => simp [hq]
  unfold Exchange.marketOrder
  rcases submitMarket_cases h with ⟨err, hv, rfl, rfl⟩ | ⟨hv, h⟩
  · rcases quantityError_ok hv with ⟨_, he, hq⟩ | ⟨he, _⟩
    · simp only [Except.error.injEq] at he; subst he
      rw [hq]; rfl
    · simp at he
  · rcases quantityError_ok hv with ⟨_, he, hq⟩ | ⟨_, hq⟩
    · simp at he
    rw [hq]
    rcases h with ⟨err, hc, rfl, rfl⟩ | ⟨hc, h0, hpr, pos', a', hcp, rfl, rfl⟩
    · rcases checkMarket_ok hw hc with ⟨he, _⟩ | ⟨he, hn⟩
      · simp at he
      · simp only [Except.error.injEq] at he; subst he
        simp only [if_neg (fun k => hn (haff.1 k))]
        rfl
    · rcases checkMarket_ok hw hc with ⟨_, hn⟩ | ⟨he, _⟩
      · simp only [if_pos (haff.2 hn)]
        have hled := changePosition_ledger (f := ⟨false, o.side, touchPrice s.ms o.side, o.qty⟩)
          (k := -c.start) hw hcp
        have hloc := changePosition_locked (f := ⟨false, o.side, touchPrice s.ms o.side, o.qty⟩) hw
          (s.acct.balance .exchangeFee) (-c.start - s.acct.balance .treasury) hcp
        simp only [Exchange.fill, Ref.view, Prod.mk.injEq, Exchange.mk.injEq, true_and]
        refine ⟨⟨hled.2.2.1.symm, hled.2.2.2.1.symm, hloc.symm⟩, ?_⟩
        simp [NewMarket.intoFilled]
      · simp at he

theorem appendLimit_ref {c : Cfg} {s s' : State} {o : Limit} {r} (hs : s.om = s.active)
    (hg : ∀ x ∈ s.active, 0 ≤ x.remaining) (ho : 0 < o.remaining) (hw : PosWF s.pos)
    (hn : ∀ x ∈ s.active, x.id ≠ o.id) (hcap : c.maxOpen ≤ 10000)
    (h : appendLimit c s o = .ok (s', r)) :
    (r = .ok () ∧ ¬ c.maxOpen ≤ s.active.length ∧
      Ref.view c s' = { Ref.view c s with
        orders := s.active ++ [o],
        reserved := s.acct.balance .orderMargin +
          Spec.abs (marginReq c (s.active ++ [o]) s.pos.quantity - s.acct.balance .orderMargin) }) ∨
    (r = .error .maxNumberOfActiveOrders ∧ c.maxOpen ≤ s.active.length ∧ s' = s) := by
  simp only [appendLimit, bind_ok] at h
  obtain ⟨r1, h1, h⟩ := h
  have hmem : ∀ x ∈ s.active ++ [o], 0 ≤ x.remaining := by
    intro x hx
    simp only [List.mem_append, List.mem_singleton] at hx
    rcases hx with hx | rfl
    · exact hg x hx
    · omega
  split at h
  · next err =>
    simp only [ok_inj, Prod.mk.injEq] at h
    obtain ⟨rfl, rfl⟩ := h
    have := omUpdate_err h1
    rw [hs] at this
    exact .inr ⟨by rw [this.1], this.2.1, rfl⟩
  · next om' =>
    obtain ⟨hpos, h2⟩ := omUpdate_ok h1
    rcases h2 with ⟨_, hlen, hom⟩ | ⟨old, hold, _⟩
    · rw [hs] at hlen hom
      have hk : ¬ c.maxOpen ≤ s.active.length := by omega
      split at h
      · next err hins =>
        have := (insert_err hins).2.1
        simp only [activeCap] at this
        omega
      · next active' x hins =>
        have hact := (insert_ok hn hins).2
        subst hact
        subst hom
        simp only [bind_ok] at h
        obtain ⟨m, hm, h⟩ := h
        have hm := orderMargin_ok hw hmem hm
        left
        split at h
        · next hlt =>
          simp only [bind_ok, ok_inj, Prod.mk.injEq] at h
          obtain ⟨a, ha, s3, hs3, rfl, rfl⟩ := h
          obtain ⟨rfl, _⟩ := appendChecks_ok hs3
          refine ⟨rfl, hk, ?_⟩
          simp only [Ref.view, State.feesPaid, transfer_balance ha, ← hm]
          simp [Spec.abs]; omega
        · split at h
          · next hlt =>
            simp only [bind_ok, ok_inj, Prod.mk.injEq] at h
            obtain ⟨a, ha, s3, hs3, rfl, rfl⟩ := h
            obtain ⟨rfl, _⟩ := appendChecks_ok hs3
            refine ⟨rfl, hk, ?_⟩
            simp only [Ref.view, State.feesPaid, transfer_balance ha, ← hm]
            simp [Spec.abs]; omega
          · simp only [ok_inj, Prod.mk.injEq] at h
            obtain ⟨rfl, rfl⟩ := h
            refine ⟨rfl, hk, ?_⟩
            simp only [Ref.view, State.feesPaid, ← hm]
            simp [Spec.abs]; omega
    · rw [hs] at hold
      have := getById_some hold
      exact absurd this.2 (hn _ this.1)

theorem submitLimit_ref {c : Cfg} {s s' : State} {o : NewLimit} {r} (hl : LInv c s.core)
    (hi : Inv c s) (hcap : c.maxOpen ≤ 10000) (hq0 : 0 < o.qty)
    (h : submitLimit c s o = .ok (s', r)) :
    (Ref.view c s).limitOrder c o.side o.price o.qty o.uid = (Ref.view c s', r) := by
  have hw : PosWF s.pos := hl.wf
  have hwal := view_wallet hl
  have hs := hi.sync hcap
  have hg : ∀ x ∈ s.active, 0 ≤ x.remaining := fun x hx => Int.le_of_lt (hi.orders x hx).rem
  unfold Exchange.limitOrder
  rcases submitLimit_cases h with ⟨err, hv, rfl, rfl⟩ | ⟨hv, h⟩
  · rcases quantityError_ok hv with ⟨_, he, hq⟩ | ⟨he, _⟩
    · simp only [Except.error.injEq] at he; subst he
      rw [hq]; rfl
    · simp at he
  · rcases quantityError_ok hv with ⟨_, he, hq⟩ | ⟨_, hq⟩
    · simp at he
    rw [hq]
    have emid : s.ms.mid c.scale = mid (Ref.view c s).market := mid_eq c s.ms
    rcases h with ⟨err, hc, rfl, rfl⟩ | ⟨hc, h⟩
    · rcases priceError_ok (e := c.env) hc with ⟨_, he, hp⟩ | ⟨he, _⟩
      · simp only [Except.error.injEq] at he; subst he
        rw [emid] at hp
        simp only [hp]; rfl
      · simp at he
    · rcases priceError_ok (e := c.env) hc with ⟨_, he, hp⟩ | ⟨_, hp⟩
      · simp at he
      rw [emid] at hp
      simp only [hp, hwal]
      have hmem : ∀ x ∈ s.active ++ [o.intoPending s.nextId s.ms.ts], 0 ≤ x.remaining := by
        intro x hx
        simp only [List.mem_append, List.mem_singleton] at hx
        rcases hx with hx | rfl
        · exact hg x hx
        · simp only [NewLimit.intoPending]; omega
      rw [hs] at h
      change (if s.acct.balance .wallet + marginReq c s.active s.pos.quantity <
          marginReq c (s.active ++ [o.intoPending s.nextId s.ms.ts]) s.pos.quantity then _ else
        if crossing s.ms o.side o.price = true then _ else
        if c.maxOpen ≤ s.active.length then _ else _) = _
      rw [crossing_eq]
      rcases h with ⟨err, hc, rfl, rfl⟩ | ⟨hc, h⟩
      · rcases checkLimit_ok hw hmem hc with ⟨he, _⟩ | ⟨he, hn⟩
        · simp at he
        · simp only [Except.error.injEq] at he; subst he
          rw [if_pos hn]; rfl
      · have hn : ¬ s.acct.balance .wallet + marginReq c s.active s.pos.quantity <
            marginReq c (s.active ++ [o.intoPending s.nextId s.ms.ts]) s.pos.quantity := by
          rcases checkLimit_ok hw hmem hc with ⟨_, hn⟩ | ⟨he, _⟩
          · omega
          · simp at he
        rw [if_neg hn]
        rcases h with ⟨hm, rfl, rfl⟩ | ⟨hm, ra, hap, hr⟩
        · rw [if_pos hm]; rfl
        · rw [if_neg (by simp [hm])]
          have hap' := appendLimit_ref rfl (by exact hg)
            (by simpa [NewLimit.intoPending] using hq0) (by exact hw)
            (by
              intro x hx
              have := (hi.orders x hx).fresh
              simp only [NewLimit.intoPending]; omega) hcap hap
          rcases hap' with ⟨rfl, hlen, hv⟩ | ⟨rfl, hlen, rfl⟩
          · rcases hr with ⟨err, he, _⟩ | ⟨_, rfl⟩
            · simp at he
            rw [if_neg hlen, hv]
            rfl
          · rcases hr with ⟨err, he, rfl⟩ | ⟨he, _⟩
            · simp only [Except.error.injEq] at he; subst he
              rw [if_pos hlen]
              rfl
            · simp at he

theorem removeBy_none' {p : Limit → Bool} {b : Book} (h : Book.removeBy p b = none) :
    b.find? p = none := by
  rw [removeBy_none] at h
  exact List.find?_eq_none.2 (by simpa using h)

theorem cancelLimit_ref {c : Cfg} {s s' : State} {b : CancelBy} {r} (hw : PosWF s.pos)
    (hi : Inv c s) (h : cancelLimit c s b = .ok (s', r)) :
    (Ref.view c s).cancel c b = (Ref.view c s', r) := by
  have hi' := cancelLimit_inv hi h
  have hmar := cancelLimit_margin hi hw h
  unfold Exchange.cancel
  have e1 : (Ref.view c s).orders = s.active := rfl
  rw [e1]
  obtain ⟨_, ⟨hrm, rfl, rfl⟩ | ⟨removed, active', a, m', h1, h2, h3, h4, h5, _, rfl, rfl⟩⟩ :=
    cancelLimit_ok h
  · rw [removeCancel_eq] at hrm
    rw [removeBy_none' hrm]
    cases b <;> rfl
  · rw [removeCancel_eq] at h1
    obtain ⟨hf, hb⟩ := removeBy_takeOut h1
    rcases hmar with ⟨_, he, _⟩ | ⟨_, _, hm⟩
    · simp at he
    simp only at hm
    rw [hf]
    simp only [Ref.view, State.feesPaid, Exchange.required, ← hb, Prod.mk.injEq, Exchange.mk.injEq,
      true_and, and_true]
    rw [hm]
    rcases refund_ok h5 with ⟨_, h5⟩ | ⟨_, rfl⟩
    · simp only [transfer_balance h5]; simp
    · simp

theorem amendLimit_ref {c : Cfg} {s s' : State} {id : Nat} {o : NewLimit} {r} (hl : LInv c s.core)
    (hi : Inv c s) (hcap : c.maxOpen ≤ 10000)
    (h : amendLimit c s id o = .ok (s', r)) :
    (Ref.view c s).amend c id o.side o.price o.qty o.uid = (Ref.view c s', r) := by
  have hw : PosWF s.pos := hl.wf
  unfold Exchange.amend
  have e1 : (Ref.view c s).orders = s.active := rfl
  rw [e1]
  rcases amendLimit_cases h with ⟨hg, rfl, rfl⟩ | ⟨old, total, hg, ht, h⟩
  · simp only [Book.getById] at hg
    rw [hg]; rfl
  · simp only [Book.getById] at hg
    rw [hg]
    have htot : total = old.filledQuantity + old.remaining := by
      simp only [Limit.totalQuantity, bind_ok, assertP_ok, ok_inj] at ht
      obtain ⟨_, _, rfl⟩ := ht
      simp only [Limit.filledQuantity]; split <;> omega
    rcases h with ⟨hle, rfl, x, hc⟩ | ⟨hlt, h⟩
    · simp only [cancelLimit_ref hw hi hc]
      rw [if_pos (by omega)]
    · rcases h with ⟨err, hc, rfl⟩ | ⟨s1, x, hc, hs⟩
      · exfalso
        have := cancelLimit_ref hw hi hc
        simp only [Exchange.cancel, e1] at this
        have hn : s.active.find? (names (.orderId id)) = some old := hg
        rw [hn] at this
        simp at this
      · simp only [cancelLimit_ref hw hi hc]
        rw [if_neg (by omega)]
        have hl1 : LInv c s1.core := (cancelLimit_core (st := false) hc).inv (fun _ _ => LInv.step) hl
        have := submitLimit_ref hl1 (cancelLimit_inv hi hc) hcap (by simpa using hlt) hs
        simp only at this
        rw [← this]
        congr 1
        omega

theorem liquidate_ref {c : Cfg} {s s' : State} (hl : LInv c s.core)
    (h : liquidate c s = .ok s') :
    Ref.view c s' = { (Ref.view c s).fill c (closingFill s.pos (s.ms.bid, s.ms.ask)) with
      next := s.nextId + 1 } := by
  have hw : PosWF s.pos := hl.wf
  simp only [liquidate, bind_ok] at h
  obtain ⟨o, ho, r, hr, h⟩ := h
  split at h
  · simp at h
  · next s1 f =>
    simp only [ok_inj] at h; subst h
    have key : (⟨false, o.side, touchPrice s.ms o.side, o.qty⟩ : Fill) =
          closingFill s.pos (s.ms.bid, s.ms.ask) := by
      unfold liquidationOrder at ho
      cases hp : s.pos with
      | neutral => rw [hp] at ho; simp at ho
      | long p =>
        rw [hp] at ho hw
        have h0 : 0 < p.qty := hw
        simp only at ho
        split at ho
        · next hn =>
          obtain ⟨_, rfl⟩ := newMarket_ok hn
          simp only [ok_inj] at ho; subst ho
          simp [Position.quantity, closingFill, h0, touchPrice]
        · simp at ho
      | short p =>
        rw [hp] at ho hw
        have h0 : 0 < p.qty := hw
        simp only at ho
        split at ho
        · next hn =>
          obtain ⟨_, rfl⟩ := newMarket_ok hn
          simp only [ok_inj] at ho; subst ho
          have : ¬ p.qty < 0 := by omega
          simp [Position.quantity, closingFill, touchPrice, this]
        · simp at ho
    have := submitMarket_ref hl hr
    unfold Exchange.marketOrder at this
    split at this
    · simp at this
    · simp only at this
      split at this
      · simp only [Prod.mk.injEq] at this
        rw [← this.1, ← key]; rfl
      · simp at this

theorem observe_view {c : Cfg} {s s1 : State} {a : UpdateArg} {u : Update}
    (hb : a.build c.env.debug = .ok u) (h : observe c s u = .ok s1) :
    Ref.view c s1 = { Ref.view c s with market := seen s.ms [.update a] } := by
  obtain ⟨h1, h2, h3⟩ := observe_quotes hb h
  obtain ⟨e1, e2, e3, e4, e5, _⟩ := observe_fields h
  have hms : s1.ms = seen s.ms [.update a] := by
    have k1 : s1.ms.bid = (quotesAfter s.ms a).1 := by rw [← h1]
    have k2 : s1.ms.ask = (quotesAfter s.ms a).2 := by rw [← h1]
    simp only [seen, ← h2, ← k1, ← k2, ← h3, Option.getD_some]
  simp only [Ref.view, State.feesPaid, e1, e2, e3, e5, hms]

theorem updateState_ref {c : Cfg} {s s' : State} {a : UpdateArg} {u : Update} {r}
    (hb : a.build c.env.debug = .ok u) (hl : LInv c s.core)
    (hi : Inv c s) (hcap : c.maxOpen ≤ 10000) (hus : updateState c s u = .ok (s', r)) :
    (Ref.view c s).update c a = (Ref.view c s', r) := by
  have hw : PosWF s.pos := hl.wf
  obtain ⟨s1, h1, h⟩ := updateState_cases hw hus
  have hv := observe_view hb h1
  obtain ⟨e1, e2, e3, e4, e5, _⟩ := observe_fields h1
  have hl1 : LInv c s1.core := (observe_core (st := false) h1).inv (fun _ _ => LInv.step) hl
  have hi1 : Inv c s1 := hi.congr e3 e4 (by omega)
  have hu : (Ref.view c s1).underwater c = true ↔ breach c s.pos (s1.ms.bid, s1.ms.ask) := by
    simp only [Exchange.underwater, decide_eq_true_eq, breach, Ref.view, e2]
  unfold Exchange.update
  have e0 : (Ref.view c s).market = s.ms := rfl
  simp only [e0, ← hv]
  rcases h with ⟨hbr, h, rfl⟩ | ⟨hbr, h, rfl⟩
  · rw [if_pos (hu.2 hbr), liquidate_ref hl1 h]
    have hms : seen s.ms [.update a] = s1.ms := (congrArg Exchange.market hv).symm
    simp only [closingFill, e2, e5, hms]
    rfl
  · rw [if_neg (fun k => hbr (hu.1 k)), ← checkActive_ref hb hi1 (by rw [e2]; exact hw) hcap h]
    rw [(checkActive_spec hb hi1 h).2.1, e3]
    rfl

/-- One API call. -/
theorem step_ref {c : Cfg} {s s' : State} {op : Op} {r} (hl : LInv c s.core) (hi : Inv c s)
    (hcap : c.maxOpen ≤ 10000) (h : step c s op = .ok (s', r)) :
    (Ref.view c s).call c op = (Ref.view c s', r) := by
  have hw : PosWF s.pos := hl.wf
  cases op with
  | update a =>
    simp only [step, bind_ok, ok_inj, Prod.mk.injEq] at h
    obtain ⟨u, hb, ⟨s1, x⟩, h, rfl, rfl⟩ := h
    simp only [Exchange.call, updateState_ref hb hl hi hcap h]
  | checkActive a =>
    simp only [step, bind_ok, ok_inj, Prod.mk.injEq] at h
    obtain ⟨u, hb, s1, h, rfl, rfl⟩ := h
    simp only [Exchange.call, checkActive_ref hb hi hw hcap h]
  | market side q uid =>
    simp only [step] at h
    unfold NewMarket.new at h
    simp only [Exchange.call]
    by_cases hq : q ≤ 0
    · simp only [hq, if_true, ok_inj, Prod.mk.injEq] at h ⊢
      obtain ⟨rfl, rfl⟩ := h; exact ⟨rfl, rfl⟩
    · simp only [hq, if_false, bind_ok, ok_inj, Prod.mk.injEq] at h ⊢
      obtain ⟨⟨s1, x⟩, h, rfl, rfl⟩ := h
      have := submitMarket_ref hl h
      simp only at this
      rw [this]; exact ⟨rfl, rfl⟩
  | limit side p q uid =>
    simp only [step] at h
    unfold NewLimit.new at h
    simp only [Exchange.call]
    by_cases hp : p ≤ 0
    · simp only [hp, if_true, ok_inj, Prod.mk.injEq] at h ⊢
      obtain ⟨rfl, rfl⟩ := h; exact ⟨rfl, rfl⟩
    by_cases hq : q ≤ 0
    · simp only [hp, hq, if_true, if_false, ok_inj, Prod.mk.injEq] at h ⊢
      obtain ⟨rfl, rfl⟩ := h; exact ⟨rfl, rfl⟩
    · simp only [hp, hq, if_false, bind_ok, ok_inj, Prod.mk.injEq] at h ⊢
      obtain ⟨⟨s1, x⟩, h, rfl, rfl⟩ := h
      have := submitLimit_ref hl hi hcap (by simp only; omega) h
      simp only at this
      rw [this]; exact ⟨rfl, rfl⟩
  | amend id side p q uid =>
    simp only [step] at h
    unfold NewLimit.new at h
    simp only [Exchange.call]
    by_cases hp : p ≤ 0
    · simp only [hp, if_true, ok_inj, Prod.mk.injEq] at h ⊢
      obtain ⟨rfl, rfl⟩ := h; exact ⟨rfl, rfl⟩
    by_cases hq : q ≤ 0
    · simp only [hp, hq, if_true, if_false, ok_inj, Prod.mk.injEq] at h ⊢
      obtain ⟨rfl, rfl⟩ := h; exact ⟨rfl, rfl⟩
    · simp only [hp, hq, if_false, bind_ok, ok_inj, Prod.mk.injEq] at h ⊢
      obtain ⟨⟨s1, x⟩, h, rfl, rfl⟩ := h
      have := amendLimit_ref hl hi hcap h
      simp only at this
      rw [this]; exact ⟨rfl, rfl⟩
  | cancel b =>
    simp only [step, bind_ok, ok_inj, Prod.mk.injEq] at h
    obtain ⟨⟨s1, x⟩, h, rfl, rfl⟩ := h
    simp only [Exchange.call, cancelLimit_ref hw hi h]

end Lfest
