import Verif.Lemmas.Safety
import Verif.Lemmas.Validate
import Verif.Lemmas.ExposureStep

/-! Strategies that hold one position at a time. -/

namespace Lfest

open Spec

theorem abs_long {i : Inner} (h : 0 < i.qty) : Spec.abs (Position.quantity (.long i)) = i.qty := by
  have : ∀ x : Int, 0 < x → Spec.abs x = x := fun x hx => by unfold Spec.abs; rw [if_pos (by omega)]
  exact this _ h

theorem abs_short {i : Inner} (h : 0 < i.qty) : Spec.abs (Position.quantity (.short i)) = i.qty := by
  have : ∀ x : Int, 0 < x → Spec.abs (-x) = x := fun x hx => by
    unfold Spec.abs; rw [if_neg (by omega)]; omega
  exact this _ h

theorem share_zero (e : Env) (m : Int) : share e 0 m = 0 := by simp [share]

/-- A fill that closes the whole position, if there is one, and may open one on the other side:
the margin held afterwards is that of the new position. -/
theorem changePosition_over {e : Env} {imr q p f : Int} {side : Side} {a a' : Accounts}
    {pos pos' : Position} (hw : PosWF pos)
    (hn : pos = .neutral ∨ 0 < opposing pos.quantity side) (hle : opposing pos.quantity side ≤ q)
    (hpm : a.balance .positionMargin = share e (value e (Spec.abs pos.quantity) pos.entryPrice) imr)
    (h : changePosition e imr a pos q p side f = .ok (pos', a')) :
    Spec.abs pos'.quantity = q - opposing pos.quantity side ∧
      a'.balance .positionMargin =
        share e (value e (Spec.abs pos'.quantity) pos'.entryPrice) imr ∧
      a'.balance .orderMargin = a.balance .orderMargin ∧
      (pos' ≠ .neutral → opposing pos.quantity side < q ∧ pos'.entryPrice = p) := by
  unfold changePosition at h
  have hlong : ∀ i : Inner, pos = .long i → 0 < i.qty := by rintro i rfl; exact hw
  have hshort : ∀ i : Inner, pos = .short i → 0 < i.qty := by rintro i rfl; exact hw
  simp only [bind_ok, debugP_ok] at h
  obtain ⟨_, _, h⟩ := h
  cases pos with
  | neutral =>
    have hz : Spec.abs (Position.quantity .neutral) = 0 := rfl
    have ho : opposing (Position.quantity .neutral) side = 0 := opposing_neutral side
    rw [hz, value_zero, share_zero] at hpm
    rw [ho]
    cases side <;>
    · simp only [bind_ok, ok_inj, Prod.mk.injEq] at h
      obtain ⟨_, _, ⟨i, b⟩, hx, rfl, rfl⟩ := h
      obtain ⟨h1, h2, h3, h4, h5⟩ := Inner.new_ok hx
      simp only at h4 h5
      have b1 := h5.bal .positionMargin
      have b2 := h5.bal .orderMargin
      simp [mv] at b1 b2
      subst h4
      first
        | rw [abs_long (i := ⟨q, p, f⟩) h1]
        | rw [abs_short (i := ⟨q, p, f⟩) h1]
      simp only [Position.entryPrice]
      exact ⟨by omega, by omega, by omega, fun _ => ⟨by omega, trivial⟩⟩
  | long i =>
    have hi := hlong i rfl
    cases side with
    | buy =>
      exfalso
      rcases hn with hn | hn
      · cases hn
      · simp only [opposing, Position.quantity, larger] at hn; omega
    | sell =>
      have h0 : opposing (Position.quantity (.long i)) .sell = i.qty := by
        simp only [opposing, Position.quantity, larger]; omega
      have habs : Spec.abs (Position.quantity (.long i)) = i.qty := abs_long hi
      rw [h0] at hle ⊢
      rw [habs] at hpm
      simp only [Position.entryPrice] at hpm
      simp only at h
      rw [if_neg (by omega)] at h
      split at h
      · next heq =>
        simp only [bind_ok, ok_inj, Prod.mk.injEq] at h
        obtain ⟨⟨x, b⟩, hx, _, _, rfl, rfl⟩ := h
        rw [heq] at hx
        have hm := (Inner.decrease_ok hx).2.2.2.2
        have b1 := hm.bal .positionMargin
        have b2 := hm.bal .orderMargin
        simp only [reduceDelta] at b1 b2
        have hz : Spec.abs (Position.quantity .neutral) = 0 := rfl
        rw [hz, value_zero, share_zero]
        simp only at b1 b2 ⊢
        exact ⟨by omega, by omega, by omega, fun h => absurd rfl h⟩
      · next hne =>
        simp only [bind_ok, ok_inj, Prod.mk.injEq] at h
        obtain ⟨⟨x, b⟩, hx, _, _, _, _, ⟨y, d⟩, hy, rfl, rfl⟩ := h
        have hm := (Inner.decrease_ok hx).2.2.2.2
        have b1 := hm.bal .positionMargin
        have b2 := hm.bal .orderMargin
        simp only [reduceDelta] at b1 b2
        obtain ⟨h1, h2, h3, h4, h5⟩ := Inner.new_ok hy
        simp only at h4 h5
        have d1 := h5.bal .positionMargin
        have d2 := h5.bal .orderMargin
        simp [mv] at d1 d2
        subst h4
        rw [abs_short (i := ⟨q - i.qty, p, 0⟩) h1]
        simp only [Position.entryPrice]
        exact ⟨trivial, by omega, by omega, fun _ => ⟨by omega, trivial⟩⟩
  | short i =>
    have hi := hshort i rfl
    cases side with
    | sell =>
      exfalso
      rcases hn with hn | hn
      · cases hn
      · simp only [opposing, Position.quantity, larger] at hn; omega
    | buy =>
      have h0 : opposing (Position.quantity (.short i)) .buy = i.qty := by
        simp only [opposing, Position.quantity, larger]; omega
      have habs : Spec.abs (Position.quantity (.short i)) = i.qty := abs_short hi
      rw [h0] at hle ⊢
      rw [habs] at hpm
      simp only [Position.entryPrice] at hpm
      simp only at h
      rw [if_neg (by omega)] at h
      split at h
      · next heq =>
        simp only [bind_ok, ok_inj, Prod.mk.injEq] at h
        obtain ⟨⟨x, b⟩, hx, _, _, rfl, rfl⟩ := h
        rw [heq] at hx
        have hm := (Inner.decrease_ok hx).2.2.2.2
        have b1 := hm.bal .positionMargin
        have b2 := hm.bal .orderMargin
        simp only [reduceDelta] at b1 b2
        have hz : Spec.abs (Position.quantity .neutral) = 0 := rfl
        rw [hz, value_zero, share_zero]
        simp only at b1 b2 ⊢
        exact ⟨by omega, by omega, by omega, fun h => absurd rfl h⟩
      · next hne =>
        simp only [bind_ok, ok_inj, Prod.mk.injEq] at h
        obtain ⟨⟨x, b⟩, hx, _, _, _, _, ⟨y, d⟩, hy, rfl, rfl⟩ := h
        have hm := (Inner.decrease_ok hx).2.2.2.2
        have b1 := hm.bal .positionMargin
        have b2 := hm.bal .orderMargin
        simp only [reduceDelta] at b1 b2
        obtain ⟨h1, h2, h3, h4, h5⟩ := Inner.new_ok hy
        simp only at h4 h5
        have d1 := h5.bal .positionMargin
        have d2 := h5.bal .orderMargin
        simp [mv] at d1 d2
        subst h4
        rw [abs_long (i := ⟨q - i.qty, p, 0⟩) h1]
        simp only [Position.entryPrice]
        exact ⟨trivial, by omega, by omega, fun _ => ⟨by omega, trivial⟩⟩

/-- What holds between the calls of a strategy that holds one position at a time. -/
structure Solo (c : Cfg) (s : State) : Prop where
  active : s.active = []
  om : s.om = []
  noMargin : s.acct.balance .orderMargin = 0
  exact : s.acct.balance .positionMargin =
    share c.env (value c.env (Spec.abs s.pos.quantity) s.pos.entryPrice) c.spec.initMarginReq
  held : s.pos ≠ .neutral → quantityOk c.spec.quantityFilter (Spec.abs s.pos.quantity) ∧
    0 < s.ms.bid ∧ 0 < s.ms.ask ∧ 0 < s.acct.balance .positionMargin
  quotes : 0 < s.ms.bid ↔ 0 < s.ms.ask

theorem Solo.init (c : Cfg) : Solo c (State.init c) := by
  refine ⟨rfl, rfl, ?_, ?_, fun h => absurd rfl h, Iff.rfl⟩
  · simp [State.init, Accounts.new, Accounts.balance, Accounts.get, TAccount.net]
  · have hz : Spec.abs (State.init c).pos.quantity = 0 := rfl
    rw [hz, value_zero, share_zero]
    simp [State.init, Accounts.new, Accounts.balance, Accounts.get, TAccount.net]

/-- The conditions on a market order, without the constructor. -/
structure SoloOrder (c : Cfg) (s : State) (side : Side) (q : Int) : Prop where
  price : 0 < touchPrice s.ms side
  against : s.pos = .neutral ∨ 0 < opposing s.pos.quantity side
  whole : opposing s.pos.quantity side ≤ q
  opens : opposing s.pos.quantity side < q → 0 < share c.env
    (value c.env (q - opposing s.pos.quantity side) (touchPrice s.ms side)) c.spec.initMarginReq
  left : 0 < opposing s.pos.quantity side → opposing s.pos.quantity side < q →
    quantityOk c.spec.quantityFilter (q - opposing s.pos.quantity side)

theorem opposing_abs {pos : Position} {side : Side} (hw : PosWF pos)
    (h : 0 < opposing pos.quantity side) : Spec.abs pos.quantity = opposing pos.quantity side := by
  cases pos with
  | neutral => rw [show opposing (Position.quantity .neutral) side = 0 from opposing_neutral side] at h; omega
  | long i =>
    rw [abs_long hw]
    cases side <;> simp only [opposing, Position.quantity, larger] at h ⊢ <;>
      (have : 0 < i.qty := hw) <;> omega
  | short i =>
    rw [abs_short hw]
    cases side <;> simp only [opposing, Position.quantity, larger] at h ⊢ <;>
      (have : 0 < i.qty := hw) <;> omega

theorem Solo.works {c : Cfg} {s : State} {side : Side} {q : Int} (hw : PosWF s.pos)
    (h : Solo c s) (k : SoloOrder c s side q) : marginsWorkOut c s side q := by
  refine ⟨k.opens, fun ho => ?_, fun ho _ => ?_⟩
  · have hne : s.pos ≠ .neutral := by
      intro hn
      rw [hn, show opposing (Position.quantity .neutral) side = 0 from opposing_neutral side] at ho
      omega
    have := (h.held hne).2.2.2
    rw [h.exact, opposing_abs hw ho] at this
    have hs : smaller q (opposing s.pos.quantity side) = opposing s.pos.quantity side := by
      have := k.whole
      unfold smaller; split <;> omega
    rw [hs]; exact this
  · rw [h.exact, opposing_abs hw ho]

/-- Market orders of such a strategy do not panic. -/
theorem Solo.market {c : Cfg} {s : State} {o : NewMarket} (ht : c.spec.quantityFilter.tickSize ≠ 0)
    (hw : PosWF s.pos) (hs : s.acct.debitSum = s.acct.creditSum) (he : 0 ≤ s.pos.entryPrice)
    (hq : 0 < o.qty) (h : Solo c s) (k : SoloOrder c s o.side o.qty) :
    ∃ s' r, submitMarket c s o = .ok (s', r) ∧ Solo c s' := by
  have hba : 0 < s.ms.bid ∧ 0 < s.ms.ask := by
    have hp := k.price
    cases hsd : o.side <;> rw [hsd] at hp <;> simp only [touchPrice] at hp
    · exact ⟨h.quotes.2 hp, hp⟩
    · exact ⟨hp, h.quotes.1 hp⟩
  obtain ⟨hb, ha⟩ := hba
  have hflat : c.env.debug = true → s.pos = .neutral → s.acct.balance .positionMargin = 0 := by
    intro _ hn
    have := h.exact
    rwa [hn, show Spec.abs (Position.quantity .neutral) = 0 from rfl, value_zero, share_zero] at this
  rcases hst : submitMarket c s o with p | ⟨s', r⟩
  · exact absurd (h.works hw k)
      ((submitMarket_exact ht hw hs he hflat hq k.price).1 ⟨p, hst⟩).2.2
  · refine ⟨s', r, rfl, ?_⟩
    rcases submitMarket_cases hst with ⟨err, _, rfl, _⟩ |
      ⟨hv, ⟨err, _, rfl, _⟩ | ⟨_, _, _, pos', a', hc, rfl, _⟩⟩
    · exact ⟨h.active, h.om, h.noMargin, h.exact, h.held, h.quotes⟩
    · exact ⟨h.active, h.om, h.noMargin, h.exact, h.held, h.quotes⟩
    · obtain ⟨h1, h2, h3, h4⟩ := changePosition_over hw k.against k.whole h.exact hc
      refine ⟨h.active, h.om, ?_, h2, fun hne => ?_, h.quotes⟩
      · simp only; rw [h3]; exact h.noMargin
      · simp only at hne ⊢
        have hqo := (quantity_ok hv).1 rfl
        obtain ⟨hlt, hen⟩ := h4 hne
        rw [h2, h1, hen]
        refine ⟨?_, hb, ha, ?_⟩
        · rcases k.against with hn | hn
          · rw [hn, show opposing (Position.quantity .neutral) o.side = 0 from opposing_neutral _,
              Int.sub_zero]
            exact hqo
          · exact k.left hn hlt
        · exact k.opens hlt

theorem build_valid {f : PriceFilter} {a : UpdateArg} (d : Bool)
    (ht : (filterOf f a).tickSize ≠ 0) (h : updateOk f a) :
    ∃ u, a.build d = .ok u ∧ u.validate f = .ok (.ok ()) := by
  obtain ⟨u, hb, hv⟩ := (debug_valid ht).2 h
  refine ⟨u, ?_, hv⟩
  cases d with
  | true => exact hb
  | false =>
    exact (build_rel true a).ok u hb

theorem observe_valid {c : Cfg} {s : State} {u : Update}
    (hv : u.validate c.spec.priceFilter = .ok (.ok ())) : ∃ s1, observe c s u = .ok s1 := by
  simp only [observe, MarketState.update, debugValidate]
  cases hdb : c.env.debug with
  | false => exact ⟨_, rfl⟩
  | true =>
    simp only [hv, if_true, bind, Except.bind]
    exact ⟨_, rfl⟩

theorem quotes_positive {ms : MarketState} {a : UpdateArg} (h : ∀ x ∈ quotesOf a, 0 < x) :
    quotesAfter ms a = (ms.bid, ms.ask) ∨
      (0 < (quotesAfter ms a).1 ∧ 0 < (quotesAfter ms a).2) := by
  cases a with
  | trade t => exact .inl rfl
  | custom k =>
    cases hk : k.market with
    | none => simp [quotesAfter, hk]
    | some x => simp only [quotesOf, hk] at h; simp only [quotesAfter, hk]; right; simpa using h
  | _ => right; simpa [quotesOf, quotesAfter] using h

/-- The liquidation of such a strategy does not panic. -/
theorem Solo.liquidates {c : Cfg} {s : State} (ht : c.spec.quantityFilter.tickSize ≠ 0)
    (hw : PosWF s.pos) (hs : s.acct.debitSum = s.acct.creditSum) (he : 0 ≤ s.pos.entryPrice)
    (h : Solo c s) (hn : s.pos ≠ .neutral) : ∃ s', liquidate c s = .ok s' ∧ Solo c s' := by
  obtain ⟨hqo, hb, ha, _⟩ := h.held hn
  have hord : ∃ o, liquidationOrder s.pos = .ok o ∧ 0 < o.qty ∧
      opposing s.pos.quantity o.side = o.qty ∧ Spec.abs s.pos.quantity = o.qty := by
    cases hp : s.pos with
    | neutral => exact absurd hp hn
    | long i =>
      rw [hp] at hw
      have hi : 0 < i.qty := hw
      refine ⟨⟨0, .sell, i.qty⟩, ?_, hi, ?_, abs_long hi⟩
      · simp only [liquidationOrder, NewMarket.new]; rw [if_neg (by omega)]
      · simp only [opposing, Position.quantity, larger]; omega
    | short i =>
      rw [hp] at hw
      have hi : 0 < i.qty := hw
      refine ⟨⟨0, .buy, i.qty⟩, ?_, hi, ?_, abs_short hi⟩
      · simp only [liquidationOrder, NewMarket.new]; rw [if_neg (by omega)]
      · simp only [opposing, Position.quantity, larger]; omega
  obtain ⟨o, ho, hq, hopp, habs⟩ := hord
  have hpr : 0 < touchPrice s.ms o.side := by cases o.side <;> simpa [touchPrice]
  have k : SoloOrder c s o.side o.qty :=
    ⟨hpr, .inr (by omega), by omega, fun h => absurd h (by omega), fun _ h => absurd h (by omega)⟩
  obtain ⟨s', r, hst, hsolo⟩ := h.market ht hw hs he hq k
  refine ⟨s', ?_, hsolo⟩
  have hal : marketAllowed c s o.side o.qty := by
    simp only [marketAllowed, hopp]
    rw [if_neg (by omega), if_pos (by omega)]
    trivial
  rw [habs] at hqo
  rcases submitMarket_cases hst with ⟨err, hv, _, _⟩ |
      ⟨hv, ⟨err, hv', _, _⟩ | ⟨_, _, _, pos', a', hc, _, rfl⟩⟩
  · rw [quantity_valid ht hqo] at hv; cases hv
  · rw [checkMarket_allowed hw hpr hal] at hv'; cases hv'
  · simp only [liquidate, ho, hst, bind, Except.bind]

theorem Solo.checkActive {c : Cfg} {s : State} {u : Update} (hi : c.spec.initMarginReq ≤ c.env.scale)
    (h : Solo c s) (hw : PosWF s.pos) :
    (u.canFill = false ∨ 0 ≤ s.acct.balance .wallet →
      ∃ s', Lfest.checkActive c s u = .ok s' ∧ Solo c s') ∧
    (u.canFill = true → s.acct.balance .wallet < 0 →
      Lfest.checkActive c s u = .error .walletNegative) := by
  have hom : orderMargin c.env c.spec.initMarginReq [] s.pos =
      .ok (marginReq c [] s.pos.quantity) :=
    orderMargin_total c hw (fun o ho => by simp at ho) (fun _ => hi)
  have hz : marginReq c [] s.pos.quantity = 0 := by simp [marginReq, sideValue, larger, share]
  rw [hz] at hom
  constructor
  · rintro hx
    by_cases hf : u.canFill = false
    · refine ⟨{ s with updates := [] }, by simp only [Lfest.checkActive, hf, if_true], ?_⟩
      exact ⟨h.active, h.om, h.noMargin, h.exact, h.held, h.quotes⟩
    · have hwal : 0 ≤ s.acct.balance .wallet := by
        rcases hx with hx | hx
        · exact absurd hx hf
        · exact hx
      refine ⟨{ s with updates := [] }, ?_, ⟨h.active, h.om, h.noMargin, h.exact, h.held, h.quotes⟩⟩
      simp only [Lfest.checkActive, hf, h.active, h.om, matchLoop, removeExecuted,
        debugMarginEq, hom, h.noMargin, bind, Except.bind, debugP, assertP]
      cases c.env.debug <;> simp [hwal, ← h.active]
  · intro hf hwal
    simp only [Lfest.checkActive, hf, h.active, h.om, matchLoop, removeExecuted,
      debugMarginEq, hom, h.noMargin, bind, Except.bind, debugP, assertP]
    cases c.env.debug <;> simp [Int.not_le.2 hwal]

/-- Updates panic only when the account is bankrupt. -/
theorem Solo.update {c : Cfg} {s : State} {a : UpdateArg} (hc : soundConfig c)
    (hr : Reachable c s) (h : Solo c s) (k : oneAtATime c s (.update a)) :
    (mayFill a = false ∨ breach c s.pos (quotesAfter s.ms a) ∨ 0 ≤ s.acct.balance .wallet →
      ∃ s' r, step c s (.update a) = .ok (s', r) ∧ Solo c s') ∧
    (mayFill a = true → ¬ breach c s.pos (quotesAfter s.ms a) → s.acct.balance .wallet < 0 →
      step c s (.update a) = .error .walletNegative) := by
  obtain ⟨hu, htk, hqp⟩ := k
  obtain ⟨u, hb, hv⟩ := build_valid c.env.debug htk hu
  obtain ⟨s1, h1⟩ := observe_valid (s := s) hv
  obtain ⟨e1, e2, e3, e4, _, _⟩ := observe_fields h1
  have hqt := (observe_quotes hb h1).1
  have hw : PosWF s1.pos := by rw [e2]; exact hr.linv.wf
  have hs1 : Solo c s1 := by
    have hbid : s1.ms.bid = (quotesAfter s.ms a).1 := by rw [← hqt]
    have hask : s1.ms.ask = (quotesAfter s.ms a).2 := by rw [← hqt]
    have hqs : (s1.ms.bid = s.ms.bid ∧ s1.ms.ask = s.ms.ask) ∨ (0 < s1.ms.bid ∧ 0 < s1.ms.ask) := by
      rcases quotes_positive (ms := s.ms) hqp with e | e
      · rw [e] at hbid hask; exact .inl ⟨hbid, hask⟩
      · rw [hbid, hask]; exact .inr e
    have hq0 := h.quotes
    refine ⟨e3 ▸ h.active, e4 ▸ h.om, e1 ▸ h.noMargin, by rw [e1, e2]; exact h.exact,
      fun hn => ?_, ?_⟩
    · rw [e2] at hn
      obtain ⟨g1, g2, g3, g4⟩ := h.held hn
      rw [e1, e2]
      refine ⟨g1, by omega, by omega, g4⟩
    · rcases hqs with ⟨x, y⟩ | ⟨x, y⟩
      · rw [x, y]; exact hq0
      · exact ⟨fun _ => y, fun _ => x⟩
  have hmm := checkMaintenance_ok (c := c) (ms := s1.ms) hw
  rw [hqt, e2] at hmm
  obtain ⟨ca1, ca2⟩ := hs1.checkActive (u := u) hc.2.2.2.1 hw
  constructor
  · intro hx
    rcases hmm with ⟨hm, hnb⟩ | ⟨hm, hbr⟩
    · obtain ⟨s2, h2, hs2⟩ := ca1 (by
        rcases hx with hx | hx | hx
        · exact .inl ((build_mayFill hb).symm.trans hx)
        · exact absurd hx hnb
        · exact .inr (by rw [e1]; exact hx))
      refine ⟨s2, .update (.ok s2.updates), ?_, hs2⟩
      simp only [step, hb, updateState, h1, bind, Except.bind, e2, hm, h2]
    · have hne : s1.pos ≠ .neutral := by
        rw [e2]; intro hn
        rw [hn] at hbr
        simp [breach, Position.quantity] at hbr
      obtain ⟨s2, h2, hs2⟩ := hs1.liquidates hc.1 hw (by rw [e1]; exact hr.linv.sums)
        (by rw [e2]; exact hr.entry_nonneg) hne
      refine ⟨s2, .update (.error (.risk .liquidate)), ?_, hs2⟩
      simp only [step, hb, updateState, h1, bind, Except.bind, e2, hm, h2]
  · intro hnb hbr hwal
    rcases hmm with ⟨hm, _⟩ | ⟨_, hbr'⟩
    · have hcf : u.canFill = true := (build_mayFill hb).symm.trans hnb
      have := ca2 hcf (by rw [e1]; exact hwal)
      simp only [step, hb, updateState, h1, bind, Except.bind, e2, hm, this]
    · exact absurd hbr' hbr

theorem Solo.order {c : Cfg} {s : State} {side : Side} {q : Int} {uid : Nat} (hc : soundConfig c)
    (hr : Reachable c s) (h : Solo c s) (k : oneAtATime c s (.market side q uid)) :
    ∃ s' r, step c s (.market side q uid) = .ok (s', r) ∧ Solo c s' := by
  obtain ⟨k1, k2, k3, k4, k5⟩ := k
  by_cases hq : q ≤ 0
  · refine ⟨s, ?_, ?_, h⟩
    · exact .invalidOrder .orderQuantityLTEZero
    · simp [step, NewMarket.new, hq]
  · have hn : NewMarket.new side q uid = .ok ⟨uid, side, q⟩ := by
      simp only [NewMarket.new]; rw [if_neg hq]
    obtain ⟨s', r, hs, hsolo⟩ := h.market (o := ⟨uid, side, q⟩) hc.1 hr.linv.wf hr.linv.sums
      hr.entry_nonneg (show 0 < q by omega) ⟨k1, k2, k3, k4, k5⟩
    refine ⟨s', .market r, ?_, hsolo⟩
    simp only [step, hn, bind_ok]
    exact ⟨_, hs, rfl⟩

/-- One call of such a strategy. -/
theorem Solo.step {c : Cfg} {s : State} {op : Op} (hc : soundConfig c)
    (hr : Reachable c s) (h : Solo c s) (k : oneAtATime c s op) :
    (∃ s' r, Lfest.step c s op = .ok (s', r) ∧ Solo c s') ∨
    (Lfest.step c s op = .error .walletNegative ∧ ∃ a, op = .update a ∧ mayFill a = true ∧
      ¬ breach c s.pos (quotesAfter s.ms a) ∧ s.acct.balance .wallet < 0) := by
  cases op with
  | update a =>
    obtain ⟨h1, h2⟩ := h.update hc hr k
    by_cases hx : mayFill a = false ∨ breach c s.pos (quotesAfter s.ms a) ∨
        0 ≤ s.acct.balance .wallet
    · exact .inl (h1 hx)
    · simp only [not_or, Bool.not_eq_false, Int.not_le] at hx
      exact .inr ⟨h2 hx.1 hx.2.1 hx.2.2, a, rfl, hx⟩
  | market side q uid => exact .inl (h.order hc hr k)
  | checkActive a => exact absurd k (by simp [oneAtATime])
  | limit side p q uid => exact absurd k (by simp [oneAtATime])
  | amend id side p q uid => exact absurd k (by simp [oneAtATime])
  | cancel b => exact absurd k (by simp [oneAtATime])

theorem Solo.run {c : Cfg} (hc : soundConfig c) (ops : List Op) :
    ∀ s s', Reachable c s → Solo c s → followed c s ops → Lfest.run c s ops = .ok s' →
      Solo c s' := by
  induction ops with
  | nil => intro s s' _ h _ hrun; simp only [Lfest.run, ok_inj] at hrun; exact hrun ▸ h
  | cons op ops ih =>
    intro s s' hr h hf hrun
    simp only [Lfest.run, bind_ok] at hrun
    obtain ⟨⟨s1, r⟩, h1, h2⟩ := hrun
    rcases h.step hc hr hf.1 with ⟨s2, r2, h3, h4⟩ | ⟨h3, _⟩
    · rw [h1] at h3
      simp only [ok_inj, Prod.mk.injEq] at h3
      obtain ⟨rfl, rfl⟩ := h3
      exact ih s1 s' (hr.step h1) h4 (hf.2 s1 r h1) h2
    · rw [h1] at h3; cases h3

end Lfest
