import Verif.Lemmas.Arith
import Verif.Lemmas.Risk

/-! Prices, values and profits: totality, monotonicity, signs; mirrored positions. -/

namespace Lfest

open Spec

theorem pnl_total {e : Env} {a b q : Int} (ha : a ≠ 0) (hb : b ≠ 0) :
    pnl e a b q = .ok (Spec.pnl e a b q) := by
  by_cases hq : q = 0
  · subst hq
    simp only [pnl, if_true]
    unfold Spec.pnl; split <;> simp [value_zero]
  · simp only [pnl, hq, if_false, Spec.pnl]
    split <;> simp [convert_pos, bind, Except.bind, *]

theorem weighted_total {e : Env} {p0 w0 p1 w1 : Int} (hw : w0 + w1 ≠ 0) :
    newWeightedPrice e.scale p0 w0 p1 w1 = .ok (weighted e p0 w0 p1 w1) := by
  simp [newWeightedPrice, ddiv, hw, weighted, dmul]

theorem value_neg (e : Env) (q p : Int) : value e (-q) p = -value e q p := by
  unfold value; split <;> rw [Int.neg_mul, Int.neg_tdiv]

theorem pnl_neg (e : Env) (a b q : Int) : Spec.pnl e a b (-q) = -Spec.pnl e a b q := by
  unfold Spec.pnl; split <;> simp only [value_neg] <;> omega

/-- Division is antitone in a positive divisor. -/
theorem tdiv_anti {x a b : Int} (hx : 0 ≤ x) (ha : 0 < a) (hab : a ≤ b) : x.tdiv b ≤ x.tdiv a := by
  have hb : 0 < b := by omega
  obtain ⟨h1, _, h3⟩ := tdiv_bounds hx hb
  apply le_tdiv ha hx
  have := Int.mul_le_mul_of_nonneg_left hab h3
  omega

theorem value_linear_mono {e : Env} (he : e.kind = .linear) {q a b : Int} (hq : 0 ≤ q)
    (ha : 0 ≤ a) (hab : a ≤ b) : value e q a ≤ value e q b := by
  simp only [value, he]
  exact tdiv_mono (scale_pos e) (Int.mul_nonneg hq ha) (Int.mul_le_mul_of_nonneg_left hab hq)

theorem value_inverse_anti {e : Env} (he : e.kind = .inverse) {q a b : Int} (hq : 0 ≤ q)
    (ha : 0 < a) (hab : a ≤ b) : value e q b ≤ value e q a := by
  have := scale_pos e
  simp only [value, he]
  exact tdiv_anti (Int.mul_nonneg hq (by omega)) ha hab

theorem pnl_mono {e : Env} {entry x y q : Int} (hq : 0 ≤ q) (hx : 0 < x) (hxy : x ≤ y) :
    Spec.pnl e entry x q ≤ Spec.pnl e entry y q := by
  unfold Spec.pnl; split
  · next he => have := value_linear_mono he hq (by omega) hxy; omega
  · next he => have := value_inverse_anti he hq hx hxy; omega

theorem totalCost_eq {e : Env} {pos : Position} (he : e.kind = .linear) (hw : PosWF pos) :
    pos.totalCost e = .ok (value e (Spec.abs pos.quantity) pos.entryPrice) := by
  cases pos with
  | neutral => simp [Position.totalCost, Position.quantity, Spec.abs, value_zero]
  | long p =>
    have hq : 0 < p.qty := hw
    simp only [Position.totalCost, Inner.totalCost, Position.quantity, Position.entryPrice,
      abs_of_pos hq]
    exact convert_linear he _ _
  | short p =>
    have hq : 0 < p.qty := hw
    simp only [Position.totalCost, Inner.totalCost, Position.quantity, Position.entryPrice,
      abs_neg_of_pos hq]
    exact convert_linear he _ _

/-- Cost of the merged position against the sum of the costs. -/
theorem cost_weighted {e : Env} {p0 w0 p1 w1 : Int} (he : e.kind = .linear) (hp0 : 0 ≤ p0)
    (hp1 : 0 < p1) (hw0 : 0 < w0) (hw1 : 0 < w1) :
    value e (w0 + w1) (weighted e p0 w0 p1 w1) ≤ value e w0 p0 + value e w1 p1 ∧
    (value e w0 p0 + value e w1 p1 - value e (w0 + w1) (weighted e p0 w0 p1 w1) - 1) * e.scale
      < w0 + w1 := by
  have hs := scale_pos e
  simp only [value, he, weighted]
  rw [Int.mul_comm w0 p0, Int.mul_comm w1 p1]
  have ha := (tdiv_bounds (Int.mul_nonneg hp0 (by omega : 0 ≤ w0)) hs).2.2
  have hb := (tdiv_bounds (Int.mul_nonneg (by omega : 0 ≤ p1) (by omega : 0 ≤ w1)) hs).2.2
  generalize (p0 * w0).tdiv e.scale = A at *
  generalize (p1 * w1).tdiv e.scale = B at *
  obtain ⟨c1, c2, c3⟩ := tdiv_bounds (x := (A + B) * e.scale) (s := w0 + w1)
    (Int.mul_nonneg (by omega) (by omega)) (by omega)
  generalize ((A + B) * e.scale).tdiv (w0 + w1) = E at *
  rw [Int.mul_comm (w0 + w1) E]
  obtain ⟨d1, d2, d3⟩ := tdiv_bounds (x := E * (w0 + w1)) (s := e.scale)
    (Int.mul_nonneg c3 (by omega)) hs
  refine ⟨tdiv_le hs (Int.mul_nonneg c3 (by omega)) c1, ?_⟩
  generalize (E * (w0 + w1)).tdiv e.scale = F at *
  rw [Int.sub_mul, Int.sub_mul, Int.one_mul]
  omega

theorem Spec.Reachable.zero_sum {c : Cfg} {s : State} (h : Reachable c s) :
    s.acct.balance .wallet + s.acct.balance .orderMargin + s.acct.balance .positionMargin +
      s.acct.balance .exchangeFee + s.acct.balance .treasury = 0 := by
  have h1 := h.linv.sums
  have h2 := h.linv.broker
  simp only [State.core, Accounts.debitSum, Accounts.creditSum] at h1 h2
  simp only [Accounts.balance, Accounts.get, TAccount.net]
  rw [h2] at h1
  simp only at h1
  omega

theorem fill_open (c : Cfg) {l : Ledger} (f : Fill) (h : l.qty = 0) :
    l.fill c f = { l with qty := f.signed, entry := f.price, owed := f.fee c } := by
  simp only [Ledger.fill]; rw [if_pos h]

theorem fill_enlarge (c : Cfg) {l : Ledger} {f : Fill} (h : l.qty ≠ 0)
    (hd : (0 < l.qty ∧ f.side = .buy) ∨ (l.qty < 0 ∧ f.side = .sell)) :
    l.fill c f = { l with qty := l.qty + f.signed, entry := weighted c.env l.entry (Spec.abs l.qty) f.price f.qty, owed := l.owed + f.fee c } := by
  simp only [Ledger.fill]; rw [if_neg h, if_pos hd]

/-- A market order that passes the filter and the risk check and whose fill goes through. -/
theorem submitMarket_accept {c : Cfg} {s : State} {o : NewMarket} {pos' : Position} {a' : Accounts}
    (hv : c.spec.quantityFilter.validate o.qty = .ok (.ok ()))
    (hk : checkMarketOrder c s.pos (s.acct.balance .positionMargin) o.side o.qty
      (touchPrice s.ms o.side) (s.acct.balance .wallet) = .ok (.ok ()))
    (hq : 0 < o.qty) (hp : 0 < touchPrice s.ms o.side)
    (hc : changePosition c.env c.spec.initMarginReq s.acct s.pos o.qty (touchPrice s.ms o.side)
      o.side (Fill.fee c ⟨false, o.side, touchPrice s.ms o.side, o.qty⟩) = .ok (pos', a')) :
    ∃ s' f, submitMarket c s o = .ok (s', .ok f) ∧ s'.pos = pos' ∧ s'.acct = a' := by
  have htouch : touch s.ms o.side = touchPrice s.ms o.side := by cases o.side <;> rfl
  refine ⟨{ s with nextId := s.nextId + 1, pos := pos', acct := a', log := .trade o.side (touchPrice s.ms o.side) o.qty :: .marketFill :: .marketSubmit o :: s.log },
    o.intoFilled s.nextId s.ms.ts (touchPrice s.ms o.side) s.ms.ts, ?_, rfl, rfl⟩
  simp only [submitMarket, bind_ok]
  refine ⟨_, hv, ?_⟩
  simp only [bind_ok, htouch]
  refine ⟨_, hk, ?_⟩
  simp only [bind_ok, settleMarket]
  exact ⟨_, ⟨(), assertP_ok.2 hq, (), assertP_ok.2 hp, _,
    convert_pos (by simp only [NewMarket.intoFilled]; omega), _, hc, rfl⟩, rfl⟩

theorem mirror_mirror (p : Position) : mirror (mirror p) = p := by cases p <;> rfl

theorem opposite_opposite (s : Side) : opposite (opposite s) = s := by cases s <;> rfl

theorem convert_neg {e : Env} {q p v : Int} (h : convert e q p = .ok v) :
    convert e (-q) p = .ok (-v) := by
  unfold convert at *
  split at h
  · simp only [ok_inj] at *; simp only [dmul] at *; rw [Int.neg_mul, Int.neg_tdiv, h]
  · rw [ddiv_ok] at *; rw [Int.neg_mul, Int.neg_tdiv]; exact ⟨h.1, by omega⟩

theorem pnl_neg_ok {e : Env} {a b q v : Int} (h : pnl e a b q = .ok v) :
    pnl e a b (-q) = .ok (-v) := by
  unfold pnl at *
  split at h
  · next hq => subst hq; simp at *; omega
  · next hq =>
    rw [if_neg (by omega)]
    split at h
    all_goals
      simp only [bind_ok, ok_inj] at *
      obtain ⟨x, hx, y, hy, rfl⟩ := h
      exact ⟨_, convert_neg hx, _, convert_neg hy, by omega⟩

theorem settlePnl_total {e : Env} {a : Accounts} (hs : a.debitSum = a.creditSum) (v : Int) :
    ∃ a', settlePnl e a v = .ok a' := by
  unfold settlePnl
  split
  · next h => exact transfer_total hs h (by simp)
  · split
    · exact transfer_total hs (by omega) (by simp)
    · exact ⟨_, rfl⟩

theorem settleFees_total {e : Env} {a : Accounts} (hs : a.debitSum = a.creditSum) (f : Int) :
    ∃ r, settleFees e a f = .ok r := by
  unfold settleFees
  split
  · next h =>
    obtain ⟨a', ha⟩ := transfer_total (e := e) (d := .exchangeFee) (c := .wallet) hs h (by simp)
    exact ⟨(0, a'), by simp [ha, bind, Except.bind]⟩
  · exact ⟨_, rfl⟩

theorem Moves.balanced {a b : Accounts} {δ} (h : Moves a b δ) (hs : a.debitSum = a.creditSum) :
    b.debitSum = b.creditSum := by
  have := h.sums; omega

/-- Reducing the mirrored position at the same price: same result with the profit negated. -/
theorem Inner.decrease_mirror {e : Env} {imr : Int} {a : Accounts} {p : Inner}
    {qty price dir dir' fees : Int} {r : Inner × Accounts}
    (hd : (dir = 1 ∧ dir' ≠ 1) ∨ (dir ≠ 1 ∧ dir' = 1))
    (hs : a.debitSum = a.creditSum) (h : p.decrease e imr a qty price dir fees = .ok r) :
    ∃ r', p.decrease e imr a qty price dir' fees = .ok r' ∧ r'.1 = r.1 ∧
      Moves a r'.2 (reduceDelta (-Spec.pnl e p.entry price (if dir = 1 then qty else -qty))
        (share e (value e qty p.entry) imr) (if 0 < p.fees + fees then p.fees + fees else 0)) := by
  have hq : (if dir' = 1 then qty else -qty) = -(if dir = 1 then qty else -qty) := by
    rcases hd with ⟨h1, h2⟩ | ⟨h1, h2⟩ <;> simp [h1, h2]
  have h0 := (Inner.decrease_ok h).2.2.2.1
  have key : ∃ r', p.decrease e imr a qty price dir' fees = .ok r' := by
    simp only [Inner.decrease, bind_ok, assertP_ok, debugP_ok, ok_inj] at h ⊢
    obtain ⟨_, h1, _, h2, _, h3, v, hv, a1, ha1, w, hw, _, h4, a2, ha2, rr, hr, _⟩ := h
    obtain ⟨b1, hb1⟩ := settlePnl_total (e := e) hs (-v)
    have hs1 := (settlePnl_ok hb1).balanced hs
    obtain ⟨b2, hb2⟩ := transfer_total (e := e) (d := .wallet) (c := .positionMargin) hs1
      (transfer_pos ha2) (by simp)
    have hs2 := (transfer_moves (by simp) (by simp) hb2).balanced hs1
    obtain ⟨r', hr'⟩ := settleFees_total (e := e) hs2 (p.fees + fees)
    exact ⟨_, (), h1, (), h2, (), h3, -v, by rw [hq]; exact pnl_neg_ok hv, b1, hb1, w, hw, (), h4, b2,
      hb2, r', hr', rfl⟩
  obtain ⟨r', hr'⟩ := key
  have hk := Inner.decrease_ok hr'
  refine ⟨r', hr', by rw [hk.2.2.2.1, h0], ?_⟩
  have := hk.2.2.2.2
  rwa [hq, pnl_neg] at this

/-- Opening a position depends on the accounts only through their being balanced. -/
theorem Inner.new_other {e : Env} {imr : Int} {a b : Accounts} {qty price fees : Int}
    {r : Inner × Accounts} (hs : b.debitSum = b.creditSum)
    (h : Inner.new e imr a qty price fees = .ok r) :
    ∃ r', Inner.new e imr b qty price fees = .ok r' ∧ r'.1 = r.1 ∧
      Moves b r'.2 (mv .positionMargin .wallet (share e (value e qty price) imr)) := by
  have h0 := (Inner.new_ok h).2.2.2.1
  have key : ∃ r', Inner.new e imr b qty price fees = .ok r' := by
    simp only [Inner.new, bind_ok, assertP_ok, ok_inj] at h ⊢
    obtain ⟨_, h1, _, h2, v, hv, a', ha, _⟩ := h
    obtain ⟨b', hb⟩ := transfer_total (e := e) (d := .positionMargin) (c := .wallet) hs
      (transfer_pos ha) (by simp)
    exact ⟨_, (), h1, (), h2, v, hv, b', hb, rfl⟩
  obtain ⟨r', hr'⟩ := key
  have hk := Inner.new_ok hr'
  exact ⟨r', hr', by rw [hk.2.2.2.1, h0], hk.2.2.2.2⟩

/-- Two accounts that agree except that the realised profit has the opposite sign, seen from a
common start. -/
structure Mirrored (a b b' : Accounts) : Prop where
  order : b'.balance .orderMargin = b.balance .orderMargin
  margin : b'.balance .positionMargin = b.balance .positionMargin
  fee : b'.balance .exchangeFee = b.balance .exchangeFee
  broker : b'.balance .broker = b.balance .broker
  profit : b'.balance .treasury - a.balance .treasury =
    -(b.balance .treasury - a.balance .treasury)
  total : b'.balance .wallet + b'.balance .treasury = b.balance .wallet + b.balance .treasury

theorem changePosition_mirror {e : Env} {imr : Int} {a a' : Accounts} {pos pos' : Position}
    {q price fees : Int} {side : Side} (hs : a.debitSum = a.creditSum)
    (h : changePosition e imr a pos q price side fees = .ok (pos', a')) :
    ∃ b, changePosition e imr a (mirror pos) q price (opposite side) fees = .ok (mirror pos', b) ∧
      Mirrored a a' b := by
  have hm : ∀ {x y : Accounts} {f g k}, Moves a x (reduceDelta f g k) →
      Moves a y (reduceDelta (-f) g k) → Mirrored a x y := by
    intro x y f g k h1 h2
    constructor <;> simp only [h1.bal, h2.bal, reduceDelta] <;> omega
  have hm2 : ∀ {x y u v : Accounts} {f g k m}, Moves a x (reduceDelta f g k) →
      Moves a y (reduceDelta (-f) g k) → Moves x u (mv .positionMargin .wallet m) →
      Moves y v (mv .positionMargin .wallet m) → Mirrored a u v := by
    intro x y u v f g k m h1 h2 h3 h4
    constructor <;> simp only [h1.bal, h2.bal, h3.bal, h4.bal, reduceDelta, mv] <;> simp <;> omega
  have hm0 : ∀ {x y : Accounts} {m}, Moves a x (mv .positionMargin .wallet m) →
      Moves a y (mv .positionMargin .wallet m) → Mirrored a x y := by
    intro x y m h1 h2
    constructor <;> simp only [h1.bal, h2.bal, mv] <;> simp
  simp only [changePosition, bind_ok, debugP_ok] at h ⊢
  obtain ⟨_, hq0, h⟩ := h
  cases pos with
  | neutral =>
    simp only [bind_ok, debugP_ok, mirror] at h ⊢
    obtain ⟨_, hz, h⟩ := h
    cases side
    all_goals
      simp only [bind_ok, ok_inj, Prod.mk.injEq, opposite] at h ⊢
      obtain ⟨r, hr, rfl, rfl⟩ := h
      have k := (Inner.new_ok hr).2.2.2.2
      exact ⟨r.2, ⟨(), hq0, (), hz, r, hr, rfl, rfl⟩, hm0 k k⟩
  | long p =>
    cases side
    · simp only [bind_ok, ok_inj, Prod.mk.injEq, mirror, opposite] at h ⊢
      obtain ⟨r, hr, rfl, rfl⟩ := h
      have k := (Inner.increase_ok hr).2.2.2.2
      exact ⟨r.2, ⟨(), hq0, r, hr, rfl, rfl⟩, hm0 k k⟩
    · simp only [mirror, opposite] at h ⊢
      split at h
      · next hlt =>
        simp only [bind_ok, ok_inj, Prod.mk.injEq, if_pos hlt] at h ⊢
        obtain ⟨r, hr, rfl, rfl⟩ := h
        obtain ⟨r', hr', e1, m1⟩ := Inner.decrease_mirror (dir' := -1) (.inl ⟨rfl, by decide⟩) hs hr
        exact ⟨r'.2, ⟨(), hq0, r', hr', by rw [e1], rfl⟩, hm (Inner.decrease_ok hr).2.2.2.2 m1⟩
      · next hlt =>
        split at h
        · next heq =>
          simp only [bind_ok, ok_inj, Prod.mk.injEq, debugP_ok, if_neg hlt, if_pos heq] at h ⊢
          obtain ⟨r, hr, _, hz, rfl, rfl⟩ := h
          obtain ⟨r', hr', e1, m1⟩ :=
            Inner.decrease_mirror (dir' := -1) (.inl ⟨rfl, by decide⟩) hs hr
          have hM := hm (Inner.decrease_ok hr).2.2.2.2 m1
          exact ⟨r'.2, ⟨(), hq0, r', hr', (), by rw [hM.margin]; exact hz, rfl, rfl⟩, hM⟩
        · next heq =>
          simp only [bind_ok, ok_inj, Prod.mk.injEq, assertP_ok, if_neg hlt, if_neg heq] at h ⊢
          obtain ⟨r, hr, _, hz1, _, hz, r2, hr2, rfl, rfl⟩ := h
          obtain ⟨r', hr', e1, m1⟩ :=
            Inner.decrease_mirror (dir' := -1) (.inl ⟨rfl, by decide⟩) hs hr
          have hM := hm (Inner.decrease_ok hr).2.2.2.2 m1
          obtain ⟨r3, hr3, e3, m3⟩ := Inner.new_other (m1.balanced hs) hr2
          exact ⟨r3.2, ⟨(), hq0, r', hr', (), by rw [e1]; exact hz1, (), by rw [hM.margin]; exact hz, r3, hr3,
            by rw [e3], rfl⟩,
            hm2 (Inner.decrease_ok hr).2.2.2.2 m1 (Inner.new_ok hr2).2.2.2.2 m3⟩
  | short p =>
    cases side
    · simp only [mirror, opposite] at h ⊢
      split at h
      · next hlt =>
        simp only [bind_ok, ok_inj, Prod.mk.injEq, if_pos hlt] at h ⊢
        obtain ⟨r, hr, rfl, rfl⟩ := h
        obtain ⟨r', hr', e1, m1⟩ := Inner.decrease_mirror (dir' := 1) (.inr ⟨by decide, rfl⟩) hs hr
        exact ⟨r'.2, ⟨(), hq0, r', hr', by rw [e1], rfl⟩, hm (Inner.decrease_ok hr).2.2.2.2 m1⟩
      · next hlt =>
        split at h
        · next heq =>
          simp only [bind_ok, ok_inj, Prod.mk.injEq, debugP_ok, if_neg hlt, if_pos heq] at h ⊢
          obtain ⟨r, hr, _, hz, rfl, rfl⟩ := h
          obtain ⟨r', hr', e1, m1⟩ :=
            Inner.decrease_mirror (dir' := 1) (.inr ⟨by decide, rfl⟩) hs hr
          have hM := hm (Inner.decrease_ok hr).2.2.2.2 m1
          exact ⟨r'.2, ⟨(), hq0, r', hr', (), by rw [hM.margin]; exact hz, rfl, rfl⟩, hM⟩
        · next heq =>
          simp only [bind_ok, ok_inj, Prod.mk.injEq, assertP_ok, if_neg hlt, if_neg heq] at h ⊢
          obtain ⟨r, hr, _, hz1, _, hz, r2, hr2, rfl, rfl⟩ := h
          obtain ⟨r', hr', e1, m1⟩ :=
            Inner.decrease_mirror (dir' := 1) (.inr ⟨by decide, rfl⟩) hs hr
          have hM := hm (Inner.decrease_ok hr).2.2.2.2 m1
          obtain ⟨r3, hr3, e3, m3⟩ := Inner.new_other (m1.balanced hs) hr2
          exact ⟨r3.2, ⟨(), hq0, r', hr', (), by rw [e1]; exact hz1, (), by rw [hM.margin]; exact hz, r3, hr3,
            by rw [e3], rfl⟩,
            hm2 (Inner.decrease_ok hr).2.2.2.2 m1 (Inner.new_ok hr2).2.2.2.2 m3⟩
    · simp only [bind_ok, ok_inj, Prod.mk.injEq, mirror, opposite] at h ⊢
      obtain ⟨r, hr, rfl, rfl⟩ := h
      have k := (Inner.increase_ok hr).2.2.2.2
      exact ⟨r.2, ⟨(), hq0, r, hr, rfl, rfl⟩, hm0 k k⟩

theorem checkMarket_mirror (c : Cfg) (pos : Position) (pm : Int) (side : Side) (q price w : Int) :
    checkMarketOrder c (mirror pos) pm (opposite side) q price w =
      checkMarketOrder c pos pm side q price w := by
  cases pos <;> cases side <;> rfl

/-- The arithmetic mean is at least the harmonic mean, with the costs rounded up. -/
theorem amhm {S a b e p q w : Int} (he : 0 < e) (hp : 0 < p) (hq : 0 < q) (hw : 0 < w) (hS : 0 < S)
    (ha : q * S < a * e) (hb : w * S < b * p) :
    S * (q + w) * (q + w) < (a + b) * (e * q + p * w) := by
  have h1 := Int.mul_lt_mul_of_pos_right ha hq
  have h2 := Int.mul_lt_mul_of_pos_right hb hw
  have h3 : 2 * (S * q * w) ≤ a * p * w + b * e * q := by
    have hep := Int.mul_pos he hp
    refine Int.le_of_mul_le_mul_right ?_ hep
    have g1 := Int.mul_le_mul_of_nonneg_right (Int.le_of_lt ha)
      (Int.mul_nonneg (Int.mul_nonneg (Int.le_of_lt hp) (Int.le_of_lt hp)) (Int.le_of_lt hw))
    have g2 := Int.mul_le_mul_of_nonneg_right (Int.le_of_lt hb)
      (Int.mul_nonneg (Int.mul_nonneg (Int.le_of_lt he) (Int.le_of_lt he)) (Int.le_of_lt hq))
    have g3 : 0 ≤ (p - e) * (p - e) * (S * q * w) := by
      apply Int.mul_nonneg
      · rcases Int.le_total p e with h | h
        · exact Int.mul_nonneg_of_nonpos_of_nonpos (by omega) (by omega)
        · exact Int.mul_nonneg (by omega) (by omega)
      · exact Int.mul_nonneg (Int.mul_nonneg (by omega) (by omega)) (by omega)
    grind
  grind

/-- Cost of the merged inverse position against the sum of the costs. -/
theorem cost_weighted_inverse {e : Env} {p0 w0 p1 w1 : Int} (he : e.kind = .inverse) (hp0 : 0 < p0)
    (hp1 : 0 < p1) (hw0 : 0 < w0) (hw1 : 0 < w1) (hp : 0 < weighted e p0 w0 p1 w1) :
    value e (w0 + w1) (weighted e p0 w0 p1 w1) * weighted e p0 w0 p1 w1 * (w0 + w1) <
      (value e w0 p0 + value e w1 p1 + 2) *
        ((weighted e p0 w0 p1 w1 + 1) * (w0 + w1) + 2 * e.scale) := by
  have hs := scale_pos e
  have hw := (weighted_bounds e (p0 := p0) (p1 := p1) (w0 := w0) (w1 := w1)
    (by omega) (by omega) (by omega) (by omega) (by omega)).2.2
  generalize weighted e p0 w0 p1 w1 = E at *
  simp only [value, he]
  obtain ⟨a1, a2, a3⟩ := tdiv_bounds (x := w0 * e.scale) (s := p0) (Int.mul_nonneg (by omega) (by omega)) hp0
  obtain ⟨b1, b2, b3⟩ := tdiv_bounds (x := w1 * e.scale) (s := p1) (Int.mul_nonneg (by omega) (by omega)) hp1
  obtain ⟨c1, c2, c3⟩ := tdiv_bounds (x := (w0 + w1) * e.scale) (s := E) (Int.mul_nonneg (by omega) (by omega)) hp
  generalize (w0 * e.scale).tdiv p0 = A at *
  generalize (w1 * e.scale).tdiv p1 = B at *
  generalize ((w0 + w1) * e.scale).tdiv E = F at *
  have h1 := amhm (S := e.scale) (a := A + 1) (b := B + 1) (e := p0) (p := p1) (q := w0) (w := w1)
    hp0 hp1 hw0 hw1 hs (by rw [Int.add_mul]; omega) (by rw [Int.add_mul]; omega)
  have h2 := Int.mul_le_mul_of_nonneg_right c1 (by omega : 0 ≤ w0 + w1)
  have h3 := Int.mul_le_mul_of_nonneg_left (Int.le_of_lt hw) (by omega : 0 ≤ A + B + 2)
  rw [Int.mul_comm (w0 + w1) e.scale] at h2
  have e1 : A + 1 + (B + 1) = A + B + 2 := by omega
  have e2 : (E + 1) * (w0 + w1) + 2 * e.scale = E * (w0 + w1) + (w0 + w1) + 2 * e.scale := by
    rw [Int.add_mul]; omega
  rw [e1] at h1
  rw [e2]
  exact Int.lt_of_le_of_lt h2 (Int.lt_of_lt_of_le h1 h3)

/-- Where the total cost of an inverse position exists, it is the value of its quantity. -/
theorem totalCost_inverse {e : Env} {pos : Position} {v : Int} (he : e.kind = .inverse)
    (hw : PosWF pos) (h : pos.totalCost e = .ok v) :
    v = value e (Spec.abs pos.quantity) pos.entryPrice ∧
      (pos.quantity ≠ 0 → pos.entryPrice ≠ 0) := by
  have hc : ∀ {q p v : Int}, convert e q p = .ok v → p ≠ 0 := by
    intro q p v h hp
    subst hp
    simp [convert, he, ddiv] at h
  cases pos with
  | neutral =>
    simp only [Position.totalCost, ok_inj] at h
    simp [Position.quantity, Spec.abs, value_zero, ← h]
  | long p =>
    have hq : 0 < p.qty := hw
    simp only [Position.totalCost, Inner.totalCost] at h
    simp only [Position.quantity, Position.entryPrice, abs_of_pos hq]
    exact ⟨convert_ok h, fun _ => hc h⟩
  | short p =>
    have hq : 0 < p.qty := hw
    simp only [Position.totalCost, Inner.totalCost] at h
    simp only [Position.quantity, Position.entryPrice, abs_neg_of_pos hq]
    exact ⟨convert_ok h, fun _ => hc h⟩

end Lfest
