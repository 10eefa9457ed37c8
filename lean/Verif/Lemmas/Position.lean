import Verif.Lemmas.Accounting
import Verif.Spec

/-! What `changePosition` does to position and accounts, and that it follows the ledger. -/

namespace Lfest

open Spec (value share weighted)

theorem convert_ok {e : Env} {q p v : Int} (h : convert e q p = .ok v) :
    v = value e q p := by
  unfold convert at h; unfold value
  split at h
  · simp_all [dmul]
  · rw [ddiv_ok] at h; simp_all

theorem convert_linear {e : Env} (he : e.kind = .linear) (q p : Int) :
    convert e q p = .ok (value e q p) := by
  simp [convert, value, he, dmul]

theorem convert_inverse {e : Env} (he : e.kind = .inverse) {q p : Int} (hp : p ≠ 0) :
    convert e q p = .ok (value e q p) := by
  simp [convert, value, he, ddiv, hp]

theorem convert_pos {e : Env} {q p : Int} (hp : p ≠ 0) :
    convert e q p = .ok (value e q p) := by
  cases he : e.kind with
  | linear => exact convert_linear he q p
  | inverse => exact convert_inverse he hp

theorem value_zero (e : Env) (p : Int) : value e 0 p = 0 := by
  unfold value; split <;> simp

theorem pnl_ok {e : Env} {a b q v : Int} (h : pnl e a b q = .ok v) :
    v = Spec.pnl e a b q := by
  unfold pnl at h
  split at h
  · subst_vars; simp at h; subst h
    unfold Spec.pnl; split <;> simp [value_zero]
  · split at h
    · next he =>
      simp only [bind_ok, ok_inj] at h
      obtain ⟨x, hx, y, hy, rfl⟩ := h
      rw [convert_ok hx, convert_ok hy]; simp [Spec.pnl, he]
    · next he =>
      simp only [bind_ok, ok_inj] at h
      obtain ⟨x, hx, y, hy, rfl⟩ := h
      rw [convert_ok hx, convert_ok hy]; simp [Spec.pnl, he]

theorem newWeightedPrice_ok {e : Env} {p0 w0 p1 w1 r : Int}
    (h : newWeightedPrice e.scale p0 w0 p1 w1 = .ok r) : r = weighted e p0 w0 p1 w1 := by
  unfold newWeightedPrice at h; rw [ddiv_ok] at h
  simp_all [weighted, dmul]

/-- The accounts changed by `δ`, with balanced entries and the broker account untouched. -/
structure Moves (a a' : Accounts) (δ : AccountId → Int) : Prop where
  bal : ∀ i, a'.balance i = a.balance i + δ i
  sums : a'.debitSum - a'.creditSum = a.debitSum - a.creditSum
  broker : a'.broker = a.broker

/-- Movement of `x` from account `c` to account `d`. -/
def mv (d c : AccountId) (x : Int) (i : AccountId) : Int :=
  (if i = d then x else 0) - (if i = c then x else 0)

theorem Moves.refl (a : Accounts) : Moves a a (fun _ => 0) := ⟨by simp, rfl, rfl⟩

theorem Moves.trans {a b c : Accounts} {δ ε : AccountId → Int} (h : Moves a b δ)
    (k : Moves b c ε) : Moves a c (fun i => δ i + ε i) :=
  ⟨fun i => by rw [k.bal, h.bal]; omega, by rw [k.sums, h.sums], by rw [k.broker, h.broker]⟩

theorem Moves.congr {a b : Accounts} {δ ε : AccountId → Int} (h : Moves a b δ)
    (hi : ∀ i, δ i = ε i) : Moves a b ε := by
  have : δ = ε := funext hi
  exact this ▸ h

theorem transfer_moves {e : Env} {a a' : Accounts} {d c : AccountId} {x : Int}
    (hd : d ≠ .broker) (hc : c ≠ .broker) (h : transfer e a d c x = .ok a') :
    Moves a a' (mv d c x) :=
  ⟨fun i => by rw [transfer_balance h i, mv]; omega,
   by have := transfer_sums h; omega,
   transfer_get_other h (i := .broker) hd.symm hc.symm⟩

theorem settlePnl_ok {e : Env} {a a' : Accounts} {v : Int}
    (h : settlePnl e a v = .ok a') : Moves a a' (mv .wallet .treasury v) := by
  unfold settlePnl at h
  split at h
  · exact transfer_moves (by simp) (by simp) h
  · split at h
    · refine (transfer_moves (by simp) (by simp) h).congr (fun i => ?_)
      cases i <;> simp [mv]
    · simp at h; subst h
      have : v = 0 := by omega
      refine (Moves.refl a).congr (fun i => ?_)
      cases i <;> simp [mv, this]

theorem settleFees_ok {e : Env} {a : Accounts} {f : Int} {r : Int × Accounts}
    (h : settleFees e a f = .ok r) :
    r.1 = (if 0 < f then 0 else f) ∧
      Moves a r.2 (mv .exchangeFee .wallet (if 0 < f then f else 0)) := by
  unfold settleFees at h
  split at h
  · next hf =>
    simp only [bind_ok, ok_inj] at h
    obtain ⟨a', ha, rfl⟩ := h
    simp only [hf, if_true, true_and]
    exact transfer_moves (by simp) (by simp) ha
  · next hf =>
    simp only [ok_inj] at h; subst h
    refine ⟨by simp; omega, (Moves.refl a).congr (fun i => ?_)⟩
    cases i <;> simp [mv] <;> omega

theorem Inner.new_ok {e : Env} {imr : Int} {a : Accounts} {qty price fees : Int}
    {r : Inner × Accounts} (h : Inner.new e imr a qty price fees = .ok r) :
    0 < qty ∧ 0 < price ∧ 0 < share e (value e qty price) imr ∧ r.1 = ⟨qty, price, fees⟩ ∧
      Moves a r.2 (mv .positionMargin .wallet (share e (value e qty price) imr)) := by
  simp only [Inner.new, bind_ok, assertP_ok, ok_inj] at h
  obtain ⟨_, h1, _, h2, v, hv, a', ha, rfl⟩ := h
  have := convert_ok hv; subst this
  exact ⟨h1, h2, transfer_pos ha, rfl, transfer_moves (by simp) (by simp) ha⟩

theorem Inner.increase_ok {e : Env} {imr : Int} {a : Accounts} {p : Inner}
    {qty price fees : Int} {r : Inner × Accounts}
    (h : p.increase e imr a qty price fees = .ok r) :
    0 < qty ∧ 0 < price ∧ 0 < share e (value e qty price) imr ∧
      r.1 = ⟨p.qty + qty, weighted e p.entry p.qty price qty, p.fees + fees⟩ ∧
      Moves a r.2 (mv .positionMargin .wallet (share e (value e qty price) imr)) := by
  simp only [Inner.increase, bind_ok, assertP_ok, ok_inj] at h
  obtain ⟨_, h1, _, h2, v, hv, w, hw, a', ha, rfl⟩ := h
  have := convert_ok hv; subst this
  have := newWeightedPrice_ok hw; subst this
  exact ⟨h1, h2, transfer_pos ha, rfl, transfer_moves (by simp) (by simp) ha⟩

/-- Balance changes of a reduction. -/
def reduceDelta (profit free paid : Int) (i : AccountId) : Int :=
  match i with
  | .wallet => profit + free - paid
  | .positionMargin => -free
  | .treasury => -profit
  | .exchangeFee => paid
  | .orderMargin => 0
  | .broker => 0

theorem Inner.decrease_ok {e : Env} {imr : Int} {a : Accounts} {p : Inner}
    {qty price dir fees : Int} {r : Inner × Accounts}
    (h : p.decrease e imr a qty price dir fees = .ok r) :
    0 < qty ∧ qty ≤ p.qty ∧ 0 < share e (value e qty p.entry) imr ∧
      r.1 = ⟨p.qty - qty, p.entry, if 0 < p.fees + fees then 0 else p.fees + fees⟩ ∧
      Moves a r.2 (reduceDelta (Spec.pnl e p.entry price (if dir = 1 then qty else -qty))
        (share e (value e qty p.entry) imr) (if 0 < p.fees + fees then p.fees + fees else 0)) := by
  simp only [Inner.decrease, bind_ok, assertP_ok, debugP_ok, ok_inj] at h
  obtain ⟨_, h1, _, h2, _, _, v, hv, a1, ha1, w, hw, _, _, a2, ha2, rr, hr, rfl⟩ := h
  have := convert_ok hw; subst this
  have := pnl_ok hv; subst this
  obtain ⟨hr1, hr2⟩ := settleFees_ok hr
  refine ⟨h1, h2, transfer_pos ha2, by rw [← hr1], ?_⟩
  refine (((settlePnl_ok ha1).trans (transfer_moves (by simp) (by simp) ha2)).trans hr2).congr
    (fun i => ?_)
  cases i <;> simp [mv, reduceDelta, dmul, share] <;> omega

/-- Long and short positions have positive quantity. -/
def PosWF : Position → Prop
  | .neutral => True
  | .long p => 0 < p.qty
  | .short p => 0 < p.qty

/-- The ledger view of a position with given fee and treasury balances. -/
def ledgerOf (pos : Position) (paid realised : Int) : Spec.Ledger :=
  ⟨pos.quantity, pos.entryPrice, pos.outstandingFees, paid, realised⟩

theorem changePosition_ledger {c : Cfg} {a a' : Accounts} {pos pos' : Position}
    {f : Spec.Fill} {k : Int} (hp : PosWF pos)
    (h : changePosition c.env c.spec.initMarginReq a pos f.qty f.price f.side (f.fee c)
      = .ok (pos', a')) :
    0 < f.qty ∧ PosWF pos' ∧
    ledgerOf pos' (a'.balance .exchangeFee) (k - a'.balance .treasury) =
      (ledgerOf pos (a.balance .exchangeFee) (k - a.balance .treasury)).fill c f ∧
    a'.balance .orderMargin = a.balance .orderMargin ∧
    a'.debitSum - a'.creditSum = a.debitSum - a.creditSum ∧ a'.broker = a.broker := by
  obtain ⟨maker, side, price, qty⟩ := f
  simp only [changePosition, bind_ok, debugP_ok] at h
  generalize hfee : Spec.Fill.fee c ⟨maker, side, price, qty⟩ = fee at h
  obtain ⟨_, _, h⟩ := h
  cases pos with
  | neutral =>
    simp only [bind_ok, debugP_ok] at h
    obtain ⟨_, _, h⟩ := h
    cases side
    all_goals
      simp only [bind_ok, ok_inj, Prod.mk.injEq] at h
      obtain ⟨r, hr, rfl, rfl⟩ := h
      obtain ⟨h1, h2, _, h3, h4⟩ := Inner.new_ok hr
      refine ⟨h1, by simp [PosWF, h3, h1], ?_, by simpa [mv] using h4.bal .orderMargin,
        h4.sums, h4.broker⟩
      have := h4.bal .exchangeFee
      have := h4.bal .treasury
      simp_all [ledgerOf, Spec.Ledger.fill, Position.quantity, Position.entryPrice,
        Position.outstandingFees, mv, Spec.Fill.signed]
  | long p =>
    have hp : 0 < p.qty := hp
    cases side
    · simp only [bind_ok, ok_inj, Prod.mk.injEq] at h
      obtain ⟨r, hr, rfl, rfl⟩ := h
      obtain ⟨h1, h2, _, h3, h4⟩ := Inner.increase_ok hr
      refine ⟨h1, by simp [PosWF, h3]; omega, ?_, by simpa [mv] using h4.bal .orderMargin,
        h4.sums, h4.broker⟩
      have := h4.bal .exchangeFee
      have := h4.bal .treasury
      have hne : p.qty ≠ 0 := by omega
      have habs : Spec.abs p.qty = p.qty := by simp [Spec.abs]; omega
      simp_all [ledgerOf, Spec.Ledger.fill, Position.quantity, Position.entryPrice,
        Position.outstandingFees, mv, Spec.Fill.signed]
    · have hne : p.qty ≠ 0 := by omega
      have hge : 0 ≤ p.qty := by omega
      have hlt : ¬ p.qty < 0 := by omega
      have habs : Spec.abs p.qty = p.qty := by simp [Spec.abs]; omega
      simp only at h
      split at h
      · next hq =>
        simp only [bind_ok, ok_inj, Prod.mk.injEq] at h
        obtain ⟨r, hr, rfl, rfl⟩ := h
        obtain ⟨h1, h2, _, h3, h4⟩ := Inner.decrease_ok hr
        refine ⟨h1, by simp [PosWF, h3]; omega, ?_, by simpa [reduceDelta] using h4.bal .orderMargin,
          h4.sums, h4.broker⟩
        have e1 := h4.bal .exchangeFee
        have e2 := h4.bal .treasury
        simp [reduceDelta] at e1 e2
        simp [ledgerOf, Spec.Ledger.fill, Position.quantity, Position.entryPrice,
          Position.outstandingFees, Spec.Fill.signed, hne, hp, habs, hlt, e1, e2, h3, hq, hfee, h2]
        refine ⟨by omega, ?_, by omega⟩
        split <;> split <;> omega
      · split at h
        · next hq hq' =>
          simp only [bind_ok, ok_inj, Prod.mk.injEq] at h
          obtain ⟨r, hr, _, _, rfl, rfl⟩ := h
          obtain ⟨h1, h2, _, h3, h4⟩ := Inner.decrease_ok hr
          refine ⟨h1, trivial, ?_, by simpa [reduceDelta] using h4.bal .orderMargin,
            h4.sums, h4.broker⟩
          have e1 := h4.bal .exchangeFee
          have e2 := h4.bal .treasury
          simp [reduceDelta] at e1 e2
          subst hq'
          simp [ledgerOf, Spec.Ledger.fill, Position.quantity, Position.entryPrice,
            Position.outstandingFees, Spec.Fill.signed, hne, hp, habs, hlt, e1, e2, hfee]
          omega
        · next hq hq' =>
          simp only [bind_ok, ok_inj, Prod.mk.injEq, assertP_ok] at h
          obtain ⟨r, hr, _, _, _, _, r', hr', rfl, rfl⟩ := h
          obtain ⟨h1, h2, _, h3, h4⟩ := Inner.decrease_ok hr
          obtain ⟨g1, g2, _, g3, g4⟩ := Inner.new_ok hr'
          have h5 := h4.trans g4
          refine ⟨by simp; omega, by simp [PosWF, g3]; omega, ?_,
            by simpa [reduceDelta, mv] using h5.bal .orderMargin, h5.sums, h5.broker⟩
          have e1 := h5.bal .exchangeFee
          have e2 := h5.bal .treasury
          simp [reduceDelta, mv] at e1 e2
          have hle : ¬ qty ≤ p.qty := by omega
          simp [ledgerOf, Spec.Ledger.fill, Position.quantity, Position.entryPrice,
            Position.outstandingFees, Spec.Fill.signed, hne, hp, habs, hlt, e1, e2, g3, hq, hq',
            hle, hfee]
          omega
  | short p =>
    have hp : 0 < p.qty := hp
    have hne : p.qty ≠ 0 := by omega
    have hneg : -p.qty ≠ 0 := by omega
    have hge : ¬ p.qty < 0 := by omega
    have habs : Spec.abs (-p.qty) = p.qty := by simp [Spec.abs]; omega
    cases side
    · simp only at h
      split at h
      · next hq =>
        simp only [bind_ok, ok_inj, Prod.mk.injEq] at h
        obtain ⟨r, hr, rfl, rfl⟩ := h
        obtain ⟨h1, h2, _, h3, h4⟩ := Inner.decrease_ok hr
        refine ⟨h1, by simp [PosWF, h3]; omega, ?_, by simpa [reduceDelta] using h4.bal .orderMargin,
          h4.sums, h4.broker⟩
        have e1 := h4.bal .exchangeFee
        have e2 := h4.bal .treasury
        simp [reduceDelta] at e1 e2
        simp [ledgerOf, Spec.Ledger.fill, Position.quantity, Position.entryPrice,
          Position.outstandingFees, Spec.Fill.signed, hne, hp, habs, e1, e2, h3, hq, hfee, h2, hge]
        refine ⟨by omega, ?_, by omega⟩
        split <;> split <;> omega
      · split at h
        · next hq hq' =>
          simp only [bind_ok, ok_inj, Prod.mk.injEq] at h
          obtain ⟨r, hr, _, _, rfl, rfl⟩ := h
          obtain ⟨h1, h2, _, h3, h4⟩ := Inner.decrease_ok hr
          refine ⟨h1, trivial, ?_, by simpa [reduceDelta] using h4.bal .orderMargin,
            h4.sums, h4.broker⟩
          have e1 := h4.bal .exchangeFee
          have e2 := h4.bal .treasury
          simp [reduceDelta] at e1 e2
          subst hq'
          simp [ledgerOf, Spec.Ledger.fill, Position.quantity, Position.entryPrice,
            Position.outstandingFees, Spec.Fill.signed, hne, hp, habs, hge, e1, e2, hfee]
          omega
        · next hq hq' =>
          simp only [bind_ok, ok_inj, Prod.mk.injEq, assertP_ok] at h
          obtain ⟨r, hr, _, _, _, _, r', hr', rfl, rfl⟩ := h
          obtain ⟨h1, h2, _, h3, h4⟩ := Inner.decrease_ok hr
          obtain ⟨g1, g2, _, g3, g4⟩ := Inner.new_ok hr'
          have h5 := h4.trans g4
          refine ⟨by simp; omega, by simp [PosWF, g3]; omega, ?_,
            by simpa [reduceDelta, mv] using h5.bal .orderMargin, h5.sums, h5.broker⟩
          have e1 := h5.bal .exchangeFee
          have e2 := h5.bal .treasury
          simp [reduceDelta, mv] at e1 e2
          have hle : ¬ qty ≤ p.qty := by omega
          simp [ledgerOf, Spec.Ledger.fill, Position.quantity, Position.entryPrice,
            Position.outstandingFees, Spec.Fill.signed, hne, hp, habs, hge, e1, e2, g3, hq, hq',
            hle, hfee]
          omega
    · simp only [bind_ok, ok_inj, Prod.mk.injEq] at h
      obtain ⟨r, hr, rfl, rfl⟩ := h
      obtain ⟨h1, h2, _, h3, h4⟩ := Inner.increase_ok hr
      refine ⟨h1, by simp [PosWF, h3]; omega, ?_, by simpa [mv] using h4.bal .orderMargin,
        h4.sums, h4.broker⟩
      have e1 := h4.bal .exchangeFee
      have e2 := h4.bal .treasury
      simp [mv] at e1 e2
      simp [ledgerOf, Spec.Ledger.fill, Position.quantity, Position.entryPrice,
        Position.outstandingFees, Spec.Fill.signed, hne, hp, habs, e1, e2, h3, hfee]
      omega

end Lfest
