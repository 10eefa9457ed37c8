import Verif.SpecSlip
import Verif.Props.Moves
import Verif.Props.Alone

/-!
# C153: slippage costs what it says
-/

namespace Lfest

open Spec Slip

theorem slip_sums (p : Int) : ∀ fs gs : List Fill, sameTrades fs gs →
    netBought fs = netBought gs ∧
    (fs.map (fun f => f.signed * (p - f.price))).sum =
      (gs.map (fun f => f.signed * (p - f.price))).sum + slippage fs gs
  | [], [], _ => ⟨rfl, rfl⟩
  | f :: fs, g :: gs, h => by
    obtain ⟨h1, h2, h3⟩ := h
    obtain ⟨i1, i2⟩ := slip_sums p fs gs h3
    have e : f.signed = g.signed := by simp only [Fill.signed, h1, h2]
    refine ⟨by simp only [netBought, i1, e], ?_⟩
    have k : f.signed * (p - f.price) = g.signed * (p - g.price) + f.qty * worse f g := by
      simp only [worse, Fill.signed, ← h1, ← h2]
      cases f.side <;> simp only <;> grind
    simp only [List.map_cons, List.sum_cons, i2, slippage, k]
    omega
  | [], _ :: _, h => h.elim
  | _ :: _, [], h => h.elim

theorem drift_bound {c : Cfg} {s : State} (hk : c.env.kind = .linear) (hr : Reachable c s) :
    drift c (fills s.log) ≤ profitRounding c (fills s.log) ∧
    -drift c (fills s.log) ≤ profitRounding c (fills s.log) := by
  have h := drift_append hk [] (fills s.log) (by simpa using hr.fill_price)
  have h0 : drift c [] = 0 := by simp [drift, ledger, spent, Ledger.empty]
  rw [List.append_nil, h0] at h
  simp only [profitRounding] at h
  omega

theorem gain_sum {c : Cfg} {s : State} (hr : Reachable c s) (p : Int) :
    gainAt c s p = drift c (fills s.log) + ((fills s.log).map (fun f => f.signed * (p - f.price))).sum := by
  rw [gain_drift hr p, pos_netBought hr, ← spent_at]
  omega

/-- C153, fills: two accounts in linear contracts that make the same trades at different prices have the
same position, and at any price to value it, one has gained more than the other by quantity times
difference of the prices, summed over the fills, up to rounding. -/
theorem C153_slippage (c c' : Cfg) (s s' : State) (hk : c.env.kind = .linear) (hk' : c'.env.kind = .linear)
    (hr : Reachable c s) (hr' : Reachable c' s') (h : sameTrades (fills s.log) (fills s'.log)) :
    s'.pos.quantity = s.pos.quantity ∧ ∀ p : Int,
      Spec.abs (gainAt c s p - gainAt c' s' p - slippage (fills s.log) (fills s'.log)) ≤
        profitRounding c (fills s.log) + profitRounding c' (fills s'.log) := by
  refine ⟨by rw [pos_netBought hr, pos_netBought hr', (slip_sums 0 _ _ h).1], fun p => ?_⟩
  have a := drift_bound hk hr
  have b := drift_bound hk' hr'
  rw [gain_sum hr, gain_sum hr', (slip_sums p _ _ h).2]
  unfold Spec.abs
  split <;> omega

theorem within_bound {e : Int} : ∀ fs gs : List Fill, sameTrades fs gs → within e fs gs →
    (∀ f ∈ fs, 0 < f.qty) → 0 ≤ slippage fs gs ∧ slippage fs gs ≤ e * boughtAndSold fs
  | [], [], _, _, _ => by simp [slippage, boughtAndSold]
  | f :: fs, g :: gs, h, w, hq => by
    obtain ⟨h1, h2, h3⟩ := h
    obtain ⟨w1, w2, w3⟩ := w
    obtain ⟨i1, i2⟩ := within_bound fs gs h3 w3 (fun x hx => hq x (by simp [hx]))
    have q := hq f (by simp)
    have k1 := Int.mul_nonneg (Int.le_of_lt q) w1
    have k2 := Int.mul_le_mul_of_nonneg_left w2 (Int.le_of_lt q)
    have k3 : Spec.abs f.qty = f.qty := by unfold Spec.abs; split <;> omega
    simp only [slippage, boughtAndSold, k3, Int.mul_add, Int.mul_comm e f.qty]
    omega
  | [], _ :: _, h, _, _ => h.elim
  | _ :: _, [], h, _, _ => h.elim

theorem sameTrades_cons {f g : Fill} {fs gs : List Fill} {e : Int} (h1 : f.side = g.side)
    (h2 : f.qty = g.qty) (h3 : 0 ≤ worse f g) (h4 : worse f g ≤ e)
    (h : sameTrades fs gs ∧ within e fs gs) :
    sameTrades (f :: fs) (g :: gs) ∧ within e (f :: fs) (g :: gs) :=
  ⟨⟨h1, h2, h.1⟩, h3, h4, h.2⟩

/-- Quotes of the second market enclose those of the first, by at most `e` on each side. -/
def Encloses (e : Int) (a b : MarketState) : Prop :=
  a.bid - e ≤ b.bid ∧ b.bid ≤ a.bid ∧ a.ask ≤ b.ask ∧ b.ask ≤ a.ask + e

theorem widened_fills {c c' : Cfg} {e : Int} : ∀ (ops ops' : List Op) (s t s' t' : State)
    (xs ys : List (Op × Resp)), Reachable c s → Reachable c' t → Encloses e s.ms t.ms →
    s.active = [] → t.active = [] →
    (sameTrades (fills s.log) (fills t.log) ∧ within e (fills s.log) (fills t.log)) →
    history c s ops = .ok (s', xs) → history c' t ops' = .ok (t', ys) → allWidened e xs ys →
    (sameTrades (fills s'.log) (fills t'.log) ∧ within e (fills s'.log) (fills t'.log)) ∧
      Reachable c s' ∧ Reachable c' t'
  | ops, ops', s, t, s', t', [], ys, hr, hr', he, ha, ha', hf, h, h', hw => by
    cases ys with
    | cons => exact hw.elim
    | nil =>
      cases ops with
      | cons => simp [history, bind_ok] at h
      | nil =>
        cases ops' with
        | cons => simp [history, bind_ok] at h'
        | nil =>
          simp only [history, ok_inj, Prod.mk.injEq] at h h'
          obtain ⟨rfl, _⟩ := h
          obtain ⟨rfl, _⟩ := h'
          exact ⟨hf, hr, hr'⟩
  | ops, ops', s, t, s', t', x :: xs, ys, hr, hr', he, ha, ha', hf, h, h', hw => by
    cases ys with
    | nil => exact hw.elim
    | cons y ys =>
    obtain ⟨hw, hws⟩ := hw
    cases ops with
    | nil => simp [history] at h
    | cons op ops =>
    cases ops' with
    | nil => simp [history] at h'
    | cons op' ops' =>
    simp only [history, bind_ok, ok_inj, Prod.mk.injEq, List.cons.injEq] at h h'
    obtain ⟨⟨s1, r⟩, hst, ⟨v, tr⟩, hh, rfl, rfl, rfl⟩ := h
    obtain ⟨⟨t1, r'⟩, hst', ⟨v', tr'⟩, hh', rfl, rfl, rfl⟩ := h'
    unfold widened at hw
    split at hw
    · next b _ b' _ e1 e2 =>
      simp only [Prod.mk.injEq] at e1 e2
      obtain ⟨rfl, rfl⟩ := e1
      obtain ⟨rfl, rfl⟩ := e2
      have q1 := (C43_update c s s1 _ _ hr hst).2.2
      have q2 := (C43_update c' t t1 _ _ hr' hst').2.2
      simp only [quotesAfter, Prod.mk.injEq] at q1 q2
      have f1 := C03_quiet_calls c s s1 _ _ hst trivial
      have f2 := C03_quiet_calls c' t t1 _ _ hst' trivial
      refine widened_fills ops ops' s1 t1 v v' tr tr' (hr.step hst) (hr'.step hst') ?_
        (taker_step hr ha (by trivial) hst).1 (taker_step hr' ha' (by trivial) hst').1 (by rw [f1, f2]; exact hf)
        hh hh' hws
      unfold Encloses
      rw [q1.1, q1.2, q2.1, q2.2]
      exact hw
    · next side q _ o side' q' _ o' e1 e2 =>
      simp only [Prod.mk.injEq] at e1 e2
      obtain ⟨rfl, rfl⟩ := e1
      obtain ⟨rfl, rfl⟩ := e2
      obtain ⟨rfl, rfl⟩ := hw
      have k := C21_market_order c s s1 hr _ _ _ _ hst
      have k' := C21_market_order c' t t1 hr' _ _ _ _ hst'
      refine widened_fills ops ops' s1 t1 v v' tr tr' (hr.step hst) (hr'.step hst') ?_
        (taker_step hr ha (by trivial) hst).1 (taker_step hr' ha' (by trivial) hst').1 ?_ hh hh' hws
      · rw [k.2.2.2.2.2.1, k'.2.2.2.2.2.1]
        exact he
      · rw [k.2.1, k'.2.1]
        unfold Encloses at he
        refine sameTrades_cons rfl rfl ?_ ?_ hf <;> simp only [worse] <;> cases side <;>
          simp only [touchPrice] <;> omega
    · exact hw.elim

/-- C153, wider quotes: the same market orders on quotes that are wider by at most `e` on each side, all
filled and without liquidation, gain before fees no more, and less by at most `e` times the quantity
traded, up to rounding. -/
theorem C153_wider_quotes (c c' : Cfg) (ops ops' : List Op) (s s' : State) (tr tr' : List (Op × Resp))
    (e : Int) (he : 0 ≤ e) (hk : c.env.kind = .linear) (hk' : c'.env.kind = .linear)
    (h : history c (State.init c) ops = .ok (s, tr)) (h' : history c' (State.init c') ops' = .ok (s', tr'))
    (hw : allWidened e tr tr') :
    s'.pos.quantity = s.pos.quantity ∧ ∀ p : Int,
      let rounding := profitRounding c (fills s.log) + profitRounding c' (fills s'.log)
      gainAt c' s' p ≤ gainAt c s p + rounding ∧
      gainAt c s p - e * boughtAndSold (fills s.log) ≤ gainAt c' s' p + rounding := by
  obtain ⟨⟨k1, k2⟩, hr, hr'⟩ := widened_fills ops ops' _ _ s s' tr tr' ⟨[], rfl⟩ ⟨[], rfl⟩
    (by unfold Encloses; simp only [State.init]; omega) rfl rfl ⟨trivial, trivial⟩ h h' hw
  obtain ⟨a1, a2⟩ := C153_slippage c c' s s' hk hk' hr hr' k1
  have b := within_bound _ _ k1 k2 (fun f hf => (hr.fill_price f hf).2)
  refine ⟨a1, fun p => ?_⟩
  have a := a2 p
  dsimp only
  unfold Spec.abs at a
  split at a <;> omega

namespace Ex

/-- Two units bought, one sold, one sold, on quotes that are wider by `e` on each side -/
def spread (e : Int) : List Op :=
  [.update (.bba ⟨d 100 - e, d 101 + e, 1⟩), .market .buy (d 2) 1,
    .update (.bba ⟨d 104 - e, d 105 + e, 2⟩), .market .sell (d 1) 2,
    .update (.bba ⟨d 103 - e, d 104 + e, 3⟩), .market .sell (d 1) 3]

end Ex

/-- The hypotheses of C153 are met: with quotes wider by a half, an account that trades four units gains 3
instead of 5. -/
example : Ex.beside Ex.linR (Ex.spread 0) (Ex.spread (Ex.d 1 / 2)) (fun s tr s' tr' =>
    decide (gainAt Ex.linR s 0 = Ex.d 5 * Ex.linR.scale ∧
      gainAt Ex.linR s' 0 = Ex.d 3 * Ex.linR.scale ∧
      slippage (fills s.log) (fills s'.log) = Ex.d 2 * Ex.linR.scale ∧
      boughtAndSold (fills s.log) = Ex.d 4 ∧ (fills s'.log).length = 3) &&
    (tr.zip tr').all (fun z => match z with
      | ((.update (.bba b), .update (.ok _)), (.update (.bba b'), .update (.ok _))) =>
        decide (b'.bid = b.bid - Ex.d 1 / 2 ∧ b'.ask = b.ask + Ex.d 1 / 2)
      | ((.market side q _, .market (.ok _)), (.market side' q' _, .market (.ok _))) =>
        decide (side = side' ∧ q = q')
      | _ => false)) = true := by decide +kernel

end Lfest
