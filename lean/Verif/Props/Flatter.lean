import Verif.SpecFlatter
import Verif.Props.Fair
import Verif.Props.Slip

/-!
# C154: how much candles can flatter a backtest
-/

namespace Lfest

open Spec Fair Flatter

theorem signed_bound {f : Fill} {p g : Int} (hq : 0 < f.qty)
    (h : match f.side with | .buy => p - g ≤ f.price | .sell => f.price ≤ p + g) :
    f.signed * (p - f.price) ≤ g * Spec.abs f.qty := by
  have e : Spec.abs f.qty = f.qty := by unfold Spec.abs; split <;> omega
  rw [e, Int.mul_comm g]
  cases hs : f.side <;> rw [hs] at h <;> simp only at h <;> simp only [Fill.signed, hs]
  · exact Int.mul_le_mul_of_nonneg_left (by omega) (by omega)
  · rw [Int.neg_mul, ← Int.mul_neg]
    exact Int.mul_le_mul_of_nonneg_left (by omega) (by omega)

/-- No fill of the call is better than `p` by more than `g`. -/
theorem generous_step {c : Cfg} {s s' : State} {op : Op} {r : Resp} (hr : Reachable c s)
    (h : step c s op = .ok (s', r)) {p g : Int} (hg : 0 ≤ g) (h1 : s'.ms.bid ≤ p) (h2 : p ≤ s'.ms.ask)
    (ho : own op ∨ ∃ u, op = .update u ∧ generousBy g u p) :
    ∀ f ∈ fillsBetween s s', f.signed * (p - f.price) ≤ g * Spec.abs f.qty := by
  have hr' := hr.step h
  intro f hf
  have hq : 0 < f.qty := (hr'.fill_price f (by rw [step_fillsBetween h]; simp [hf])).2
  have none : fills s'.log = fills s.log → False := fun e => by
    rw [fillsBetween_eq (new := []) e] at hf; cases hf
  have small : f.signed * (p - f.price) ≤ 0 → f.signed * (p - f.price) ≤ g * Spec.abs f.qty := by
    intro k
    have : 0 ≤ g * Spec.abs f.qty := Int.mul_nonneg hg (by unfold Spec.abs; split <;> omega)
    omega
  obtain ho | ⟨u, rfl, ho⟩ := ho
  · exact small (fair_step hr h h1 h2 (.inl ho) f hf)
  obtain ⟨_, _, x, _, _, _, hx⟩ | ⟨_, _, hx, _⟩ | ⟨err, rfl, _⟩ | ⟨_, _, _, _, hx, _⟩ |
    ⟨_, _, _, _, _, hx, _⟩ | ⟨_, _, _, _, _, _, hx, _⟩ | ⟨_, _, hx, _⟩ := step_cases h
  · cases x with
    | ok ups =>
      subst hx
      refine signed_bound hq ?_
      rw [fillsBetween_eq (update_spec hr.inv h).2.2.2.1, List.mem_reverse, makerFills,
        List.mem_filterMap] at hf
      obtain ⟨o, _, e⟩ := hf
      cases hfr : fillRule u o with
      | none => rw [hfr] at e; cases e
      | some q =>
        rw [hfr] at e
        simp only [Option.map_some, Option.some.injEq] at e
        subst e
        exact ho o (by rw [hfr]; simp)
    | error err =>
      subst hx
      have e := (C30_liquidation_flattens c s s' u err hr h).2.1
      rw [fillsBetween_eq (new := [closingFill s.pos (quotesAfter s.ms u)]) e] at hf
      simp only [List.mem_singleton] at hf
      obtain ⟨_, _, hm⟩ := C43_update c s s' u _ hr h
      rw [← hm] at hf
      refine small (signed_nonpos hq ?_)
      have k : f.price = touchPrice s'.ms f.side := by
        subst hf
        unfold closingFill
        split <;> rfl
      rw [k]
      cases f.side <;> simpa [touchPrice]
  · cases hx
  · exact (none rfl).elim
  · cases hx
  · cases hx
  · cases hx
  · cases hx

theorem boughtAndSold_join (xs ys : List Fill) :
    boughtAndSold (xs ++ ys) = boughtAndSold xs + boughtAndSold ys := by
  induction xs with
  | nil => simp [boughtAndSold]
  | cons f fs ih => simp only [List.cons_append, boughtAndSold, ih]; omega

/-- Value of the position less its cost and less the generosity for all that was traded -/
def sober (g : Int) (s : State) (p : Int) : Int := netValue s p - g * boughtAndSold (fills s.log)

theorem generous_sum {g p : Int} : ∀ l : List Fill,
    (∀ f ∈ l, f.signed * (p - f.price) ≤ g * Spec.abs f.qty) →
    (l.map (fun f => f.signed * (p - f.price))).sum ≤ g * boughtAndSold l
  | [], _ => by simp [boughtAndSold]
  | f :: l, h => by
    have i := generous_sum l (fun y hy => h y (by simp [hy]))
    have := h f (by simp)
    simp only [List.map_cons, List.sum_cons, boughtAndSold, Int.mul_add]
    omega

theorem sober_step {c : Cfg} {s s' : State} {op : Op} {r : Resp} (hr : Reachable c s)
    (h : step c s op = .ok (s', r)) {p g : Int} (hg : 0 ≤ g) (h1 : s'.ms.bid ≤ p) (h2 : p ≤ s'.ms.ask)
    (ho : own op ∨ ∃ u, op = .update u ∧ generousBy g u p) : sober g s' p ≤ sober g s p := by
  have k := generous_sum _ (generous_step hr h hg h1 h2 ho)
  rw [← spent_at] at k
  have e := step_fillsBetween h
  have q1 := pos_netBought (hr.step h)
  rw [e, netBought_join, ← pos_netBought hr] at q1
  unfold sober netValue
  rw [q1, e, spent_join, boughtAndSold_join, Int.add_mul, Int.mul_add]
  omega

theorem sober_history {c : Cfg} {p g : Int} (hg : 0 ≤ g) : ∀ (ops : List Op) {s s' : State}
    {tr : List (Op × Resp)}, Reachable c s → history c s ops = .ok (s', tr) → (∀ op ∈ ops, own op) →
    s.ms.bid ≤ p → p ≤ s.ms.ask → sober g s' p ≤ sober g s p ∧ s'.ms = s.ms
  | [], s, s', tr, hr, h, _, _, _ => by
    simp only [history, ok_inj, Prod.mk.injEq] at h
    obtain ⟨rfl, rfl⟩ := h
    exact ⟨Int.le_refl _, rfl⟩
  | op :: ops, s, s', tr, hr, h, ho, h1, h2 => by
    simp only [history, bind_ok, ok_inj, Prod.mk.injEq] at h
    obtain ⟨⟨t, r⟩, hst, ⟨v, tr1⟩, hh, rfl, rfl⟩ := h
    have e := own_ms hr hst (ho op (by simp))
    obtain ⟨i1, i2⟩ := sober_history (p := p) hg ops (hr.step hst) hh
      (fun x hx => ho x (by simp [hx])) (by rw [e]; exact h1) (by rw [e]; exact h2)
    have k := sober_step (p := p) hr hst hg (by rw [e]; exact h1) (by rw [e]; exact h2)
      (.inl (ho op (by simp)))
    exact ⟨Int.le_trans i1 k, i2.trans e⟩

theorem sober_play {c : Cfg} {user : Strategy} {g : Int} (hg : 0 ≤ g)
    (hu : ∀ seen, ∀ op ∈ user seen, own op) :
    ∀ (m : Market) (p : Int) (s : State) (seen : List (Op × Resp)) (g0 : Int) (outs : List Ending),
    Reachable c s → fairBut g (s.ms.bid, s.ms.ask) m → play c user m p s seen g0 = .ok outs →
    mean (fun o => (sober g o.final o.price : Rat)) outs ≤
      sober g s p + s.pos.quantity * (meanPrice p m - p)
  | .over, p, s, seen, g0, outs, hr, _, h => by
    simp only [play, ok_inj] at h
    subst h
    simp [mean, meanPrice]
  | .news u p' m, p, s, seen, g0, outs, hr, hf, h => by
    simp only [play, bind_ok] at h
    obtain ⟨⟨s1, r⟩, hst, ⟨s2, tr⟩, hh, h⟩ := h
    obtain ⟨f1, f2, f3, f4, f5⟩ := hf
    obtain ⟨_, _, hq⟩ := C43_update c s s1 u _ hr hst
    rw [quotes_eq] at hq
    rw [← hq] at f1 f2 f5
    have k1 := sober_step (p := p') hr hst hg f1 f2 (.inr ⟨u, rfl, f3⟩)
    obtain ⟨k2, k3⟩ := sober_history (p := p') hg _ (hr.step hst) hh (hu _) f1 f2
    have k3 : s2.ms = s1.ms := k3
    obtain ⟨k4, _⟩ := history_fills _ (hr.step hst) hh
    have i1 := sober_play hg hu m p' s2 _ _ outs k4 (by rw [k3]; exact f5) h
    simp only [meanPrice]
    rw [f4] at i1 ⊢
    have e : sober g s p' = sober g s p + s.pos.quantity * (p' - p) := by
      unfold sober netValue; ring
    have k : (sober g s2 p' : Rat) ≤ (sober g s p + s.pos.quantity * (p' - p) : Int) := by
      rw [← e]; exact_mod_cast Int.le_trans k2 k1
    push_cast at k
    linarith
  | .chance x a b, p, s, seen, g0, outs, hr, hf, h => by
    simp only [play, bind_ok, ok_inj] at h
    obtain ⟨o1, h1, o2, h2, rfl⟩ := h
    obtain ⟨f1, f2, f3, f4⟩ := hf
    have a1 := sober_play hg hu a p s seen g0 o1 hr f3 h1
    have b1 := sober_play hg hu b p s seen g0 o2 hr f4 h2
    rw [ending_mean_append, ending_mean_scale _ (fun _ _ => rfl), ending_mean_scale _ (fun _ _ => rfl)]
    have c1 := mul_le_mul_of_nonneg_left a1 f1
    have c2 := mul_le_mul_of_nonneg_left b1 (sub_nonneg.2 f2)
    simp only [meanPrice]
    linarith

theorem fairBut_martingale {g : Int} : ∀ (m : Market) (q : Int × Int), fairBut g q m → martingale m
  | .over, _, _ => trivial
  | .news _ _ m, _, h => ⟨h.2.2.2.1, fairBut_martingale m _ h.2.2.2.2⟩
  | .chance _ a b, q, h => ⟨h.1, h.2.1, fairBut_martingale a q h.2.2.1, fairBut_martingale b q h.2.2.2⟩

/-- C154: if no update is more generous than `g` on a market that is fair otherwise, the mean of what any
user gains before fees is at most `g` times the mean of the quantity traded, up to the mean of the
rounding at the fills. -/
theorem C154_flattery_is_bounded (c : Cfg) (user : Strategy) (m : Market) (p g : Int) (s : State)
    (seen : List (Op × Resp)) (outs : List Ending) (hk : c.env.kind = .linear) (hr : Reachable c s)
    (hg : 0 ≤ g) (hu : ∀ seen, ∀ op ∈ user seen, own op) (hf : fairBut g (s.ms.bid, s.ms.ask) m)
    (hp : meanPrice p m = p) (h : play c user m p s seen 0 = .ok outs) :
    mean (fun o => (gainAt c o.final o.price : Rat)) outs ≤ gainAt c s p +
      mean (fun o => ((g * (boughtAndSold (fills o.final.log) - boughtAndSold (fills s.log)) : Int) : Rat))
        outs +
      mean (fun o => ((profitRounding c (fills o.final.log) - profitRounding c (fills s.log) : Int) : Rat))
        outs := by
  have k1 := sober_play hg hu m p s seen 0 outs hr hf h
  obtain ⟨_, k2, k3⟩ := play_exact m p s seen 0 outs hr (fairBut_martingale m _ hf) h
  rw [hp, sub_self, mul_zero, add_zero] at k1
  have e : mean (fun o => (gainAt c o.final o.price : Rat)) outs ≤
      mean (fun o => (sober g o.final o.price : Rat) + (((drift c (fills s.log) +
        g * boughtAndSold (fills s.log) : Int) : Rat) +
        (((g * (boughtAndSold (fills o.final.log) - boughtAndSold (fills s.log)) : Int) : Rat) +
        ((profitRounding c (fills o.final.log) - profitRounding c (fills s.log) : Int) : Rat)))) outs := by
    refine ending_mean_le outs (fun o ho => ⟨(k3 o ho).1, ?_⟩)
    obtain ⟨_, hr', l, e⟩ := k3 o ho
    have hd := (drift_append hk (fills s.log) l (e ▸ hr'.fill_price)).1
    rw [← e] at hd
    have e1 := gain_drift hr' o.price
    have : gainAt c o.final o.price ≤ sober g o.final o.price + (drift c (fills s.log) +
        g * boughtAndSold (fills s.log) +
        (g * (boughtAndSold (fills o.final.log) - boughtAndSold (fills s.log)) +
        (profitRounding c (fills o.final.log) - profitRounding c (fills s.log)))) := by
      unfold sober netValue
      rw [Int.mul_sub]
      omega
    exact_mod_cast this
  rw [ending_mean_add, ending_mean_add, ending_mean_add, ending_mean_const, k2] at e
  have e2 : (gainAt c s p : Rat) = sober g s p +
      ((drift c (fills s.log) + g * boughtAndSold (fills s.log) : Int) : Rat) := by
    rw [gain_drift hr p]; unfold sober netValue; push_cast; ring
  rw [e2]
  linarith

/-- C154, candles: a candle is not more generous than its range, if the contract is worth something in
this range after it. -/
theorem C154_candle_range (k : Candle) (p : Int) (h1 : k.low ≤ p) (h2 : p ≤ k.high) :
    generousBy (k.high - k.low) (.candle k) p := by
  intro o h
  cases hs : o.side <;> simp only [fillRule, hs, ne_eq, ite_eq_right_iff, reduceCtorEq, imp_false,
    Decidable.not_not] at h ⊢ <;> omega

/-- Fair updates are not generous at all. -/
theorem C154_fair (u : UpdateArg) (p : Int) : generousBy 0 u p ↔ notGenerous u p := by
  unfold generousBy notGenerous
  refine forall_congr' (fun o => imp_congr_right (fun _ => ?_))
  cases o.side <;> simp

/-- The hypotheses of C154 are met by the market of C152_candles_are_generous: a candle with range 6, two
units traded, a gain of 4. -/
example : fairBut (Ex.d 6) (0, 0) Ex.shadows ∧ meanPrice (Ex.d 100) Ex.shadows = Ex.d 100 ∧
    Ex.endings Ex.linR Ex.quoteBoth Ex.shadows (Ex.d 100) (fun outs =>
      decide (outs.map (fun o => (o.prob, gainAt Ex.linR o.final o.price / Ex.linR.scale,
        boughtAndSold (fills o.final.log))) = [(1, Ex.d 4, Ex.d 2)])) = true := by
  refine ⟨?_, ?_, by decide +kernel⟩
  · have k := C154_candle_range ⟨Ex.d 99, Ex.d 101, Ex.d 97, Ex.d 103, 2⟩ (Ex.d 100) (by decide) (by decide)
    have q : generousBy (Ex.d 6) (.bba ⟨Ex.d 99, Ex.d 101, 1⟩) (Ex.d 100) := fun o h => (h rfl).elim
    exact ⟨by decide, by decide, q, by simp only [meanPrice], by decide, by decide, k,
      by simp only [meanPrice], trivial⟩
  · simp only [Ex.shadows, meanPrice]

end Lfest
