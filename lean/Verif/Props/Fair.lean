import Verif.SpecFair
import Verif.Props.Moves
import Verif.Props.Alone
import Mathlib.Tactic.Linarith
import Mathlib.Tactic.Ring
import Mathlib.Tactic.NormNum

/-!
# C152: nobody can expect to gain on a fair market
-/

namespace Lfest

open Spec Fair

theorem quotes_eq (ms : MarketState) (u : UpdateArg) : quotesAfter ms u = quotes (ms.bid, ms.ask) u := by
  cases u <;> rfl

theorem signed_nonpos {f : Fill} {p : Int} (hq : 0 < f.qty)
    (h : match f.side with | .buy => p ≤ f.price | .sell => f.price ≤ p) :
    f.signed * (p - f.price) ≤ 0 := by
  cases hs : f.side <;> rw [hs] at h <;> simp only at h <;> simp only [Fill.signed, hs]
  · exact Int.mul_nonpos_of_nonneg_of_nonpos (by omega) (by omega)
  · exact Int.mul_nonpos_of_nonpos_of_nonneg (by omega) (by omega)

theorem sums_nonpos {α} {g : α → Int} : ∀ l : List α, (∀ x ∈ l, g x ≤ 0) → (l.map g).sum ≤ 0
  | [], _ => by simp
  | x :: l, h => by
    have i := sums_nonpos l (fun y hy => h y (by simp [hy]))
    have := h x (by simp)
    simp only [List.map_cons, List.sum_cons]
    omega

/-- No fill of the call is at a better price than `p`. -/
theorem fair_step {c : Cfg} {s s' : State} {op : Op} {r : Resp} (hr : Reachable c s)
    (h : step c s op = .ok (s', r)) {p : Int} (h1 : s'.ms.bid ≤ p) (h2 : p ≤ s'.ms.ask)
    (ho : own op ∨ ∃ u, op = .update u ∧ notGenerous u p) :
    ∀ f ∈ fillsBetween s s', f.signed * (p - f.price) ≤ 0 := by
  have hr' := hr.step h
  intro f hf
  have hq : 0 < f.qty := (hr'.fill_price f (by rw [step_fillsBetween h]; simp [hf])).2
  refine signed_nonpos hq ?_
  have none : fills s'.log = fills s.log → False := fun e => by
    rw [fillsBetween_eq (new := []) e] at hf; cases hf
  have touch : f.price = touchPrice s'.ms f.side →
      match f.side with | .buy => p ≤ f.price | .sell => f.price ≤ p := by
    intro e
    rw [e]
    cases f.side <;> simpa [touchPrice]
  cases op with
  | limit => exact (none (C03_quiet_calls c s s' _ r h trivial)).elim
  | amend => exact (none (C03_quiet_calls c s s' _ r h trivial)).elim
  | cancel b => exact (none (C03_quiet_calls c s s' _ r h trivial)).elim
  | checkActive u =>
    obtain h | ⟨u, h, _⟩ := ho
    · exact h.elim
    · cases h
  | update u =>
    obtain ho | ⟨u', e, ho⟩ := ho
    · exact ho.elim
    cases e
    obtain ⟨_, _, x, _, _, _, hx⟩ | ⟨_, _, hx, _⟩ | ⟨err, rfl, _⟩ | ⟨_, _, _, _, hx, _⟩ |
      ⟨_, _, _, _, _, hx, _⟩ | ⟨_, _, _, _, _, _, hx, _⟩ | ⟨_, _, hx, _⟩ := step_cases h
    · cases x with
      | ok ups =>
        subst hx
        rw [fillsBetween_eq (update_spec hr.inv h).2.2.2.1, List.mem_reverse, makerFills,
          List.mem_filterMap] at hf
        obtain ⟨o, _, e⟩ := hf
        cases hfr : fillRule u o with
        | none => rw [hfr] at e; cases e
        | some q =>
          rw [hfr] at e
          simp only [Option.map_some, Option.some.injEq] at e
          subst e
          exact ho o (by rw [hfr]; simp)
      | error err =>
        subst hx
        have e := (C30_liquidation_flattens c s s' u err hr h).2.1
        rw [fillsBetween_eq (new := [closingFill s.pos (quotesAfter s.ms u)]) e] at hf
        simp only [List.mem_singleton] at hf
        obtain ⟨_, _, hq⟩ := C43_update c s s' u _ hr h
        rw [← hq] at hf
        subst hf
        refine touch ?_
        unfold closingFill
        split <;> rfl
    · cases hx
    · exact (none rfl).elim
    · cases hx
    · cases hx
    · cases hx
    · cases hx
  | market side q uid =>
    obtain ⟨_, _, x, hx, _⟩ | ⟨_, _, hx, _⟩ | ⟨err, rfl, _⟩ | ⟨_, _, _, x, hx, _, hm, rfl⟩ |
      ⟨_, _, _, _, _, hx, _⟩ | ⟨_, _, _, _, _, _, hx, _⟩ | ⟨_, _, hx, _⟩ := step_cases h
    · cases hx
    · cases hx
    · exact (none rfl).elim
    · cases x with
      | error err => exact (none (C03_quiet_calls c s s' _ _ h trivial)).elim
      | ok f' =>
        have k := C21_market_order c s s' hr side q uid f' h
        rw [fillsBetween_eq (new := [⟨false, side, touchPrice s.ms side, q⟩]) k.2.1] at hf
        simp only [List.mem_singleton] at hf
        subst hf
        exact touch (by rw [k.2.2.2.2.2.1])
    · cases hx
    · cases hx
    · cases hx

/-- Value of the position less its cost -/
def netValue (s : State) (p : Int) : Int := s.pos.quantity * p - spent (fills s.log)

theorem netValue_step {c : Cfg} {s s' : State} {op : Op} {r : Resp} (hr : Reachable c s)
    (h : step c s op = .ok (s', r)) {p : Int} (h1 : s'.ms.bid ≤ p) (h2 : p ≤ s'.ms.ask)
    (ho : own op ∨ ∃ u, op = .update u ∧ notGenerous u p) : netValue s' p ≤ netValue s p := by
  have k := sums_nonpos _ (fair_step hr h h1 h2 ho)
  rw [← spent_at] at k
  have e := step_fillsBetween h
  have q1 := pos_netBought (hr.step h)
  rw [e, netBought_join, ← pos_netBought hr] at q1
  have x1 : spent (fills s'.log) = spent (fillsBetween s s') + spent (fills s.log) := by
    rw [e, spent_join]
  unfold netValue
  rw [x1, q1, Int.add_mul]
  omega

theorem own_ms {c : Cfg} {s s' : State} {op : Op} {r : Resp} (hr : Reachable c s)
    (h : step c s op = .ok (s', r)) (ho : own op) : s'.ms = s.ms := by
  rw [(step_ms hr.inv h).1]
  cases op <;> first | rfl | exact ho.elim

theorem own_history {c : Cfg} {p : Int} : ∀ (ops : List Op) {s s' : State} {tr : List (Op × Resp)},
    Reachable c s → history c s ops = .ok (s', tr) → (∀ op ∈ ops, own op) →
    s.ms.bid ≤ p → p ≤ s.ms.ask →
    netValue s' p ≤ netValue s p ∧ s'.ms = s.ms ∧ Reachable c s' ∧ ∃ g, fills s'.log = g ++ fills s.log
  | [], s, s', tr, hr, h, _, _, _ => by
    simp only [history, ok_inj, Prod.mk.injEq] at h
    obtain ⟨rfl, rfl⟩ := h
    exact ⟨Int.le_refl _, rfl, hr, [], rfl⟩
  | op :: ops, s, s', tr, hr, h, ho, h1, h2 => by
    simp only [history, bind_ok, ok_inj, Prod.mk.injEq] at h
    obtain ⟨⟨t, r⟩, hst, ⟨v, tr1⟩, hh, rfl, rfl⟩ := h
    have e := own_ms hr hst (ho op (by simp))
    obtain ⟨i1, i2, i3, g, i4⟩ := own_history (p := p) ops (hr.step hst) hh (fun x hx => ho x (by simp [hx]))
      (by rw [e]; exact h1) (by rw [e]; exact h2)
    have k := netValue_step (p := p) hr hst (by rw [e]; exact h1) (by rw [e]; exact h2)
      (.inl (ho op (by simp)))
    exact ⟨Int.le_trans i1 k, i2.trans e, i3, g ++ fillsBetween s t, by
      show fills v.log = _
      rw [i4, step_fillsBetween hst]; simp⟩

theorem ending_mean_append (f : Ending → Rat) (xs ys : List Ending) :
    mean f (xs ++ ys) = mean f xs + mean f ys := by
  induction xs with
  | nil => simp [mean]
  | cons o os ih => simp only [List.cons_append, mean, ih]; ring

theorem ending_mean_scale (f : Ending → Rat) (hf : ∀ o p, f { o with prob := p } = f o) (x : Rat)
    (xs : List Ending) : mean f (xs.map (fun o => { o with prob := x * o.prob })) = x * mean f xs := by
  induction xs with
  | nil => simp [mean]
  | cons o os ih => simp only [List.map_cons, mean, ih, hf]; ring

theorem ending_mean_le {f g : Ending → Rat} : ∀ xs : List Ending, (∀ o ∈ xs, 0 ≤ o.prob ∧ f o ≤ g o) →
    mean f xs ≤ mean g xs
  | [], _ => by simp [mean]
  | o :: os, h => by
    have i := ending_mean_le os (fun x hx => h x (by simp [hx]))
    obtain ⟨h1, h2⟩ := h o (by simp)
    have := mul_le_mul_of_nonneg_left h2 h1
    simp only [mean]
    linarith

theorem ending_mean_add (f g : Ending → Rat) (xs : List Ending) :
    mean (fun o => f o + g o) xs = mean f xs + mean g xs := by
  induction xs with
  | nil => simp [mean]
  | cons o os ih => simp only [mean, ih]; ring

theorem ending_mean_const (k : Rat) (xs : List Ending) : mean (fun _ => k) xs = mean (fun _ => 1) xs * k := by
  induction xs with
  | nil => simp [mean]
  | cons o os ih => simp only [mean, ih]; ring

theorem play_bound {c : Cfg} {user : Strategy} (hu : ∀ seen, ∀ op ∈ user seen, own op) :
    ∀ (m : Market) (p : Int) (s : State) (seen : List (Op × Resp)) (g0 : Int)
    (outs : List Ending), Reachable c s → fair (s.ms.bid, s.ms.ask) m → play c user m p s seen g0 = .ok outs →
    mean (fun o => (netValue o.final o.price : Rat)) outs ≤
      netValue s p + s.pos.quantity * (meanPrice p m - p) ∧
    mean (fun _ => 1) outs = 1 ∧
    ∀ o ∈ outs, 0 ≤ o.prob ∧ Reachable c o.final ∧ ∃ g, fills o.final.log = g ++ fills s.log
  | .over, p, s, seen, g0, outs, hr, _, h => by
    simp only [play, ok_inj] at h
    subst h
    refine ⟨by simp [mean, meanPrice], by simp [mean], fun o ho => ?_⟩
    simp only [List.mem_singleton] at ho
    subst ho
    exact ⟨by norm_num, hr, [], rfl⟩
  | .news u p' m, p, s, seen, g0, outs, hr, hf, h => by
    simp only [play, bind_ok] at h
    obtain ⟨⟨s1, r⟩, hst, ⟨s2, tr⟩, hh, h⟩ := h
    obtain ⟨f1, f2, f3, f4, f5⟩ := hf
    obtain ⟨_, _, hq⟩ := C43_update c s s1 u _ hr hst
    rw [quotes_eq] at hq
    rw [← hq] at f1 f2 f5
    have k1 := netValue_step (p := p') hr hst f1 f2 (.inr ⟨u, rfl, f3⟩)
    obtain ⟨k2, k3, k4, g, k5⟩ := own_history (p := p') _ (hr.step hst) hh (hu _) f1 f2
    have k3 : s2.ms = s1.ms := k3
    obtain ⟨i1, i2, i3⟩ := play_bound hu m p' s2 _ _ outs k4 (by rw [k3]; exact f5) h
    refine ⟨?_, i2, fun o ho => ?_⟩
    · simp only [meanPrice]
      rw [f4] at i1 ⊢
      have e : netValue s p' = netValue s p + s.pos.quantity * (p' - p) := by
        unfold netValue; ring
      have k : (netValue s2 p' : Rat) ≤ (netValue s p + s.pos.quantity * (p' - p) : Int) := by
        rw [← e]; exact_mod_cast Int.le_trans k2 k1
      push_cast at k
      linarith
    · obtain ⟨j1, j2, g', j3⟩ := i3 o ho
      have k5 : fills s2.log = g ++ fills s1.log := k5
      exact ⟨j1, j2, g' ++ (g ++ fillsBetween s s1), by
        rw [j3, k5, step_fillsBetween hst]; simp⟩
  | .chance x a b, p, s, seen, g0, outs, hr, hf, h => by
    simp only [play, bind_ok, ok_inj] at h
    obtain ⟨o1, h1, o2, h2, rfl⟩ := h
    obtain ⟨f1, f2, f3, f4⟩ := hf
    obtain ⟨a1, a2, a3⟩ := play_bound hu a p s seen g0 o1 hr f3 h1
    obtain ⟨b1, b2, b3⟩ := play_bound hu b p s seen g0 o2 hr f4 h2
    refine ⟨?_, ?_, fun o ho => ?_⟩
    · rw [ending_mean_append, ending_mean_scale _ (fun _ _ => rfl), ending_mean_scale _ (fun _ _ => rfl)]
      have c1 := mul_le_mul_of_nonneg_left a1 f1
      have c2 := mul_le_mul_of_nonneg_left b1 (sub_nonneg.2 f2)
      simp only [meanPrice]
      linarith
    · rw [ending_mean_append, ending_mean_scale _ (fun _ _ => rfl), ending_mean_scale _ (fun _ _ => rfl), a2, b2]
      ring
    · rw [List.mem_append, List.mem_map, List.mem_map] at ho
      obtain ⟨y, hy, rfl⟩ | ⟨y, hy, rfl⟩ := ho
      · obtain ⟨j1, j2, j3⟩ := a3 y hy
        exact ⟨mul_nonneg f1 j1, j2, j3⟩
      · obtain ⟨j1, j2, j3⟩ := b3 y hy
        exact ⟨mul_nonneg (sub_nonneg.2 f2) j1, j2, j3⟩

/-- C152: on a fair market, whatever the user does, the mean of what the account has gained before fees
is at most what it was at the start, up to the mean of the rounding at the fills in between. -/
theorem C152_no_gain_expected (c : Cfg) (user : Strategy) (m : Market) (p : Int) (s : State)
    (seen : List (Op × Resp)) (outs : List Ending) (hk : c.env.kind = .linear) (hr : Reachable c s)
    (hu : ∀ seen, ∀ op ∈ user seen, own op) (hf : fair (s.ms.bid, s.ms.ask) m)
    (hp : meanPrice p m = p) (h : play c user m p s seen 0 = .ok outs) :
    (mean (fun _ => 1) outs = 1 ∧ ∀ o ∈ outs, 0 ≤ o.prob) ∧
    mean (fun o => (gainAt c o.final o.price : Rat)) outs ≤ gainAt c s p +
      mean (fun o => ((profitRounding c (fills o.final.log) - profitRounding c (fills s.log) : Int) : Rat))
        outs := by
  obtain ⟨k1, k2, k3⟩ := play_bound hu m p s seen 0 outs hr hf h
  refine ⟨⟨k2, fun o ho => (k3 o ho).1⟩, ?_⟩
  rw [hp, sub_self, mul_zero, add_zero] at k1
  have e : mean (fun o => (gainAt c o.final o.price : Rat)) outs ≤
      mean (fun o => (netValue o.final o.price : Rat) + ((drift c (fills s.log) : Rat) +
        ((profitRounding c (fills o.final.log) - profitRounding c (fills s.log) : Int) : Rat))) outs := by
    refine ending_mean_le outs (fun o ho => ⟨(k3 o ho).1, ?_⟩)
    obtain ⟨_, hr', g, e⟩ := k3 o ho
    have hd := (drift_append hk (fills s.log) g (e ▸ hr'.fill_price)).1
    rw [← e] at hd
    have e1 := gain_drift hr' o.price
    have : gainAt c o.final o.price ≤ netValue o.final o.price + (drift c (fills s.log) +
        (profitRounding c (fills o.final.log) - profitRounding c (fills s.log))) := by
      unfold netValue; omega
    exact_mod_cast this
  rw [ending_mean_add, ending_mean_add, ending_mean_const, k2] at e
  have e2 : (gainAt c s p : Rat) = drift c (fills s.log) + netValue s p := by
    rw [gain_drift hr p]; unfold netValue; push_cast; ring
  rw [e2]
  linarith

theorem afterFees_gain {c : Cfg} {s : State} (hr : Reachable c s) (hm : 0 ≤ c.spec.feeMaker)
    (ht : 0 ≤ c.spec.feeTaker) (p : Int) :
    afterFees c s p = gainAt c s p + (c.start - feeSum c (fills s.log)) * c.scale := by
  obtain ⟨ops, h⟩ := hr
  rw [← C04_fee_schedule c ops s h hm ht, afterFees, gainAt]
  ring

/-- C152, after fees: on a fair market the account loses its fees in the mean, or more. -/
theorem C152_fees_are_lost (c : Cfg) (user : Strategy) (m : Market) (p : Int) (s : State)
    (seen : List (Op × Resp)) (outs : List Ending) (hk : c.env.kind = .linear) (hr : Reachable c s)
    (hm : 0 ≤ c.spec.feeMaker) (ht : 0 ≤ c.spec.feeTaker)
    (hu : ∀ seen, ∀ op ∈ user seen, own op) (hf : fair (s.ms.bid, s.ms.ask) m)
    (hp : meanPrice p m = p) (h : play c user m p s seen 0 = .ok outs) :
    mean (fun o => (afterFees c o.final o.price : Rat)) outs ≤ afterFees c s p -
      mean (fun o => (((feeSum c (fills o.final.log) - feeSum c (fills s.log)) * c.scale : Int) : Rat)) outs +
      mean (fun o => ((profitRounding c (fills o.final.log) - profitRounding c (fills s.log) : Int) : Rat))
        outs := by
  obtain ⟨⟨k2, _⟩, k⟩ := C152_no_gain_expected c user m p s seen outs hk hr hu hf hp h
  obtain ⟨_, _, k3⟩ := play_bound hu m p s seen 0 outs hr hf h
  have e : mean (fun o => (afterFees c o.final o.price : Rat) +
      (((feeSum c (fills o.final.log) - feeSum c (fills s.log)) * c.scale : Int) : Rat)) outs ≤
      mean (fun o => (gainAt c o.final o.price : Rat) +
        (((c.start - feeSum c (fills s.log)) * c.scale : Int) : Rat)) outs := by
    refine ending_mean_le outs (fun o ho => ⟨(k3 o ho).1, ?_⟩)
    rw [afterFees_gain (k3 o ho).2.1 hm ht]
    push_cast
    linarith
  rw [ending_mean_add, ending_mean_add, ending_mean_const, k2] at e
  rw [afterFees_gain hr hm ht]
  push_cast at *
  linarith

theorem ending_mean_pos {f : Ending → Rat} : ∀ xs : List Ending, (∀ o ∈ xs, 0 ≤ o.prob ∧ (0 < o.prob → 0 ≤ f o)) →
    0 ≤ mean f xs ∧ ∀ o ∈ xs, 0 < o.prob → 0 < f o → 0 < mean f xs
  | [], _ => ⟨by simp [mean], fun o ho => by cases ho⟩
  | x :: xs, h => by
    obtain ⟨i1, i2⟩ := ending_mean_pos xs (fun o ho => h o (by simp [ho]))
    obtain ⟨h1, h2⟩ := h x (by simp)
    have k : 0 ≤ x.prob * f x := by
      rcases h1.lt_or_eq with hlt | heq
      · exact mul_nonneg h1 (h2 hlt)
      · rw [← heq, zero_mul]
    simp only [mean]
    refine ⟨by linarith, fun o ho hp hf => ?_⟩
    rcases List.mem_cons.1 ho with rfl | ho
    · have := mul_pos hp hf
      linarith
    · have := i2 o ho hp hf
      linarith

/-- C152, no arbitrage: on a fair market, whoever can gain more than the rounding can also do worse: there
is another ending, not impossible, in which the gain is below the rounding. -/
theorem C152_no_arbitrage (c : Cfg) (user : Strategy) (m : Market) (p : Int) (s : State)
    (seen : List (Op × Resp)) (outs : List Ending) (hk : c.env.kind = .linear) (hr : Reachable c s)
    (hu : ∀ seen, ∀ op ∈ user seen, own op) (hf : fair (s.ms.bid, s.ms.ask) m)
    (hp : meanPrice p m = p) (h : play c user m p s seen 0 = .ok outs)
    (o : Ending) (ho : o ∈ outs) (hpos : 0 < o.prob)
    (hw : gainAt c s p + (profitRounding c (fills o.final.log) - profitRounding c (fills s.log)) <
      gainAt c o.final o.price) :
    ∃ o' ∈ outs, 0 < o'.prob ∧ gainAt c o'.final o'.price <
      gainAt c s p + (profitRounding c (fills o'.final.log) - profitRounding c (fills s.log)) := by
  obtain ⟨⟨k2, k3⟩, k⟩ := C152_no_gain_expected c user m p s seen outs hk hr hu hf hp h
  by_contra hno
  let f : Ending → Int := fun x => gainAt c x.final x.price -
    (gainAt c s p + (profitRounding c (fills x.final.log) - profitRounding c (fills s.log)))
  have hn : ∀ x ∈ outs, 0 ≤ x.prob ∧ (0 < x.prob → (0 : Rat) ≤ (f x : Rat)) := by
    refine fun x hx => ⟨k3 x hx, fun hx0 => ?_⟩
    have : 0 ≤ f x := by
      by_contra hneg
      exact hno ⟨x, hx, hx0, by simp only [f] at hneg; omega⟩
    exact_mod_cast this
  have hlt : (0 : Rat) < mean (fun x => (f x : Rat)) outs := by
    refine (ending_mean_pos outs hn).2 o ho hpos ?_
    have : 0 < f o := by simp only [f]; omega
    exact_mod_cast this
  have e : mean (fun o => (gainAt c o.final o.price : Rat)) outs =
      mean (fun x => (f x : Rat) + ((gainAt c s p : Rat) +
        ((profitRounding c (fills x.final.log) - profitRounding c (fills s.log) : Int) : Rat))) outs := by
    congr 1
    funext x
    simp only [f]
    push_cast
    ring
  rw [e, ending_mean_add, ending_mean_add, ending_mean_const, k2] at k
  linarith

theorem netValue_between {c : Cfg} {s s' : State} (hr : Reachable c s) (hr' : Reachable c s') {g : List Fill}
    (e : fills s'.log = g ++ fills s.log) (p : Int) :
    netValue s' p + givenAway p s s' = netValue s p := by
  have q1 := pos_netBought hr'
  rw [e, netBought_join, ← pos_netBought hr] at q1
  have x1 : spent (fills s'.log) = spent g + spent (fills s.log) := by rw [e, spent_join]
  have k : givenAway p s s' = spent g - netBought g * p := by
    rw [givenAway, fillsBetween_eq e]
    have neg : ∀ l : List Fill, (l.map (fun f => f.signed * (f.price - p))).sum =
        -(l.map (fun f => f.signed * (p - f.price))).sum := by
      intro l
      induction l with
      | nil => rfl
      | cons f l ih => simp only [List.map_cons, List.sum_cons, ih]; ring
    rw [neg, ← spent_at]
    ring
  unfold netValue
  rw [x1, q1, k]
  ring

theorem history_fills {c : Cfg} : ∀ (ops : List Op) {s s' : State} {tr : List (Op × Resp)},
    Reachable c s → history c s ops = .ok (s', tr) →
    Reachable c s' ∧ ∃ g, fills s'.log = g ++ fills s.log
  | [], s, s', tr, hr, h => by
    simp only [history, ok_inj, Prod.mk.injEq] at h
    obtain ⟨rfl, rfl⟩ := h
    exact ⟨hr, [], rfl⟩
  | op :: ops, s, s', tr, hr, h => by
    simp only [history, bind_ok, ok_inj, Prod.mk.injEq] at h
    obtain ⟨⟨t, r⟩, hst, ⟨v, tr1⟩, hh, rfl, rfl⟩ := h
    obtain ⟨i1, g, i2⟩ := history_fills ops (hr.step hst) hh
    exact ⟨i1, g ++ fillsBetween s t, by
      show fills v.log = _
      rw [i2, step_fillsBetween hst]; simp⟩

theorem play_exact {c : Cfg} {user : Strategy} :
    ∀ (m : Market) (p : Int) (s : State) (seen : List (Op × Resp)) (g0 : Int) (outs : List Ending),
    Reachable c s → martingale m → play c user m p s seen g0 = .ok outs →
    mean (fun o => (netValue o.final o.price + o.given : Rat)) outs =
      netValue s p + g0 + s.pos.quantity * (meanPrice p m - p) ∧
    mean (fun _ => 1) outs = 1 ∧
    ∀ o ∈ outs, 0 ≤ o.prob ∧ Reachable c o.final ∧ ∃ g, fills o.final.log = g ++ fills s.log
  | .over, p, s, seen, g0, outs, hr, _, h => by
    simp only [play, ok_inj] at h
    subst h
    refine ⟨by simp [mean, meanPrice], by simp [mean], fun o ho => ?_⟩
    simp only [List.mem_singleton] at ho
    subst ho
    exact ⟨by norm_num, hr, [], rfl⟩
  | .news u p' m, p, s, seen, g0, outs, hr, hf, h => by
    simp only [play, bind_ok] at h
    obtain ⟨⟨s1, r⟩, hst, ⟨s2, tr⟩, hh, h⟩ := h
    obtain ⟨f4, f5⟩ := hf
    obtain ⟨k4, g, k5⟩ := history_fills _ (hr.step hst) hh
    have k5 : fills s2.log = (g ++ fillsBetween s s1) ++ fills s.log := by
      show fills s2.log = _
      rw [k5, step_fillsBetween hst]; simp
    obtain ⟨i1, i2, i3⟩ := play_exact m p' s2 _ _ outs k4 f5 h
    refine ⟨?_, i2, fun o ho => ?_⟩
    · have e := netValue_between hr k4 k5 p'
      have e' : netValue s p' = netValue s p + s.pos.quantity * (p' - p) := by
        unfold netValue; ring
      have k : ((netValue s2 p' + givenAway p' s s2 : Int) : Rat) =
          ((netValue s p + s.pos.quantity * (p' - p) : Int) : Rat) := by rw [e, e']
      push_cast at k i1
      simp only [meanPrice]
      rw [f4] at i1 ⊢
      rw [i1]
      linarith
    · obtain ⟨j1, j2, g', j3⟩ := i3 o ho
      exact ⟨j1, j2, g' ++ (g ++ fillsBetween s s1), by rw [j3, k5]; simp⟩
  | .chance x a b, p, s, seen, g0, outs, hr, hf, h => by
    simp only [play, bind_ok, ok_inj] at h
    obtain ⟨o1, h1, o2, h2, rfl⟩ := h
    obtain ⟨f1, f2, f3, f4⟩ := hf
    obtain ⟨a1, a2, a3⟩ := play_exact a p s seen g0 o1 hr f3 h1
    obtain ⟨b1, b2, b3⟩ := play_exact b p s seen g0 o2 hr f4 h2
    refine ⟨?_, ?_, fun o ho => ?_⟩
    · rw [ending_mean_append, ending_mean_scale _ (fun _ _ => rfl), ending_mean_scale _ (fun _ _ => rfl),
        a1, b1]
      simp only [meanPrice]
      ring
    · rw [ending_mean_append, ending_mean_scale _ (fun _ _ => rfl), ending_mean_scale _ (fun _ _ => rfl),
        a2, b2]
      ring
    · rw [List.mem_append, List.mem_map, List.mem_map] at ho
      obtain ⟨y, hy, rfl⟩ | ⟨y, hy, rfl⟩ := ho
      · obtain ⟨j1, j2, j3⟩ := a3 y hy
        exact ⟨mul_nonneg f1 j1, j2, j3⟩
      · obtain ⟨j1, j2, j3⟩ := b3 y hy
        exact ⟨mul_nonneg (sub_nonneg.2 f2) j1, j2, j3⟩

/-- C152, what is lost in the mean: if the price is a martingale, with any kind of updates and any calls,
the mean of what the account has gained before fees is what it was at the start less the mean of what has
been given away by fills, up to the mean of the rounding. -/
theorem C152_mean_gain (c : Cfg) (user : Strategy) (m : Market) (p : Int) (s : State)
    (seen : List (Op × Resp)) (outs : List Ending) (hk : c.env.kind = .linear) (hr : Reachable c s)
    (hf : martingale m) (hp : meanPrice p m = p) (h : play c user m p s seen 0 = .ok outs) :
    let gain := mean (fun o => (gainAt c o.final o.price : Rat)) outs
    let given := mean (fun o => (o.given : Rat)) outs
    let rounding := mean (fun o =>
      ((profitRounding c (fills o.final.log) - profitRounding c (fills s.log) : Int) : Rat)) outs
    gainAt c s p - given - rounding ≤ gain ∧ gain ≤ gainAt c s p - given + rounding := by
  obtain ⟨k1, k2, k3⟩ := play_exact m p s seen 0 outs hr hf h
  rw [hp, sub_self, mul_zero, add_zero] at k1
  rw [ending_mean_add] at k1
  intro gain given rounding
  have e2 : (gainAt c s p : Rat) = drift c (fills s.log) + netValue s p := by
    rw [gain_drift hr p]; unfold netValue; push_cast; ring
  have b : ∀ o ∈ outs, 0 ≤ o.prob ∧
      gainAt c o.final o.price ≤ netValue o.final o.price + (drift c (fills s.log) +
        (profitRounding c (fills o.final.log) - profitRounding c (fills s.log))) ∧
      netValue o.final o.price + drift c (fills s.log) ≤ gainAt c o.final o.price +
        (profitRounding c (fills o.final.log) - profitRounding c (fills s.log)) := by
    intro o ho
    obtain ⟨h0, hr', g, e⟩ := k3 o ho
    have hd := drift_append hk (fills s.log) g (e ▸ hr'.fill_price)
    rw [← e] at hd
    have e1 := gain_drift hr' o.price
    unfold netValue
    exact ⟨h0, by omega, by omega⟩
  have e3 : gain ≤ mean (fun o => (netValue o.final o.price : Rat) + ((drift c (fills s.log) : Rat) +
      ((profitRounding c (fills o.final.log) - profitRounding c (fills s.log) : Int) : Rat))) outs :=
    ending_mean_le outs (fun o ho => ⟨(b o ho).1, by exact_mod_cast (b o ho).2.1⟩)
  have e4 : mean (fun o => (netValue o.final o.price : Rat) + (drift c (fills s.log) : Rat)) outs ≤
      mean (fun o => (gainAt c o.final o.price : Rat) +
        ((profitRounding c (fills o.final.log) - profitRounding c (fills s.log) : Int) : Rat)) outs :=
    ending_mean_le outs (fun o ho => ⟨(b o ho).1, by exact_mod_cast (b o ho).2.2⟩)
  rw [ending_mean_add, ending_mean_add, ending_mean_const, k2] at e3
  rw [ending_mean_add, ending_mean_add, ending_mean_const, k2] at e4
  rw [e2]
  rw [Int.cast_zero, add_zero] at k1
  change _ + given = _ at k1
  change _ ≤ _ + (_ + rounding) at e3
  change _ ≤ gain + rounding at e4
  constructor <;> linarith

theorem noBargain_hits {p : Int} {t : Trade} {o : Limit} (ht : noBargain p t)
    (h : hits t o.side o.price = true) :
    match o.side with
    | .buy => p ≤ o.price
    | .sell => o.price ≤ p := by
  unfold noBargain at ht
  cases hs : o.side <;> rw [hs] at h <;> simp only [hits, decide_eq_true_eq] at h <;>
    rw [h.1] at ht <;> simp only at ht ⊢ <;> omega

/-- Quotes fill nothing. Trades are not generous if the contract is worth at most the price at which
somebody sold, and at least the price at which somebody bought, and no more are candles made of such
trades. -/
theorem C152_quotes_and_trades (p : Int) : (∀ b, notGenerous (.bba b) p) ∧
    (∀ t : Trade, noBargain p t → notGenerous (.trade t) p) ∧
    ∀ (ts : List Trade) b k, (∀ t ∈ ts, noBargain p t) → notGenerous (.smart ts b k) p := by
  refine ⟨fun b o h => (h rfl).elim, fun t ht o h => ?_, fun ts b k ht o h => ?_⟩
  · simp only [fillRule, ne_eq, ite_eq_right_iff, reduceCtorEq, imp_false, not_not] at h
    exact noBargain_hits ht h
  · simp only [fillRule, ne_eq] at h
    split at h
    · exact (h rfl).elim
    · next hne =>
      obtain ⟨t, hm⟩ := List.exists_mem_of_ne_nil _ hne
      rw [List.mem_filter] at hm
      exact noBargain_hits (ht t hm.1) hm.2

namespace Ex

/-- The endings of a new exchange meet `ok`. -/
def endings (c : Cfg) (user : Strategy) (m : Market) (p : Int) (ok : List Ending → Bool) : Bool :=
  match play c user m p (State.init c) [] 0 with
  | .ok outs => ok outs
  | .error _ => false

theorem endings_play {c : Cfg} {user : Strategy} {m : Market} {p : Int} {ok : List Ending → Bool}
    (h : endings c user m p ok = true) :
    ∃ outs, play c user m p (State.init c) [] 0 = .ok outs ∧ ok outs = true := by
  unfold endings at h
  split at h
  · next outs e => exact ⟨outs, e, h⟩
  · cases h

/-- A coin decides whether the price rises or falls by 10. If it rises, a second coin moves it by 5; if it
falls, there is a trade. -/
def coins : Market :=
  .news (.bba ⟨d 99, d 101, 1⟩) (d 100) (.chance (1 / 2)
    (.news (.bba ⟨d 109, d 111, 2⟩) (d 110) (.chance (1 / 2)
      (.news (.bba ⟨d 114, d 116, 3⟩) (d 115) .over) (.news (.bba ⟨d 104, d 106, 3⟩) (d 105) .over)))
    (.news (.bba ⟨d 89, d 91, 2⟩) (d 90) (.news (.trade ⟨3, d 90, d 1, .sell⟩) (d 90) .over)))

/-- Buys at first. If the price has risen sells. Otherwise bids for more. -/
def follow : Strategy := fun seen =>
  if seen.length = 1 then [.market .buy (d 1) 1, .limit .buy (d 92) (d 1) 2]
  else if seen.any (fun x => x.1 == .update (.bba ⟨d 109, d 111, 2⟩)) then [.market .sell (d 1) 3]
  else []

/-- A candle with the same quotes before and after -/
def shadows : Market :=
  .news (.bba ⟨d 99, d 101, 1⟩) (d 100)
    (.news (.candle ⟨d 99, d 101, d 97, d 103, 2⟩) (d 100) .over)

/-- Bids and offers once -/
def quoteBoth : Strategy := fun seen =>
  if seen.length = 1 then [.limit .buy (d 98) (d 1) 1, .limit .sell (d 102) (d 1) 2] else []

end Ex

theorem Ex.follow_own : ∀ seen, ∀ op ∈ Ex.follow seen, own op := by
  intro seen op h
  unfold Ex.follow at h
  split at h
  · simp only [List.mem_cons, List.not_mem_nil, or_false] at h
    obtain rfl | rfl := h <;> trivial
  · split at h
    · simp only [List.mem_cons, List.not_mem_nil, or_false] at h
      obtain rfl := h; trivial
    · cases h

theorem Ex.quoteBoth_own : ∀ seen, ∀ op ∈ Ex.quoteBoth seen, own op := by
  intro seen op h
  unfold Ex.quoteBoth at h
  split at h
  · simp only [List.mem_cons, List.not_mem_nil, or_false] at h
    obtain rfl | rfl := h <;> trivial
  · cases h

/-- The hypotheses of C152 are met: a market with two throws of a coin and a trade, and a user who
follows the trend. There are three endings. The user is 7 ahead in two of them, 13 behind in the third,
and 3 behind in the mean, which is what the fills gave away: 1 on each market order, 2 on the bid. -/
example : fair (0, 0) Ex.coins ∧ meanPrice (Ex.d 100) Ex.coins = Ex.d 100 ∧
    Ex.endings Ex.linR Ex.follow Ex.coins (Ex.d 100) (fun outs =>
      decide (outs.map (fun o => (o.prob, gainAt Ex.linR o.final o.price / Ex.linR.scale,
          o.given / Ex.linR.scale)) =
        [(1 / 4, Ex.d 7, Ex.d 3), (1 / 4, Ex.d 7, Ex.d 3), (1 / 2, - Ex.d 13, Ex.d 3)]) &&
      outs.all (fun o => decide (0 < feeSum Ex.linR (fills o.final.log)))) = true := by
  refine ⟨?_, ?_, by decide +kernel⟩
  · have q := fun p => (C152_quotes_and_trades p).1
    have t := (C152_quotes_and_trades (Ex.d 90)).2.1 ⟨3, Ex.d 90, Ex.d 1, .sell⟩ (Int.le_refl _)
    simp only [Ex.coins, fair, quotes, meanPrice, q, Ex.d]
    norm_num
    exact t
  · simp only [Ex.coins, meanPrice, Ex.d]
    norm_num

/-- Candles are another matter: they fill at the far end of the range, whatever the quotes are
afterwards. A market whose quotes never move pays for certain to a user who bids and offers. -/
theorem C152_candles_are_generous : ∃ (c : Cfg) (user : Strategy) (m : Market) (p : Int)
    (outs : List Ending), soundConfig c ∧ c.env.kind = .linear ∧ (∀ seen, ∀ op ∈ user seen, own op) ∧
    fairPrices (0, 0) m ∧ meanPrice p m = p ∧ play c user m p (State.init c) [] 0 = .ok outs ∧
    ∀ o ∈ outs, o.prob = 1 ∧ o.final.pos = .neutral ∧ c.start < equity o.final ∧
      profitRounding c (fills o.final.log) < gainAt c o.final o.price := by
  have h : Ex.endings Ex.linR Ex.quoteBoth Ex.shadows (Ex.d 100) (fun outs =>
      outs.all (fun o => decide (o.prob = 1 ∧ o.final.pos = .neutral ∧ Ex.linR.start < equity o.final ∧
        profitRounding Ex.linR (fills o.final.log) < gainAt Ex.linR o.final o.price))) = true := by
    decide +kernel
  obtain ⟨outs, h1, h2⟩ := Ex.endings_play h
  refine ⟨Ex.linR, Ex.quoteBoth, Ex.shadows, Ex.d 100, outs, by unfold soundConfig; decide, rfl,
    Ex.quoteBoth_own, ?_, ?_, h1, fun o ho => of_decide_eq_true (List.all_eq_true.1 h2 o ho)⟩
  · simp only [Ex.shadows, fairPrices, quotes, meanPrice, Ex.d]
    norm_num
  · simp only [Ex.shadows, meanPrice]

end Lfest
