import Verif.SpecFairInverse
import Verif.Props.Fair
import Verif.Props.Average
import Mathlib.Tactic.FieldSimp
import Mathlib.Tactic.Positivity

/-!
# C156: nobody who is never short can expect to gain on a fair market of an inverse contract
-/

namespace Lfest

open Spec Fair FairInverse

/-- Value of what was bought less value of what was sold, not rounded, per unit of scale -/
def exactCoins : List Fill → Rat
  | [] => 0
  | f :: fs => f.signed * (1 / f.price) + exactCoins fs

theorem exactCoins_join (xs ys : List Fill) : exactCoins (xs ++ ys) = exactCoins xs + exactCoins ys := by
  induction xs with
  | nil => simp [exactCoins]
  | cons f fs ih => simp only [List.cons_append, exactCoins, ih]; ring

theorem exactCoins_bound {p : Int} (hp : 0 < p) : ∀ l : List Fill,
    (∀ f ∈ l, 0 < f.price ∧ f.signed * (p - f.price) ≤ 0) → exactCoins l ≤ netBought l * (1 / (p : Rat))
  | [], _ => by simp [exactCoins, netBought]
  | f :: l, h => by
    have i := exactCoins_bound hp l (fun x hx => h x (by simp [hx]))
    obtain ⟨h1, h2⟩ := h f (by simp)
    have p1 : (0 : Rat) < f.price := by exact_mod_cast h1
    have p2 : (0 : Rat) < p := by exact_mod_cast hp
    have h3 : (f.signed : Rat) * (p - f.price) ≤ 0 := by exact_mod_cast h2
    have k : (f.signed : Rat) * (1 / f.price) - f.signed * (1 / p) =
        (f.signed * (p - f.price)) / (f.price * p) := by
      field_simp
    have k2 : (f.signed * (p - f.price)) / (f.price * p) ≤ (0 : Rat) :=
      div_nonpos_of_nonpos_of_nonneg h3 (by positivity)
    simp only [exactCoins, netBought]
    push_cast
    linarith

/-- Value of the fills less value of the position -/
def netInverse (s : State) (p : Int) : Rat := exactCoins (fills s.log) - s.pos.quantity * (1 / (p : Rat))

theorem netInverse_step {c : Cfg} {s s' : State} {op : Op} {r : Resp} (hr : Reachable c s)
    (h : step c s op = .ok (s', r)) {p : Int} (hp : 0 < p) (h1 : s'.ms.bid ≤ p) (h2 : p ≤ s'.ms.ask)
    (ho : own op ∨ ∃ u, op = .update u ∧ notGenerous u p) : netInverse s' p ≤ netInverse s p := by
  have e := step_fillsBetween h
  have k := exactCoins_bound hp (fillsBetween s s') (fun f hf =>
    ⟨((hr.step h).fill_price f (by rw [e]; simp [hf])).1, fair_step hr h h1 h2 ho f hf⟩)
  have q1 := pos_netBought (hr.step h)
  rw [e, netBought_join, ← pos_netBought hr] at q1
  unfold netInverse
  rw [q1, e, exactCoins_join]
  push_cast
  linarith

theorem netInverse_history {c : Cfg} {p : Int} (hp : 0 < p) : ∀ (ops : List Op) {s s' : State}
    {tr : List (Op × Resp)}, Reachable c s → history c s ops = .ok (s', tr) → (∀ op ∈ ops, own op) →
    s.ms.bid ≤ p → p ≤ s.ms.ask → netInverse s' p ≤ netInverse s p ∧ s'.ms = s.ms
  | [], s, s', tr, hr, h, _, _, _ => by
    simp only [history, ok_inj, Prod.mk.injEq] at h
    obtain ⟨rfl, rfl⟩ := h
    exact ⟨le_refl _, rfl⟩
  | op :: ops, s, s', tr, hr, h, ho, h1, h2 => by
    simp only [history, bind_ok, ok_inj, Prod.mk.injEq] at h
    obtain ⟨⟨t, r⟩, hst, ⟨v, tr1⟩, hh, rfl, rfl⟩ := h
    have e := own_ms hr hst (ho op (by simp))
    obtain ⟨i1, i2⟩ := netInverse_history (p := p) hp ops (hr.step hst) hh
      (fun x hx => ho x (by simp [hx])) (by rw [e]; exact h1) (by rw [e]; exact h2)
    have k := netInverse_step (p := p) hr hst hp (by rw [e]; exact h1) (by rw [e]; exact h2)
      (.inl (ho op (by simp)))
    exact ⟨le_trans i1 k, i2.trans e⟩

theorem inverse_play {c : Cfg} {user : Strategy} (hu : ∀ seen, ∀ op ∈ user seen, own op) :
    ∀ (m : Market) (p : Int) (s : State) (seen : List (Op × Resp)) (g0 : Int) (outs : List Ending),
    Reachable c s → fairInverse (s.ms.bid, s.ms.ask) m → play c user m p s seen g0 = .ok outs →
    mean (fun o => netInverse o.final o.price) outs ≤
      netInverse s p - s.pos.quantity * (meanInverse p m - 1 / p) ∧
    mean (fun _ => 1) outs = 1 ∧
    ∀ o ∈ outs, 0 ≤ o.prob ∧ Reachable c o.final
  | .over, p, s, seen, g0, outs, hr, _, h => by
    simp only [play, ok_inj] at h
    subst h
    refine ⟨by simp [mean, meanInverse], by simp [mean], fun o ho => ?_⟩
    simp only [List.mem_singleton] at ho
    subst ho
    exact ⟨by norm_num, hr⟩
  | .news u p' m, p, s, seen, g0, outs, hr, hf, h => by
    simp only [play, bind_ok] at h
    obtain ⟨⟨s1, r⟩, hst, ⟨s2, tr⟩, hh, h⟩ := h
    obtain ⟨f0, f1, f2, f3, f4, f5⟩ := hf
    obtain ⟨_, _, hq⟩ := C43_update c s s1 u _ hr hst
    rw [quotes_eq] at hq
    rw [← hq] at f1 f2 f5
    have k1 := netInverse_step (p := p') hr hst f0 f1 f2 (.inr ⟨u, rfl, f3⟩)
    obtain ⟨k2, k3⟩ := netInverse_history (p := p') f0 _ (hr.step hst) hh (hu _) f1 f2
    have k2 : netInverse s2 p' ≤ netInverse s1 p' := k2
    have k3 : s2.ms = s1.ms := k3
    obtain ⟨k4, _⟩ := history_fills _ (hr.step hst) hh
    obtain ⟨i1, i2, i3⟩ := inverse_play hu m p' s2 _ _ outs k4 (by rw [k3]; exact f5) h
    refine ⟨?_, i2, i3⟩
    simp only [meanInverse]
    rw [f4] at i1 ⊢
    have e : netInverse s p' = netInverse s p - s.pos.quantity * (1 / (p' : Rat) - 1 / p) := by
      unfold netInverse; ring
    rw [sub_self, mul_zero, sub_zero] at i1
    linarith
  | .chance x a b, p, s, seen, g0, outs, hr, hf, h => by
    simp only [play, bind_ok, ok_inj] at h
    obtain ⟨o1, h1, o2, h2, rfl⟩ := h
    obtain ⟨f1, f2, f3, f4⟩ := hf
    obtain ⟨a1, a2, a3⟩ := inverse_play hu a p s seen g0 o1 hr f3 h1
    obtain ⟨b1, b2, b3⟩ := inverse_play hu b p s seen g0 o2 hr f4 h2
    refine ⟨?_, ?_, fun o ho => ?_⟩
    · rw [ending_mean_append, ending_mean_scale _ (fun _ _ => rfl), ending_mean_scale _ (fun _ _ => rfl)]
      have c1 := mul_le_mul_of_nonneg_left a1 f1
      have c2 := mul_le_mul_of_nonneg_left b1 (sub_nonneg.2 f2)
      simp only [meanInverse]
      linarith
    · rw [ending_mean_append, ending_mean_scale _ (fun _ _ => rfl), ending_mean_scale _ (fun _ _ => rfl),
        a2, b2]
      ring
    · rw [List.mem_append, List.mem_map, List.mem_map] at ho
      obtain ⟨y, hy, rfl⟩ | ⟨y, hy, rfl⟩ := ho
      · exact ⟨mul_nonneg f1 (a3 y hy).1, (a3 y hy).2⟩
      · exact ⟨mul_nonneg (sub_nonneg.2 f2) (b3 y hy).1, (b3 y hy).2⟩

theorem tdiv_close {a b : Int} (ha : 0 ≤ a) (hb : 0 < b) :
    ((a.tdiv b : Int) : Rat) ≤ a / b ∧ (a : Rat) / b ≤ (a.tdiv b : Int) + 1 := by
  rw [Int.tdiv_eq_ediv_of_nonneg ha]
  have hb' : (0 : Rat) < b := by exact_mod_cast hb
  have h1 : a / b * b ≤ a := Int.ediv_mul_le a (by omega)
  have h2 : a < (a / b + 1) * b := Int.lt_ediv_add_one_mul_self a hb
  constructor
  · rw [le_div_iff₀ hb']; exact_mod_cast h1
  · rw [div_le_iff₀ hb']; exact_mod_cast h2.le

theorem coins_bound {c : Cfg} (hk : c.env.kind = .inverse) : ∀ l : List Fill,
    (∀ f ∈ l, 0 < f.price ∧ 0 < f.qty) →
    (coins c l : Rat) ≤ c.env.scale * exactCoins l + l.length
  | [], _ => by simp [coins, exactCoins]
  | f :: l, h => by
    have i := coins_bound hk l (fun x hx => h x (by simp [hx]))
    obtain ⟨h1, h2⟩ := h f (by simp)
    have hs : 0 < c.env.scale := scale_pos c.env
    obtain ⟨t1, t2⟩ := tdiv_close (a := f.qty * c.env.scale) (Int.mul_nonneg h2.le hs.le) h1
    have e : ((f.qty * c.env.scale : Int) : Rat) / f.price = c.env.scale * (f.qty * (1 / f.price)) := by
      push_cast; ring
    rw [e] at t1 t2
    simp only [coins, exactCoins, List.length_cons, value, hk, Fill.signed]
    cases f.side <;> simp only <;> push_cast <;> linarith

/-- C156: on a market that is fair for an inverse contract, the mean of what a new account gains before
fees, open position included, is at most the mean of the rounding, if it is never short. -/
theorem C156_longs_expect_no_gain (c : Cfg) (user : Strategy) (m : Market) (p : Int)
    (outs : List Ending) (hk : c.env.kind = .inverse) (hu : ∀ seen, ∀ op ∈ user seen, own op)
    (hf : fairInverse (0, 0) m) (hp : meanInverse p m = 1 / p)
    (h : play c user m p (State.init c) [] 0 = .ok outs)
    (hl : ∀ o ∈ outs, onlyLong c (fills o.final.log)) :
    (mean (fun _ => 1) outs = 1 ∧ ∀ o ∈ outs, 0 ≤ o.prob) ∧
    mean (fun o => markedGain c o.final o.price) outs ≤
      mean (fun o => (((fills o.final.log).length + averagingRounding c (fills o.final.log) : Int) : Rat))
        outs := by
  obtain ⟨k1, k2, k3⟩ := inverse_play hu m p (State.init c) [] 0 outs ⟨[], rfl⟩ hf h
  refine ⟨⟨k2, fun o ho => (k3 o ho).1⟩, ?_⟩
  have z : netInverse (State.init c) p = 0 := by
    simp [netInverse, State.init, fills, exactCoins, Position.quantity]
  have z2 : (State.init c).pos.quantity = 0 := rfl
  rw [hp, sub_self, mul_zero, sub_zero, z] at k1
  have e : mean (fun o => markedGain c o.final o.price) outs ≤
      mean (fun o => c.env.scale * netInverse o.final o.price +
        (((fills o.final.log).length + averagingRounding c (fills o.final.log) : Int) : Rat)) outs := by
    refine ending_mean_le outs (fun o ho => ⟨(k3 o ho).1, ?_⟩)
    obtain ⟨_, hr⟩ := k3 o ho
    have b := coins_bound hk (fills o.final.log) hr.fill_price
    obtain ⟨ops, hrun⟩ := hr
    have a := C129_longs_are_credited_no_more c ops o.final hk hrun (hl o ho)
    have a' : ((equity o.final - c.start + o.final.feesPaid +
        value c.env o.final.pos.quantity o.final.pos.entryPrice : Int) : Rat) ≤
        (coins c (fills o.final.log) + averagingRounding c (fills o.final.log) : Int) := by
      exact_mod_cast a
    unfold markedGain netInverse
    have e2 : (o.final.pos.quantity : Rat) * c.env.scale / o.price =
        c.env.scale * (o.final.pos.quantity * (1 / (o.price : Rat))) := by ring
    rw [e2]
    push_cast at a' ⊢
    linarith
  have e3 : mean (fun o => c.env.scale * netInverse o.final o.price) outs =
      c.env.scale * mean (fun o => netInverse o.final o.price) outs := by
    clear * -
    induction outs with
    | nil => simp [mean]
    | cons o os ih => simp only [mean, ih]; ring
  rw [ending_mean_add, e3] at e
  have hs : (0 : Rat) ≤ c.env.scale := by exact_mod_cast (scale_pos c.env).le
  have := mul_le_mul_of_nonneg_left k1 hs
  linarith

/-- C156, no arbitrage for longs: if one ending with positive probability has a gain above the rounding, in
another the gain is below it. -/
theorem C156_longs_have_no_arbitrage (c : Cfg) (user : Strategy) (m : Market) (p : Int)
    (outs : List Ending) (hk : c.env.kind = .inverse) (hu : ∀ seen, ∀ op ∈ user seen, own op)
    (hf : fairInverse (0, 0) m) (hp : meanInverse p m = 1 / p)
    (h : play c user m p (State.init c) [] 0 = .ok outs)
    (hl : ∀ o ∈ outs, onlyLong c (fills o.final.log)) (o : Ending) (ho : o ∈ outs) (hpos : 0 < o.prob)
    (hw : (((fills o.final.log).length + averagingRounding c (fills o.final.log) : Int) : Rat) <
      markedGain c o.final o.price) :
    ∃ o' ∈ outs, 0 < o'.prob ∧ markedGain c o'.final o'.price <
      (((fills o'.final.log).length + averagingRounding c (fills o'.final.log) : Int) : Rat) := by
  obtain ⟨⟨_, k3⟩, k⟩ := C156_longs_expect_no_gain c user m p outs hk hu hf hp h hl
  by_contra hno
  let g : Ending → Rat := fun x =>
    (((fills x.final.log).length + averagingRounding c (fills x.final.log) : Int) : Rat)
  let f : Ending → Rat := fun x => markedGain c x.final x.price - g x
  have hlt : 0 < mean f outs := by
    refine (ending_mean_pos outs fun x hx => ⟨k3 x hx, fun hx0 => ?_⟩).2 o ho hpos (sub_pos.2 hw)
    by_contra hneg
    exact hno ⟨x, hx, hx0, sub_neg.1 (not_le.1 hneg)⟩
  have e : mean (fun o => markedGain c o.final o.price) outs = mean (fun x => f x + g x) outs := by
    congr 1
    funext x
    simp only [f]
    ring
  rw [e, ending_mean_add] at k
  have k : mean f outs + mean g outs ≤ mean g outs := k
  linarith


namespace Ex

/-- A coin decides whether the price rises from 120 to 150 or falls to 100. One over the price is fair. -/
def inverseCoin : Market :=
  .news (.bba ⟨d 119, d 121, 1⟩) (d 120) (.chance (1 / 2)
    (.news (.bba ⟨d 149, d 151, 2⟩) (d 150) .over) (.news (.bba ⟨d 99, d 101, 2⟩) (d 100) .over))

/-- Buys at first, sells if the price has risen and keeps the position otherwise -/
def takeProfit : Strategy := fun seen =>
  if seen.length = 1 then [.market .buy (d 1000) 1]
  else if seen.any (fun x => x.1 == .update (.bba ⟨d 149, d 151, 2⟩)) then [.market .sell (d 1000) 2]
  else []

end Ex

theorem Ex.takeProfit_own : ∀ seen, ∀ op ∈ Ex.takeProfit seen, own op := by
  intro seen op h
  unfold Ex.takeProfit at h
  split at h
  · simp only [List.mem_cons, List.not_mem_nil, or_false] at h
    obtain rfl := h; trivial
  · split at h
    · simp only [List.mem_cons, List.not_mem_nil, or_false] at h
      obtain rfl := h; trivial
    · cases h

/-- The hypotheses of C156 are met, also those on the absence of arbitrage: a user who takes a profit if the price rises and is left with a loss
otherwise. -/
example : Ex.invR.env.kind = .inverse ∧ (∀ seen, ∀ op ∈ Ex.takeProfit seen, own op) ∧
    fairInverse (0, 0) Ex.inverseCoin ∧ meanInverse (Ex.d 120) Ex.inverseCoin = 1 / (Ex.d 120 : Int) ∧
    ∃ outs, play Ex.invR Ex.takeProfit Ex.inverseCoin (Ex.d 120) (State.init Ex.invR) [] 0 = .ok outs ∧
      (∀ o ∈ outs, onlyLong Ex.invR (fills o.final.log)) ∧
      (∃ o ∈ outs, 0 < o.prob ∧ (((fills o.final.log).length +
        averagingRounding Ex.invR (fills o.final.log) : Int) : Rat) < markedGain Ex.invR o.final o.price) ∧
      (∃ o ∈ outs, markedGain Ex.invR o.final o.price < 0) := by
  refine ⟨rfl, Ex.takeProfit_own, ?_, ?_, ?_⟩
  · have q := fun p => (C152_quotes_and_trades p).1
    simp only [Ex.inverseCoin, fairInverse, quotes, meanInverse, q, Ex.d]
    norm_num
  · simp only [Ex.inverseCoin, meanInverse, Ex.d]
    norm_num
  have h : Ex.endings Ex.invR Ex.takeProfit Ex.inverseCoin (Ex.d 120) (fun outs =>
      decide (∀ o ∈ outs, fills o.final.log = [⟨false, .buy, Ex.d 121, Ex.d 1000⟩] ∨
        fills o.final.log = [⟨false, .sell, Ex.d 149, Ex.d 1000⟩, ⟨false, .buy, Ex.d 121, Ex.d 1000⟩]) &&
      decide (∃ o ∈ outs, 0 < o.prob ∧ (((fills o.final.log).length +
        averagingRounding Ex.invR (fills o.final.log) : Int) : Rat) < markedGain Ex.invR o.final o.price) &&
      decide (∃ o ∈ outs, markedGain Ex.invR o.final o.price < 0)) = true := by decide +kernel
  obtain ⟨outs, h1, h2⟩ := Ex.endings_play h
  simp only [Bool.and_eq_true, decide_eq_true_eq] at h2
  refine ⟨outs, h1, fun o ho gs hg => ?_, h2.1.2, h2.2⟩
  obtain e | e := h2.1.1 o ho
  · rw [e, ← List.mem_tails] at hg
    exact (by decide +kernel : ∀ gs ∈ List.tails [(⟨false, .buy, Ex.d 121, Ex.d 1000⟩ : Fill)],
      0 ≤ netBought gs ∧ (netBought gs ≠ 0 → 0 < (ledger Ex.invR gs).entry)) gs hg
  · rw [e, ← List.mem_tails] at hg
    exact (by decide +kernel : ∀ gs ∈ List.tails [(⟨false, .sell, Ex.d 149, Ex.d 1000⟩ : Fill),
        ⟨false, .buy, Ex.d 121, Ex.d 1000⟩],
      0 ≤ netBought gs ∧ (netBought gs ≠ 0 → 0 < (ledger Ex.invR gs).entry)) gs hg

namespace Ex

/-- From 200 the price falls to 120 with probability 3/25 and rises to 220 otherwise. One over the price is
fair. -/
def inverseJump : Market :=
  .news (.bba ⟨d 199, d 201, 1⟩) (d 200) (.chance (3 / 25)
    (.news (.bba ⟨d 119, d 121, 2⟩) (d 120) .over) (.news (.bba ⟨d 219, d 221, 2⟩) (d 220) .over))

/-- Sells at first and sells more if the price has fallen -/
def sellMore : Strategy := fun seen =>
  if seen.length = 1 then [.market .sell (d 1000) 1]
  else if seen.any (fun x => x.1 == .update (.bba ⟨d 119, d 121, 2⟩)) then [.market .sell (d 1000) 2]
  else []

end Ex

theorem Ex.sellMore_own : ∀ seen, ∀ op ∈ Ex.sellMore seen, own op := by
  intro seen op h
  unfold Ex.sellMore at h
  split at h
  · simp only [List.mem_cons, List.not_mem_nil, or_false] at h
    obtain rfl := h; trivial
  · split at h
    · simp only [List.mem_cons, List.not_mem_nil, or_false] at h
      obtain rfl := h; trivial
    · cases h

/-- C156, shorts: this is not so for accounts that are never long. Selling more after a fall has a mean gain
above the rounding and, after fees, above zero on a market that is fair and has a spread. -/
theorem C156_shorts_can_expect_gain :
    ∃ (c : Cfg) (user : Strategy) (m : Market) (p : Int) (outs : List Ending),
      soundConfig c ∧ c.env.kind = .inverse ∧ (∀ seen, ∀ op ∈ user seen, own op) ∧
      fairInverse (0, 0) m ∧ meanInverse p m = 1 / p ∧
      play c user m p (State.init c) [] 0 = .ok outs ∧
      (∀ o ∈ outs, onlyShort c (fills o.final.log)) ∧
      mean (fun o => (((fills o.final.log).length + averagingRounding c (fills o.final.log) : Int) : Rat))
        outs < mean (fun o => markedGain c o.final o.price) outs ∧
      0 < mean (fun o => markedGain c o.final o.price - feeSum c (fills o.final.log)) outs := by
  have h : Ex.endings Ex.invR Ex.sellMore Ex.inverseJump (Ex.d 200) (fun outs =>
      decide (∀ o ∈ outs, fills o.final.log = [⟨false, .sell, Ex.d 199, Ex.d 1000⟩] ∨
        fills o.final.log = [⟨false, .sell, Ex.d 119, Ex.d 1000⟩, ⟨false, .sell, Ex.d 199, Ex.d 1000⟩]) &&
      decide (mean (fun o => (((fills o.final.log).length +
        averagingRounding Ex.invR (fills o.final.log) : Int) : Rat)) outs <
          mean (fun o => markedGain Ex.invR o.final o.price) outs) &&
      decide (0 < mean (fun o => markedGain Ex.invR o.final o.price -
        feeSum Ex.invR (fills o.final.log)) outs)) = true := by
    decide +kernel
  obtain ⟨outs, h1, h2⟩ := Ex.endings_play h
  simp only [Bool.and_eq_true, decide_eq_true_eq] at h2
  refine ⟨Ex.invR, Ex.sellMore, Ex.inverseJump, Ex.d 200, outs, by unfold soundConfig; decide, rfl,
    Ex.sellMore_own, ?_, ?_, h1, fun o ho gs hg => ?_, h2.1.2, h2.2⟩
  · have q := fun p => (C152_quotes_and_trades p).1
    simp only [Ex.inverseJump, fairInverse, quotes, meanInverse, q, Ex.d]
    norm_num
  · simp only [Ex.inverseJump, meanInverse, Ex.d]
    norm_num
  obtain e | e := h2.1.1 o ho
  · rw [e, ← List.mem_tails] at hg
    exact (by decide +kernel : ∀ gs ∈ List.tails [(⟨false, .sell, Ex.d 199, Ex.d 1000⟩ : Fill)],
      netBought gs ≤ 0 ∧ (netBought gs ≠ 0 → 0 < (ledger Ex.invR gs).entry)) gs hg
  · rw [e, ← List.mem_tails] at hg
    exact (by decide +kernel : ∀ gs ∈ List.tails [(⟨false, .sell, Ex.d 119, Ex.d 1000⟩ : Fill),
        ⟨false, .sell, Ex.d 199, Ex.d 1000⟩],
      netBought gs ≤ 0 ∧ (netBought gs ≠ 0 → 0 < (ledger Ex.invR gs).entry)) gs hg

end Lfest
