import Verif.Lemmas.Solvency
import Verif.Props.Risk
import Verif.Props.Dust
import Verif.Props.Config

/-!
# A position that survives an update is covered by its margin (C78)
-/

namespace Lfest

open Spec

/-! ## C78 -/

/-- C78, linear contracts: if an update is answered `Ok`, then the margin of the position held when
it arrived covers the loss of that position at the quotes of the update, up to rounding. What is
left of the margin is at least the difference between initial and maintenance margin. -/
theorem C78_linear_covered (c : Cfg) (v : Nat) (fraction : Int) (s s' : State) (u : UpdateArg)
    (ups : List LimitUpdate) (hc : Built c v fraction) (hk : c.env.kind = .linear)
    (hr : Reachable c s) (hst : step c s (.update u) = .ok (s', .update (.ok ups))) :
    Spec.abs s.pos.quantity * s.pos.entryPrice *
        (c.spec.initMarginReq - c.spec.maintenanceMargin) ≤
      (s.acct.balance .positionMargin +
        Spec.pnl c.env s.pos.entryPrice (exitPrice s.pos.quantity (quotesAfter s.ms u))
          s.pos.quantity) * c.scale * c.scale +
      Ref.rounding c (fills s.log) + Spec.abs s.pos.quantity * c.scale + c.scale * c.scale := by
  obtain ⟨hm0, hmi, hiS, _⟩ := C47_margin_rates c v fraction hc
  have hS := scale_pos c.env
  have hnb : ¬ breach c s.pos (quotesAfter s.ms u) := by
    intro hb
    have := ((C29_liquidation_iff_breach c s s' u _ hr hst).1).2 hb
    simp at this
  have hM := C11_margin_of_position c s hk (by omega) hr
  have he := hr.entry_nonneg
  have hw := hr.linv.wf
  have hcS : c.scale = c.env.scale := rfl
  rw [hcS] at hM ⊢
  unfold Spec.breach at hnb
  simp only [Spec.pnl, hk, Spec.value]
  generalize hqd : s.pos.quantity = q at *
  generalize s.pos.entryPrice = e at *
  generalize quotesAfter s.ms u = qu at *
  generalize c.spec.initMarginReq = i at *
  generalize hmd : c.spec.maintenanceMargin = m at *
  generalize s.acct.balance .positionMargin = M at *
  have hSS : 0 ≤ c.env.scale * c.env.scale := Int.mul_nonneg (by omega) (by omega)
  rcases Int.lt_trichotomy q 0 with h0 | h0 | h0
  · have ha : qu.2 ≤ (e * (c.env.scale + m)).tdiv c.env.scale := by
      have : ¬ shortLimit c e < qu.2 := fun h => hnb (Or.inr ⟨h0, h⟩)
      simp only [shortLimit, hmd] at this
      omega
    have := survive_linear_short hS hm0 he (by omega : 0 < -q) ha
    have a1 : Spec.abs q = -q := by unfold Spec.abs; split <;> omega
    have a2 : exitPrice q qu = qu.2 := by unfold exitPrice; split <;> omega
    rw [a1] at *
    rw [a2]
    have a3 : ((-q * e).tdiv c.env.scale - (-q * qu.2).tdiv c.env.scale) =
        (q * qu.2).tdiv c.env.scale - (q * e).tdiv c.env.scale := by
      rw [Int.neg_mul, Int.neg_mul, Int.neg_tdiv, Int.neg_tdiv]; omega
    rw [a3] at this
    have a4 : 0 ≤ -q * c.env.scale := Int.mul_nonneg (by omega) (by omega)
    rw [Int.add_mul, Int.add_mul, Int.mul_sub]
    generalize ((q * qu.2).tdiv c.env.scale - (q * e).tdiv c.env.scale) * c.env.scale *
      c.env.scale = P at *
    unfold Spec.abs at hM
    split at hM <;> omega
  · subst h0
    have a1 : Spec.abs 0 = 0 := rfl
    rw [a1] at *
    simp only [Int.zero_mul, Int.zero_tdiv, Int.sub_zero, Int.add_zero] at *
    unfold Spec.abs at hM
    split at hM <;> omega
  · have ha : (e * (c.env.scale - m)).tdiv c.env.scale ≤ qu.1 := by
      have : ¬ qu.1 < longLimit c e := fun h => hnb (Or.inl ⟨h0, h⟩)
      simp only [longLimit, hmd] at this
      omega
    have := survive_linear_long hS (by omega) he h0 ha
    have a1 : Spec.abs q = q := by unfold Spec.abs; split <;> omega
    have a2 : exitPrice q qu = qu.1 := by unfold exitPrice; split <;> omega
    rw [a1] at *
    rw [a2]
    rw [Int.add_mul, Int.add_mul, Int.mul_sub]
    generalize ((q * qu.1).tdiv c.env.scale - (q * e).tdiv c.env.scale) * c.env.scale *
      c.env.scale = P at *
    unfold Spec.abs at hM
    split at hM <;> omega

/-- C78, inverse contracts, short position opened by one fill: the same. `value q entry` is the
value of the position at entry. -/
theorem C78_inverse_short_covered (c : Cfg) (v : Nat) (fraction : Int) (s s' : State)
    (u : UpdateArg) (ups : List LimitUpdate) (f : Fill) (fs : List Fill) (hc : Built c v fraction)
    (hk : c.env.kind = .inverse) (hr : Reachable c s)
    (hf : fills s.log = f :: fs) (ht : roundTrips fs) (hq : s.pos.quantity < 0)
    (ha : 0 < (quotesAfter s.ms u).2)
    (hst : step c s (.update u) = .ok (s', .update (.ok ups))) :
    Spec.value c.env (-s.pos.quantity) s.pos.entryPrice *
        (c.spec.initMarginReq - c.spec.maintenanceMargin) ≤
      (s.acct.balance .positionMargin +
        Spec.pnl c.env s.pos.entryPrice (quotesAfter s.ms u).2 s.pos.quantity + 2) * c.scale := by
  obtain ⟨hm0, hmi, hiS, _⟩ := C47_margin_rates c v fraction hc
  have hS := scale_pos c.env
  have hnb : ¬ breach c s.pos (quotesAfter s.ms u) := by
    intro hb
    have := ((C29_liquidation_iff_breach c s s' u _ hr hst).1).2 hb
    simp at this
  obtain ⟨hp0, hp1, hab, hM⟩ := opened_once hr hf ht
  have hcS : c.scale = c.env.scale := rfl
  have hb : (quotesAfter s.ms u).2 ≤ shortLimit c s.pos.entryPrice :=
    Int.not_lt.1 fun h => hnb (Or.inr ⟨hq, h⟩)
  have ha1 : Spec.abs s.pos.quantity = -s.pos.quantity := by unfold Spec.abs; split <;> omega
  rw [ha1] at hM
  have h := survive_inverse_short (i := c.spec.initMarginReq) hS hm0 (by omega) hp0 (by omega : 0 < -s.pos.quantity) ha hb
  rw [hM, hcS]
  simp only [Spec.share, Spec.pnl, Spec.value, hk]
  have a3 : (-s.pos.quantity * c.env.scale).tdiv (quotesAfter s.ms u).2 -
      (-s.pos.quantity * c.env.scale).tdiv s.pos.entryPrice =
      (s.pos.quantity * c.env.scale).tdiv s.pos.entryPrice -
      (s.pos.quantity * c.env.scale).tdiv (quotesAfter s.ms u).2 := by
    rw [Int.neg_mul, Int.neg_tdiv, Int.neg_tdiv]; omega
  rw [a3] at h
  exact h

/-- C78, inverse contracts, long position opened by one fill: the same, provided that the
maintenance margin rate `m` is at most `i / (1 + i)` of the initial margin rate `i`. -/
theorem C78_inverse_long_covered (c : Cfg) (v : Nat) (fraction : Int) (s s' : State)
    (u : UpdateArg) (ups : List LimitUpdate) (f : Fill) (fs : List Fill) (hc : Built c v fraction)
    (hk : c.env.kind = .inverse) (hr : Reachable c s)
    (hf : fills s.log = f :: fs) (ht : roundTrips fs) (hq : 0 < s.pos.quantity)
    (hb : 0 < (quotesAfter s.ms u).1)
    (hm : c.spec.maintenanceMargin * c.scale ≤
      c.spec.initMarginReq * (c.scale - c.spec.maintenanceMargin))
    (hst : step c s (.update u) = .ok (s', .update (.ok ups))) :
    0 ≤ (s.acct.balance .positionMargin +
        Spec.pnl c.env s.pos.entryPrice (quotesAfter s.ms u).1 s.pos.quantity) *
          s.pos.entryPrice * (c.scale - c.spec.maintenanceMargin) +
      2 * s.pos.entryPrice * c.scale +
      Spec.value c.env s.pos.quantity (quotesAfter s.ms u).1 * c.scale := by
  obtain ⟨hm0, hmi, hiS, _⟩ := C47_margin_rates c v fraction hc
  have hS := scale_pos c.env
  have hnb : ¬ breach c s.pos (quotesAfter s.ms u) := by
    intro hb
    have := ((C29_liquidation_iff_breach c s s' u _ hr hst).1).2 hb
    simp at this
  obtain ⟨hp0, hp1, hab, hM⟩ := opened_once hr hf ht
  have hcS : c.scale = c.env.scale := rfl
  have hl : longLimit c s.pos.entryPrice ≤ (quotesAfter s.ms u).1 :=
    Int.not_lt.1 fun h => hnb (Or.inl ⟨hq, h⟩)
  have ha1 : Spec.abs s.pos.quantity = s.pos.quantity := by unfold Spec.abs; split <;> omega
  rw [ha1] at hM
  rw [hcS] at hm
  have h := survive_inverse_long hS hm0 (by omega) (by omega) hp0 hq hb hm hl
  rw [hM, hcS]
  simp only [Spec.share, Spec.pnl, Spec.value, hk]
  exact h

/-- Inverse contract at leverage 1 with a maintenance fraction of 0.9. -/
def Ex.tight : Cfg := { inv with spec := { inv.spec with maintenanceMargin := 90000 } }

/-- C78: without the proviso it is false. An inverse contract, leverage 1, maintenance fraction 0.9:
an update is answered `Ok` although at its quotes the long position has lost more than the account
holds, and selling the position then leaves a negative wallet. -/
theorem C78_inverse_long_exposed :
    ∃ (c : Cfg) (v : Nat) (fraction : Int) (s s' t : State) (u : UpdateArg)
      (ups : List LimitUpdate) (q : Int) (o : FilledMarket),
      Built c v fraction ∧ c.env.kind = .inverse ∧ Reachable c s ∧ 0 < s.pos.quantity ∧
      step c s (.update u) = .ok (s', .update (.ok ups)) ∧
      s'.acct.balance .wallet + s'.acct.balance .positionMargin + s'.acct.balance .orderMargin +
        Spec.pnl c.env s'.pos.entryPrice (quotesAfter s.ms u).1 s'.pos.quantity < 0 ∧
      step c s' (.market .sell q 0) = .ok (t, .market (.ok o)) ∧ t.acct.balance .wallet < 0 := by
  obtain ⟨s, s', r, hr, hs, hp⟩ := Ex.last_reach (c := Ex.tight)
    (ops := [.update (.bba ⟨Ex.d 100, Ex.d 101, 1⟩), .market .buy (Ex.d 100000) 0])
    (op := .update (.bba ⟨Ex.d 11, Ex.d 12, 2⟩))
    (p := fun s s' r =>
      decide (r = .update (.ok []) ∧ 0 < s.pos.quantity ∧
        s'.acct.balance .wallet + s'.acct.balance .positionMargin + s'.acct.balance .orderMargin +
          Spec.pnl Ex.tight.env s'.pos.entryPrice (Ex.d 11) s'.pos.quantity < 0) &&
      match step Ex.tight s' (.market .sell (Ex.d 100000) 0) with
      | .ok (t, .market (.ok _)) => decide (t.acct.balance .wallet < 0)
      | _ => false)
    (by decide +kernel)
  simp only [Bool.and_eq_true, decide_eq_true_eq] at hp
  obtain ⟨⟨h1, h2, h3⟩, h4⟩ := hp
  subst h1
  split at h4
  · next t o ht =>
    exact ⟨Ex.tight, 1, 90000, s, s', t, _, [], Ex.d 100000, o,
      ⟨100000, .default 100000, ⟨none, none, 1000⟩, 20, 60, by decide +kernel, by decide +kernel,
        by decide +kernel⟩, rfl, hr, h2, hs, h3, ht, by simpa using h4⟩
  · simp at h4

/-- The hypotheses of `C78_linear_covered` are met with a long and a short position; the unrealised
loss is most of the margin. -/
example : Built Ex.lin 1 50000 ∧
    Ex.last Ex.lin [.update (.bba ⟨Ex.d 100, Ex.d 101, 1⟩), .market .buy (Ex.d 5) 0]
      (.update (.bba ⟨Ex.d 51, Ex.d 52, 2⟩)) (fun s _ r => decide (r = .update (.ok []) ∧
        s.acct.balance .positionMargin = Ex.d 505 ∧
        Spec.pnl Ex.lin.env s.pos.entryPrice (Ex.d 51) s.pos.quantity = -Ex.d 250)) = true ∧
    Ex.last Ex.lin [.update (.bba ⟨Ex.d 100, Ex.d 101, 1⟩), .market .sell (Ex.d 5) 0]
      (.update (.bba ⟨Ex.d 148, Ex.d 149, 2⟩)) (fun s _ r => decide (r = .update (.ok []) ∧
        s.acct.balance .positionMargin = Ex.d 500 ∧
        Spec.pnl Ex.lin.env s.pos.entryPrice (Ex.d 149) s.pos.quantity = -Ex.d 245)) = true :=
  ⟨⟨100000, .default 100000, ⟨none, none, 1000⟩, 20, 60, by decide +kernel, by decide +kernel,
    by decide +kernel⟩, by decide +kernel, by decide +kernel⟩

/-- The hypotheses of the inverse theorems are met, at the largest maintenance fraction they
allow (one half at leverage 1): the long position has lost its whole margin at the lowest bid it
survives. -/
example : Built Ex.inv 1 50000 ∧
    Ex.inv.spec.maintenanceMargin * Ex.inv.scale =
      Ex.inv.spec.initMarginReq * (Ex.inv.scale - Ex.inv.spec.maintenanceMargin) ∧
    Ex.last Ex.inv [.update (.bba ⟨Ex.d 99, Ex.d 100, 1⟩), .market .buy (Ex.d 100) 0]
      (.update (.bba ⟨Ex.d 50, Ex.d 51, 2⟩)) (fun s _ r => decide (r = .update (.ok []) ∧
        (fills s.log).length = 1 ∧
        s.acct.balance .positionMargin = Ex.d 1 ∧
        Spec.pnl Ex.inv.env s.pos.entryPrice (Ex.d 50) s.pos.quantity = -Ex.d 1)) = true ∧
    Ex.last Ex.inv [.update (.bba ⟨Ex.d 100, Ex.d 101, 1⟩), .market .sell (Ex.d 1000) 0]
      (.update (.bba ⟨Ex.d 124, Ex.d 125, 2⟩)) (fun s _ r => decide (r = .update (.ok []) ∧
        (fills s.log).length = 1 ∧
        s.acct.balance .positionMargin = Ex.d 10 ∧
        Spec.pnl Ex.inv.env s.pos.entryPrice (Ex.d 125) s.pos.quantity = -Ex.d 2)) = true :=
  ⟨⟨100000, .default 100000, ⟨none, none, 1000⟩, 20, 60, by decide +kernel, by decide +kernel,
    by decide +kernel⟩, by decide +kernel, by decide +kernel, by decide +kernel⟩

end Lfest
