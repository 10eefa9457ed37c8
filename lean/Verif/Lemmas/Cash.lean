import Verif.Lemmas.Prices
import Verif.Lemmas.Risk

/-! Realised profit against the cash flow of the fills, for linear contracts. -/

namespace Lfest

open Spec

theorem pnl_bounds {e : Env} (hk : e.kind = .linear) {a b q : Int} (ha : 0 ≤ a) (hb : 0 ≤ b)
    (hq : 0 ≤ q) :
    Spec.pnl e a b q * e.scale - q * (b - a) < e.scale ∧
    q * (b - a) - Spec.pnl e a b q * e.scale < e.scale := by
  have hs := scale_pos e
  simp only [Spec.pnl, value, hk]
  obtain ⟨a1, a2, _⟩ := tdiv_bounds (Int.mul_nonneg hq ha) hs
  obtain ⟨b1, b2, _⟩ := tdiv_bounds (Int.mul_nonneg hq hb) hs
  rw [Int.sub_mul, Int.mul_sub]
  omega

/-- One fill: profit, cost and the value of the position at its entry price keep their sum, up to two
units and one unit of price for the whole position after the fill. -/
theorem cash_step {c : Cfg} (hk : c.env.kind = .linear) {l : Ledger} (he : 0 ≤ l.entry) {f : Fill}
    (hp : 0 < f.price) (hq : 0 < f.qty) :
    let before := l.realised * c.scale - l.qty * l.entry
    let after := (l.fill c f).realised * c.scale + f.signed * f.price -
      (l.fill c f).qty * (l.fill c f).entry
    after - before ≤ 2 * c.scale + Spec.abs (l.fill c f).qty ∧
    before - after ≤ 2 * c.scale + Spec.abs (l.fill c f).qty := by
  have hs : 0 < c.scale := scale_pos c.env
  have habs : 0 ≤ Spec.abs (l.fill c f).qty := by unfold Spec.abs; split <;> omega
  dsimp only
  generalize hD : l.realised * c.scale - l.qty * l.entry = D
  by_cases h0 : l.qty = 0
  · rw [fill_open c f h0] at habs ⊢
    simp only at habs ⊢
    rw [h0] at hD
    simp only [Int.zero_mul] at hD
    omega
  · by_cases hd : (0 < l.qty ∧ f.side = .buy) ∨ (l.qty < 0 ∧ f.side = .sell)
    · rw [fill_enlarge c h0 hd] at habs ⊢
      have hq0 : 0 < Spec.abs l.qty := by unfold Spec.abs; split <;> omega
      obtain ⟨w1, w2, w3⟩ := weighted_bounds c.env he (Int.le_of_lt hp) (Int.le_of_lt hq0)
        (Int.le_of_lt hq) (by omega)
      generalize weighted c.env l.entry (Spec.abs l.qty) f.price f.qty = E at *
      rw [show c.env.scale = c.scale from rfl] at w3
      simp only at habs ⊢
      rcases hd with ⟨h, hd⟩ | ⟨h, hd⟩
      · have e1 : Spec.abs l.qty = l.qty := by unfold Spec.abs; split <;> omega
        have e2 : f.signed = f.qty := by simp [Fill.signed, hd]
        have e3 : Spec.abs (l.qty + f.qty) = l.qty + f.qty := by unfold Spec.abs; split <;> omega
        rw [e2, e3]
        rw [e1] at w2 w3
        rw [Int.mul_comm (l.qty + f.qty) E, Int.mul_comm f.qty f.price]
        rw [Int.mul_comm l.qty l.entry] at hD
        generalize E * (l.qty + f.qty) = y at *
        omega
      · have e1 : Spec.abs l.qty = -l.qty := by unfold Spec.abs; split <;> omega
        have e2 : f.signed = -f.qty := by simp [Fill.signed, hd]
        have e3 : Spec.abs (l.qty + -f.qty) = -l.qty + f.qty := by unfold Spec.abs; split <;> omega
        rw [e2, e3]
        rw [e1] at w2 w3
        have e4 : (l.qty + -f.qty) * E = -(E * (-l.qty + f.qty)) := by grind
        rw [e4, Int.neg_mul, Int.mul_comm f.qty f.price]
        rw [Int.mul_comm l.qty l.entry] at hD
        rw [Int.mul_neg l.entry] at w2 w3
        generalize E * (-l.qty + f.qty) = y at *
        omega
    · have hq0 : 0 < Spec.abs l.qty := by unfold Spec.abs; split <;> omega
      have hfill : (l.fill c f).qty = l.qty + f.signed ∧
          (l.fill c f).entry = (if f.qty < Spec.abs l.qty then l.entry else
            if f.qty = Spec.abs l.qty then 0 else f.price) ∧
          (l.fill c f).realised = l.realised + Spec.pnl c.env l.entry f.price
            (if 0 < l.qty then (if f.qty ≤ Spec.abs l.qty then f.qty else Spec.abs l.qty) else
              -(if f.qty ≤ Spec.abs l.qty then f.qty else Spec.abs l.qty)) := by
        simp only [Ledger.fill]; rw [if_neg h0, if_neg hd]; exact ⟨rfl, rfl, rfl⟩
      obtain ⟨f1, f2, f3⟩ := hfill
      rw [f1] at habs
      rw [f1, f2, f3]
      generalize hcl : (if f.qty ≤ Spec.abs l.qty then f.qty else Spec.abs l.qty) = k
      have hk0 : 0 ≤ k := by rw [← hcl]; split <;> omega
      obtain ⟨p1, p2⟩ := pnl_bounds hk he (Int.le_of_lt hp) hk0
      rw [show c.env.scale = c.scale from rfl] at p1 p2
      have hsg : f.signed = f.qty ∧ l.qty < 0 ∨ f.signed = -f.qty ∧ 0 < l.qty := by
        unfold Fill.signed
        cases hsd : f.side <;> simp [hsd] at hd ⊢ <;> omega
      -- the value of what is left
      have hrest : (l.qty + f.signed) * (if f.qty < Spec.abs l.qty then l.entry else
            if f.qty = Spec.abs l.qty then 0 else f.price) =
          l.qty * l.entry + f.signed * f.price - (if 0 < l.qty then -k else k) * (f.price - l.entry)
          := by
        clear hD p1 p2 f1 f2 f3 habs
        rcases hsg with ⟨h1, h2⟩ | ⟨h1, h2⟩
        · have ab : Spec.abs l.qty = -l.qty := by unfold Spec.abs; split <;> omega
          rw [ab] at hcl ⊢
          rw [h1, if_neg (show ¬ 0 < l.qty by omega)]
          by_cases hle : f.qty ≤ -l.qty
          · rw [if_pos hle] at hcl
            subst hcl
            by_cases hlt : f.qty < -l.qty
            · rw [if_pos hlt]; grind
            · rw [if_neg hlt, if_pos (by omega)]
              have : f.qty = -l.qty := by omega
              rw [this]; grind
          · rw [if_neg hle] at hcl
            rw [if_neg (by omega), if_neg (by omega), ← hcl]; grind
        · have ab : Spec.abs l.qty = l.qty := by unfold Spec.abs; split <;> omega
          rw [ab] at hcl ⊢
          rw [h1, if_pos h2]
          by_cases hle : f.qty ≤ l.qty
          · rw [if_pos hle] at hcl
            subst hcl
            by_cases hlt : f.qty < l.qty
            · rw [if_pos hlt]; grind
            · rw [if_neg hlt, if_pos (by omega)]
              have : f.qty = l.qty := by omega
              rw [this]; grind
          · rw [if_neg hle] at hcl
            rw [if_neg (by omega), if_neg (by omega), ← hcl]; grind
      rw [hrest]
      rw [Int.add_mul]
      by_cases hl : 0 < l.qty
      · simp only [if_pos hl]
        rw [Int.neg_mul]
        omega
      · simp only [if_neg hl, pnl_neg]
        rw [Int.neg_mul]
        omega

theorem cash_bounds {c : Cfg} (hk : c.env.kind = .linear) :
    ∀ fs : List Fill, (∀ f ∈ fs, 0 < f.price ∧ 0 < f.qty) →
    0 ≤ profitRounding c fs ∧
    (ledger c fs).realised * c.scale + spent fs - (ledger c fs).qty * (ledger c fs).entry ≤
      profitRounding c fs ∧
    (ledger c fs).qty * (ledger c fs).entry - (ledger c fs).realised * c.scale - spent fs ≤
      profitRounding c fs := by
  intro fs
  induction fs with
  | nil => intro _; simp [profitRounding, ledger, Ledger.empty, spent]
  | cons f fs ih =>
    intro hall
    obtain ⟨hp, hq⟩ := hall f (by simp)
    have hall' : ∀ g ∈ fs, 0 < g.price ∧ 0 < g.qty := fun g hg => hall g (by simp [hg])
    obtain ⟨i0, i1, i2⟩ := ih hall'
    have hs : 0 < c.scale := scale_pos c.env
    have h := cash_step hk (ledger_entry c fs hall') hp hq
    simp only [profitRounding, spent]
    rw [← ledger_qty c (f :: fs)]
    have habs : 0 ≤ Spec.abs (ledger c (f :: fs)).qty := by unfold Spec.abs; split <;> omega
    simp only [ledger] at habs h ⊢
    omega

/-- Sum of the signed quantities of the fills times a price, minus what was spent: the value of the
trading at that price. -/
theorem spent_at (p : Int) (fs : List Fill) :
    netBought fs * p - spent fs = (fs.map (fun f => f.signed * (p - f.price))).sum := by
  induction fs with
  | nil => simp [netBought, spent]
  | cons f fs ih =>
    simp only [netBought, spent, List.map_cons, List.sum_cons, ← ih]
    grind

theorem spent_lower {p : Int} {fs : List Fill} (hq : ∀ f ∈ fs, 0 < f.qty)
    (h : ∀ f ∈ fs, (f.side = .buy → p ≤ f.price) ∧ (f.side = .sell → f.price ≤ p)) :
    netBought fs * p ≤ spent fs := by
  induction fs with
  | nil => simp [netBought, spent]
  | cons f fs ih =>
    have i := ih (fun g hg => hq g (by simp [hg])) (fun g hg => h g (by simp [hg]))
    have h1 := h f (by simp)
    have h2 := hq f (by simp)
    simp only [netBought, spent, Int.add_mul]
    have : f.signed * p ≤ f.signed * f.price := by
      unfold Fill.signed
      cases hs : f.side
      · exact Int.mul_le_mul_of_nonneg_left (h1.1 hs) (Int.le_of_lt h2)
      · simp only [Int.neg_mul]
        have := Int.mul_le_mul_of_nonneg_left (h1.2 hs) (Int.le_of_lt h2)
        omega
    omega

end Lfest
