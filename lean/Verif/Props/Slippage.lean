import Verif.Props.Queue
import Verif.Props.Orders

/-!
# C134: market orders are filled without slippage
-/

namespace Lfest.Market

open Spec

theorem paid_ge {fs : List Queued} {p : Int} (h : ∀ x ∈ fs, p ≤ x.price) :
    p * volume fs ≤ paid fs ∧ (paid fs = p * volume fs ↔ ∀ x ∈ fs, x.qty ≠ 0 → x.price = p) := by
  induction fs with
  | nil => simp [paid, volume]
  | cons x fs ih =>
    obtain ⟨i1, i2⟩ := ih fun y hy => h y (by simp [hy])
    have hx := h x (by simp)
    have e1 : paid (x :: fs) = x.price * x.qty + paid fs := by simp [paid]
    have e2 : p * (volume (x :: fs) : Int) = p * x.qty + p * volume fs := by
      rw [volume_cons, Int.natCast_add, Int.mul_add]
    have hm : p * (x.qty : Int) ≤ x.price * x.qty :=
      Int.mul_le_mul_of_nonneg_right hx (Int.natCast_nonneg _)
    rw [e1, e2]
    refine ⟨by omega, ?_⟩
    constructor
    · intro h0 y hy hq
      rcases List.mem_cons.1 hy with rfl | hy
      · have : y.price * (y.qty : Int) = p * y.qty := by omega
        exact Int.eq_of_mul_eq_mul_right (by omega) this
      · exact i2.1 (by omega) y hy hq
    · intro h0
      have e3 := i2.2 fun y hy => h0 y (by simp [hy])
      by_cases hq : x.qty = 0
      · simp [hq, e3]
      · rw [h0 x (by simp) hq, e3]

theorem paid_le {fs : List Queued} {p : Int} (h : ∀ x ∈ fs, x.price ≤ p) :
    paid fs ≤ p * volume fs ∧ (paid fs = p * volume fs ↔ ∀ x ∈ fs, x.qty ≠ 0 → x.price = p) := by
  induction fs with
  | nil => simp [paid, volume]
  | cons x fs ih =>
    obtain ⟨i1, i2⟩ := ih fun y hy => h y (by simp [hy])
    have hx := h x (by simp)
    have e1 : paid (x :: fs) = x.price * x.qty + paid fs := by simp [paid]
    have e2 : p * (volume (x :: fs) : Int) = p * x.qty + p * volume fs := by
      rw [volume_cons, Int.natCast_add, Int.mul_add]
    have hm : x.price * (x.qty : Int) ≤ p * x.qty :=
      Int.mul_le_mul_of_nonneg_right hx (Int.natCast_nonneg _)
    rw [e1, e2]
    refine ⟨by omega, ?_⟩
    constructor
    · intro h0 y hy hq
      rcases List.mem_cons.1 hy with rfl | hy
      · have : y.price * (y.qty : Int) = p * y.qty := by omega
        exact Int.eq_of_mul_eq_mul_right (by omega) this
      · exact i2.1 (by omega) y hy hq
    · intro h0
      have e3 := i2.2 fun y hy => h0 y (by simp [hy])
      by_cases hq : x.qty = 0
      · simp [hq, e3]
      · rw [h0 x (by simp) hq, e3]

end Lfest.Market

namespace Lfest

open Spec Market

/-- C134: a market order is filled on the simulated exchange at no worse a price than on a real one: if
the quote it is filled at is the best price in a real book, and the orders there suffice, then a buy
costs no more and a sell brings no less than taking those orders in turn. The two agree if and only if
the orders at the best price alone suffice. -/
theorem C134_no_slippage (c : Cfg) (s s' : State) (hs : Reachable c s) (side : Side) (qty : Int)
    (uid : Nat) (f : FilledMarket)
    (h : step c s (.market side qty uid) = .ok (s', .market (.ok f)))
    (acts : List Act) (best : Queued) (others : List Queued) (limit : Int)
    (hbook : (play side.inverted [] acts).1 = best :: others)
    (hbest : touchPrice s.ms side = best.price)
    (real : List Queued) (hreal : real = (take side.inverted limit qty.toNat (best :: others)).2)
    (henough : (volume real : Int) = qty) :
    noWorse side (f.avgFillPrice * f.filledQty) (paid real) ∧
    (paid real = f.avgFillPrice * f.filledQty ↔ ∀ x ∈ real, x.qty ≠ 0 → x.price = best.price) := by
  obtain ⟨hf, _⟩ := C21_market_order c s s' hs side qty uid f h
  have hsort := sorted_play acts (sd := side.inverted) (b := []) (by simp [Sorted])
  rw [hbook] at hsort
  obtain ⟨h1, _⟩ := List.pairwise_cons.1 hsort
  have hmem : ∀ x ∈ real, better side.inverted x.price best.price = false := by
    intro x hx
    rw [hreal] at hx
    obtain ⟨y, hy, _, e⟩ := (take_mem side.inverted limit (best :: others) qty.toNat).2 x hx
    rw [e]
    rcases List.mem_cons.1 hy with rfl | hy
    · cases side <;> simp [better, Side.inverted]
    · exact h1 y hy
  subst hf
  simp only
  rw [hbest, ← henough]
  cases side with
  | buy =>
    exact paid_ge fun x hx => by
      have := hmem x hx
      simp only [better, Side.inverted, decide_eq_false_iff_not] at this
      omega
  | sell =>
    exact paid_le fun x hx => by
      have := hmem x hx
      simp only [better, Side.inverted, decide_eq_false_iff_not] at this
      omega

/-- Offers of 1 at 101 and 2 at 103: a market order for 1.5 costs 151.5 on the simulated exchange and
152.5 on the real one. -/
example : Ex.last Ex.lin [.update (.bba ⟨Ex.d 100, Ex.d 101, 1⟩)] (.market .buy 150000 0)
    (fun s _ r => match r with
      | .market (.ok f) => decide ((play .sell []
            [.rest 1 (Ex.d 103) 200000, .rest 2 (Ex.d 101) 100000]).1 =
          [⟨some 2, Ex.d 101, 100000⟩, ⟨some 1, Ex.d 103, 200000⟩] ∧
        touchPrice s.ms .buy = Ex.d 101 ∧
        volume (take .sell (Ex.d 200) 150000
          [⟨some 2, Ex.d 101, 100000⟩, ⟨some 1, Ex.d 103, 200000⟩]).2 = 150000 ∧
        f.avgFillPrice * f.filledQty = 1515000000000 ∧
        paid (take .sell (Ex.d 200) 150000
          [⟨some 2, Ex.d 101, 100000⟩, ⟨some 1, Ex.d 103, 200000⟩]).2 = 1525000000000)
      | _ => false) = true := by decide +kernel

end Lfest
