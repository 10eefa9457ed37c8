import Verif.Reference
import Verif.Lemmas.Prices
import Verif.Lemmas.Ledger
import Verif.Lemmas.Bound

/-! Market orders in two parts, on the ledger. -/

namespace Lfest

open Spec

theorem tdiv_parts {m n s : Int} (hm : 0 ≤ m) (hn : 0 ≤ n) (hs : 0 ≤ s) :
    m.tdiv s + n.tdiv s ≤ (m + n).tdiv s ∧ (m + n).tdiv s ≤ m.tdiv s + n.tdiv s + 1 := by
  by_cases h0 : s = 0
  · subst h0; simp
  have hs : 0 < s := by omega
  obtain ⟨a1, a2, _⟩ := tdiv_bounds hm hs
  obtain ⟨b1, b2, _⟩ := tdiv_bounds hn hs
  obtain ⟨c1, c2, _⟩ := tdiv_bounds (Int.add_nonneg hm hn) hs
  generalize m.tdiv s = i at *
  generalize n.tdiv s = j at *
  generalize (m + n).tdiv s = k at *
  have l1 : i + j < k + 1 := Int.lt_of_mul_lt_mul_right
    (show (i + j) * s < (k + 1) * s by rw [Int.add_mul, Int.add_mul]; omega) (Int.le_of_lt hs)
  have l2 : k < i + j + 2 := Int.lt_of_mul_lt_mul_right
    (show k * s < (i + j + 2) * s by
      rw [show i + j + 2 = (i + 1) + (j + 1) by omega, Int.add_mul, Int.add_mul, Int.add_mul]
      omega) (Int.le_of_lt hs)
  omega

theorem value_parts (e : Env) {a b p : Int} (ha : 0 ≤ a) (hb : 0 ≤ b) (hp : 0 ≤ p) :
    value e a p + value e b p ≤ value e (a + b) p ∧
      value e (a + b) p ≤ value e a p + value e b p + 1 := by
  have hs := scale_pos e
  unfold value
  cases e.kind with
  | linear =>
    simp only [Int.add_mul]
    exact tdiv_parts (Int.mul_nonneg ha hp) (Int.mul_nonneg hb hp) (by omega)
  | inverse =>
    simp only [Int.add_mul]
    exact tdiv_parts (Int.mul_nonneg ha (by omega)) (Int.mul_nonneg hb (by omega)) hp

theorem share_parts (e : Env) {x y r : Int} (hx : 0 ≤ x) (hy : 0 ≤ y) (hr : 0 ≤ r) :
    share e x r + share e y r ≤ share e (x + y) r ∧
      share e (x + y) r ≤ share e x r + share e y r + 1 := by
  have hs := scale_pos e
  unfold share
  rw [Int.add_mul]
  exact tdiv_parts (Int.mul_nonneg hx hr) (Int.mul_nonneg hy hr) (by omega)

/-- The fraction of a value that is added in two parts. -/
theorem share_value_parts (e : Env) {a b p r : Int} (ha : 0 ≤ a) (hb : 0 ≤ b) (hp : 0 ≤ p)
    (h0 : 0 ≤ r) (h1 : r ≤ e.scale) :
    share e (value e a p) r + share e (value e b p) r ≤ share e (value e (a + b) p) r ∧
      share e (value e (a + b) p) r ≤ share e (value e a p) r + share e (value e b p) r + 2 := by
  have hs := scale_pos e
  obtain ⟨v1, v2⟩ := value_parts e ha hb hp
  have va := value_nonneg e ha hp
  have vb := value_nonneg e hb hp
  obtain ⟨s1, s2⟩ := share_parts e va vb h0
  have mono : ∀ x y : Int, x ≤ y → share e x r ≤ share e y r := fun x y h =>
    Int.tdiv_le_tdiv hs (Int.mul_le_mul_of_nonneg_right h h0)
  have m1 := mono _ _ v1
  have m2 := mono _ _ v2
  -- one unit more of value is at most one unit more of the share
  have step : share e (value e a p + value e b p + 1) r ≤ share e (value e a p + value e b p) r + 1 := by
    have hx : 0 ≤ value e a p + value e b p := by omega
    generalize value e a p + value e b p = x at *
    unfold share
    obtain ⟨a1, a2, a3⟩ := tdiv_bounds (Int.mul_nonneg hx h0) hs
    obtain ⟨b1, b2, b3⟩ := tdiv_bounds (Int.mul_nonneg (show 0 ≤ x + 1 by omega) h0) hs
    generalize (x * r).tdiv e.scale = i at *
    rw [Int.add_mul] at b1 b2 b3 ⊢
    generalize ((x * r + 1 * r).tdiv e.scale) = j at *
    have : j < i + 2 := Int.lt_of_mul_lt_mul_right
      (show j * e.scale < (i + 2) * e.scale by rw [Int.add_mul]; omega) (Int.le_of_lt hs)
    omega
  omega

theorem pnl_parts (e : Env) {a b p0 p1 : Int} (ha : 0 ≤ a) (hb : 0 ≤ b) (h0 : 0 ≤ p0)
    (h1 : 0 ≤ p1) :
    Spec.pnl e p0 p1 (a + b) ≤ Spec.pnl e p0 p1 a + Spec.pnl e p0 p1 b + 1 ∧
      Spec.pnl e p0 p1 a + Spec.pnl e p0 p1 b ≤ Spec.pnl e p0 p1 (a + b) + 1 := by
  obtain ⟨v1, v2⟩ := value_parts e ha hb h0
  obtain ⟨w1, w2⟩ := value_parts e ha hb h1
  unfold Spec.pnl
  split <;> omega

/-! One fill -/

/-- A fill against the position -/
def against (q : Int) (side : Side) : Prop := (0 < q ∧ side = .sell) ∨ (q < 0 ∧ side = .buy)

/-- A fill in the direction of the position -/
def along (q : Int) (side : Side) : Prop := (0 < q ∧ side = .buy) ∨ (q < 0 ∧ side = .sell)

theorem fill_flat {c : Cfg} {l : Ledger} {f : Fill} (h : l.qty = 0) :
    l.fill c f = { l with qty := f.signed, entry := f.price, owed := f.fee c } := by
  unfold Ledger.fill; rw [if_pos h]

theorem fill_along {c : Cfg} {l : Ledger} {f : Fill} (h : along l.qty f.side) :
    l.fill c f = { l with qty := l.qty + f.signed
                          entry := weighted c.env l.entry (Spec.abs l.qty) f.price f.qty
                          owed := l.owed + f.fee c } := by
  have hz : l.qty ≠ 0 := by rcases h with h | h <;> omega
  unfold Ledger.fill; rw [if_neg hz]
  exact if_pos h

theorem fill_against {c : Cfg} {l : Ledger} {f : Fill} (h : against l.qty f.side)
    (ho : 0 ≤ l.owed) (hf : 0 ≤ f.fee c) :
    l.fill c f =
      { qty := l.qty + f.signed
        entry := if f.qty < Spec.abs l.qty then l.entry
          else if f.qty = Spec.abs l.qty then 0 else f.price
        owed := 0
        paid := l.paid + (l.owed + f.fee c)
        realised := l.realised + Spec.pnl c.env l.entry f.price
          (if 0 < l.qty then (if f.qty ≤ Spec.abs l.qty then f.qty else Spec.abs l.qty)
            else -(if f.qty ≤ Spec.abs l.qty then f.qty else Spec.abs l.qty)) } := by
  have hz : l.qty ≠ 0 := by rcases h with h | h <;> omega
  have hn : ¬ along l.qty f.side := by
    rintro (⟨a, b⟩ | ⟨a, b⟩) <;> rcases h with ⟨x, y⟩ | ⟨x, y⟩ <;>
      first | omega | (rw [b] at y; cases y)
  have e1 : (if f.qty < Spec.abs l.qty ∧ l.owed + f.fee c ≤ 0 then l.owed + f.fee c else 0) = 0 := by
    split <;> omega
  have e2 : (if l.owed + f.fee c > 0 then l.owed + f.fee c else 0) = l.owed + f.fee c := by
    split <;> omega
  unfold Ledger.fill
  rw [if_neg hz]
  refine (if_neg hn).trans ?_
  simp only [e1, e2]

theorem fee_parts {c : Cfg} {side : Side} {p a b : Int} (ha : 0 ≤ a) (hb : 0 ≤ b) (hp : 0 ≤ p)
    (h0 : 0 ≤ c.spec.feeTaker) (h1 : c.spec.feeTaker ≤ c.env.scale) :
    0 ≤ Fill.fee c ⟨false, side, p, a⟩ ∧ 0 ≤ Fill.fee c ⟨false, side, p, b⟩ ∧
    Fill.fee c ⟨false, side, p, a⟩ + Fill.fee c ⟨false, side, p, b⟩ ≤
      Fill.fee c ⟨false, side, p, a + b⟩ ∧
    Fill.fee c ⟨false, side, p, a + b⟩ ≤
      Fill.fee c ⟨false, side, p, a⟩ + Fill.fee c ⟨false, side, p, b⟩ + 2 := by
  simp only [Fill.fee, Bool.false_eq_true, if_false]
  exact ⟨share_nonneg _ (value_nonneg _ ha hp) h0, share_nonneg _ (value_nonneg _ hb hp) h0,
    share_value_parts c.env ha hb hp h0 h1⟩

/-- What two parts of an order and the whole may differ in. -/
structure Alike (e : Env) (one two : Ledger) : Prop where
  qty : one.qty = two.qty
  fees : two.paid + two.owed ≤ one.paid + one.owed ∧ one.paid + one.owed ≤ two.paid + two.owed + 2
  profit : one.realised ≤ two.realised + 1 ∧ two.realised ≤ one.realised + 1
  entry : (one.entry - two.entry) * Spec.abs one.qty ≤ 4 * e.scale + 2 * Spec.abs one.qty ∧
    (two.entry - one.entry) * Spec.abs one.qty ≤ 4 * e.scale + 2 * Spec.abs one.qty

theorem abs_nonneg' (x : Int) : 0 ≤ Spec.abs x := by unfold Spec.abs; split <;> omega

theorem abs_of_side {x w : Int} (hw : 0 ≤ w) (h : x = w ∨ x = -w) : Spec.abs x = w := by
  rcases h with rfl | rfl <;> unfold Spec.abs <;> split <;> omega

theorem entry_same {s x w : Int} (hs : 0 < s) (hw : 0 ≤ w) : (x - x) * w ≤ 4 * s + 2 * w := by
  rw [Int.sub_self, Int.zero_mul]; omega

theorem split_ledger {c : Cfg} {l : Ledger} {side : Side} {p a b : Int} (h0 : 0 ≤ c.spec.feeTaker)
    (h1 : c.spec.feeTaker ≤ c.env.scale) (ha : 0 < a) (hb : 0 < b) (hp : 0 < p)
    (he : 0 ≤ l.entry) (ho : 0 ≤ l.owed) :
    Alike c.env (l.fill c ⟨false, side, p, a + b⟩)
      ((l.fill c ⟨false, side, p, a⟩).fill c ⟨false, side, p, b⟩) := by
  have hs := scale_pos c.env
  obtain ⟨fa, fb, f1, f2⟩ := fee_parts (c := c) (side := side) (p := p) (a := a) (b := b)
    (by omega) (by omega) (by omega) h0 h1
  have fab : 0 ≤ Fill.fee c ⟨false, side, p, a + b⟩ := by omega
  by_cases hz : l.qty = 0
  · -- opening
    rw [fill_flat hz, fill_flat (l := l) hz, fill_along (by
      cases side
      · exact .inl ⟨ha, rfl⟩
      · exact .inr ⟨by simp only [Fill.signed]; omega, rfl⟩)]
    have habs : Spec.abs (Fill.signed ⟨false, side, p, a⟩) = a := by
      refine abs_of_side (by omega) ?_
      cases side
      · exact .inl rfl
      · exact .inr rfl
    have habs2 : Spec.abs (Fill.signed ⟨false, side, p, a + b⟩) = a + b := by
      refine abs_of_side (by omega) ?_
      cases side
      · exact .inl rfl
      · exact .inr rfl
    obtain ⟨w0, w1, w2⟩ := weighted_bounds c.env (p0 := p) (p1 := p) (w0 := a) (w1 := b)
      (by omega) (by omega) (by omega) (by omega) (by omega)
    refine ⟨?_, ?_, ?_, ?_⟩
    · cases side <;> simp only [Fill.signed]; omega
    · simp only; omega
    · simp only; omega
    · simp only [habs, habs2]
      rw [Int.sub_mul, Int.sub_mul, Int.mul_add p a b]
      omega
  · by_cases hal : along l.qty side
    · -- growing
      have hal2 : along (l.qty + Fill.signed ⟨false, side, p, a⟩) side := by
        rcases hal with ⟨x, rfl⟩ | ⟨x, rfl⟩ <;> simp only [Fill.signed]
        · exact .inl ⟨by omega, rfl⟩
        · exact .inr ⟨by omega, rfl⟩
      rw [fill_along hal, fill_along (l := l) hal, fill_along hal2]
      have m0 : 0 < Spec.abs l.qty ∧ (0 < l.qty → Spec.abs l.qty = l.qty) ∧
          (l.qty < 0 → Spec.abs l.qty = -l.qty) := by unfold Spec.abs; split <;> omega
      have m1 : Spec.abs (l.qty + Fill.signed ⟨false, side, p, a⟩) = Spec.abs l.qty + a := by
        refine abs_of_side (by omega) ?_
        rcases hal with ⟨x, rfl⟩ | ⟨x, rfl⟩ <;> simp only [Fill.signed]
        · exact .inl (by omega)
        · exact .inr (by omega)
      have m2 : Spec.abs (l.qty + Fill.signed ⟨false, side, p, a + b⟩) = Spec.abs l.qty + (a + b) := by
        refine abs_of_side (by omega) ?_
        rcases hal with ⟨x, rfl⟩ | ⟨x, rfl⟩ <;> simp only [Fill.signed]
        · exact .inl (by omega)
        · exact .inr (by omega)
      refine ⟨?_, ?_, ?_, ?_⟩
      · cases side <;> simp only [Fill.signed] <;> omega
      · simp only; omega
      · simp only; omega
      · simp only [m1, m2]
        generalize Spec.abs l.qty = w at *
        obtain ⟨u0, u1, u2⟩ := weighted_bounds c.env (p0 := l.entry) (p1 := p) (w0 := w)
          (w1 := a + b) he (by omega) (by omega) (by omega) (by omega)
        obtain ⟨v0, v1, v2⟩ := weighted_bounds c.env (p0 := l.entry) (p1 := p) (w0 := w)
          (w1 := a) he (by omega) (by omega) (by omega) (by omega)
        obtain ⟨x0, x1, x2⟩ := weighted_bounds c.env
          (p0 := weighted c.env l.entry w p a) (p1 := p) (w0 := w + a)
          (w1 := b) v0 (by omega) (by omega) (by omega) (by omega)
        generalize weighted c.env l.entry w p a = y at *
        rw [show w + a + b = w + (a + b) by omega] at x1 x2
        generalize weighted c.env l.entry w p (a + b) = t at *
        generalize weighted c.env y (w + a) p b = z at *
        rw [Int.mul_add p a b] at u1 u2
        rw [Int.sub_mul, Int.sub_mul]
        omega
    · have hag : against l.qty side := by
        cases side
        · refine .inr ⟨?_, rfl⟩
          by_cases h : 0 < l.qty
          · exact absurd (.inl ⟨h, rfl⟩) hal
          · omega
        · refine .inl ⟨?_, rfl⟩
          by_cases h : l.qty < 0
          · exact absurd (.inr ⟨h, rfl⟩) hal
          · omega
      have m0 : 0 < Spec.abs l.qty ∧ (0 < l.qty → Spec.abs l.qty = l.qty) ∧
          (l.qty < 0 → Spec.abs l.qty = -l.qty) := by unfold Spec.abs; split <;> omega
      rw [fill_against hag ho fab, fill_against (l := l) hag ho fa]
      have hq0 : ∀ x y : Int, l.qty + Fill.signed ⟨false, side, p, x⟩ + Fill.signed ⟨false, side, p, y⟩
          = l.qty + Fill.signed ⟨false, side, p, x + y⟩ := fun x y => by
        cases side <;> simp only [Fill.signed] <;> omega
      have hsgn : ∀ x : Int, (0 < l.qty ∧ l.qty + Fill.signed ⟨false, side, p, x⟩ = Spec.abs l.qty - x) ∨
          (l.qty < 0 ∧ l.qty + Fill.signed ⟨false, side, p, x⟩ = -(Spec.abs l.qty - x)) := fun x => by
        rcases hag with ⟨y, rfl⟩ | ⟨y, rfl⟩ <;> simp only [Fill.signed]
        · exact .inl ⟨y, by omega⟩
        · exact .inr ⟨y, by omega⟩
      have habs : ∀ x : Int, Spec.abs (l.qty + Fill.signed ⟨false, side, p, x⟩) =
          Spec.abs (Spec.abs l.qty - x) := fun x => by
        have h2 : ∀ z : Int, Spec.abs (-z) = Spec.abs z := fun z => by
          unfold Spec.abs; split <;> split <;> omega
        rcases hsgn x with ⟨_, h⟩ | ⟨_, h⟩ <;> rw [h]
        exact h2 _
      -- the profit of `x` contracts
      have hpnl : ∃ k : Int → Int, (∀ x y : Int, 0 ≤ x → 0 ≤ y → k (x + y) ≤ k x + k y + 1 ∧
          k x + k y ≤ k (x + y) + 1) ∧ ∀ x, Spec.pnl c.env l.entry p (if 0 < l.qty then x else -x)
            = k x := by
        by_cases hpos : 0 < l.qty
        · exact ⟨Spec.pnl c.env l.entry p, fun x y hx hy => pnl_parts c.env hx hy he (by omega),
            fun x => by rw [if_pos hpos]⟩
        · refine ⟨fun x => -Spec.pnl c.env l.entry p x, fun x y hx hy => ?_,
            fun x => by rw [if_neg hpos, pnl_neg]⟩
          have := pnl_parts c.env (p0 := l.entry) (p1 := p) hx hy he (by omega)
          dsimp only
          omega
      obtain ⟨k, hk, hpnl⟩ := hpnl
      simp only [hpnl]
      generalize hm : Spec.abs l.qty = m at *
      have hnn := abs_nonneg' (l.qty + Fill.signed ⟨false, side, p, a + b⟩)
      rcases Int.lt_trichotomy a m with hlt | heq | hgt
      · -- the first part reduces
        have hag2 : against (l.qty + Fill.signed ⟨false, side, p, a⟩) side := by
          rcases hag with ⟨y, rfl⟩ | ⟨y, rfl⟩ <;> simp only [Fill.signed]
          · exact .inl ⟨by omega, rfl⟩
          · exact .inr ⟨by omega, rfl⟩
        have hsame : (0 < l.qty + Fill.signed ⟨false, side, p, a⟩) = (0 < l.qty) := by
          rcases hsgn a with ⟨_, _⟩ | ⟨_, _⟩ <;> apply propext <;> omega
        rw [fill_against hag2 (Int.le_refl 0) fb]
        simp only [habs, hsame]
        rw [show Spec.abs (m - a) = m - a from abs_of_side (by omega) (.inl rfl), hq0]
        simp only [if_pos hlt, if_pos (Int.le_of_lt hlt), hpnl]
        have hka := hk a b (by omega) (by omega)
        have hkm := hk a (m - a) (by omega) (by omega)
        rw [show a + (m - a) = m by omega] at hkm
        refine ⟨rfl, ?_, ?_, ?_⟩
        · simp only
          omega
        · simp only
          by_cases h : a + b ≤ m
          · rw [if_pos h, if_pos (by omega)]; omega
          · rw [if_neg h, if_neg (by omega)]; omega
        · simp only
          have : (if a + b < m then l.entry else if a + b = m then 0 else p) =
              (if b < m - a then l.entry else if b = m - a then 0 else p) := by
            by_cases h1 : a + b < m
            · rw [if_pos h1, if_pos (by omega)]
            · rw [if_neg h1, if_neg (show ¬ b < m - a by omega)]
              by_cases h2 : a + b = m
              · rw [if_pos h2, if_pos (by omega)]
              · rw [if_neg h2, if_neg (show ¬ b = m - a by omega)]
          rw [this]
          exact ⟨entry_same hs hnn, entry_same hs hnn⟩
      · -- the first part closes
        subst heq
        have hz2 : l.qty + Fill.signed ⟨false, side, p, a⟩ = 0 := by
          rcases hsgn a with ⟨_, _⟩ | ⟨_, _⟩ <;> omega
        rw [fill_flat hz2]
        have n1 : ¬ a + b < a := by omega
        have n2 : ¬ a + b = a := by omega
        have n3 : ¬ a + b ≤ a := by omega
        simp only [n1, n2, n3, Int.le_refl, if_false, if_true]
        refine ⟨?_, ?_, ?_, entry_same hs hnn, entry_same hs hnn⟩
        · simp only
          rw [← hq0, hz2]; omega
        · simp only
          omega
        · simp only; omega
      · -- the first part flips
        have hal2 : along (l.qty + Fill.signed ⟨false, side, p, a⟩) side := by
          rcases hag with ⟨y, rfl⟩ | ⟨y, rfl⟩ <;> simp only [Fill.signed]
          · exact .inr ⟨by omega, rfl⟩
          · exact .inl ⟨by omega, rfl⟩
        rw [fill_along hal2]
        have n1 : ¬ a + b < m := by omega
        have n2 : ¬ a + b = m := by omega
        have n3 : ¬ a + b ≤ m := by omega
        have n4 : ¬ a < m := by omega
        have n5 : ¬ a = m := by omega
        have n6 : ¬ a ≤ m := by omega
        simp only [n1, n2, n3, n4, n5, n6, if_false]
        refine ⟨?_, ?_, ?_, ?_⟩
        · simp only; rw [hq0]
        · simp only
          omega
        · simp only; omega
        · simp only [habs]
          rw [show Spec.abs (m - a) = a - m from abs_of_side (by omega) (.inr (by omega)),
            show Spec.abs (m - (a + b)) = a - m + b from abs_of_side (by omega) (.inr (by omega))]
          obtain ⟨w0, w1, w2⟩ := weighted_bounds c.env (p0 := p) (p1 := p) (w0 := a - m) (w1 := b)
            (by omega) (by omega) (by omega) (by omega) (by omega)
          rw [Int.sub_mul, Int.sub_mul, Int.mul_add p (a - m) b]
          omega

theorem initial_parts {c : Cfg} {a b p : Int} (ha : 0 ≤ a) (hb : 0 ≤ b) (hp : 0 ≤ p)
    (h0 : 0 ≤ c.spec.initMarginReq) (h1 : c.spec.initMarginReq ≤ c.env.scale) :
    Ref.initial c a p + Ref.initial c b p ≤ Ref.initial c (a + b) p ∧
      Ref.initial c (a + b) p ≤ Ref.initial c a p + Ref.initial c b p + 2 :=
  share_value_parts c.env ha hb hp h0 h1

theorem opposing_along {q : Int} {side : Side} (h : along q side) : opposing q side = 0 := by
  rcases h with ⟨h, rfl⟩ | ⟨h, rfl⟩ <;> simp only [opposing, larger] <;> rw [if_pos (by omega)]

theorem opposing_against {q : Int} {side : Side} (h : against q side) :
    opposing q side = Spec.abs q ∧ 0 < opposing q side := by
  rcases h with ⟨h, rfl⟩ | ⟨h, rfl⟩ <;> simp only [opposing, larger, Spec.abs]
  · rw [if_neg (by omega), if_pos (by omega)]; omega
  · rw [if_neg (by omega), if_neg (by omega)]; omega

theorem along_or_against {q : Int} {side : Side} (hz : q ≠ 0) : along q side ∨ against q side := by
  by_cases h : 0 < q <;> cases side
  · exact .inl (.inl ⟨h, rfl⟩)
  · exact .inr (.inl ⟨h, rfl⟩)
  · exact .inr (.inr ⟨by omega, rfl⟩)
  · exact .inl (.inr ⟨by omega, rfl⟩)

theorem fill_qty (c : Cfg) (l : Ledger) (f : Fill) : (l.fill c f).qty = l.qty + f.signed := by
  unfold Ledger.fill
  simp only
  split
  · simp only; omega
  · split <;> rfl

theorem split_locked {c : Cfg} {l : Ledger} {side : Side} {p a b L : Int}
    (h0 : 0 ≤ c.spec.initMarginReq) (h1 : c.spec.initMarginReq ≤ c.env.scale)
    (hf : 0 ≤ c.spec.feeTaker) (ho : 0 ≤ l.owed) (ha : 0 < a) (hb : 0 < b) (hp : 0 < p)
    (he : 0 ≤ l.entry)
    (hL : 0 < opposing l.qty side → opposing l.qty side < a + b →
      L = Ref.initial c (opposing l.qty side) l.entry) :
    let one := Ref.lockedAfter c l L ⟨false, side, p, a + b⟩
    let two := Ref.lockedAfter c (l.fill c ⟨false, side, p, a⟩)
      (Ref.lockedAfter c l L ⟨false, side, p, a⟩) ⟨false, side, p, b⟩
    one ≤ two + 2 ∧ two ≤ one + 2 := by
  intro one two
  have hgrow : along (l.qty + Fill.signed ⟨false, side, p, a⟩) side →
      opposing (l.fill c ⟨false, side, p, a⟩).qty side = 0 := fun h => by
    rw [fill_qty]; exact opposing_along h
  have key : opposing l.qty side = 0 → one ≤ two + 2 ∧ two ≤ one + 2 := by
    intro hz
    have h2 : opposing (l.fill c ⟨false, side, p, a⟩).qty side = 0 := by
      refine hgrow ?_
      cases side <;> simp only [opposing, larger] at hz <;> simp only [Fill.signed]
      · exact .inl ⟨by split at hz <;> omega, rfl⟩
      · exact .inr ⟨by split at hz <;> omega, rfl⟩
    simp only [one, two, Ref.lockedAfter, hz, h2, if_true]
    have := initial_parts (c := c) (a := a) (b := b) (p := p) (by omega) (by omega) (by omega) h0 h1
    omega
  by_cases hz : l.qty = 0
  · exact key (by rw [hz]; cases side <;> rfl)
  · rcases along_or_against (side := side) hz with hal | hag
    · exact key (opposing_along hal)
    · obtain ⟨hopp, hpos⟩ := opposing_against hag
      have hm0 : (0 < l.qty → Spec.abs l.qty = l.qty) ∧
          (l.qty < 0 → Spec.abs l.qty = -l.qty) := by unfold Spec.abs; split <;> omega
      rw [hopp] at hpos hL
      generalize hm : Spec.abs l.qty = m at *
      have hfa : 0 ≤ Fill.fee c ⟨false, side, p, a⟩ := by
        simp only [Fill.fee, Bool.false_eq_true, if_false]
        exact share_nonneg _ (value_nonneg _ (by omega) (by omega)) hf
      have hne : ¬ m = 0 := by omega
      rcases Int.lt_trichotomy a m with hlt | heq | hgt
      · have hag2 : against (l.qty + Fill.signed ⟨false, side, p, a⟩) side := by
          rcases hag with ⟨y, rfl⟩ | ⟨y, rfl⟩ <;> simp only [Fill.signed]
          · exact .inl ⟨by omega, rfl⟩
          · exact .inr ⟨by omega, rfl⟩
        have hop2 : opposing (l.fill c ⟨false, side, p, a⟩).qty side = m - a := by
          rw [fill_qty, (opposing_against hag2).1]
          refine abs_of_side (by omega) ?_
          rcases hag with ⟨y, rfl⟩ | ⟨y, rfl⟩ <;> simp only [Fill.signed]
          · exact .inl (by omega)
          · exact .inr (by omega)
        have hen : (l.fill c ⟨false, side, p, a⟩).entry = l.entry := by
          rw [fill_against (f := ⟨false, side, p, a⟩) hag ho hfa]
          simp only [hm]
          exact if_pos hlt
        have n1 : ¬ m - a = 0 := by omega
        simp only [one, two, Ref.lockedAfter, hop2, hopp, hen, if_neg hne, if_neg n1,
          if_pos (Int.le_of_lt hlt)]
        by_cases hle : a + b ≤ m
        · rw [if_pos hle, if_pos (by omega)]
          have := initial_parts (c := c) (a := a) (b := b) (p := l.entry) (by omega) (by omega) he h0 h1
          omega
        · rw [if_neg hle, if_neg (by omega), show b - (m - a) = a + b - m by omega]
          omega
      · subst heq
        have hop2 : opposing (l.fill c ⟨false, side, p, a⟩).qty side = 0 := by
          have : (l.fill c ⟨false, side, p, a⟩).qty = 0 := by
            rw [fill_qty]
            rcases hag with ⟨y, rfl⟩ | ⟨y, rfl⟩ <;> simp only [Fill.signed] <;> omega
          rw [this]; cases side <;> rfl
        have n3 : ¬ a + b ≤ a := by omega
        simp only [one, two, Ref.lockedAfter, hop2, hopp, if_neg hne, if_neg n3, Int.le_refl, if_true]
        rw [hL hpos (by omega), show a + b - a = b by omega]
        omega
      · have hal2 : along (l.qty + Fill.signed ⟨false, side, p, a⟩) side := by
          rcases hag with ⟨y, rfl⟩ | ⟨y, rfl⟩ <;> simp only [Fill.signed]
          · exact .inr ⟨by omega, rfl⟩
          · exact .inl ⟨by omega, rfl⟩
        have n3 : ¬ a + b ≤ m := by omega
        have n6 : ¬ a ≤ m := by omega
        simp only [one, two, Ref.lockedAfter, hgrow hal2, hopp, if_neg hne, if_neg n3, if_neg n6,
          if_true]
        have := initial_parts (c := c) (a := a - m) (b := b) (p := p) (by omega) (by omega) (by omega)
          h0 h1
        rw [show a - m + b = a + b - m by omega] at this
        omega

theorem opposing_grown {q a p : Int} {side : Side} (ha : 0 < a) (h : opposing q side = 0) :
    opposing (q + Fill.signed ⟨false, side, p, a⟩) side = 0 := by
  cases side
  · change larger (-q) 0 = 0 at h
    change larger (-(q + a)) 0 = 0
    unfold larger at h ⊢; split at h <;> split <;> omega
  · change larger q 0 = 0 at h
    change larger (q + -a) 0 = 0
    unfold larger at h ⊢; split at h <;> split <;> omega

theorem opposing_reduced {q a p : Int} {side : Side} (ha : 0 < a) (h : a ≤ opposing q side) :
    opposing (q + Fill.signed ⟨false, side, p, a⟩) side = opposing q side - a := by
  cases side
  · change a ≤ larger (-q) 0 at h
    change larger (-(q + a)) 0 = larger (-q) 0 - a
    unfold larger at h ⊢; split at h <;> split <;> omega
  · change a ≤ larger q 0 at h
    change larger (q + -a) 0 = larger q 0 - a
    unfold larger at h ⊢; split at h <;> split <;> omega

end Lfest
