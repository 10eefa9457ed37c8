import Verif.Lemmas.MarginStep
import Verif.Lemmas.Arith

/-!
# How large amounts can get

Bounds for values, margins and the gross totals of the accounts, in terms of the largest price `P`
and the quantity traded. A bound on an amount `x` is written `x * scale ≤ quantity * K`, so that
sums of rounded values add up.
-/

namespace Lfest

open Spec

/-- `K` bounds the value of one contract unit: prices for linear contracts; for inverse contracts a
price may round to one unit in the last place. -/
structure Rate (e : Env) (P K : Int) : Prop where
  price : P ≤ K
  pos : 0 ≤ P
  inverse : e.kind = .inverse → e.scale * e.scale ≤ K

/-- The positive part. -/
def pp (x : Int) : Int := if 0 < x then x else 0

theorem tdiv_abs {x s k : Int} (hs : 0 < s) (h1 : x ≤ k) (h2 : -k ≤ x) :
    x.tdiv s * s ≤ k ∧ -k ≤ x.tdiv s * s := by
  by_cases hx : 0 ≤ x
  · have h3 := tdiv_bounds hx hs
    have := Int.mul_nonneg h3.2.2 (by omega : 0 ≤ s)
    omega
  · have hn : x = -(-x) := by omega
    have h3 := tdiv_bounds (x := -x) (by omega) hs
    have := Int.mul_nonneg h3.2.2 (by omega : 0 ≤ s)
    rw [hn, Int.neg_tdiv, Int.neg_mul]; omega

/-- The value of at most `x` contracts. -/
theorem value_bound {e : Env} {P K q p x : Int} (h : Rate e P K) (hp : 0 < p) (hP : p ≤ P)
    (h1 : q ≤ x) (h2 : -x ≤ q) :
    value e q p * e.scale ≤ x * K ∧ -(x * K) ≤ value e q p * e.scale := by
  have hs := scale_pos e
  have hx : 0 ≤ x := by omega
  have hpk := h.price
  unfold value
  cases hk : e.kind with
  | linear =>
    have a1 := Int.mul_le_mul_of_nonneg_right h1 (by omega : 0 ≤ p)
    have a2 := Int.mul_le_mul_of_nonneg_right h2 (by omega : 0 ≤ p)
    have a3 := Int.mul_le_mul_of_nonneg_left (by omega : p ≤ K) hx
    rw [Int.neg_mul] at a2
    exact tdiv_abs hs (by omega) (by omega)
  | inverse =>
    have hi := h.inverse hk
    have a1 := Int.mul_le_mul_of_nonneg_right h1 (by omega : 0 ≤ e.scale)
    have a2 := Int.mul_le_mul_of_nonneg_right h2 (by omega : 0 ≤ e.scale)
    rw [Int.neg_mul] at a2
    obtain ⟨b1, b2⟩ := tdiv_abs (x := q * e.scale) (s := p) (k := x * e.scale) hp a1 a2
    have hxs : 0 ≤ x * e.scale := Int.mul_nonneg hx (by omega)
    have c1 : (q * e.scale).tdiv p ≤ x * e.scale := by
      by_cases hn : (q * e.scale).tdiv p ≤ 0
      · omega
      · have := Int.mul_le_mul_of_nonneg_left (by omega : 1 ≤ p)
          (by omega : 0 ≤ (q * e.scale).tdiv p)
        omega
    have c2 : -(x * e.scale) ≤ (q * e.scale).tdiv p := by
      by_cases hn : 0 ≤ (q * e.scale).tdiv p
      · omega
      · have := Int.mul_le_mul_of_nonneg_left (by omega : 1 ≤ p)
          (by omega : 0 ≤ -(q * e.scale).tdiv p)
        rw [Int.neg_mul, Int.neg_mul] at this
        omega
    have d1 := Int.mul_le_mul_of_nonneg_right c1 (by omega : 0 ≤ e.scale)
    have d2 := Int.mul_le_mul_of_nonneg_right c2 (by omega : 0 ≤ e.scale)
    have d3 := Int.mul_le_mul_of_nonneg_left hi hx
    rw [Int.mul_assoc] at d1
    rw [Int.neg_mul, Int.mul_assoc] at d2
    dsimp only
    omega

/-- A value at a price that may be zero: for linear contracts it is nothing, for inverse contracts
there is none. -/
theorem convert_bound {e : Env} {P K q p x v : Int} (h : Rate e P K) (hp : 0 ≤ p) (hP : p ≤ P)
    (h1 : q ≤ x) (h2 : -x ≤ q) (hv : convert e q p = .ok v) :
    v * e.scale ≤ x * K ∧ -(x * K) ≤ v * e.scale := by
  by_cases h0 : p = 0
  · subst h0
    have hv0 : v = 0 := by
      unfold convert at hv
      cases hk : e.kind <;> simp [hk, dmul, ddiv] at hv
      omega
    have hK : 0 ≤ K := by have := h.price; have := h.pos; omega
    have := Int.mul_nonneg (by omega : 0 ≤ x) hK
    rw [hv0]; omega
  · rw [convert_ok hv]; exact value_bound h (by omega) hP h1 h2

/-- Shares of a value at a rate of at most one. -/
theorem share_bound {e : Env} {v r : Int} (hv : 0 ≤ v) (h1 : r ≤ e.scale) (h2 : -e.scale ≤ r) :
    share e v r ≤ v ∧ -v ≤ share e v r := by
  have hs := scale_pos e
  have a1 := Int.mul_le_mul_of_nonneg_left h1 hv
  have a2 := Int.mul_le_mul_of_nonneg_left h2 hv
  rw [Int.mul_neg] at a2
  obtain ⟨b1, b2⟩ := tdiv_abs hs a1 (by omega)
  unfold share
  exact ⟨Int.le_of_mul_le_mul_right b1 hs,
    Int.le_of_mul_le_mul_right (by rw [Int.neg_mul]; exact b2) hs⟩

theorem value_neg_q (e : Env) (q p : Int) : value e (-q) p = -value e q p := by
  unfold value
  cases e.kind <;> simp only [Int.neg_mul, Int.neg_tdiv]

/-- Profit and loss of at most `x` contracts. -/
theorem pnl_bound {e : Env} {P K q a b x v : Int} (h : Rate e P K) (ha : 0 ≤ a) (hA : a ≤ P)
    (hb : 0 ≤ b) (hB : b ≤ P) (h1 : q ≤ x) (h2 : -x ≤ q) (hv : pnl e a b q = .ok v) :
    v * e.scale ≤ x * K ∧ -(x * K) ≤ v * e.scale := by
  have hs := scale_pos e
  have hK : 0 ≤ K := by have := h.price; have := h.pos; omega
  have hxK := Int.mul_nonneg (by omega : 0 ≤ x) hK
  have sign : ∀ p y, 0 ≤ p → convert e q p = .ok y →
      (0 ≤ q → 0 ≤ y * e.scale) ∧ (q ≤ 0 → y * e.scale ≤ 0) := by
    intro p y hp hy
    rw [convert_ok hy]
    refine ⟨fun hq => Int.mul_nonneg (value_nonneg e hq hp) (by omega), fun hq => ?_⟩
    have h3 := Int.mul_nonneg (value_nonneg e (q := -q) (by omega) hp) (by omega : 0 ≤ e.scale)
    rw [value_neg_q, Int.neg_mul] at h3
    omega
  have two : ∀ y z, convert e q a = .ok y → convert e q b = .ok z →
      (y - z) * e.scale ≤ x * K ∧ -(x * K) ≤ (y - z) * e.scale := by
    intro y z hy hz
    have b1 := convert_bound h ha hA h1 h2 hy
    have b2 := convert_bound h hb hB h1 h2 hz
    have s1 := sign a y ha hy
    have s2 := sign b z hb hz
    rw [Int.sub_mul]
    omega
  unfold pnl at hv
  split at hv
  · simp only [ok_inj] at hv; subst hv; omega
  · split at hv
    · simp only [bind_ok, ok_inj] at hv
      obtain ⟨z, hz, y, hy, rfl⟩ := hv
      have := two y z hy hz
      rw [Int.sub_mul] at this ⊢
      omega
    · simp only [bind_ok, ok_inj] at hv
      obtain ⟨y, hy, z, hz, rfl⟩ := hv
      exact two y z hy hz

/-! ## Gross totals -/

/-- The gross totals are not negative and balance. -/
structure Gross (a : Accounts) : Prop where
  nonneg : ∀ i, 0 ≤ (a.get i).debits ∧ 0 ≤ (a.get i).credits
  sums : a.debitSum = a.creditSum

/-- Some transfers that do not involve order margin: `D` bounds their sum, `M` what leaves the
position margin account and `R` what leaves the treasury. -/
structure Grow (a a' : Accounts) (D M R : Int) : Prop where
  gross : Gross a → Gross a'
  sum : a'.debitSum ≤ a.debitSum + D
  om : a'.orderMargin = a.orderMargin
  fee : a'.exchangeFee.credits = a.exchangeFee.credits
  broker : a'.broker = a.broker
  pm : a'.positionMargin.credits ≤ a.positionMargin.credits + M
  tr : a'.treasury.credits ≤ a.treasury.credits + R
  wd : a.wallet.debits ≤ a'.wallet.debits

theorem Grow.refl (a : Accounts) : Grow a a 0 0 0 :=
  ⟨id, by omega, rfl, rfl, rfl, by omega, by omega, by omega⟩

theorem Grow.trans {a b d : Accounts} {D M R D' M' R' : Int} (h : Grow a b D M R)
    (k : Grow b d D' M' R') : Grow a d (D + D') (M + M') (R + R') :=
  ⟨fun g => k.gross (h.gross g), by have := h.sum; have := k.sum; omega, by rw [k.om, h.om],
    by rw [k.fee, h.fee], by rw [k.broker, h.broker], by have := h.pm; have := k.pm; omega,
    by have := h.tr; have := k.tr; omega, by have := h.wd; have := k.wd; omega⟩

theorem transfer_gross {e : Env} {a a' : Accounts} {d c : AccountId} {x : Int}
    (h : transfer e a d c x = .ok a') (g : Gross a) : Gross a' := by
  have hs := transfer_sums h
  refine ⟨fun i => ?_, by have := g.sums; omega⟩
  obtain ⟨hx, hdc, rfl⟩ := transfer_ok h
  have hi := g.nonneg i
  cases d <;> cases c <;> simp at hdc <;> cases i <;>
    simp [Accounts.get, Accounts.set] at hi ⊢ <;> omega

theorem transfer_grow {e : Env} {a a' : Accounts} {d c : AccountId} {x : Int}
    (hd1 : d ≠ .orderMargin) (hd2 : d ≠ .broker) (hc1 : c ≠ .orderMargin) (hc2 : c ≠ .broker)
    (hc3 : c ≠ .exchangeFee) (h : transfer e a d c x = .ok a') :
    Grow a a' x (if c = .positionMargin then x else 0) (if c = .treasury then x else 0) := by
  have hs := transfer_sums h
  have hg := transfer_gross h
  obtain ⟨hx, hdc, rfl⟩ := transfer_ok h
  refine ⟨hg, by omega, ?_, ?_, ?_, ?_, ?_, ?_⟩ <;>
    cases d <;> cases c <;> simp at hdc hd1 hd2 hc1 hc2 hc3 <;>
    simp [Accounts.get, Accounts.set] <;> omega

theorem settlePnl_grow {e : Env} {a a' : Accounts} {v x : Int} (h1 : v ≤ x) (h2 : -x ≤ v)
    (h : settlePnl e a v = .ok a') : Grow a a' x 0 x := by
  unfold settlePnl at h
  split at h
  · have g := transfer_grow (by simp) (by simp) (by simp) (by simp) (by simp) h
    simp at g
    exact ⟨g.gross, by have := g.sum; omega, g.om, g.fee, g.broker, g.pm, by have := g.tr; omega,
      g.wd⟩
  · split at h
    · have g := transfer_grow (by simp) (by simp) (by simp) (by simp) (by simp) h
      simp at g
      exact ⟨g.gross, by have := g.sum; omega, g.om, g.fee, g.broker, by have := g.pm; omega,
        by have := g.tr; omega, g.wd⟩
    · simp only [ok_inj] at h; subst h
      have g := Grow.refl a
      exact ⟨g.gross, by omega, rfl, rfl, rfl, by omega, by omega, by omega⟩

theorem settleFees_grow {e : Env} {a : Accounts} {f : Int} {r : Int × Accounts}
    (h : settleFees e a f = .ok r) : Grow a r.2 (pp f) 0 0 := by
  unfold settleFees at h
  unfold pp
  split at h
  · next hf =>
    simp only [bind_ok, ok_inj] at h
    obtain ⟨a', ha, rfl⟩ := h
    have g := transfer_grow (by simp) (by simp) (by simp) (by simp) (by simp) ha
    simpa [hf] using g
  · next hf =>
    simp only [ok_inj] at h; subst h
    have : ¬ 0 < f := by omega
    simpa [this] using Grow.refl a

/-- Limits on the rates of a contract. -/
structure Rates (e : Env) (imr P K : Int) : Prop extends Rate e P K where
  imr0 : 0 ≤ imr
  imr1 : imr ≤ e.scale

/-- The initial margin of at most `x` contracts. -/
theorem margin_bound {e : Env} {imr P K q p v : Int} (h : Rates e imr P K) (hp : 0 ≤ p)
    (hP : p ≤ P) (hq : 0 ≤ q) (hv : convert e q p = .ok v) :
    0 ≤ v ∧ v * e.scale ≤ q * K ∧ 0 ≤ dmul e.scale v imr ∧ dmul e.scale v imr ≤ v := by
  have hs := scale_pos e
  have h1 := convert_bound h.toRate hp hP (Int.le_refl q) (by omega) hv
  have h2 : 0 ≤ v := by rw [convert_ok hv]; exact value_nonneg e hq hp
  have h3 := h.imr0
  exact ⟨h2, h1.1, share_nonneg e h2 h3, (share_bound h2 h.imr1 (by omega)).1⟩

theorem Inner.new_grow {e : Env} {imr P K : Int} {a : Accounts} {qty price fees : Int}
    {r : Inner × Accounts} (hR : Rates e imr P K) (hP : price ≤ P)
    (h : Inner.new e imr a qty price fees = .ok r) :
    ∃ D, Grow a r.2 D 0 0 ∧ D * e.scale ≤ qty * K ∧ r.1 = ⟨qty, price, fees⟩ ∧ 0 < qty ∧
      0 < price := by
  have hs := scale_pos e
  simp only [Inner.new, bind_ok, assertP_ok, ok_inj] at h
  obtain ⟨_, h1, _, h2, v, hv, a', ha, rfl⟩ := h
  obtain ⟨b1, b2, b3, b4⟩ := margin_bound hR (by omega) hP (by omega) hv
  refine ⟨_, by simpa using transfer_grow (by simp) (by simp) (by simp) (by simp) (by simp) ha, ?_,
    rfl, h1, h2⟩
  have := Int.mul_le_mul_of_nonneg_right b4 (by omega : 0 ≤ e.scale)
  omega

theorem Inner.increase_grow {e : Env} {imr P K : Int} {a : Accounts} {p : Inner}
    {qty price fees : Int} {r : Inner × Accounts} (hR : Rates e imr P K) (hP : price ≤ P)
    (hq : 0 < p.qty) (he : 0 ≤ p.entry) (hE : p.entry ≤ P)
    (h : p.increase e imr a qty price fees = .ok r) :
    ∃ D, Grow a r.2 D 0 0 ∧ D * e.scale ≤ qty * K ∧ r.1.qty = p.qty + qty ∧
      r.1.fees = p.fees + fees ∧ 0 ≤ r.1.entry ∧ r.1.entry ≤ P ∧ 0 < qty := by
  have hs := scale_pos e
  simp only [Inner.increase, bind_ok, assertP_ok, ok_inj] at h
  obtain ⟨_, h1, _, h2, v, hv, w, hw, a', ha, rfl⟩ := h
  obtain ⟨b1, b2, b3, b4⟩ := margin_bound hR (by omega) hP (by omega) hv
  have := newWeightedPrice_ok hw; subst this
  refine ⟨_, by simpa using transfer_grow (by simp) (by simp) (by simp) (by simp) (by simp) ha, ?_,
    rfl, rfl, (weighted_bounds e he (by omega) (by omega) (by omega) (by omega)).1,
    weighted_le e he (by omega) (by omega) (by omega) (by omega) hE hP, h1⟩
  have := Int.mul_le_mul_of_nonneg_right b4 (by omega : 0 ≤ e.scale)
  omega

theorem Inner.decrease_grow {e : Env} {imr P K : Int} {a : Accounts} {p : Inner}
    {qty price dir fees : Int} {r : Inner × Accounts} (hR : Rates e imr P K) (hp : 0 ≤ price)
    (hP : price ≤ P) (he : 0 ≤ p.entry) (hE : p.entry ≤ P)
    (h : p.decrease e imr a qty price dir fees = .ok r) :
    ∃ D M R, Grow a r.2 (D + pp (p.fees + fees)) M R ∧ D * e.scale ≤ 2 * (qty * K) ∧
      M * e.scale ≤ qty * K ∧ R * e.scale ≤ qty * K ∧
      r.1 = ⟨p.qty - qty, p.entry, if 0 < p.fees + fees then 0 else p.fees + fees⟩ ∧ 0 < qty ∧
      qty ≤ p.qty := by
  have hs := scale_pos e
  have hr1 := (Inner.decrease_ok h).2.2.2.1
  simp only [Inner.decrease, bind_ok, assertP_ok, debugP_ok, ok_inj] at h
  obtain ⟨_, h1, _, h2, _, _, v, hv, a1, ha1, w, hw, _, _, a2, ha2, rr, hr, rfl⟩ := h
  obtain ⟨b1, b2, b3, b4⟩ := margin_bound hR he hE (by omega) hw
  obtain ⟨c1, c2⟩ := pnl_bound hR.toRate he hE hp hP (x := qty) (by split <;> omega)
    (by split <;> omega) hv
  have g1 := settlePnl_grow (x := Spec.abs v) (by unfold Spec.abs; split <;> omega)
    (by unfold Spec.abs; split <;> omega) ha1
  have g2 := transfer_grow (by simp) (by simp) (by simp) (by simp) (by simp) ha2
  have g3 := settleFees_grow hr
  simp at g2
  have hx : Spec.abs v * e.scale ≤ qty * K := by
    unfold Spec.abs; split
    · exact c1
    · rw [Int.neg_mul]; omega
  have hM := Int.mul_le_mul_of_nonneg_right b4 (by omega : 0 ≤ e.scale)
  refine ⟨_, _, _, (g1.trans g2).trans g3, ?_, ?_, ?_, hr1, h1, h2⟩
  · rw [Int.add_mul]; omega
  · rw [Int.zero_add, Int.add_zero]; omega
  · rw [Int.add_zero, Int.add_zero]; exact hx

theorem pp_mul_le {x y s k : Int} (hs : 0 < s) (hk : 0 ≤ k) (h : x * s ≤ y * s + k) :
    pp x * s ≤ pp y * s + k := by
  have hy : y * s ≤ pp y * s :=
    Int.mul_le_mul_of_nonneg_right (by unfold pp; split <;> omega) (by omega)
  have hy0 : 0 ≤ pp y * s := Int.mul_nonneg (by unfold pp; split <;> omega) (by omega)
  by_cases h0 : 0 < x
  · have : pp x = x := by simp [pp, h0]
    rw [this]; omega
  · have : pp x = 0 := by simp [pp, h0]
    rw [this]; omega

/-- What a fill of `q` contracts does: the transfers it causes, what is left to pay, and the entry
price. -/
structure FillGrow (e : Env) (P K : Int) (a a' : Accounts) (pos pos' : Position) (q : Int) : Prop where
  grow : ∃ D M R, Grow a a' D M R ∧ M * e.scale ≤ q * K ∧ R * e.scale ≤ q * K ∧
    (D + pp pos'.outstandingFees) * e.scale ≤ pp pos.outstandingFees * e.scale + 3 * (q * K)
  fees : ∀ x, pos.outstandingFees * e.scale ≤ x → -x ≤ pos.outstandingFees * e.scale →
    pos'.outstandingFees * e.scale ≤ x + q * K ∧ -(x + q * K) ≤ pos'.outstandingFees * e.scale
  entry : 0 ≤ pos'.entryPrice ∧ pos'.entryPrice ≤ P

theorem changePosition_grow {e : Env} {imr P K : Int} {a a' : Accounts} {pos pos' : Position}
    {q p : Int} {side : Side} {fee : Int} (hR : Rates e imr P K) (hw : PosWF pos)
    (he : 0 ≤ pos.entryPrice) (hE : pos.entryPrice ≤ P) (hp : 0 ≤ p) (hP : p ≤ P)
    (hf1 : fee * e.scale ≤ q * K) (hf2 : -(q * K) ≤ fee * e.scale)
    (h : changePosition e imr a pos q p side fee = .ok (pos', a')) :
    FillGrow e P K a a' pos pos' q := by
  have hs := scale_pos e
  have hK : 0 ≤ K := by have := hR.price; have := hR.pos; omega
  have hqK : 0 ≤ q * K := by omega
  simp only [changePosition, bind_ok, debugP_ok] at h
  obtain ⟨_, _, h⟩ := h
  have hnew : ∀ r, Inner.new e imr a q p fee = .ok r →
      ∃ D M R, Grow a r.2 D M R ∧ M * e.scale ≤ q * K ∧ R * e.scale ≤ q * K ∧
        (D + pp r.1.fees) * e.scale ≤ pp 0 * e.scale + 3 * (q * K) := by
    intro r hr
    obtain ⟨D, g, b, hr1, _, _⟩ := Inner.new_grow hR hP hr
    refine ⟨_, _, _, g, by omega, by omega, ?_⟩
    have := pp_mul_le (x := fee) (y := 0) hs hqK (by omega)
    rw [Int.add_mul, hr1]
    simp only
    omega
  have hinc : ∀ (i : Inner) r, 0 < i.qty → 0 ≤ i.entry → i.entry ≤ P →
      i.increase e imr a q p fee = .ok r →
      (∃ D M R, Grow a r.2 D M R ∧ M * e.scale ≤ q * K ∧ R * e.scale ≤ q * K ∧
        (D + pp r.1.fees) * e.scale ≤ pp i.fees * e.scale + 3 * (q * K)) ∧
      r.1.fees = i.fees + fee ∧ 0 ≤ r.1.entry ∧ r.1.entry ≤ P := by
    intro i r hi1 hi2 hi3 hr
    obtain ⟨D, g, b, _, hr1, b3, b4, _⟩ := Inner.increase_grow hR hP hi1 hi2 hi3 hr
    refine ⟨⟨_, _, _, g, by omega, by omega, ?_⟩, hr1, b3, b4⟩
    have := pp_mul_le (x := i.fees + fee) (y := i.fees) hs hqK (by rw [Int.add_mul]; omega)
    rw [Int.add_mul, hr1]
    omega
  have hdec : ∀ (i : Inner) dir r, 0 ≤ i.entry → i.entry ≤ P →
      i.decrease e imr a q p dir fee = .ok r →
      (∃ D M R, Grow a r.2 D M R ∧ M * e.scale ≤ q * K ∧ R * e.scale ≤ q * K ∧
        D * e.scale ≤ pp i.fees * e.scale + 3 * (q * K)) ∧
      r.1.entry = i.entry ∧ r.1.fees = if 0 < i.fees + fee then 0 else i.fees + fee := by
    intro i dir r hi2 hi3 hr
    obtain ⟨D, M, R, g, b1, b2, b3, hr1, _, _⟩ := Inner.decrease_grow hR hp hP hi2 hi3 hr
    refine ⟨⟨_, _, _, g, b2, b3, ?_⟩, by rw [hr1], by rw [hr1]⟩
    have := pp_mul_le (x := i.fees + fee) (y := i.fees) hs hqK (by rw [Int.add_mul]; omega)
    rw [Int.add_mul]
    omega
  have hflip : ∀ (i : Inner) dir r r', 0 < i.qty → 0 ≤ i.entry → i.entry ≤ P → i.qty ≤ q →
      i.decrease e imr a i.qty p dir fee = .ok r →
      Inner.new e imr r.2 (q - i.qty) p 0 = .ok r' →
      (∃ D M R, Grow a r'.2 D M R ∧ M * e.scale ≤ q * K ∧ R * e.scale ≤ q * K ∧
        D * e.scale ≤ pp i.fees * e.scale + 3 * (q * K)) ∧
      r'.1 = ⟨q - i.qty, p, 0⟩ := by
    intro i dir r r' hi1 hi2 hi3 hle hr hr'
    obtain ⟨D, M, R, g, b1, b2, b3, hr1, _, _⟩ := Inner.decrease_grow hR hp hP hi2 hi3 hr
    obtain ⟨D', g', b', hr1', _, _⟩ := Inner.new_grow hR hP hr'
    have hk := Int.mul_nonneg (by omega : 0 ≤ q - i.qty) hK
    rw [Int.sub_mul] at b' hk
    refine ⟨⟨_, _, _, g.trans g', ?_, ?_, ?_⟩, hr1'⟩
    · rw [Int.add_zero]; omega
    · rw [Int.add_zero]; omega
    · have := pp_mul_le (x := i.fees + fee) (y := i.fees) hs hqK (by rw [Int.add_mul]; omega)
      rw [Int.add_mul, Int.add_mul]
      omega
  have zero : pp 0 = 0 := rfl
  have red : ∀ x, (pp (if 0 < x then 0 else x)) = 0 := by
    intro x; by_cases hx : 0 < x <;> simp [pp, hx]
  have redb : ∀ x k : Int, x * e.scale ≤ k → -k ≤ x * e.scale → 0 ≤ k →
      (if 0 < x then 0 else x) * e.scale ≤ k ∧ -k ≤ (if 0 < x then 0 else x) * e.scale := by
    intro x k h1 h2 h3
    split <;> omega
  cases pos with
  | neutral =>
    simp only [bind_ok, debugP_ok] at h
    obtain ⟨_, _, h⟩ := h
    cases side
    all_goals
      simp only [bind_ok, ok_inj, Prod.mk.injEq] at h
      obtain ⟨r, hr, rfl, rfl⟩ := h
      obtain ⟨_, _, _, hr1, _, _⟩ := Inner.new_grow hR hP hr
      refine ⟨hnew r hr, fun x h1 h2 => ?_, ?_⟩
      · simp only [Position.outstandingFees, hr1] at h1 h2 ⊢; omega
      · simp only [Position.entryPrice, hr1]; omega
  | long i =>
    have hw : 0 < i.qty := hw
    cases side
    · simp only [bind_ok, ok_inj, Prod.mk.injEq] at h
      obtain ⟨r, hr, rfl, rfl⟩ := h
      obtain ⟨k1, k2, k3⟩ := hinc i r hw he hE hr
      refine ⟨k1, fun x h1 h2 => ?_, k3⟩
      simp only [Position.outstandingFees, k2, Int.add_mul] at h1 h2 ⊢; omega
    · simp only at h
      split at h
      · simp only [bind_ok, ok_inj, Prod.mk.injEq] at h
        obtain ⟨r, hr, rfl, rfl⟩ := h
        obtain ⟨k1, k2, k3⟩ := hdec i 1 r he hE hr
        refine ⟨?_, fun x h1 h2 => ?_, by simp only [Position.entryPrice, k2]; exact ⟨he, hE⟩⟩
        · simpa only [Position.outstandingFees, k3, red, Int.add_zero] using k1
        · simp only [Position.outstandingFees, k3] at h1 h2 ⊢
          exact redb _ _ (by rw [Int.add_mul]; omega) (by rw [Int.add_mul]; omega) (by omega)
      · split at h
        · simp only [bind_ok, ok_inj, Prod.mk.injEq] at h
          obtain ⟨r, hr, _, _, rfl, rfl⟩ := h
          obtain ⟨k1, k2, k3⟩ := hdec i 1 r he hE hr
          refine ⟨?_, fun x h1 h2 => ?_, by simp only [Position.entryPrice]; omega⟩
          · simpa only [Position.outstandingFees, zero, Int.add_zero] using k1
          · simp only [Position.outstandingFees] at h1 h2 ⊢; omega
        · simp only [bind_ok, ok_inj, Prod.mk.injEq, assertP_ok] at h
          obtain ⟨r, hr, _, _, _, _, r', hr', rfl, rfl⟩ := h
          obtain ⟨k1, k2⟩ := hflip i 1 r r' hw he hE (by omega) hr hr'
          refine ⟨?_, fun x h1 h2 => ?_, by simp only [Position.entryPrice, k2]; exact ⟨hp, hP⟩⟩
          · simpa only [Position.outstandingFees, k2, zero, Int.add_zero] using k1
          · simp only [Position.outstandingFees, k2] at h1 h2 ⊢; omega
  | short i =>
    have hw : 0 < i.qty := hw
    cases side
    · simp only at h
      split at h
      · simp only [bind_ok, ok_inj, Prod.mk.injEq] at h
        obtain ⟨r, hr, rfl, rfl⟩ := h
        obtain ⟨k1, k2, k3⟩ := hdec i (-1) r he hE hr
        refine ⟨?_, fun x h1 h2 => ?_, by simp only [Position.entryPrice, k2]; exact ⟨he, hE⟩⟩
        · simpa only [Position.outstandingFees, k3, red, Int.add_zero] using k1
        · simp only [Position.outstandingFees, k3] at h1 h2 ⊢
          exact redb _ _ (by rw [Int.add_mul]; omega) (by rw [Int.add_mul]; omega) (by omega)
      · split at h
        · simp only [bind_ok, ok_inj, Prod.mk.injEq] at h
          obtain ⟨r, hr, _, _, rfl, rfl⟩ := h
          obtain ⟨k1, k2, k3⟩ := hdec i (-1) r he hE hr
          refine ⟨?_, fun x h1 h2 => ?_, by simp only [Position.entryPrice]; omega⟩
          · simpa only [Position.outstandingFees, zero, Int.add_zero] using k1
          · simp only [Position.outstandingFees] at h1 h2 ⊢; omega
        · simp only [bind_ok, ok_inj, Prod.mk.injEq, assertP_ok] at h
          obtain ⟨r, hr, _, _, _, _, r', hr', rfl, rfl⟩ := h
          obtain ⟨k1, k2⟩ := hflip i (-1) r r' hw he hE (by omega) hr hr'
          refine ⟨?_, fun x h1 h2 => ?_, by simp only [Position.entryPrice, k2]; exact ⟨hp, hP⟩⟩
          · simpa only [Position.outstandingFees, k2, zero, Int.add_zero] using k1
          · simp only [Position.outstandingFees, k2] at h1 h2 ⊢; omega
    · simp only [bind_ok, ok_inj, Prod.mk.injEq] at h
      obtain ⟨r, hr, rfl, rfl⟩ := h
      obtain ⟨k1, k2, k3⟩ := hinc i r hw he hE hr
      refine ⟨k1, fun x h1 h2 => ?_, k3⟩
      simp only [Position.outstandingFees, k2, Int.add_mul] at h1 h2 ⊢; omega

/-! ## Order margin -/

/-- Quantity of a list of (price, quantity) pairs. -/
def sumq (l : List (Int × Int)) : Int := (l.map Prod.snd).sum

/-- Prices up to `P` and quantities that are not negative. -/
def Fair (P : Int) (l : List (Int × Int)) : Prop := ∀ x ∈ l, 0 ≤ x.1 ∧ x.1 ≤ P ∧ 0 ≤ x.2

theorem Fair.sumq_nonneg {P : Int} {l : List (Int × Int)} (h : Fair P l) : 0 ≤ sumq l :=
  sum_nonneg fun x hx => (h x hx).2.2

theorem sumq_perm {l l' : List (Int × Int)} (h : l.Perm l') : sumq l = sumq l' :=
  sum_perm (h.map _)

theorem Fair.perm {P : Int} {l l' : List (Int × Int)} (h : Fair P l) (hp : l'.Perm l) : Fair P l' :=
  fun x hx => h x (hp.mem_iff.1 hx)

theorem sumValue_bound {e : Env} {P K : Int} (hR : Rate e P K) : ∀ {l : List (Int × Int)}
    {acc v : Int}, Fair P l → sumValue e acc l = .ok v →
    acc ≤ v ∧ v * e.scale ≤ acc * e.scale + sumq l * K
  | [], acc, v, _, h => by
    simp only [sumValue, ok_inj] at h; subst h; simp [sumq]
  | (p, q) :: l, acc, v, hl, h => by
    simp only [sumValue, bind_ok] at h
    obtain ⟨x, hx, h⟩ := h
    obtain ⟨h1, h2, h3⟩ := hl (p, q) (by simp)
    simp only at h1 h2 h3
    have b := convert_bound hR h1 h2 (Int.le_refl q) (by omega) hx
    have b0 : 0 ≤ x := by rw [convert_ok hx]; exact value_nonneg e h3 h1
    obtain ⟨i1, i2⟩ := sumValue_bound hR (fun y hy => hl y (by simp [hy])) h
    have : sumq ((p, q) :: l) = q + sumq l := by simp [sumq]
    rw [this, Int.add_mul]
    rw [Int.add_mul] at i2
    omega

theorem offset_bound {P : Int} : ∀ {l : List (Int × Int)} (pos : Int), Fair P l →
    Fair P (offsetOrders pos l) ∧ sumq (offsetOrders pos l) ≤ sumq l
  | [], _, h => ⟨h, Int.le_refl _⟩
  | (p, q) :: l, pos, h => by
    unfold offsetOrders
    split
    · obtain ⟨i1, i2⟩ := offset_bound (l := l) (pos - umin q pos) (fun y hy => h y (by simp [hy]))
      obtain ⟨h1, h2, h3⟩ := h (p, q) (by simp)
      simp only at h1 h2 h3
      constructor
      · intro x hx
        simp only [List.mem_cons] at hx
        rcases hx with rfl | hx
        · exact ⟨h1, h2, by simp only [umax]; split <;> omega⟩
        · exact i1 x hx
      · have : umax (q - pos) 0 ≤ q := by unfold umax; split <;> omega
        simp only [sumq, List.map_cons, List.sum_cons] at i2 ⊢
        omega
    · exact ⟨h, Int.le_refl _⟩

/-- Prices and quantities of the orders of a book. -/
def FairBook (P : Int) (b : List Limit) : Prop := ∀ o ∈ b, 0 < o.price ∧ o.price ≤ P ∧ 0 ≤ o.remaining

/-- The remaining quantity of an optional order. -/
def optQty (new : Option Limit) : Int := (new.map Limit.remaining).getD 0

theorem sideOrders_fair {P : Int} {b : Book} {new : Option Limit} (side : Side) (h : FairBook P b)
    (hn : ∀ o, new = some o → 0 < o.price ∧ o.price ≤ P ∧ 0 ≤ o.remaining) :
    Fair P (sideOrders side b new) ∧ sumq (sideOrders side b new) ≤ qsum b + optQty new := by
  have hf : Fair P ((b.filter (fun o => o.side == side)).map (fun o => (o.price, o.remaining))) := by
    intro x hx
    simp only [List.mem_map, List.mem_filter] at hx
    obtain ⟨o, ⟨ho, _⟩, rfl⟩ := hx
    have := h o ho
    exact ⟨by simp only; omega, this.2.1, this.2.2⟩
  have hq : sumq ((b.filter (fun o => o.side == side)).map (fun o => (o.price, o.remaining))) ≤
      qsum b := by
    clear hf hn
    unfold sumq qsum
    induction b with
    | nil => simp
    | cons o b ih =>
      have h1 := h o (by simp)
      have h2 := ih (fun x hx => h x (by simp [hx]))
      simp only [List.filter_cons]
      split
      · simp only [List.map_cons, List.sum_cons]; omega
      · simp only [List.map_cons, List.sum_cons]; omega
  unfold sideOrders
  cases new with
  | none =>
    simp only [List.append_nil, optQty, Option.map_none, Option.getD_none, Int.add_zero]
    exact ⟨hf, hq⟩
  | some o =>
    have ho := hn o rfl
    simp only [optQty, Option.map_some, Option.getD_some]
    split
    · refine ⟨fun x hx => ?_, ?_⟩
      · simp only [List.mem_append, List.mem_singleton] at hx
        rcases hx with hx | rfl
        · exact hf x hx
        · exact ⟨by simp only; omega, ho.2.1, ho.2.2⟩
      · simp only [sumq, List.map_append, List.sum_append, List.map_cons, List.map_nil,
          List.sum_cons, List.sum_nil] at hq ⊢
        omega
    · rw [List.append_nil]
      exact ⟨hf, by omega⟩

theorem orderMargin_bound {e : Env} {imr P K m : Int} {b : Book} {pos : Position}
    {new : Option Limit} (hR : Rates e imr P K) (h : FairBook P b)
    (hn : ∀ o, new = some o → 0 < o.price ∧ o.price ≤ P ∧ 0 ≤ o.remaining)
    (hm : orderMarginInternal e imr b pos new = .ok m) :
    0 ≤ m ∧ m * e.scale ≤ (qsum b + optQty new) * K := by
  have hs := scale_pos e
  have hK : 0 ≤ K := by have := hR.price; have := hR.pos; omega
  obtain ⟨f1, f2⟩ := sideOrders_fair .buy h hn
  obtain ⟨f3, f4⟩ := sideOrders_fair .sell h hn
  simp only [orderMarginInternal, bind_ok, debugP_ok, ok_inj] at hm
  obtain ⟨_, _, bv, hbv, sv, hsv, rfl⟩ := hm
  have g1 := f1.perm (sortBy_perm (fun x => -x.1) _)
  have g2 := f3.perm (sortBy_perm (fun x => x.1) _)
  have q1 := sumq_perm (sortBy_perm (fun x => -x.1) (sideOrders .buy b new))
  have q2 := sumq_perm (sortBy_perm (fun x => x.1) (sideOrders .sell b new))
  have k1 : 0 ≤ bv ∧ bv * e.scale ≤ (qsum b + optQty new) * K := by
    have go : ∀ l, Fair P l → sumq l ≤ qsum b + optQty new → sumValue e 0 l = .ok bv →
        0 ≤ bv ∧ bv * e.scale ≤ (qsum b + optQty new) * K := by
      intro l hl hle hv
      obtain ⟨b1, b2⟩ := sumValue_bound hR.toRate hl hv
      have := Int.mul_le_mul_of_nonneg_right hle hK
      exact ⟨b1, by omega⟩
    cases pos with
    | short p =>
      obtain ⟨o1, o2⟩ := offset_bound p.qty g1
      exact go _ o1 (by omega) hbv
    | _ => exact go _ g1 (by omega) hbv
  have k2 : 0 ≤ sv ∧ sv * e.scale ≤ (qsum b + optQty new) * K := by
    have go : ∀ l, Fair P l → sumq l ≤ qsum b + optQty new → sumValue e 0 l = .ok sv →
        0 ≤ sv ∧ sv * e.scale ≤ (qsum b + optQty new) * K := by
      intro l hl hle hv
      obtain ⟨b1, b2⟩ := sumValue_bound hR.toRate hl hv
      have := Int.mul_le_mul_of_nonneg_right hle hK
      exact ⟨b1, by omega⟩
    cases pos with
    | long p =>
      obtain ⟨o1, o2⟩ := offset_bound p.qty g2
      exact go _ o1 (by omega) hsv
    | _ => exact go _ g2 (by omega) hsv
  have k3 : 0 ≤ umax bv sv ∧ umax bv sv * e.scale ≤ (qsum b + optQty new) * K := by
    unfold umax; split
    · exact k1
    · exact k2
  have h3 := hR.imr0
  have s1 := share_nonneg e k3.1 h3
  have s2 := (share_bound (e := e) k3.1 hR.imr1 (by omega)).1
  refine ⟨s1, ?_⟩
  have := Int.mul_le_mul_of_nonneg_right s2 (by omega : 0 ≤ e.scale)
  unfold dmul
  unfold share at this
  omega

/-! ## The accounts over a history -/

/-- Bounds on the accounts after trading `T` contracts and `m` limit order submissions, each of
which moves at most `X`. -/
structure Cash (c : Cfg) (K X : Int) (a : Accounts) (pos : Position) (T m : Int) : Prop where
  gross : Gross a
  fee0 : a.exchangeFee.credits = 0
  broker : a.broker = ⟨0, 0⟩
  pm : a.positionMargin.credits * c.env.scale ≤ T * K
  tr : a.treasury.credits * c.env.scale ≤ c.start * c.env.scale + T * K
  omle : a.orderMargin.credits ≤ a.orderMargin.debits
  ombal : (a.orderMargin.debits - a.orderMargin.credits) * c.env.scale ≤
    c.start * c.env.scale + 2 * (T * K)
  omdeb : a.orderMargin.debits * c.env.scale ≤ m * X
  sum : (a.debitSum - a.orderMargin.debits - a.orderMargin.credits + pp pos.outstandingFees) *
    c.env.scale ≤ c.start * c.env.scale + 3 * (T * K)
  fees1 : pos.outstandingFees * c.env.scale ≤ T * K
  fees2 : -(T * K) ≤ pos.outstandingFees * c.env.scale
  omc : a.orderMargin.credits ≤ a.wallet.debits

theorem Cash.init {c : Cfg} {K X : Int} (hst : 0 ≤ c.start) :
    Cash c K X (Accounts.new c.start) .neutral 0 0 := by
  have hs := scale_pos c.env
  have h0 := Int.mul_nonneg hst (by omega : 0 ≤ c.env.scale)
  refine ⟨⟨fun i => ?_, ?_⟩, ?_, ?_, ?_, ?_, ?_, ?_, ?_, ?_, ?_, ?_, ?_⟩
  · cases i <;> simp [Accounts.new, Accounts.get] <;> omega
  all_goals
    simp [Accounts.new, Accounts.debitSum, Accounts.creditSum, Position.outstandingFees, pp]
  all_goals try omega

/-- The total of all entries. -/
theorem Cash.total {c : Cfg} {K X : Int} {a : Accounts} {pos : Position} {T m : Int}
    (h : Cash c K X a pos T m) :
    a.debitSum * c.env.scale + pp pos.outstandingFees * c.env.scale ≤
      c.start * c.env.scale + 3 * (T * K) + 2 * (m * X) := by
  have hs := scale_pos c.env
  have h1 := h.sum
  have h2 := h.omdeb
  have h3 := Int.mul_le_mul_of_nonneg_right h.omle (by omega : 0 ≤ c.env.scale)
  rw [Int.add_mul, Int.sub_mul, Int.sub_mul] at h1
  omega

/-- What a fill does. -/
theorem Cash.fill {c : Cfg} {P K X : Int} {a a' : Accounts} {pos pos' : Position} {T m q : Int}
    (h : Cash c K X a pos T m) (hg : FillGrow c.env P K a a' pos pos' q) (hK : 0 ≤ q * K) :
    Cash c K X a' pos' (T + q) m := by
  have hs := scale_pos c.env
  obtain ⟨⟨D, M, R, g, b1, b2, b3⟩, hf, _⟩ := hg
  obtain ⟨f1, f2⟩ := hf _ h.fees1 h.fees2
  have e : (T + q) * K = T * K + q * K := Int.add_mul ..
  have m1 := Int.mul_le_mul_of_nonneg_right g.pm (by omega : 0 ≤ c.env.scale)
  have m2 := Int.mul_le_mul_of_nonneg_right g.tr (by omega : 0 ≤ c.env.scale)
  have m3 := Int.mul_le_mul_of_nonneg_right g.sum (by omega : 0 ≤ c.env.scale)
  rw [Int.add_mul] at m1 m2 m3 b3
  have h1 := h.pm
  have h2 := h.tr
  have h3 := h.sum
  have h4 := h.ombal
  rw [Int.add_mul, Int.sub_mul, Int.sub_mul] at h3
  refine ⟨g.gross h.gross, by rw [g.fee]; exact h.fee0, by rw [g.broker]; exact h.broker, ?_, ?_,
    by rw [g.om]; exact h.omle, ?_, by rw [g.om]; exact h.omdeb, ?_, ?_, ?_,
    by rw [g.om]; have := h.omc; have := g.wd; omega⟩
  · omega
  · omega
  · rw [g.om]; omega
  · rw [g.om, Int.add_mul, Int.sub_mul, Int.sub_mul]; omega
  · omega
  · omega

theorem Cash.release {c : Cfg} {K X : Int} {a a' : Accounts} {pos : Position} {T m x : Int}
    (h : Cash c K X a pos T m) (hx : x ≤ a.balance .orderMargin)
    (ht : transfer c.env a .wallet .orderMargin x = .ok a') : Cash c K X a' pos T m := by
  have hs := scale_pos c.env
  have hg := transfer_gross ht h.gross
  have hsum := (transfer_sums ht).1
  obtain ⟨hx0, _, rfl⟩ := transfer_ok ht
  have h1 := h.fee0
  have h2 := h.broker
  have h3 := h.pm
  have h4 := h.tr
  have h5 := h.omle
  have h6 := h.ombal
  have h7 := h.omdeb
  have h8 := h.sum
  have hxs := Int.mul_nonneg (by omega : 0 ≤ x) (by omega : 0 ≤ c.env.scale)
  refine ⟨hg, ?_, ?_, ?_, ?_, ?_, ?_, ?_, ?_, h.fees1, h.fees2,
    by have := h.omc; simp [Accounts.get, Accounts.set]; omega⟩
  · simpa [Accounts.get, Accounts.set] using h1
  · simpa [Accounts.get, Accounts.set] using h2
  · simpa [Accounts.get, Accounts.set] using h3
  · simpa [Accounts.get, Accounts.set] using h4
  · simp [Accounts.balance, Accounts.get, TAccount.net] at hx
    simp [Accounts.get, Accounts.set]; omega
  · simp only [Accounts.get, Accounts.set]
    rw [Int.sub_mul] at h6 ⊢
    rw [Int.add_mul]
    omega
  · simpa [Accounts.get, Accounts.set] using h7
  · rw [hsum]
    simp only [Accounts.get, Accounts.set]
    have : a.debitSum + x - a.orderMargin.debits - (a.orderMargin.credits + x) =
      a.debitSum - a.orderMargin.debits - a.orderMargin.credits := by omega
    rw [this]; exact h8

theorem Cash.reserve {c : Cfg} {K X : Int} {a a' : Accounts} {pos : Position} {T m x : Int}
    (h : Cash c K X a pos T m) (hx : x * c.env.scale ≤ X)
    (ht : transfer c.env a .orderMargin .wallet x = .ok a') (hw : 0 ≤ a'.balance .wallet) :
    Cash c K X a' pos T (m + 1) := by
  have hs := scale_pos c.env
  have hg := transfer_gross ht h.gross
  have hsum := (transfer_sums ht).1
  obtain ⟨hx0, _, rfl⟩ := transfer_ok ht
  have h1 := h.fee0
  have h2 := h.broker
  have h3 := h.pm
  have h4 := h.tr
  have h5 := h.omle
  have h7 := h.omdeb
  have h8 := h.sum
  refine ⟨hg, ?_, ?_, ?_, ?_, ?_, ?_, ?_, ?_, h.fees1, h.fees2,
    by have := h.omc; simp [Accounts.get, Accounts.set]; omega⟩
  · simpa [Accounts.get, Accounts.set] using h1
  · simpa [Accounts.get, Accounts.set] using h2
  · simpa [Accounts.get, Accounts.set] using h3
  · simpa [Accounts.get, Accounts.set] using h4
  · simp [Accounts.get, Accounts.set]; omega
  · have key : (a.orderMargin.debits + x - a.orderMargin.credits) ≤
        a.positionMargin.credits + a.treasury.credits := by
      have s := hg.sums
      have n1 := h.gross.nonneg .positionMargin
      have n2 := h.gross.nonneg .treasury
      have n3 := h.gross.nonneg .exchangeFee
      simp [Accounts.debitSum, Accounts.creditSum, Accounts.get, Accounts.set, Accounts.balance,
        TAccount.net, h2] at s hw n1 n2 n3
      omega
    have := Int.mul_le_mul_of_nonneg_right key (by omega : 0 ≤ c.env.scale)
    rw [Int.add_mul] at this
    simp only [Accounts.get, Accounts.set]
    omega
  · simp only [Accounts.get, Accounts.set]
    rw [Int.add_mul, Int.add_mul]; omega
  · rw [hsum]
    simp only [Accounts.get, Accounts.set]
    have : a.debitSum + x - (a.orderMargin.debits + x) - a.orderMargin.credits =
      a.debitSum - a.orderMargin.debits - a.orderMargin.credits := by omega
    rw [this]; exact h8

theorem Cash.mono {c : Cfg} {K X : Int} {a : Accounts} {pos : Position} {T m n : Int}
    (h : Cash c K X a pos T m) (hX : 0 ≤ X) (hmn : m ≤ n) : Cash c K X a pos T n := by
  have := Int.mul_le_mul_of_nonneg_right hmn hX
  exact { h with omdeb := by have := h.omdeb; omega }

end Lfest
