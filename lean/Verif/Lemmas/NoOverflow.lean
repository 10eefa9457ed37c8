import Verif.Lemmas.Bound
import Verif.Lemmas.Machine

/-!
# The bounded program does not overflow on amounts within limits
-/

namespace Lfest.Mach

open Spec

/-- The computation does not overflow. -/
def NoOv {α} (m : Res α) : Prop := m ≠ .error .overflow

theorem noov_ok {α} {x : α} : NoOv (.ok x : Res α) := by simp [NoOv]

theorem noov_bind {α β} {m u : Res α} {f : α → Res β} (ha : Agree m u) (h : NoOv m)
    (k : ∀ x, u = .ok x → NoOv (f x)) : NoOv (m >>= f) := by
  cases hm : m with
  | error e =>
    intro he
    rw [hm] at h
    simp only [bind, Except.bind, Except.error.injEq] at he
    exact h (by rw [he])
  | ok x =>
    rcases ha with ha | ha
    · rw [hm] at ha; simp at ha
    · exact k x (by rw [← ha, hm])

/-- Sequencing after a part that is shared with the unbounded program. -/
theorem noov_bind' {α β} {m : Res α} {f : α → Res β} (h : NoOv m)
    (k : ∀ x, m = .ok x → NoOv (f x)) : NoOv (m >>= f) := noov_bind (.refl m) h k

theorem noov_assert {c : Prop} [Decidable c] {p : Panic} (h : p ≠ .overflow) :
    NoOv (assertP c p) := by
  unfold assertP NoOv; split <;> simp [h]

theorem noov_debug {d : Bool} {c : Prop} [Decidable c] {p : Panic} (h : p ≠ .overflow) :
    NoOv (debugP d c p) := by
  unfold debugP; split
  · exact noov_assert h
  · exact noov_ok

theorem noov_assert_bind {β} {c : Prop} [Decidable c] {p : Panic} {f : Unit → Res β}
    (h : p ≠ .overflow) (k : c → NoOv (f ())) : NoOv (assertP c p >>= f) :=
  noov_bind' (noov_assert h) fun _ hx => k (assertP_ok.1 hx)

theorem noov_debug_bind {β} {d : Bool} {c : Prop} [Decidable c] {p : Panic} {f : Unit → Res β}
    (h : p ≠ .overflow) (k : (d = true → c) → NoOv (f ())) : NoOv (debugP d c p >>= f) :=
  noov_bind' (noov_debug h) fun _ hx => k (debugP_ok.1 hx)

/-- Representable. -/
def In (w x : Int) : Prop := -w ≤ x ∧ x ≤ w

theorem noov_chk {w x : Int} (h : In w x) : NoOv (chk w x) := by
  have h' : -w ≤ x ∧ x ≤ w := h
  unfold chk; rw [if_pos h']; exact noov_ok

theorem noov_chk_bind {β} {w x : Int} {f : Int → Res β} (h : In w x) (k : NoOv (f x)) :
    NoOv (chk w x >>= f) :=
  noov_bind agree_chk (noov_chk h) fun y hy => by simp only [ok_inj] at hy; rwa [← hy]

theorem In.of_mul {w x s : Int} (hs : 0 < s) (h1 : x * s ≤ w * s) (h2 : -(w * s) ≤ x * s) :
    In w x :=
  ⟨Int.le_of_mul_le_mul_right (by rw [Int.neg_mul]; exact h2) hs,
    Int.le_of_mul_le_mul_right h1 hs⟩

theorem noov_dmul {w s a b : Int} (h : In w (Lfest.dmul s a b)) : NoOv (dmul w s a b) :=
  noov_chk h

theorem noov_dmul_bind {β} {w s a b : Int} {f : Int → Res β} (h : In w (Lfest.dmul s a b))
    (k : NoOv (f (Lfest.dmul s a b))) : NoOv (dmul w s a b >>= f) := noov_chk_bind h k

theorem noov_ddiv0 {s a b : Int} : NoOv (Lfest.ddiv s a b) := by
  unfold Lfest.ddiv NoOv; split <;> simp

theorem noov_drem {a b : Int} : NoOv (drem a b) := by
  unfold drem NoOv; split <;> simp

theorem noov_ddiv {w s a b : Int} (h : ∀ x, Lfest.ddiv s a b = .ok x → In w x) :
    NoOv (ddiv w s a b) :=
  noov_bind' noov_ddiv0 fun x hx => noov_chk (h x hx)

/-! ## Values -/

theorem noov_convert {w : Int} {e : Env} {P K q p x : Int} (h : Rate e P K) (hp : 0 ≤ p)
    (hP : p ≤ P) (h1 : q ≤ x) (h2 : -x ≤ q) (hw : x * K ≤ w * e.scale) :
    NoOv (convert w e q p) := by
  have hs := scale_pos e
  have key : ∀ v, Lfest.convert e q p = .ok v → In w v := by
    intro v hv
    obtain ⟨b1, b2⟩ := convert_bound h hp hP h1 h2 hv
    exact In.of_mul hs (by omega) (by omega)
  unfold convert
  unfold Lfest.convert at key
  cases hk : e.kind with
  | linear => simp only [hk] at key; exact noov_dmul (key _ rfl)
  | inverse => simp only [hk] at key; exact noov_ddiv key

theorem noov_pnl {w : Int} {e : Env} {P K q a b x : Int} (h : Rate e P K) (ha : 0 ≤ a) (hA : a ≤ P)
    (hb : 0 ≤ b) (hB : b ≤ P) (h1 : q ≤ x) (h2 : -x ≤ q) (hw : x * K ≤ w * e.scale) :
    NoOv (pnl w e a b q) := by
  have hs := scale_pos e
  have key : ∀ v, Lfest.pnl e a b q = .ok v → In w v := by
    intro v hv
    obtain ⟨b1, b2⟩ := pnl_bound h ha hA hb hB h1 h2 hv
    exact In.of_mul hs (by omega) (by omega)
  unfold pnl
  unfold Lfest.pnl at key
  split
  · exact noov_ok
  · next hq =>
    simp only [if_neg hq] at key
    cases hk : e.kind with
    | linear =>
      simp only [hk] at key
      refine noov_bind agree_convert (noov_convert h hb hB h1 h2 hw) fun x hx => ?_
      refine noov_bind agree_convert (noov_convert h ha hA h1 h2 hw) fun y hy => ?_
      exact noov_chk (key _ (by simp only [bind_ok, ok_inj]; exact ⟨x, hx, y, hy, rfl⟩))
    | inverse =>
      simp only [hk] at key
      refine noov_bind agree_convert (noov_convert h ha hA h1 h2 hw) fun x hx => ?_
      refine noov_bind agree_convert (noov_convert h hb hB h1 h2 hw) fun y hy => ?_
      exact noov_chk (key _ (by simp only [bind_ok, ok_inj]; exact ⟨x, hx, y, hy, rfl⟩))

/-- Weighted prices: the products have to fit as well as the result. -/
theorem noov_weighted {w : Int} {e : Env} {P p0 w0 p1 w1 : Int} (h0 : 0 ≤ p0) (h0' : p0 ≤ P)
    (h1 : 0 ≤ p1) (h1' : p1 ≤ P) (hw0 : 0 ≤ w0) (hw1 : 0 ≤ w1) (hw : 0 < w0 + w1)
    (hP : P ≤ w) (ht : w0 + w1 ≤ w) (hm : (w0 + w1) * P ≤ w * e.scale) :
    NoOv (newWeightedPrice w e.scale p0 w0 p1 w1) := by
  have hs := scale_pos e
  have a1 := Int.mul_le_mul_of_nonneg_right h0' hw0
  have a2 := Int.mul_le_mul_of_nonneg_right h1' hw1
  have n1 := Int.mul_nonneg h0 hw0
  have n2 := Int.mul_nonneg h1 hw1
  have e1 := Int.mul_comm P w0
  have e2 := Int.mul_comm P w1
  rw [Int.add_mul] at hm
  obtain ⟨t1, t2, t3⟩ := tdiv_bounds n1 hs
  obtain ⟨u1, u2, u3⟩ := tdiv_bounds n2 hs
  have z1 := Int.mul_nonneg t3 (by omega : 0 ≤ e.scale)
  have z2 := Int.mul_nonneg u3 (by omega : 0 ≤ e.scale)
  unfold newWeightedPrice
  refine noov_chk_bind ⟨by omega, ht⟩ ?_
  refine noov_dmul_bind (In.of_mul hs (by unfold Lfest.dmul; omega) (by unfold Lfest.dmul; omega)) ?_
  refine noov_dmul_bind (In.of_mul hs (by unfold Lfest.dmul; omega) (by unfold Lfest.dmul; omega)) ?_
  refine noov_chk_bind (In.of_mul hs ?_ ?_) ?_
  · unfold Lfest.dmul; rw [Int.add_mul]; omega
  · unfold Lfest.dmul; rw [Int.add_mul]; omega
  · refine noov_ddiv fun x hx => ?_
    have hx' : x = weighted e p0 w0 p1 w1 := newWeightedPrice_ok hx
    have b1 := (weighted_bounds e h0 h1 hw0 hw1 hw).1
    have b2 := weighted_le e h0 h1 hw0 hw1 hw h0' h1'
    rw [hx']; exact ⟨by omega, by omega⟩

/-! ## Accounts -/

theorem noov_sum {w : Int} : ∀ (xs : List Int) (acc : Int), 0 ≤ acc → (∀ x ∈ xs, 0 ≤ x) →
    acc + xs.sum ≤ w → NoOv (sum w acc xs)
  | [], _, _, _, _ => noov_ok
  | x :: xs, acc, h0, hx, hw => by
    have h1 := hx x (by simp)
    have h2 : 0 ≤ xs.sum := by
      have := sum_nonneg (l := xs) (f := id) (fun y hy => hx y (by simp [hy]))
      simpa using this
    simp only [List.sum_cons] at hw
    refine noov_chk_bind ⟨by omega, by omega⟩ ?_
    exact noov_sum xs _ (by omega) (fun y hy => hx y (by simp [hy])) (by omega)

theorem Gross.get_le {a : Accounts} (h : Gross a) (i : AccountId) :
    (a.get i).debits ≤ a.debitSum ∧ (a.get i).credits ≤ a.debitSum := by
  have h1 := h.nonneg .wallet
  have h2 := h.nonneg .orderMargin
  have h3 := h.nonneg .positionMargin
  have h4 := h.nonneg .exchangeFee
  have h5 := h.nonneg .broker
  have h6 := h.nonneg .treasury
  have hs := h.sums
  simp only [Accounts.get, Accounts.debitSum, Accounts.creditSum] at *
  cases i <;> simp only <;> omega

theorem Gross.balance_le {a : Accounts} (h : Gross a) (i : AccountId) :
    -a.debitSum ≤ a.balance i ∧ a.balance i ≤ a.debitSum := by
  have h1 := Gross.get_le h i
  have h2 := h.nonneg i
  simp only [Accounts.balance, TAccount.net]
  omega

theorem noov_balance {w : Int} {a : Accounts} {i : AccountId} (h : Gross a)
    (hw : a.debitSum ≤ w) : NoOv (balance w a i) := by
  have := Gross.balance_le h i
  exact noov_chk ⟨by omega, by omega⟩

theorem noov_balance_bind {β} {w : Int} {a : Accounts} {i : AccountId} {f : Int → Res β}
    (h : Gross a) (hw : a.debitSum ≤ w) (k : NoOv (f (a.balance i))) :
    NoOv (balance w a i >>= f) := by
  have := Gross.balance_le h i
  exact noov_chk_bind ⟨by omega, by omega⟩ k

theorem noov_equation {w : Int} {d : Bool} {a : Accounts} (h : Gross a) (hw : a.debitSum ≤ w) :
    NoOv (debugEquation w d a) := by
  have h1 := h.nonneg .wallet
  have h2 := h.nonneg .orderMargin
  have h3 := h.nonneg .positionMargin
  have h4 := h.nonneg .exchangeFee
  have h5 := h.nonneg .broker
  have h6 := h.nonneg .treasury
  have hs := h.sums
  simp only [Accounts.get] at h1 h2 h3 h4 h5 h6
  unfold debugEquation
  split
  · refine noov_bind (agree_sum _ _) (noov_sum _ _ (by omega) ?_ ?_) fun _ _ => ?_
    · simp; omega
    · simp [Accounts.debitSum] at hw ⊢; omega
    · refine noov_bind (agree_sum _ _) (noov_sum _ _ (by omega) ?_ ?_) fun _ _ => noov_assert (by simp)
      · simp; omega
      · rw [hs] at hw; simp [Accounts.creditSum] at hw ⊢; omega
  · exact noov_ok

theorem noov_transfer {w : Int} {e : Env} {a : Accounts} {d k : AccountId} {x : Int} (h : Gross a)
    (hw : a.debitSum + x ≤ w) : NoOv (transfer w e a d k x) := by
  unfold transfer
  refine noov_assert_bind (by simp) fun hx => noov_assert_bind (by simp) fun hdk => ?_
  have h1 := Gross.get_le h d
  have h2 := Gross.get_le h k
  have h3 := h.nonneg d
  have h4 := h.nonneg k
  refine noov_chk_bind ⟨by omega, by omega⟩ (noov_chk_bind ⟨by omega, by omega⟩ ?_)
  dsimp only
  obtain ⟨a', ha⟩ := transfer_total (e := e) h.sums hx hdk
  have hg := transfer_gross ha h
  have hsum := (transfer_sums ha).1
  obtain ⟨_, _, rfl⟩ := transfer_ok ha
  exact noov_bind agree_equation (noov_equation hg (by rw [← hsum] at hw; exact hw)) fun _ _ => noov_ok

theorem noov_any {α β} {m : Res α} {f : α → Res β} (h : NoOv m) (k : ∀ x, NoOv (f x)) :
    NoOv (m >>= f) := by
  cases m with
  | error e =>
    intro he
    simp only [bind, Except.bind, Except.error.injEq] at he
    exact h (by rw [he])
  | ok x => exact k x

/-! ## Positions -/

/-- The amounts of a fill of `q` contracts fit. -/
structure Room (w : Int) (e : Env) (P K : Int) (a : Accounts) (pos : Position) (q : Int) : Prop where
  gross : Gross a
  amount : 0 ≤ q
  price : P ≤ w
  money : a.debitSum * e.scale + pp pos.outstandingFees * e.scale + 3 * (q * K) ≤ w * e.scale
  fees1 : pos.outstandingFees * e.scale + q * K ≤ w * e.scale
  fees2 : -(w * e.scale) ≤ pos.outstandingFees * e.scale - q * K
  qty : Spec.abs pos.quantity + q ≤ w
  value : (Spec.abs pos.quantity + q) * K ≤ w * e.scale

theorem debitSum_nonneg {a : Accounts} (h : Gross a) : 0 ≤ a.debitSum := by
  have h1 := h.nonneg .wallet
  have h2 := Gross.get_le h .wallet
  omega

theorem noov_new {w : Int} {e : Env} {imr P K : Int} {a : Accounts} {q p f : Int}
    (hR : Rates e imr P K) (hP : p ≤ P) (hg : Gross a)
    (hm : a.debitSum * e.scale + q * K ≤ w * e.scale) : NoOv (new w e imr a q p f) := by
  have hs := scale_pos e
  have hd := Int.mul_nonneg (debitSum_nonneg hg) (by omega : 0 ≤ e.scale)
  unfold new
  refine noov_assert_bind (by simp) fun hq => noov_assert_bind (by simp) fun hp => ?_
  refine noov_bind agree_convert (noov_convert hR.toRate (by omega) hP (Int.le_refl q) (by omega)
    (by omega)) fun v hv => ?_
  obtain ⟨b1, b2, b3, b4⟩ := margin_bound hR (by omega) hP (by omega) hv
  have b5 := Int.mul_le_mul_of_nonneg_right b4 (by omega : 0 ≤ e.scale)
  have b6 := Int.mul_nonneg b3 (by omega : 0 ≤ e.scale)
  refine noov_dmul_bind (In.of_mul hs (by omega) (by omega)) ?_
  refine noov_bind agree_transfer (noov_transfer hg ?_) fun _ _ => noov_ok
  exact Int.le_of_mul_le_mul_right (by rw [Int.add_mul]; omega) hs

theorem noov_increase {w : Int} {e : Env} {imr P K : Int} {a : Accounts} {i : Inner} {q p f : Int}
    (hR : Rates e imr P K) (hP : p ≤ P) (hi : 0 < i.qty) (he : 0 ≤ i.entry) (hE : i.entry ≤ P)
    (hg : Gross a) (hm : a.debitSum * e.scale + q * K ≤ w * e.scale) (hPw : P ≤ w)
    (hq : i.qty + q ≤ w) (hv : (i.qty + q) * K ≤ w * e.scale) (hf : In w (i.fees + f)) :
    NoOv (increase w e imr a i q p f) := by
  have hs := scale_pos e
  have hd := Int.mul_nonneg (debitSum_nonneg hg) (by omega : 0 ≤ e.scale)
  unfold increase
  refine noov_assert_bind (by simp) fun hq0 => noov_assert_bind (by simp) fun hp => ?_
  refine noov_bind agree_convert (noov_convert hR.toRate (by omega) hP (Int.le_refl q) (by omega)
    (by omega)) fun v hv => ?_
  obtain ⟨b1, b2, b3, b4⟩ := margin_bound hR (by omega) hP (by omega) hv
  have b5 := Int.mul_le_mul_of_nonneg_right b4 (by omega : 0 ≤ e.scale)
  have b6 := Int.mul_nonneg b3 (by omega : 0 ≤ e.scale)
  have hPK := Int.mul_le_mul_of_nonneg_left hR.price (by omega : 0 ≤ i.qty + q)
  refine noov_bind agree_weighted (noov_weighted he hE (by omega) hP (by omega) (by omega)
    (by omega) hPw hq (by omega)) fun y hy => ?_
  refine noov_dmul_bind (In.of_mul hs (by omega) (by omega)) ?_
  refine noov_bind agree_transfer (noov_transfer hg ?_) fun _ _ => ?_
  · exact Int.le_of_mul_le_mul_right (by rw [Int.add_mul]; omega) hs
  · exact noov_chk_bind ⟨by omega, hq⟩ (noov_chk_bind hf noov_ok)

theorem noov_settlePnl {w : Int} {e : Env} {a : Accounts} {v : Int} (hg : Gross a)
    (h : a.debitSum + Spec.abs v ≤ w) : NoOv (settlePnl w e a v) := by
  unfold settlePnl
  split
  · exact noov_transfer hg (by unfold Spec.abs at h; split at h <;> omega)
  split
  · exact noov_transfer hg (by unfold Spec.abs at h; split at h <;> omega)
  · exact noov_ok

theorem noov_settleFees {w : Int} {e : Env} {a : Accounts} {f : Int} (hg : Gross a)
    (h : a.debitSum + pp f ≤ w) : NoOv (settleFees w e a f) := by
  unfold settleFees
  split
  · next hf =>
    refine noov_bind agree_transfer (noov_transfer hg ?_) fun _ _ => noov_ok
    simp [pp, hf] at h; exact h
  · exact noov_ok

theorem noov_decrease {w : Int} {e : Env} {imr P K : Int} {a : Accounts} {i : Inner}
    {q p dir f : Int} (hR : Rates e imr P K) (hp : 0 ≤ p) (hP : p ≤ P) (he : 0 ≤ i.entry)
    (hE : i.entry ≤ P) (hg : Gross a)
    (hm : a.debitSum * e.scale + pp (i.fees + f) * e.scale + 2 * (q * K) ≤ w * e.scale)
    (hq : i.qty ≤ w) (hf : In w (i.fees + f)) : NoOv (decrease w e imr a i q p dir f) := by
  have hs := scale_pos e
  have hd := Int.mul_nonneg (debitSum_nonneg hg) (by omega : 0 ≤ e.scale)
  have hpp := Int.mul_nonneg (by unfold pp; split <;> omega : 0 ≤ pp (i.fees + f))
    (by omega : 0 ≤ e.scale)
  have hK : 0 ≤ K := by have := hR.price; have := hR.pos; omega
  unfold decrease
  refine noov_assert_bind (by simp) fun hq0 => noov_assert_bind (by simp) fun hq1 => ?_
  have hqK := Int.mul_nonneg (by omega : 0 ≤ q) hK
  refine noov_chk_bind ⟨by omega, by omega⟩ (noov_debug_bind (by simp) fun _ => ?_)
  refine noov_chk_bind hf ?_
  have s1 : (if dir = 1 then q else -q) ≤ q := by split <;> omega
  have s2 : -q ≤ (if dir = 1 then q else -q) := by split <;> omega
  refine noov_bind agree_pnl (noov_pnl hR.toRate he hE hp hP s1 s2 (by omega)) fun v hv => ?_
  obtain ⟨c1, c2⟩ := pnl_bound hR.toRate he hE hp hP s1 s2 hv
  have hx : Spec.abs v * e.scale ≤ q * K := by
    unfold Spec.abs; split
    · exact c1
    · rw [Int.neg_mul]; omega
  refine noov_bind agree_settlePnl (noov_settlePnl hg ?_) fun a1 ha1 => ?_
  · exact Int.le_of_mul_le_mul_right (by rw [Int.add_mul]; omega) hs
  have g1 := settlePnl_grow (x := Spec.abs v) (by unfold Spec.abs; split <;> omega)
    (by unfold Spec.abs; split <;> omega) ha1
  have m1 := Int.mul_le_mul_of_nonneg_right g1.sum (by omega : 0 ≤ e.scale)
  rw [Int.add_mul] at m1
  refine noov_bind agree_convert (noov_convert hR.toRate he hE (Int.le_refl q) (by omega)
    (by omega)) fun y hy => ?_
  obtain ⟨b1, b2, b3, b4⟩ := margin_bound hR he hE (by omega) hy
  have b5 := Int.mul_le_mul_of_nonneg_right b4 (by omega : 0 ≤ e.scale)
  have b6 := Int.mul_nonneg b3 (by omega : 0 ≤ e.scale)
  refine noov_dmul_bind (In.of_mul hs (by omega) (by omega)) (noov_debug_bind (by simp) fun _ => ?_)
  refine noov_bind agree_transfer (noov_transfer (g1.gross hg) ?_) fun a2 ha2 => ?_
  · exact Int.le_of_mul_le_mul_right (by rw [Int.add_mul]; omega) hs
  have g2 := transfer_gross ha2 (g1.gross hg)
  have m2 := (transfer_sums ha2).1
  refine noov_bind agree_settleFees (noov_settleFees g2 ?_) fun _ _ => noov_ok
  rw [m2]
  exact Int.le_of_mul_le_mul_right (by rw [Int.add_mul, Int.add_mul]; omega) hs

theorem noov_debugNoMargin {w : Int} {d : Bool} {a : Accounts} {p : Panic} (hp : p ≠ .overflow)
    (hg : Gross a) (hw : a.debitSum ≤ w) : NoOv (debugNoMargin w d a p) := by
  unfold debugNoMargin
  split
  · exact noov_balance_bind hg hw (noov_assert hp)
  · exact noov_ok

theorem noov_changePosition {w : Int} {e : Env} {imr P K : Int} {a : Accounts} {pos : Position}
    {q p : Int} {side : Side} {fee : Int} (hR : Rates e imr P K) (hw : PosWF pos)
    (he : 0 ≤ pos.entryPrice) (hE : pos.entryPrice ≤ P) (hp : 0 ≤ p) (hP : p ≤ P)
    (hf1 : fee * e.scale ≤ q * K) (hf2 : -(q * K) ≤ fee * e.scale)
    (hr : Room w e P K a pos q) : NoOv (changePosition w e imr a pos q p side fee) := by
  have hs := scale_pos e
  have hK : 0 ≤ K := by have := hR.price; have := hR.pos; omega
  have hg := hr.gross
  have hd := Int.mul_nonneg (debitSum_nonneg hg) (by omega : 0 ≤ e.scale)
  have hpp := Int.mul_nonneg (by unfold pp; split <;> omega : 0 ≤ pp pos.outstandingFees)
    (by omega : 0 ≤ e.scale)
  have hm := hr.money
  have hqK : 0 ≤ q * K := by omega
  have hfees : In w (pos.outstandingFees + fee) := by
    have h1 := hr.fees1
    have h2 := hr.fees2
    exact In.of_mul hs (by rw [Int.add_mul]; omega) (by rw [Int.add_mul]; omega)
  have hppf := pp_mul_le (x := pos.outstandingFees + fee) (y := pos.outstandingFees) hs hqK
    (by rw [Int.add_mul]; omega)
  have hdw : a.debitSum ≤ w := Int.le_of_mul_le_mul_right (by omega) hs
  have hqty := hr.qty
  have hval := hr.value
  have hq0 := hr.amount
  -- reductions
  have hdec : ∀ (i : Inner) dir, 0 ≤ i.entry → i.entry ≤ P → i.fees = pos.outstandingFees →
      i.qty ≤ w → NoOv (decrease w e imr a i q p dir fee) := by
    intro i dir h1 h2 h3 h4
    exact noov_decrease hR hp hP h1 h2 hg (by rw [h3]; omega) h4 (by rw [h3]; exact hfees)
  have hclose : ∀ (i : Inner) dir (d : Bool), 0 ≤ i.entry → i.entry ≤ P →
      i.fees = pos.outstandingFees → i.qty ≤ w → NoOv (do
        let (_, a') ← decrease w e imr a i q p dir fee
        debugNoMargin w d a' .closedMargin
        .ok ((.neutral : Position), a')) := by
    intro i dir d h1 h2 h3 h4
    refine noov_bind agree_decrease (hdec i dir h1 h2 h3 h4) fun r hr => ?_
    obtain ⟨D, M, R, g, k1, k2, k3, _⟩ := Inner.decrease_grow hR hp hP h1 h2 hr
    have m1 := Int.mul_le_mul_of_nonneg_right g.sum (by omega : 0 ≤ e.scale)
    rw [Int.add_mul, Int.add_mul, h3] at m1
    refine noov_bind agree_debugNoMargin (noov_debugNoMargin (by simp) (g.gross hg) ?_)
      fun _ _ => noov_ok
    exact Int.le_of_mul_le_mul_right (by omega) hs
  have hflip : ∀ (i : Inner) dir, 0 < i.qty → 0 ≤ i.entry → i.entry ≤ P →
      i.fees = pos.outstandingFees → i.qty ≤ w → i.qty ≤ q → q ≤ w →
      NoOv (flip w e imr a i q p dir fee) := by
    intro i dir h0 h1 h2 h3 h4 h5 h6
    have hiK := Int.mul_le_mul_of_nonneg_right h5 hK
    unfold flip
    refine noov_chk_bind ⟨by omega, by omega⟩ ?_
    refine noov_bind agree_decrease (noov_decrease hR hp hP h1 h2 hg (by rw [h3]; omega) h4
      (by rw [h3]; exact hfees)) fun r hr => ?_
    obtain ⟨D, M, R, g, k1, k2, k3, _⟩ := Inner.decrease_grow hR hp hP h1 h2 hr
    have m1 := Int.mul_le_mul_of_nonneg_right g.sum (by omega : 0 ≤ e.scale)
    rw [Int.add_mul, Int.add_mul, h3] at m1
    refine noov_assert_bind (by simp) fun _ => ?_
    refine noov_balance_bind (g.gross hg) (Int.le_of_mul_le_mul_right (by omega) hs) ?_
    refine noov_assert_bind (by simp) fun _ => ?_
    exact noov_new hR hP (g.gross hg) (by rw [Int.sub_mul]; omega)
  unfold changePosition
  refine noov_debug_bind (by simp) fun _ => ?_
  cases pos with
  | neutral =>
    refine noov_bind agree_debugNoMargin (noov_debugNoMargin (by simp) hg hdw) fun _ _ => ?_
    cases side <;>
      exact noov_bind agree_new (noov_new hR hP hg (by omega)) fun _ _ => noov_ok
  | long i =>
    have hw : 0 < i.qty := hw
    have habs : Spec.abs (Position.quantity (.long i)) = i.qty := by
      simp [Position.quantity, Spec.abs]; omega
    rw [habs] at hqty hval
    simp only [Position.outstandingFees] at hfees hdec hclose hflip
    cases side with
    | buy =>
      exact noov_bind agree_increase (noov_increase hR hP hw he hE hg (by omega) hr.price hqty hval
        hfees) fun _ _ => noov_ok
    | sell =>
      dsimp only
      split
      · exact noov_any (hdec i 1 he hE rfl (by omega)) fun _ => noov_ok
      split
      · exact hclose i 1 e.debug he hE rfl (by omega)
      · exact noov_any (hflip i 1 hw he hE rfl (by omega) (by omega) (by omega)) fun _ => noov_ok
  | short i =>
    have hw : 0 < i.qty := hw
    have habs : Spec.abs (Position.quantity (.short i)) = i.qty := by
      simp [Position.quantity, Spec.abs]; omega
    rw [habs] at hqty hval
    simp only [Position.outstandingFees] at hfees hdec hclose hflip
    cases side with
    | sell =>
      exact noov_bind agree_increase (noov_increase hR hP hw he hE hg (by omega) hr.price hqty hval
        hfees) fun _ _ => noov_ok
    | buy =>
      dsimp only
      split
      · exact noov_any (hdec i (-1) he hE rfl (by omega)) fun _ => noov_ok
      split
      · exact hclose i (-1) e.debug he hE rfl (by omega)
      · exact noov_any (hflip i (-1) hw he hE rfl (by omega) (by omega) (by omega)) fun _ => noov_ok

/-! ## Order margin -/

theorem noov_offset {w P : Int} : ∀ (l : List (Int × Int)) (pos : Int), Fair P l → sumq l ≤ w →
    pos ≤ w → NoOv (offsetOrders w pos l)
  | [], _, _, _, _ => noov_ok
  | (p, q) :: l, pos, h, hw, hp => by
    obtain ⟨h1, h2, h3⟩ := h (p, q) (by simp)
    have hl : Fair P l := fun y hy => h y (by simp [hy])
    have h4 : 0 ≤ sumq l := by
      clear hw
      induction l with
      | nil => simp [sumq]
      | cons y l ih =>
        have := (hl y (by simp)).2.2
        have := ih (fun z hz => by
          simp only [List.mem_cons] at hz
          rcases hz with rfl | hz
          · exact h _ (by simp)
          · exact h z (by simp [hz])) (fun z hz => hl z (by simp [hz]))
        simp [sumq] at *; omega
    simp only at h1 h2 h3
    have h5 : sumq ((p, q) :: l) = q + sumq l := by simp [sumq]
    unfold offsetOrders
    split
    · have hu : 0 ≤ umin q pos ∧ umin q pos ≤ pos := by unfold umin; split <;> omega
      refine noov_chk_bind ⟨by omega, by omega⟩ (noov_chk_bind ⟨by omega, by omega⟩ ?_)
      exact noov_any (noov_offset l _ hl (by omega) (by omega)) fun _ => noov_ok
    · exact noov_ok

theorem sumq_nonneg {P : Int} : ∀ {l : List (Int × Int)}, Fair P l → 0 ≤ sumq l
  | [], _ => by simp [sumq]
  | x :: l, h => by
    have h1 := (h x (by simp)).2.2
    have h2 := sumq_nonneg (l := l) fun y hy => h y (by simp [hy])
    simp [sumq] at *; omega

theorem noov_sumValue {w : Int} {e : Env} {P K : Int} (hR : Rate e P K) :
    ∀ (l : List (Int × Int)) (acc : Int), Fair P l → 0 ≤ acc →
      acc * e.scale + sumq l * K ≤ w * e.scale → NoOv (sumValue w e acc l)
  | [], _, _, _, _ => noov_ok
  | (p, q) :: l, acc, h, ha, hw => by
    have hs := scale_pos e
    have hK : 0 ≤ K := by have := hR.price; have := hR.pos; omega
    obtain ⟨h1, h2, h3⟩ := h (p, q) (by simp)
    have hl : Fair P l := fun y hy => h y (by simp [hy])
    have h4 := Int.mul_nonneg (sumq_nonneg hl) hK
    have h5 : sumq ((p, q) :: l) = q + sumq l := by simp [sumq]
    have h6 := Int.mul_nonneg ha (by omega : 0 ≤ e.scale)
    simp only at h1 h2 h3
    have h7 := Int.mul_nonneg h3 hK
    rw [h5, Int.add_mul] at hw
    unfold sumValue
    refine noov_bind agree_convert (noov_convert hR h1 h2 (Int.le_refl q) (by omega) (by omega))
      fun v hv => ?_
    have b := convert_bound hR h1 h2 (Int.le_refl q) (by omega) hv
    have b0 : 0 ≤ v := by rw [convert_ok hv]; exact value_nonneg e h3 h1
    have b1 := Int.mul_nonneg b0 (by omega : 0 ≤ e.scale)
    refine noov_chk_bind (In.of_mul hs (by rw [Int.add_mul]; omega) (by rw [Int.add_mul]; omega)) ?_
    exact noov_sumValue hR l _ hl (by omega) (by rw [Int.add_mul]; omega)

theorem noov_orderMarginInternal {w : Int} {e : Env} {imr P K : Int} {b : Book} {pos : Position}
    {new : Option Limit} (hR : Rates e imr P K) (h : FairBook P b)
    (hn : ∀ o, new = some o → 0 < o.price ∧ o.price ≤ P ∧ 0 ≤ o.remaining)
    (hq : qsum b + optQty new ≤ w) (hv : (qsum b + optQty new) * K ≤ w * e.scale)
    (hp : Spec.abs pos.quantity ≤ w) : NoOv (orderMarginInternal w e imr b pos new) := by
  have hs := scale_pos e
  have hK : 0 ≤ K := by have := hR.price; have := hR.pos; omega
  obtain ⟨f1, f2⟩ := sideOrders_fair .buy h hn
  obtain ⟨f3, f4⟩ := sideOrders_fair .sell h hn
  have g1 := f1.perm (sortBy_perm (fun x => -x.1) _)
  have g2 := f3.perm (sortBy_perm (fun x => x.1) _)
  have q1 := sumq_perm (sortBy_perm (fun x => -x.1) (sideOrders .buy b new))
  have q2 := sumq_perm (sortBy_perm (fun x => x.1) (sideOrders .sell b new))
  have hi : ∀ i : Inner, pos = .long i ∨ pos = .short i → i.qty ≤ w := by
    intro i hi
    rcases hi with rfl | rfl
    · have h1 : Spec.abs i.qty ≤ w := hp
      have h2 : i.qty ≤ Spec.abs i.qty := by unfold Spec.abs; split <;> omega
      omega
    · have h1 : Spec.abs (-i.qty) ≤ w := hp
      have h2 : i.qty ≤ Spec.abs (-i.qty) := by unfold Spec.abs; split <;> omega
      omega
  unfold orderMarginInternal
  refine noov_debug_bind (by simp) fun _ => ?_
  refine noov_bind agree_offsetBuys ?_ fun buys hbuys => ?_
  · unfold offsetBuys
    split
    · exact noov_offset _ _ g1 (by omega) (hi _ (.inr rfl))
    · exact noov_ok
  refine noov_bind agree_offsetSells ?_ fun sells hsells => ?_
  · unfold offsetSells
    split
    · exact noov_offset _ _ g2 (by omega) (hi _ (.inl rfl))
    · exact noov_ok
  have k1 : Fair P buys ∧ sumq buys ≤ qsum b + optQty new := by
    cases pos with
    | short i =>
      simp only [ok_inj] at hbuys; subst hbuys
      obtain ⟨o1, o2⟩ := offset_bound i.qty g1
      exact ⟨o1, by omega⟩
    | _ => simp only [ok_inj] at hbuys; subst hbuys; exact ⟨g1, by omega⟩
  have k2 : Fair P sells ∧ sumq sells ≤ qsum b + optQty new := by
    cases pos with
    | long i =>
      simp only [ok_inj] at hsells; subst hsells
      obtain ⟨o1, o2⟩ := offset_bound i.qty g2
      exact ⟨o1, by omega⟩
    | _ => simp only [ok_inj] at hsells; subst hsells; exact ⟨g2, by omega⟩
  have m1 := Int.mul_le_mul_of_nonneg_right k1.2 hK
  have m2 := Int.mul_le_mul_of_nonneg_right k2.2 hK
  refine noov_bind (agree_sumValue _ _) (noov_sumValue hR.toRate _ _ k1.1 (by omega) (by omega))
    fun bv hbv => ?_
  refine noov_bind (agree_sumValue _ _) (noov_sumValue hR.toRate _ _ k2.1 (by omega) (by omega))
    fun sv hsv => ?_
  obtain ⟨b1, b2⟩ := sumValue_bound hR.toRate k1.1 hbv
  obtain ⟨b3, b4⟩ := sumValue_bound hR.toRate k2.1 hsv
  have k3 : 0 ≤ umax bv sv ∧ umax bv sv * e.scale ≤ w * e.scale := by
    unfold umax; split <;> exact ⟨by omega, by omega⟩
  have h3 := hR.imr0
  have s1 := share_nonneg e k3.1 h3
  have s2 := (share_bound (e := e) k3.1 hR.imr1 (by omega)).1
  have s3 := Int.le_of_mul_le_mul_right k3.2 hs
  refine noov_dmul ⟨?_, ?_⟩ <;> unfold Lfest.dmul <;> unfold share at s1 s2 <;> omega

theorem noov_orderMargin {w : Int} {e : Env} {imr P K : Int} {b : Book} {pos : Position}
    (hR : Rates e imr P K) (h : FairBook P b) (hq : qsum b ≤ w) (hv : qsum b * K ≤ w * e.scale)
    (hp : Spec.abs pos.quantity ≤ w) : NoOv (orderMargin w e imr b pos) :=
  noov_orderMarginInternal hR h (by simp) (by simpa [optQty] using hq)
    (by simpa [optQty] using hv) hp

/-! ## Checks -/

theorem noov_checkFunds {w : Int} {c : Cfg} {P K q p funds : Int}
    (hR : Rates c.env c.spec.initMarginReq P K) (hf1 : c.spec.feeTaker ≤ c.scale)
    (hf2 : -c.scale ≤ c.spec.feeTaker) (hp : 0 ≤ p) (hP : p ≤ P) (hq : 0 ≤ q)
    (hw : 2 * (q * K) ≤ w * c.scale) : NoOv (checkFunds w c q p funds) := by
  have hs := scale_pos c.env
  have hs' : c.env.scale = c.scale := rfl
  have hK : 0 ≤ K := by have := hR.price; have := hR.pos; omega
  have hqK := Int.mul_nonneg hq hK
  unfold checkFunds
  refine noov_bind agree_convert (noov_convert hR.toRate hp hP (Int.le_refl q) (by omega)
    (by rw [hs']; omega)) fun v hv => ?_
  obtain ⟨b1, b2, b3, b4⟩ := margin_bound hR hp hP hq hv
  have s2 := share_bound (e := c.env) b1 hf1 hf2
  unfold share at s2
  have hv2 : 2 * v ≤ w :=
    Int.le_of_mul_le_mul_right (by rw [Int.mul_assoc]; rw [hs'] at b2 ⊢; omega) hs
  have hd : ∀ r, Lfest.dmul c.scale v r = (v * r).tdiv c.env.scale := fun _ => rfl
  rw [hs'] at b3 b4
  refine noov_dmul_bind ⟨by omega, by omega⟩ (noov_dmul_bind ⟨?_, ?_⟩ (noov_chk_bind ⟨?_, ?_⟩ ?_))
  · rw [hd]; omega
  · rw [hd]; omega
  · rw [hd c.spec.feeTaker]; omega
  · rw [hd c.spec.feeTaker]; omega
  · split <;> exact noov_ok

theorem noov_checkFlip {w : Int} {c : Cfg} {P K q p pm wallet : Int} {i : Inner}
    (hR : Rates c.env c.spec.initMarginReq P K) (hf1 : c.spec.feeTaker ≤ c.scale)
    (hf2 : -c.scale ≤ c.spec.feeTaker) (hp : 0 ≤ p) (hP : p ≤ P) (hi : 0 ≤ i.qty)
    (hq : q ≤ w) (hw : 2 * (q * K) ≤ w * c.scale) (hfunds : In w (wallet + pm)) :
    NoOv (checkFlip w c i pm q p wallet) := by
  have hK : 0 ≤ K := by have := hR.price; have := hR.pos; omega
  unfold checkFlip
  split
  · exact noov_ok
  · have := Int.mul_nonneg hi hK
    refine noov_chk_bind ⟨by omega, by omega⟩ (noov_chk_bind hfunds ?_)
    exact noov_checkFunds hR hf1 hf2 hp hP (by omega) (by rw [Int.sub_mul]; omega)

theorem noov_checkMarketOrder {w : Int} {c : Cfg} {P K q p pm wallet : Int} {pos : Position}
    {side : Side} (hR : Rates c.env c.spec.initMarginReq P K) (hf1 : c.spec.feeTaker ≤ c.scale)
    (hf2 : -c.scale ≤ c.spec.feeTaker) (hp : 0 ≤ p) (hP : p ≤ P) (hpos : PosWF pos)
    (hq0 : 0 ≤ q) (hq : q ≤ w) (hw : 2 * (q * K) ≤ w * c.scale) (hfunds : In w (wallet + pm)) :
    NoOv (checkMarketOrder w c pos pm side q p wallet) := by
  unfold checkMarketOrder
  split
  · next i => exact noov_checkFlip hR hf1 hf2 hp hP (Int.le_of_lt hpos) hq hw hfunds
  · next i => exact noov_checkFlip hR hf1 hf2 hp hP (Int.le_of_lt hpos) hq hw hfunds
  · exact noov_checkFunds hR hf1 hf2 hp hP hq0 hw

theorem noov_checkLimitOrder {w : Int} {c : Cfg} {P K : Int} {a : Accounts} {pos : Position}
    {o : Limit} {om : Book} (hR : Rates c.env c.spec.initMarginReq P K) (h : FairBook P om)
    (ho : 0 < o.price ∧ o.price ≤ P ∧ 0 ≤ o.remaining) (hg : Gross a)
    (hq : qsum om + o.remaining ≤ w)
    (hv : a.debitSum * c.env.scale + (qsum om + o.remaining) * K ≤ w * c.env.scale)
    (hp : Spec.abs pos.quantity ≤ w) :
    NoOv (checkLimitOrder w c pos o (a.balance .wallet) om) := by
  have hs := scale_pos c.env
  have hK : 0 ≤ K := by have := hR.price; have := hR.pos; omega
  have hd := Int.mul_nonneg (debitSum_nonneg hg) (by omega : 0 ≤ c.env.scale)
  have ho3 := Int.mul_nonneg ho.2.2 hK
  have hv' := hv
  rw [Int.add_mul] at hv'
  unfold checkLimitOrder
  refine noov_bind agree_orderMargin (noov_orderMargin hR h (by omega) (by omega) hp) fun m hm => ?_
  refine noov_bind (agree_orderMarginInternal (new := some o)) (noov_orderMarginInternal hR h ?_
    (by simpa [optQty] using hq) (by simp only [optQty, Option.map_some, Option.getD_some]; omega)
    hp) fun m' _ => ?_
  · intro o' ho'; cases ho'; exact ho
  have b := orderMargin_bound (new := none) hR h (by simp) hm
  simp only [optQty, Option.map_none, Option.getD_none, Int.add_zero] at b
  have b2 := Gross.balance_le hg .wallet
  have hx : a.debitSum + m ≤ w := Int.le_of_mul_le_mul_right (by rw [Int.add_mul]; omega) hs
  refine noov_chk_bind ⟨by omega, by omega⟩ ?_
  split <;> exact noov_ok

theorem noov_maintenance {w : Int} {c : Cfg} {ms : MarketState} {P : Int} {pos : Position}
    (hm0 : 0 ≤ c.spec.maintenanceMargin) (hm1 : c.spec.maintenanceMargin ≤ c.scale)
    (hE0 : 0 ≤ pos.entryPrice) (hE : pos.entryPrice ≤ P) (hS : 2 * c.scale ≤ w)
    (hP : 2 * P ≤ w) : NoOv (checkMaintenanceMargin w c ms pos) := by
  have hs : 0 < c.scale := scale_pos c.env
  unfold checkMaintenanceMargin
  cases pos with
  | neutral => exact noov_ok
  | long i =>
    have hE0 : 0 ≤ i.entry := hE0
    have hE : i.entry ≤ P := hE
    unfold liquidationPriceLong
    have b := share_bound (e := c.env) (r := c.scale - c.spec.maintenanceMargin) hE0
      (by change _ ≤ c.scale; omega) (by change -c.scale ≤ _; omega)
    unfold share at b
    refine noov_any (noov_chk_bind ⟨by omega, by omega⟩ (noov_dmul ⟨?_, ?_⟩)) fun _ => ?_
    · change -w ≤ (i.entry * (c.scale - c.spec.maintenanceMargin)).tdiv c.env.scale; omega
    · change (i.entry * (c.scale - c.spec.maintenanceMargin)).tdiv c.env.scale ≤ w; omega
    · split <;> exact noov_ok
  | short i =>
    have hE0 : 0 ≤ i.entry := hE0
    have hE : i.entry ≤ P := hE
    unfold liquidationPriceShort
    have b0 : 0 ≤ i.entry * (c.scale + c.spec.maintenanceMargin) :=
      Int.mul_nonneg hE0 (by omega)
    have b1 : i.entry * (c.scale + c.spec.maintenanceMargin) ≤ (2 * i.entry) * c.scale := by
      have := Int.mul_le_mul_of_nonneg_left (by omega : c.scale + c.spec.maintenanceMargin ≤
        2 * c.scale) hE0
      rw [Int.mul_assoc, Int.mul_left_comm]
      exact this
    have b2 : (i.entry * (c.scale + c.spec.maintenanceMargin)).tdiv c.scale ≤ 2 * i.entry := by
      rw [Int.tdiv_eq_ediv_of_nonneg b0]
      exact Int.ediv_le_of_le_mul hs b1
    have b3 := Int.tdiv_nonneg b0 (by omega : 0 ≤ c.scale)
    refine noov_any (noov_chk_bind ⟨by omega, by omega⟩ (noov_dmul ⟨?_, ?_⟩)) fun _ => ?_
    · unfold Lfest.dmul; omega
    · unfold Lfest.dmul; omega
    · split <;> exact noov_ok

theorem noov_qty {w : Int} {f : QuantityFilter} {q : Int} (h0 : 0 ≤ q)
    (h : q + Spec.abs (f.minQuantity.getD 0) ≤ w) : NoOv (validateQty w f q) := by
  unfold validateQty
  repeat' split
  all_goals try exact noov_ok
  refine noov_chk_bind ?_ (noov_any noov_drem fun _ => ?_)
  · unfold Spec.abs at h; unfold In; split at h <;> omega
  · split <;> exact noov_ok

theorem noov_price {w s : Int} {f : PriceFilter} {p m P : Int} (hs : 0 < s) (hp : p ≤ P)
    (hm0 : 0 ≤ m) (hm : m ≤ P) (h : P + Spec.abs (f.minPrice.getD 0) ≤ w)
    (hu : P * Spec.abs f.multiplierUp ≤ w * s) (hd : P * Spec.abs f.multiplierDown ≤ w * s) :
    NoOv (validatePrice w s f p m) := by
  have key : ∀ k, P * Spec.abs k ≤ w * s → In w (Lfest.dmul s m k) := by
    intro k hk
    have h1 : m * Spec.abs k ≤ P * Spec.abs k :=
      Int.mul_le_mul_of_nonneg_right hm (by unfold Spec.abs; split <;> omega)
    have h2 : -(m * Spec.abs k) ≤ m * k ∧ m * k ≤ m * Spec.abs k := by
      have a1 := Int.mul_le_mul_of_nonneg_left (by unfold Spec.abs; split <;> omega :
        k ≤ Spec.abs k) hm0
      have a2 := Int.mul_le_mul_of_nonneg_left (by unfold Spec.abs; split <;> omega :
        -Spec.abs k ≤ k) hm0
      rw [Int.mul_neg] at a2
      exact ⟨a2, a1⟩
    have h3 := tdiv_abs hs (Int.le_trans h2.2 (Int.le_trans h1 hk)) (by omega)
    exact In.of_mul hs h3.1 h3.2
  unfold validatePrice
  repeat' split
  all_goals try exact noov_ok
  refine noov_chk_bind ?_ (noov_any noov_drem fun _ => ?_)
  · unfold Spec.abs at h; unfold In; split at h <;> omega
  · repeat' split
    all_goals try exact noov_ok
    refine noov_dmul_bind (key _ hu) ?_
    split
    · exact noov_ok
    · refine noov_dmul_bind (key _ hd) ?_
      split <;> exact noov_ok

theorem noov_mid {w s : Int} {m : MarketState} {P : Int} (hs : 0 < s) (h1 : 0 ≤ m.bid)
    (h2 : m.bid ≤ P) (h3 : 0 ≤ m.ask) (h4 : m.ask ≤ P) (hP : 2 * P ≤ w) : NoOv (mid w s m) := by
  unfold mid
  refine noov_chk_bind ⟨by omega, by omega⟩ (noov_chk ?_)
  rw [Int.mul_tdiv_mul_of_pos_left _ _ hs, Int.tdiv_eq_ediv_of_nonneg (by omega)]
  constructor <;> omega

theorem noov_total {w : Int} {o : Limit} (h : 0 ≤ o.remaining) (h1 : 0 ≤ o.filledQuantity)
    (h2 : o.filledQuantity + o.remaining ≤ w) : NoOv (totalQuantity w o) := by
  unfold Limit.filledQuantity at h1 h2
  unfold totalQuantity
  dsimp only
  split
  · exact noov_any noov_ok fun _ => noov_assert_bind (by simp) fun _ => noov_ok
  · next hf =>
    simp only [hf] at h1 h2
    exact noov_chk_bind ⟨by omega, by omega⟩ (noov_assert_bind (by simp) fun _ => noov_ok)

theorem noov_fill {w : Int} {c : Cfg} {o : Limit} {q ts P K : Int} (hR : Rate c.env P K)
    (h0 : 0 ≤ o.price) (h0' : o.price ≤ P)
    (hf : ∀ x a, o.fq = .filled x a → 0 ≤ x ∧ 0 ≤ a ∧ a ≤ P)
    (hw : o.filledQuantity + o.remaining ≤ w) (hP : P ≤ w)
    (hm : (o.filledQuantity + o.remaining) * K ≤ w * c.scale) : NoOv (fill w c.scale o q ts) := by
  unfold fill
  refine noov_assert_bind (by simp) fun h1 => noov_assert_bind (by simp) fun h2 => ?_
  have h3 : 0 ≤ o.filledQuantity := by
    unfold Limit.filledQuantity; split
    · omega
    · next hx => exact (hf _ _ hx).1
  refine noov_chk_bind ⟨by omega, by omega⟩ ?_
  cases hfq : o.fq with
  | unfilled => dsimp only; split <;> exact noov_ok
  | filled x a =>
    obtain ⟨f1, f2, f3⟩ := hf x a hfq
    have hfx : o.filledQuantity = x := by simp [Limit.filledQuantity, hfq]
    rw [hfx] at hw hm
    have hm' : (x + q) * P ≤ w * c.scale := by
      have e1 := Int.mul_le_mul_of_nonneg_left hR.price (by omega : 0 ≤ x + q)
      have e2 := Int.mul_le_mul_of_nonneg_right (by omega : x + q ≤ x + o.remaining)
        (by have := hR.price; have := hR.pos; omega : 0 ≤ K)
      omega
    refine noov_any (noov_weighted (e := c.env) f2 f3 h0 h0' f1 (by omega) (by omega) hP
      (by omega) hm') fun _ => ?_
    refine noov_chk_bind ⟨by omega, by omega⟩ ?_
    dsimp only
    split <;> exact noov_ok

/-! ## Functions without arithmetic -/

theorem noov_expect {α} {o : Option α} {p : Panic} (hp : p ≠ .overflow) :
    NoOv (expectSome o p) := by
  unfold expectSome NoOv; split <;> simp [hp]

theorem noov_checks : ∀ {l : List (Res (Except FilterError Unit))}, (∀ x ∈ l, NoOv x) →
    NoOv (checks l)
  | [], _ => noov_ok
  | x :: l, h => by
    unfold checks
    refine noov_any (h x (by simp)) fun r => ?_
    split
    · exact noov_ok
    · exact noov_checks fun y hy => h y (by simp [hy])

theorem noov_min {m : Option Int} {p : Int} : NoOv (enforceMinPrice m p) := by
  unfold enforceMinPrice; repeat' split
  all_goals exact noov_ok

theorem noov_max {m : Option Int} {p : Int} : NoOv (enforceMaxPrice m p) := by
  unfold enforceMaxPrice; repeat' split
  all_goals exact noov_ok

theorem noov_step {t p : Int} : NoOv (enforceStepSize t p) := by
  unfold enforceStepSize
  refine noov_any noov_drem fun _ => ?_
  split <;> exact noov_ok

theorem noov_spread {t p : Int} : NoOv (enforceBidAskSpread t p) := by
  unfold enforceBidAskSpread; split <;> exact noov_ok

theorem noov_tradeValid {pf : PriceFilter} {t : Trade} : NoOv (t.validate pf) := by
  unfold Trade.validate
  refine noov_checks fun x hx => ?_
  simp only [List.mem_cons, List.not_mem_nil, or_false] at hx
  rcases hx with rfl | rfl | rfl
  · exact noov_min
  · exact noov_max
  · exact noov_step

theorem noov_bbaValid {pf : PriceFilter} {t : Bba} : NoOv (t.validate pf) := by
  unfold Bba.validate
  refine noov_checks fun x hx => ?_
  simp only [List.mem_cons, List.not_mem_nil, or_false] at hx
  rcases hx with rfl | rfl | rfl | rfl | rfl | rfl | rfl
  all_goals first | exact noov_min | exact noov_max | exact noov_step | exact noov_spread

theorem noov_candleValid {pf : PriceFilter} {t : Candle} : NoOv (t.validate pf) := by
  unfold Candle.validate
  refine noov_checks fun x hx => ?_
  simp only [List.mem_cons, List.not_mem_nil, or_false] at hx
  rcases hx with rfl | rfl | rfl | rfl | rfl | rfl | rfl | rfl | rfl | rfl | rfl | rfl | rfl | rfl
  all_goals first | exact noov_min | exact noov_max | exact noov_step | exact noov_spread

theorem noov_anyValid {pf : PriceFilter} : ∀ {ts : List Trade}, NoOv (anyTradeValid pf ts)
  | [] => noov_ok
  | t :: ts => by
    unfold anyTradeValid
    refine noov_any noov_tradeValid fun r => ?_
    split
    · exact noov_ok
    · exact noov_anyValid

theorem noov_market {d : Bool} {pf : PriceFilter} {m : MarketState} {u : Update} :
    NoOv (m.update d pf u) := by
  unfold MarketState.update
  refine noov_any ?_ fun r => ?_
  · unfold debugValidate
    split
    · unfold Update.validate
      split
      · exact noov_bbaValid
      · exact noov_tradeValid
      · exact noov_candleValid
      · exact noov_ok
      · exact noov_ok
    · exact noov_ok
  · split
    · intro h; cases h
    · exact noov_ok

theorem noov_filled {d : Bool} {u : Update} {o : Limit} : NoOv (u.filled d o) := by
  unfold Update.filled
  split
  · intro h; cases h
  · unfold Trade.filled
    refine noov_debug_bind (by simp) fun _ => noov_debug_bind (by simp) fun _ => ?_
    repeat' split
    all_goals exact noov_ok
  · unfold Candle.filled
    refine noov_debug_bind (by simp) fun _ => ?_
    repeat' split
    all_goals exact noov_ok
  · exact noov_ok
  · exact noov_ok

theorem noov_omUpdate {n : Nat} {b : Book} {o : Limit} : NoOv (omUpdate n b o) := by
  unfold omUpdate
  refine noov_assert_bind (by simp) fun _ => ?_
  split
  · exact noov_ok
  · exact noov_ok
  · exact noov_assert_bind (by simp) fun _ => noov_assert_bind (by simp) fun _ => noov_ok

theorem noov_omRemove {b : Book} {k : CancelBy} : NoOv (omRemove b k) := by
  unfold omRemove
  exact noov_any (noov_expect (by simp)) fun _ => noov_ok

theorem noov_removeExecuted : ∀ {ids : List Nat} {b : Book}, NoOv (removeExecuted b ids)
  | [], _ => noov_ok
  | id :: ids, b => by
    unfold removeExecuted
    exact noov_any (noov_expect (by simp)) fun _ => noov_removeExecuted

theorem noov_liquidationOrder {pos : Position} : NoOv (liquidationOrder pos) := by
  unfold liquidationOrder
  repeat' split
  all_goals intro h; cases h

/-! ## Smart candles -/

/-- Sum of the absolute quantities. -/
def volume (l : List (Int × Int)) : Int := (l.map fun x => Spec.abs x.2).sum

theorem volume_nonneg : ∀ l : List (Int × Int), 0 ≤ volume l
  | [] => by simp [volume]
  | x :: l => by
    have h1 := volume_nonneg l
    have h2 : 0 ≤ Spec.abs x.2 := by unfold Spec.abs; split <;> omega
    simp [volume] at *; omega

theorem volume_perm {l l' : List (Int × Int)} (h : l.Perm l') : volume l = volume l' :=
  sum_perm (h.map _)

theorem noov_aggregateLoop {w : Int} : ∀ (l : List (Int × Int)) (last sum : Int),
    Spec.abs sum + volume l ≤ w → NoOv (aggregateLoop w last sum l)
  | [], _, _, _ => noov_ok
  | (p, q) :: l, last, sum, h => by
    have h1 := volume_nonneg l
    have h2 : volume ((p, q) :: l) = Spec.abs q + volume l := by simp [volume]
    have h3 : Spec.abs (sum + q) ≤ Spec.abs sum + Spec.abs q := by
      unfold Spec.abs; repeat' split
      all_goals omega
    have h4 : -Spec.abs (sum + q) ≤ sum + q ∧ sum + q ≤ Spec.abs (sum + q) := by
      unfold Spec.abs; split <;> omega
    unfold aggregateLoop
    refine noov_chk_bind ⟨by omega, by omega⟩ ?_
    split
    · exact noov_any (noov_aggregateLoop l _ _ (by omega)) fun _ => noov_ok
    · exact noov_aggregateLoop l _ _ (by omega)

theorem noov_aggregate {w : Int} {l : List (Int × Int)} (h : volume l ≤ w) :
    NoOv (aggregate w l) := by
  unfold aggregate
  split
  · exact noov_ok
  · exact noov_aggregateLoop _ _ _ (by simpa [Spec.abs] using h)

/-- The traded volume of a list of trades. -/
def tradeVolume (ts : List Trade) : Int := (ts.map fun t => Spec.abs t.qty).sum

theorem volume_tradesOf (side : Side) : ∀ ts : List Trade,
    volume (tradesOf side ts) ≤ tradeVolume ts
  | [] => by simp [volume, tradesOf, tradeVolume]
  | t :: ts => by
    have h1 := volume_tradesOf side ts
    have h2 : 0 ≤ Spec.abs t.qty := by unfold Spec.abs; split <;> omega
    by_cases h : (t.side == side) = true
    · simp only [tradesOf, List.filter_cons, h, if_true, volume, tradeVolume, List.map_cons,
        List.sum_cons] at *
      omega
    · simp only [tradesOf, List.filter_cons, h, volume, tradeVolume, List.map_cons,
        List.sum_cons] at *
      simp at *
      omega

theorem noov_smart {w : Int} {d : Bool} {ts : List Trade} {b : Bba} {pf : PriceFilter}
    (h : tradeVolume ts ≤ w) : NoOv (smartNew w d ts b pf) := by
  unfold smartNew
  split
  · intro h; cases h
  · refine noov_any ?_ fun _ => noov_assert_bind (by simp) fun _ => noov_any noov_bbaValid fun _ => ?_
    · unfold debugAnyValid
      split
      · exact noov_anyValid
      · exact noov_ok
    split
    · intro h; cases h
    · next t0 rest _ _ _ =>
      have h1 := volume_tradesOf .buy (t0 :: rest)
      have h2 := volume_tradesOf .sell (t0 :: rest)
      have h3 := volume_perm (sortBy_perm (fun x => -x.1) (tradesOf .buy (t0 :: rest)))
      have h4 := volume_perm (sortBy_perm (fun x => x.1) (tradesOf .sell (t0 :: rest)))
      refine noov_debug_bind (by simp) fun _ => ?_
      exact noov_any (noov_aggregate (by omega)) fun _ =>
        noov_any (noov_aggregate (by omega)) fun _ => noov_ok

end Lfest.Mach
