import Verif.Lemmas.Release
import Verif.Lemmas.NoOverflowStep

/-!
# Which amounts a release build can handle: the number of submissions does not matter
-/

namespace Lfest.Rel

open Spec Mach

theorem Ag.agree {α β} {φ : α → β} {l u : Res α} {r : Res β} (h : Ag φ l u r) :
    Mach.Agree l u := h.imp_right And.left

/-- Wrapped values that fit are the values themselves. -/
theorem wrap_eq {w x : Int} (h : Mach.In w x) : wrap w x = x := by
  obtain ⟨h1, h2⟩ := h
  unfold wrap
  apply Int.bmod_eq_of_le <;> omega

theorem wrap_congr {w x y : Int} : wrap w (wrap w x + y) = wrap w (x + y) := by
  unfold wrap; exact Int.bmod_add_bmod

theorem wrap_sub {w x y : Int} : wrap w (wrap w x - wrap w y) = wrap w (x - y) := by
  unfold wrap
  rw [Int.sub_bmod_bmod, Int.bmod_sub_bmod]

/-- A release build follows the unbounded program while everything but the totals of the accounts
fits. -/
theorem follows_wrapping {w : Int} {mul : Int → Res Int}
    (hm : ∀ x, -w ≤ x → x ≤ w → mul x = .ok x) :
    Follows (lax w) (wrapping w mul) (wrap w) w where
  ladd _ := rfl
  lmul _ := rfl
  add x h := by simp only [wrapping, wrap_eq h]
  mul x h := hm x h.1 h.2
  ltotal _ := .inr rfl
  total x y _ := by simp only [wrapping, wrap_congr]
  bal x y h := by simp only [wrapping, wrap_sub, wrap_eq h]

/-- So does any arithmetic that is right about results that fit, while the totals fit too. -/
theorem follows_exact {w : Int} {π : Arith} (ha : ∀ x, -w ≤ x → x ≤ w → π.add x = .ok x)
    (hm : ∀ x, -w ≤ x → x ≤ w → π.mul x = .ok x)
    (ht : ∀ x, -w ≤ x → x ≤ w → π.total x = .ok x) : Follows (checked w) π id w where
  ladd _ := rfl
  lmul _ := rfl
  add x h := ha x h.1 h.2
  mul x h := hm x h.1 h.2
  ltotal x := by
    by_cases h : Mach.In w x
    · exact .inr (chk_ok h)
    · exact .inl (chk_err h)
  total x y h := by
    by_cases k : Mach.In w (x + y)
    · exact ht _ k.1 k.2
    · have e : (checked w).total (x + y) = .error .overflow := chk_err k
      rw [e] at h; cases h
  bal x y h := ha _ h.1 h.2

theorem follows_self (w : Int) : Follows (lax w) (lax w) id w where
  ladd _ := rfl
  lmul _ := rfl
  add _ h := chk_ok h
  mul _ h := chk_ok h
  ltotal _ := .inr rfl
  total _ _ _ := rfl
  bal _ _ h := chk_ok h

/-! ## Functions that do not touch accounts are those of `Model/Machine` -/

theorem offset_lax {w : Int} : ∀ (xs : List (Int × Int)) (pos : Int),
    offsetOrders (lax w) pos xs = Mach.offsetOrders w pos xs
  | [], _ => rfl
  | (p, q) :: xs, pos => by
    unfold offsetOrders Mach.offsetOrders
    simp only [offset_lax xs]
    rfl

theorem sumValue_lax {w : Int} {e : Env} : ∀ (xs : List (Int × Int)) (acc : Int),
    sumValue (lax w) e acc xs = Mach.sumValue w e acc xs
  | [], _ => rfl
  | (p, q) :: xs, acc => by
    unfold sumValue Mach.sumValue
    simp only [sumValue_lax xs]
    rfl

theorem internal_lax {w : Int} {e : Env} {imr : Int} {b : Book} {pos : Position}
    {new : Option Limit} : orderMarginInternal (lax w) e imr b pos new =
      Mach.orderMarginInternal w e imr b pos new := by
  unfold orderMarginInternal Mach.orderMarginInternal offsetBuys offsetSells Mach.offsetBuys
    Mach.offsetSells
  simp only [sumValue_lax, offset_lax]
  rfl

theorem margin_lax {w : Int} {e : Env} {imr : Int} {b : Book} {pos : Position} :
    orderMargin (lax w) e imr b pos = Mach.orderMargin w e imr b pos := internal_lax

theorem limit_lax {w : Int} {c : Cfg} {pos : Position} {o : Limit} {wal : Int} {om : Book} :
    checkLimitOrder (lax w) c pos o wal om = Mach.checkLimitOrder w c pos o wal om := by
  unfold checkLimitOrder Mach.checkLimitOrder orderMarginWithOrder Mach.orderMarginWithOrder
  simp only [margin_lax, internal_lax]
  rfl

theorem loop_lax {w : Int} : ∀ (xs : List (Int × Int)) (last sum : Int),
    aggregateLoop (lax w) last sum xs = Mach.aggregateLoop w last sum xs
  | [], _, _ => rfl
  | (p, q) :: xs, last, sum => by
    unfold aggregateLoop Mach.aggregateLoop
    simp only [loop_lax xs]
    rfl

theorem build_lax {w : Int} {d : Bool} {a : UpdateArg} : build (lax w) d a = Mach.build w d a := by
  cases a with
  | smart ts b pf =>
    have h : ∀ xs, aggregate (lax w) xs = Mach.aggregate w xs := fun xs => by
      cases xs with
      | nil => rfl
      | cons x xs => exact loop_lax _ _ _
    unfold build Mach.build smartNew Mach.smartNew
    simp only [h]
    rfl
  | _ => rfl

/-! ## Accounts and positions -/

variable {c : Cfg} {w P K X QQ : Int}

theorem noov_transfer {e : Env} {a : Accounts} {d k : AccountId} {x : Int}
    (he : e.debug = false) : NoOv (transfer (lax w) e a d k x) := by
  unfold transfer
  refine noov_assert_bind (by simp) fun _ => noov_assert_bind (by simp) fun _ => ?_
  simp only [debugEquation, he]
  exact noov_ok

theorem noov_new {e : Env} {imr : Int} {a : Accounts} {q p f : Int} (he : e.debug = false)
    (hR : Rates e imr P K) (hP : p ≤ P) (hm : q * K ≤ w * e.scale) :
    NoOv (new (lax w) e imr a q p f) := by
  have hs := scale_pos e
  unfold new
  refine noov_assert_bind (by simp) fun hq => noov_assert_bind (by simp) fun hp => ?_
  refine noov_bind (follows_self w).converts.agree (Mach.noov_convert hR.toRate (by omega) hP
    (Int.le_refl q) (by omega) (by omega)) fun v hv => ?_
  obtain ⟨b1, b2, b3, b4⟩ := margin_bound hR (by omega) hP (by omega) hv
  have b5 := Int.mul_le_mul_of_nonneg_right b4 (by omega : 0 ≤ e.scale)
  have b6 := Int.mul_nonneg b3 (by omega : 0 ≤ e.scale)
  refine noov_dmul_bind (In.of_mul hs (by omega) (by omega)) ?_
  exact noov_any (noov_transfer he) fun _ => noov_ok

theorem noov_increase {e : Env} {imr : Int} {a : Accounts} {i : Inner} {q p f : Int}
    (hd : e.debug = false) (hR : Rates e imr P K) (hP : p ≤ P) (hi : 0 < i.qty) (he : 0 ≤ i.entry)
    (hE : i.entry ≤ P) (hm : q * K ≤ w * e.scale) (hPw : P ≤ w) (hq : i.qty + q ≤ w)
    (hv : (i.qty + q) * K ≤ w * e.scale) (hf : In w (i.fees + f)) :
    NoOv (increase (lax w) e imr a i q p f) := by
  have hs := scale_pos e
  unfold increase
  refine noov_assert_bind (by simp) fun hq0 => noov_assert_bind (by simp) fun hp => ?_
  refine noov_bind (follows_self w).converts.agree (Mach.noov_convert hR.toRate (by omega) hP
    (Int.le_refl q) (by omega) (by omega)) fun v hv => ?_
  obtain ⟨b1, b2, b3, b4⟩ := margin_bound hR (by omega) hP (by omega) hv
  have b5 := Int.mul_le_mul_of_nonneg_right b4 (by omega : 0 ≤ e.scale)
  have b6 := Int.mul_nonneg b3 (by omega : 0 ≤ e.scale)
  have hPK := Int.mul_le_mul_of_nonneg_left hR.price (by omega : 0 ≤ i.qty + q)
  refine noov_bind (follows_self w).weighted.agree (Mach.noov_weighted he hE (by omega) hP
    (by omega) (by omega) (by omega) hPw hq (by omega)) fun y hy => ?_
  refine noov_dmul_bind (In.of_mul hs (by omega) (by omega)) ?_
  refine noov_any (noov_transfer hd) fun _ => ?_
  exact noov_chk_bind ⟨by omega, hq⟩ (noov_chk_bind hf noov_ok)

theorem noov_settlePnl {e : Env} {a : Accounts} {v : Int} (he : e.debug = false) (h : In w v) :
    NoOv (settlePnl (lax w) e a v) := by
  unfold settlePnl
  split
  · exact noov_transfer he
  split
  · have h' : In w (-v) := by unfold In at *; omega
    exact noov_chk_bind h' (noov_transfer he)
  · exact noov_ok

theorem noov_settleFees {e : Env} {a : Accounts} {f : Int} (he : e.debug = false) :
    NoOv (settleFees (lax w) e a f) := by
  unfold settleFees
  split
  · exact noov_any (noov_transfer he) fun _ => noov_ok
  · exact noov_ok

theorem noov_decrease {e : Env} {imr : Int} {a : Accounts} {i : Inner} {q p dir f : Int}
    (hd : e.debug = false) (hR : Rates e imr P K) (hp : 0 ≤ p) (hP : p ≤ P) (he : 0 ≤ i.entry)
    (hE : i.entry ≤ P) (hm : q * K ≤ w * e.scale) (hq : i.qty ≤ w) (hf : In w (i.fees + f)) :
    NoOv (decrease (lax w) e imr a i q p dir f) := by
  have hs := scale_pos e
  unfold decrease
  refine noov_assert_bind (by simp) fun hq0 => noov_assert_bind (by simp) fun hq1 => ?_
  refine noov_chk_bind ⟨by omega, by omega⟩ (noov_debug_bind (by simp) fun _ => ?_)
  refine noov_chk_bind hf ?_
  have s1 : (if dir = 1 then q else -q) ≤ q := by split <;> omega
  have s2 : -q ≤ (if dir = 1 then q else -q) := by split <;> omega
  refine noov_bind (follows_self w).pnls.agree (Mach.noov_pnl hR.toRate he hE hp hP s1 s2
    (by omega)) fun v hv => ?_
  obtain ⟨c1, c2⟩ := pnl_bound hR.toRate he hE hp hP s1 s2 hv
  refine noov_any (noov_settlePnl hd (In.of_mul hs (by omega) (by omega))) fun a1 => ?_
  refine noov_bind (follows_self w).converts.agree (Mach.noov_convert hR.toRate he hE
    (Int.le_refl q) (by omega) (by omega)) fun y hy => ?_
  obtain ⟨b1, b2, b3, b4⟩ := margin_bound hR he hE (by omega) hy
  have b5 := Int.mul_le_mul_of_nonneg_right b4 (by omega : 0 ≤ e.scale)
  have b6 := Int.mul_nonneg b3 (by omega : 0 ≤ e.scale)
  refine noov_dmul_bind (In.of_mul hs (by omega) (by omega)) (noov_debug_bind (by simp) fun _ => ?_)
  exact noov_any (noov_transfer hd) fun _ => noov_any (noov_settleFees hd) fun _ => noov_ok

/-- The balances of an account, in terms of what was traded. -/
theorem _root_.Lfest.Cash.balances {a : Accounts} {pos : Position} {T m : Int}
    (h : Cash c K X a pos T m) :
    (0 ≤ a.balance .orderMargin ∧
      a.balance .orderMargin * c.env.scale ≤ c.start * c.env.scale + 2 * (T * K)) ∧
    (-(T * K) ≤ a.balance .positionMargin * c.env.scale ∧
      a.balance .positionMargin * c.env.scale ≤ c.start * c.env.scale + 3 * (T * K)) ∧
    (-(2 * (c.start * c.env.scale) + 5 * (T * K)) ≤ a.balance .wallet * c.env.scale ∧
      a.balance .wallet * c.env.scale ≤ c.start * c.env.scale + 2 * (T * K)) ∧
    (-(2 * (c.start * c.env.scale) + 5 * (T * K)) ≤
        (a.balance .wallet + a.balance .positionMargin) * c.env.scale ∧
      (a.balance .wallet + a.balance .positionMargin) * c.env.scale ≤
        c.start * c.env.scale + T * K) := by
  have hs := scale_pos c.env
  have n1 := h.gross.nonneg .wallet
  have n3 := h.gross.nonneg .positionMargin
  have n4 := h.gross.nonneg .exchangeFee
  have n6 := h.gross.nonneg .treasury
  have hg := h.gross.sums
  have h1 := h.fee0
  have h2 := h.broker
  have h3 := h.pm
  have h4 := h.tr
  have h5 := h.omle
  have h6 := h.ombal
  have h8 := h.sum
  have h9 := h.omc
  have hpp : 0 ≤ pp pos.outstandingFees := by unfold pp; split <;> omega
  have mono : ∀ {x y : Int}, x ≤ y → x * c.env.scale ≤ y * c.env.scale := fun h =>
    Int.mul_le_mul_of_nonneg_right h (by omega)
  have hz := Int.mul_nonneg n3.2 (by omega : 0 ≤ c.env.scale)
  simp only [Accounts.debitSum, Accounts.creditSum, Accounts.get, Accounts.balance, TAccount.net,
    h1, h2] at *
  refine ⟨⟨by omega, h6⟩, ⟨?_, ?_⟩, ⟨?_, ?_⟩, ?_, ?_⟩
  · have := mono (x := -a.positionMargin.credits)
      (y := a.positionMargin.debits - a.positionMargin.credits) (by omega)
    rw [Int.neg_mul] at this; omega
  · exact Int.le_trans (mono (by omega)) h8
  · have := mono (x := -((a.orderMargin.debits - a.orderMargin.credits) +
      (a.wallet.debits + a.orderMargin.debits + a.positionMargin.debits + a.exchangeFee.debits + 0 +
        a.treasury.debits - a.orderMargin.debits - a.orderMargin.credits +
          pp pos.outstandingFees))) (y := a.wallet.debits - a.wallet.credits) (by omega)
    rw [Int.neg_mul, Int.add_mul] at this; omega
  · have := mono (x := a.wallet.debits - a.wallet.credits)
      (y := a.positionMargin.credits + a.treasury.credits) (by omega)
    rw [Int.add_mul] at this; omega
  · have := mono (x := -((a.orderMargin.debits - a.orderMargin.credits) +
      (a.wallet.debits + a.orderMargin.debits + a.positionMargin.debits + a.exchangeFee.debits + 0 +
        a.treasury.debits - a.orderMargin.debits - a.orderMargin.credits +
          pp pos.outstandingFees)))
      (y := a.wallet.debits - a.wallet.credits + (a.positionMargin.debits -
        a.positionMargin.credits)) (by omega)
    rw [Int.neg_mul, Int.add_mul] at this; omega
  · have := mono (x := a.wallet.debits - a.wallet.credits + (a.positionMargin.debits -
        a.positionMargin.credits)) (y := a.treasury.credits) (by omega)
    omega

/-- Balances that a call reads fit. -/
structure Small (w : Int) (a : Accounts) : Prop where
  om : In w (a.balance .orderMargin)
  pm : In w (a.balance .positionMargin)
  wallet : In w (a.balance .wallet)
  funds : In w (a.balance .wallet + a.balance .positionMargin)

theorem small (h : Limits c w P K X QQ 0) {a : Accounts} {pos : Position} {T m : Int}
    (hc : Cash c K X a pos T m) (hT : T ≤ 2 * QQ) : Small w a := by
  obtain ⟨hs, hK, _, h1, h2, hX⟩ := h.basics
  obtain ⟨⟨b1, b2⟩, ⟨b3, b4⟩, ⟨b5, b6⟩, b7, b8⟩ := hc.balances
  have h3 := Int.mul_le_mul_of_nonneg_right hT hK
  rw [Int.mul_assoc] at h3
  have h4 := h.money
  have h5 := h.amount
  have h6 := Int.mul_nonneg b1 (by omega : 0 ≤ c.env.scale)
  exact ⟨In.of_mul hs (by omega) (by omega), In.of_mul hs (by omega) (by omega),
    In.of_mul hs (by omega) (by omega), In.of_mul hs (by omega) (by omega)⟩

theorem noov_change (h : Limits c w P K X QQ 0) (hd : c.env.debug = false) {a : Accounts}
    {pos : Position} {b : Book} {T m Q q p fee : Int} {side : Side}
    (hT : Exposure c P K X a pos b T m Q) (hq0 : 0 ≤ q) (hTq : T + q ≤ 2 * QQ) (hp : 0 ≤ p)
    (hP : p ≤ P) (hf1 : fee * c.env.scale ≤ q * K) (hf2 : -(q * K) ≤ fee * c.env.scale) :
    NoOv (changePosition (lax w) c.env c.spec.initMarginReq a pos q p side fee) := by
  obtain ⟨hs, hK, hP0, h1, h2, hX⟩ := h.basics
  have hR := h.rates
  have hqK := Int.mul_nonneg hq0 hK
  have h4 := Int.mul_le_mul_of_nonneg_right hTq hK
  rw [Int.mul_assoc, Int.add_mul] at h4
  have hmo := h.money
  have ham := h.amount
  have h7 := hT.cash.fees1
  have h8 := hT.cash.fees2
  have h9 := hT.hold
  have h10 := Int.mul_le_mul_of_nonneg_right h9 hK
  have h12 := h.price2
  have h13 := h.qty2
  have hTb := hT.bounds
  have hTK := Int.mul_nonneg hTb.2.2.1 hK
  have he := hT.entry0
  have hE := hT.entry
  have hw := hT.wf
  have hcash := hT.cash
  have hfees : In w (pos.outstandingFees + fee) :=
    In.of_mul hs (by rw [Int.add_mul]; omega) (by rw [Int.add_mul]; omega)
  have hqty : Spec.abs pos.quantity + q ≤ w := by omega
  have hval : (Spec.abs pos.quantity + q) * K ≤ w * c.env.scale := by rw [Int.add_mul]; omega
  have hppf := pp_mul_le (x := pos.outstandingFees + fee) (y := pos.outstandingFees) hs hqK
    (by rw [Int.add_mul]; omega)
  have hdec : ∀ (i : Inner) dir, 0 ≤ i.entry → i.entry ≤ P → i.fees = pos.outstandingFees →
      i.qty ≤ w →
      NoOv (decrease (lax w) c.env c.spec.initMarginReq a i q p dir fee) := by
    intro i dir h1 h2 h3 h4
    exact noov_decrease hd hR hp hP h1 h2 (by omega) h4 (by rw [h3]; exact hfees)
  have hflip : ∀ (i : Inner) dir, 0 < i.qty → 0 ≤ i.entry → i.entry ≤ P →
      i.fees = pos.outstandingFees → i.qty ≤ w → i.qty ≤ q → q ≤ w →
      NoOv (flip (lax w) c.env c.spec.initMarginReq a i q p dir fee) := by
    intro i dir h0 h1 h2 h3 h4 h5 h6
    have hiK := Int.mul_le_mul_of_nonneg_right h5 hK
    have hi0 := Int.mul_nonneg (by omega : 0 ≤ i.qty) hK
    unfold flip
    refine noov_chk_bind ⟨by omega, by omega⟩ ?_
    refine noov_bind ((follows_self w).decreases hd).agree (noov_decrease hd hR hp hP h1 h2
      (by omega) h4 (by rw [h3]; exact hfees)) fun r hr => ?_
    obtain ⟨D, M, R, g, k1, k2, k3, _⟩ := Inner.decrease_grow hR hp hP h1 h2 hr
    refine noov_assert_bind (by simp) fun _ => ?_
    have hpm : In w (r.2.balance .positionMargin) := by
      have hg := g.gross hcash.gross
      have n1 := hg.nonneg .wallet
      have n3 := hg.nonneg .positionMargin
      have n4 := hg.nonneg .exchangeFee
      have n6 := hg.nonneg .treasury
      have e1 := hcash.omc
      have e2 := g.wd
      have e3 := g.sum
      have e4 := g.om
      have e5 := g.broker
      have e6 := hcash.broker
      have e7 := g.pm
      have e8 := hcash.sum
      have e9 := hcash.pm
      rw [h3] at e3
      have mono : ∀ {x y : Int}, x ≤ y → x * c.env.scale ≤ y * c.env.scale := fun h =>
        Int.mul_le_mul_of_nonneg_right h (by omega)
      simp only [Accounts.debitSum, Accounts.get, Accounts.balance, TAccount.net, e4, e5, e6] at *
      have u1 := mono (x := r.2.positionMargin.debits - r.2.positionMargin.credits)
        (y := (a.wallet.debits + a.orderMargin.debits + a.positionMargin.debits +
          a.exchangeFee.debits + 0 + a.treasury.debits - a.orderMargin.debits -
          a.orderMargin.credits + pp pos.outstandingFees) + D +
          (pp (pos.outstandingFees + fee) - pp pos.outstandingFees)) (by omega)
      have u2 := mono (x := -(a.positionMargin.credits + M))
        (y := r.2.positionMargin.debits - r.2.positionMargin.credits) (by omega)
      rw [Int.add_mul, Int.add_mul _ D, Int.sub_mul (pp _)] at u1
      rw [Int.neg_mul, Int.add_mul] at u2
      exact In.of_mul hs (by omega) (by omega)
    refine noov_chk_bind hpm ?_
    refine noov_assert_bind (by simp) fun _ => ?_
    exact noov_new hd hR hP (by rw [Int.sub_mul]; omega)
  have hno : ∀ (a' : Accounts) p, debugNoMargin (lax w) c.env.debug a' p = .ok () := by
    intro a' p; unfold debugNoMargin; rw [hd]; rfl
  unfold changePosition
  refine noov_debug_bind (by simp) fun _ => ?_
  simp only [hno]
  cases pos with
  | neutral =>
    refine noov_any noov_ok fun _ => ?_
    cases side <;>
      exact noov_any (noov_new hd hR hP (by omega)) fun _ => noov_ok
  | long i =>
    have hw : 0 < i.qty := hw
    have habs : Spec.abs (Position.quantity (.long i)) = i.qty := by
      simp [Position.quantity, Spec.abs]; omega
    rw [habs] at hqty hval
    simp only [Position.outstandingFees] at hfees hdec hflip
    cases side with
    | buy =>
      exact noov_any (noov_increase hd hR hP hw he hE (by omega) (by omega) hqty hval hfees)
        fun _ => noov_ok
    | sell =>
      dsimp only
      split
      · exact noov_any (hdec i 1 he hE rfl (by omega)) fun _ => noov_ok
      split
      · exact noov_any (hdec i 1 he hE rfl (by omega)) fun _ => noov_ok
      · exact noov_any (hflip i 1 hw he hE rfl (by omega) (by omega) (by omega)) fun _ => noov_ok
  | short i =>
    have hw : 0 < i.qty := hw
    have habs : Spec.abs (Position.quantity (.short i)) = i.qty := by
      simp [Position.quantity, Spec.abs]; omega
    rw [habs] at hqty hval
    simp only [Position.outstandingFees] at hfees hdec hflip
    cases side with
    | sell =>
      exact noov_any (noov_increase hd hR hP hw he hE (by omega) (by omega) hqty hval hfees)
        fun _ => noov_ok
    | buy =>
      dsimp only
      split
      · exact noov_any (hdec i (-1) he hE rfl (by omega)) fun _ => noov_ok
      split
      · exact noov_any (hdec i (-1) he hE rfl (by omega)) fun _ => noov_ok
      · exact noov_any (hflip i (-1) hw he hE rfl (by omega) (by omega) (by omega)) fun _ => noov_ok

/-! ## Calls -/

theorem noov_bal {a : Accounts} {i : AccountId} {β} {f : Int → Res β} (h : In w (a.balance i))
    (k : NoOv (f (a.balance i))) : NoOv (balance (lax w) a i >>= f) :=
  Mach.noov_chk_bind h k

theorem order_margin (h : Limits c w P K X QQ 0) {a : Accounts} {pos : Position} {b : Book}
    {T m Q : Int} (hT : Exposure c P K X a pos b T m Q) (hQ : Q ≤ QQ) :
    NoOv (orderMargin (lax w) c.env c.spec.initMarginReq b pos) := by
  rw [margin_lax]; exact h.orderMargin hT hQ

theorem exposure_small (h : Limits c w P K X QQ 0) {a : Accounts} {pos : Position} {b : Book}
    {T m Q : Int} (hT : Exposure c P K X a pos b T m Q) (hQ : Q ≤ QQ) : Small w a := by
  have := hT.bounds
  exact small h hT.cash (by omega)

theorem noov_settleMarket (h : Limits c w P K X QQ 0) (hd : c.env.debug = false) {s : State}
    {T m Q : Int} {o : FilledMarket} (hT : Exposure c P K X s.acct s.pos s.om T m Q)
    (hP : o.avgFillPrice ≤ P) (hTq : T + o.qty ≤ 2 * QQ) : NoOv (settleMarket (lax w) c s o) := by
  obtain ⟨hs, hK, _, h1, h2, hX⟩ := h.basics
  unfold settleMarket
  refine noov_assert_bind (by simp) fun hq => noov_assert_bind (by simp) fun hp => ?_
  have hb := hT.bounds
  have h3 := Int.mul_le_mul_of_nonneg_right (by omega : o.qty ≤ 2 * QQ) hK
  rw [Int.mul_assoc] at h3
  have h4 := h.money
  have h5 := h.amount
  refine noov_bind (follows_self w).converts.agree (Mach.noov_convert h.rates.toRate (by omega) hP
    (Int.le_refl o.qty) (by omega) (by omega)) fun v hv => ?_
  have hv' := convert_ok hv
  have hfee := fee_bound (m := false) (side := o.side) h.rates h.fees hp hP (by omega : 0 ≤ o.qty)
  have hfe : Fill.fee c ⟨false, o.side, o.avgFillPrice, o.qty⟩ =
      Lfest.dmul c.scale v c.spec.feeTaker := by rw [hv']; rfl
  rw [hfe] at hfee
  refine noov_dmul_bind (In.of_mul hs (by omega) (by omega)) ?_
  exact noov_any (noov_change h hd hT (by omega) hTq (by omega) hP hfee.1 hfee.2) fun _ => noov_ok

theorem noov_submitMarket (h : Limits c w P K X QQ 0) (hd : c.env.debug = false) {s : State}
    {m Q T : Int} {o : NewMarket} (hs : Held c P K X s m Q)
    (hT : Exposure c P K X s.acct s.pos s.om T m Q) (hQ : Q ≤ QQ) (hq : 0 < o.qty)
    (hqQ : o.qty ≤ QQ) (hTq : T + o.qty ≤ 2 * QQ) : NoOv (submitMarket (lax w) c s o) := by
  obtain ⟨hs0, hK, _, h1, h2, hX⟩ := h.basics
  unfold submitMarket
  dsimp only
  have h3 := h.minQty
  have hB := exposure_small h hT hQ
  refine noov_any (Mach.noov_qty (by omega) (by omega)) fun r => ?_
  split
  · exact noov_ok
  refine noov_bal hB.pm (noov_bal hB.wallet ?_)
  have ht := hs.touch o.side
  have hqK := Int.mul_le_mul_of_nonneg_right hqQ hK
  have h4 := h.money
  have h6 := h.qty2
  refine noov_any (Mach.noov_checkMarketOrder h.rates h.fees.taker1 h.fees.taker2 ht.1 ht.2 hT.wf
    (by omega) (by omega) (by change _ ≤ w * c.env.scale; omega) hB.funds) fun r => ?_
  split
  · exact noov_ok
  · exact noov_any (noov_settleMarket h hd (s := { s with nextId := s.nextId + 1, log := _ })
      hT ht.2 hTq) fun _ => noov_ok

theorem noov_liquidate (h : Limits c w P K X QQ 0) (hd : c.env.debug = false) {s : State}
    {m Q : Int} (hs : Held c P K X s m Q) (hQ : Q ≤ QQ) : NoOv (liquidate (lax w) c s) := by
  obtain ⟨T, hT⟩ := hs.exp
  unfold liquidate
  refine noov_bind' noov_liquidationOrder fun o ho => ?_
  obtain ⟨o1, o2, o3⟩ := liquidationOrder_ok hT.wf ho
  have h1 := hT.liquidation ho
  have h2 := hT.bounds
  refine noov_any (noov_submitMarket h hd hs hT hQ o1 (by omega) ?_) fun r => ?_
  · have := abs_nonneg' (s.pos.quantity + signed o.side o.qty)
    omega
  · split
    · intro h; cases h
    · exact noov_ok

theorem noov_emptyCheck {a : Accounts} {b : Book} (h : In w (a.balance .orderMargin)) :
    NoOv (emptyCheck (lax w) b a) := by
  unfold emptyCheck
  split
  · exact noov_bal h (noov_assert (by simp))
  · exact noov_ok

theorem noov_walletCheck {a : Accounts} (h : In w (a.balance .wallet)) :
    NoOv (walletCheck (lax w) a) := noov_bal h (noov_assert (by simp))

theorem noov_appendChecks {s : State} (h : In w (s.acct.balance .orderMargin))
    (h' : In w (s.acct.balance .wallet)) : NoOv (appendChecks (lax w) s) := by
  unfold appendChecks
  exact noov_assert_bind (by simp) fun _ => noov_any (noov_emptyCheck h) fun _ =>
    noov_any (noov_walletCheck h') fun _ => noov_ok

theorem noov_appendLimit (h : Limits c w P K X QQ 0) (hd : c.env.debug = false) {s : State}
    {m Q T : Int} {o : Limit} (hT : Exposure c P K X s.acct s.pos s.om T m Q) (hp : 0 < o.price)
    (hP : o.price ≤ P) (hq : 0 < o.remaining) (hQ : Q + o.remaining ≤ QQ) (hf : o.fq = .unfilled)
    (hid : ∀ x ∈ s.om, x.id ≠ o.id)
    (hwal : -(QQ * K) ≤ s.acct.balance .wallet * c.env.scale) :
    NoOv (appendLimit (lax w) c s o) := by
  obtain ⟨hs0, hK, _, h1, h2, hX⟩ := h.basics
  unfold appendLimit
  refine noov_bind' noov_omUpdate fun r hr => ?_
  cases r with
  | error e => exact noov_ok
  | ok om' =>
    have hom : om' = s.om ++ [o] := by
      rcases (omUpdate_ok hr).2 with ⟨_, _, h1⟩ | ⟨old, h1, _⟩
      · exact h1
      · obtain ⟨h2, h3⟩ := getById_some h1
        exact absurd h3 (hid old h2)
    have hT' := hT.add hX hp hP hq hf hid
    rw [← hom] at hT'
    dsimp only
    split
    · exact noov_ok
    refine noov_bind (follows_self w).margin.agree (order_margin h hT' hQ) fun k hk => ?_
    have hB := exposure_small h hT' hQ
    refine noov_bal hB.om ?_
    have b := orderMargin_bound (new := none) h.rates hT'.fair (by simp) hk
    simp only [optQty, Option.map_none, Option.getD_none, Int.add_zero] at b
    obtain ⟨b1, b2⟩ := b
    have hbo := hT'.bounds
    have e1 := Int.mul_le_mul_of_nonneg_right (by omega : qsum om' ≤ QQ) hK
    have h4 := h.money
    have h5 := h.amount
    obtain ⟨⟨c1, c2⟩, _, ⟨c3, c4⟩, _⟩ := hT'.cash.balances
    have e2 := Int.mul_le_mul_of_nonneg_right (by omega : T ≤ 2 * QQ) hK
    rw [Int.mul_assoc] at e2
    have hom := hB.om
    have b3 := Int.mul_nonneg b1 (by omega : 0 ≤ c.env.scale)
    have c0 := Int.mul_nonneg c1 (by omega : 0 ≤ c.env.scale)
    have hkw : k ≤ w := Int.le_of_mul_le_mul_right (by omega) hs0
    have hbw : s.acct.balance .orderMargin ≤ w := hom.2
    -- what a transfer of the difference leaves
    have key : ∀ d a', In w (s.acct.balance .orderMargin + d) →
        In w (s.acct.balance .wallet - d) →
        Lfest.transfer c.env s.acct .orderMargin .wallet d = .ok a' →
        In w (a'.balance .orderMargin) ∧ In w (a'.balance .wallet) := by
      intro d a' i1 i2 ha
      have k1 := transfer_balance ha .orderMargin
      have k2 := transfer_balance ha .wallet
      simp only [if_true, reduceCtorEq, if_false, Int.sub_zero, Int.add_zero] at k1 k2
      exact ⟨by rw [k1]; exact i1, by rw [k2]; exact i2⟩
    split
    · refine noov_chk_bind ⟨by omega, by omega⟩ ?_
      refine noov_bind ((follows_self w).transfers hd).agree (noov_transfer hd) fun a' ha' => ?_
      have := key _ a' (In.of_mul hs0 (by rw [Int.add_mul, Int.sub_mul]; omega)
        (by rw [Int.add_mul, Int.sub_mul]; omega)) (In.of_mul hs0
        (by rw [Int.sub_mul, Int.sub_mul]; omega) (by rw [Int.sub_mul, Int.sub_mul]; omega)) ha'
      exact noov_any (noov_appendChecks this.1 this.2) fun _ => noov_ok
    split
    · refine noov_chk_bind ⟨by omega, by omega⟩ ?_
      refine noov_bind ((follows_self w).transfers hd).agree (noov_transfer hd) fun a' ha' => ?_
      have := key _ a' (In.of_mul hs0 (by rw [Int.add_mul, Int.sub_mul]; omega)
        (by rw [Int.add_mul, Int.sub_mul]; omega)) (In.of_mul hs0
        (by rw [Int.sub_mul, Int.sub_mul]; omega) (by rw [Int.sub_mul, Int.sub_mul]; omega)) ha'
      exact noov_any (noov_appendChecks this.1 this.2) fun _ => noov_ok
    · exact noov_ok

theorem noov_submitLimit (h : Limits c w P K X QQ 0) (hd : c.env.debug = false) {s : State}
    {m Q : Int} {o : NewLimit} (hs : Held c P K X s m Q) (hp : 0 < o.price) (hP : o.price ≤ P)
    (hq : 0 < o.qty) (hQ : Q + o.qty ≤ QQ) : NoOv (submitLimit (lax w) c s o) := by
  obtain ⟨hs0, hK, _, h1, h2, hX⟩ := h.basics
  obtain ⟨T, hT⟩ := hs.exp
  have hb := hT.bounds
  have hs' : 0 < c.scale := hs0
  have hmid : 0 ≤ s.ms.mid c.scale ∧ s.ms.mid c.scale ≤ P := by
    rw [mid_eq]
    have e1 := hs.bid0
    have e2 := hs.bid
    have e3 := hs.ask0
    have e4 := hs.ask
    unfold Spec.mid
    rw [Int.tdiv_eq_ediv_of_nonneg (by omega)]
    omega
  unfold submitLimit
  dsimp only
  have h3 := h.minQty
  refine noov_any (Mach.noov_qty (by omega) (by omega)) fun r => ?_
  split
  · exact noov_ok
  refine noov_bind (follows_self w).mids.agree (Mach.noov_mid hs' hs.bid0 hs.bid hs.ask0 hs.ask
    h.price2) fun x hx => ?_
  simp only [ok_inj] at hx; subst hx
  refine noov_any (Mach.noov_price hs' hP hmid.1 hmid.2 h.minPrice h.up h.down) fun r => ?_
  split
  · exact noov_ok
  have hB := exposure_small h hT (by omega)
  refine noov_bal hB.wallet ?_
  have e1 := Int.mul_le_mul_of_nonneg_right (by omega : qsum s.om + o.qty ≤ QQ) hK
  have e1' := Int.mul_le_mul_of_nonneg_right (by omega : qsum s.om ≤ QQ) hK
  have e2 := h.amount
  have e3 := h.qty2
  have e4 := h.money
  have e5 := h.qty
  obtain ⟨_, _, ⟨c3, c4⟩, _⟩ := hT.cash.balances
  have e6 := Int.mul_le_mul_of_nonneg_right (by omega : T ≤ 2 * QQ) hK
  rw [Int.mul_assoc] at e6
  have hnew : ∀ o' ∈ some (o.intoPending s.nextId s.ms.ts), 0 < o'.price ∧ o'.price ≤ P ∧
      0 ≤ o'.remaining := by
    intro o' ho'
    cases ho'
    exact ⟨hp, hP, Int.le_of_lt hq⟩
  refine noov_bind (follows_self w).limit.agree ?_ fun r hr => ?_
  · rw [limit_lax]
    unfold Mach.checkLimitOrder
    refine noov_bind agree_orderMargin (h.orderMargin hT (by omega)) fun k hk => ?_
    refine noov_bind (agree_orderMarginInternal (new := some _)) (noov_orderMarginInternal h.rates
      hT.fair hnew ?_ ?_ (by omega)) fun k' _ => ?_
    · simp only [optQty, Option.map_some, Option.getD_some, NewLimit.intoPending]; omega
    · simp only [optQty, Option.map_some, Option.getD_some, NewLimit.intoPending]; omega
    have b := orderMargin_bound (new := none) h.rates hT.fair (by simp) hk
    simp only [optQty, Option.map_none, Option.getD_none, Int.add_zero] at b
    obtain ⟨b1, b2⟩ := b
    have b3 := Int.mul_nonneg b1 (by omega : 0 ≤ c.env.scale)
    refine noov_chk_bind (In.of_mul hs0 (by rw [Int.add_mul]; omega) (by rw [Int.add_mul]; omega)) ?_
    split <;> exact noov_ok
  cases r with
  | error e => exact noov_ok
  | ok r =>
  dsimp only
  split
  · exact noov_ok
  have hwal : -(QQ * K) ≤ s.acct.balance .wallet * c.env.scale := by
    simp only [Lfest.checkLimitOrder, bind_ok] at hr
    obtain ⟨k, hk, k', hk', hr⟩ := hr
    have b := orderMargin_bound (new := none) h.rates hT.fair (by simp) hk
    have b' := (orderMargin_bound (new := some _) h.rates hT.fair hnew hk').1
    simp only [optQty, Option.map_none, Option.getD_none, Int.add_zero] at b
    split at hr
    · cases hr
    · next hlt =>
      have := Int.mul_le_mul_of_nonneg_right
        (by omega : 0 ≤ s.acct.balance .wallet + k) (by omega : 0 ≤ c.env.scale)
      rw [Int.add_mul] at this
      omega
  refine noov_any (noov_appendLimit h hd (s := { s with nextId := s.nextId + 1, log := _ }) hT hp
    hP hq hQ rfl ?_ hwal) fun r => ?_
  · intro x hx
    simp only at hx
    rw [hs.inv.sync h.cap] at hx
    have := (hs.inv.orders x hx).fresh
    simp only [NewLimit.intoPending]
    omega
  · split <;> exact noov_ok

theorem noov_refund (h : Limits c w P K X QQ 0) (hd : c.env.debug = false) {a : Accounts}
    {pos : Position} {b : Book} {T m Q k : Int} (hT : Exposure c P K X a pos b T m Q) (hQ : Q ≤ QQ)
    (hk : 0 ≤ k) : NoOv (refund (lax w) c.env a (a.balance .orderMargin) k) := by
  have hB := (exposure_small h hT hQ).om
  have h0 := hT.cash.balances.1.1
  unfold refund
  split
  · exact noov_chk_bind ⟨by have := hB.2; omega, by have := hB.2; omega⟩ (noov_transfer hd)
  · exact noov_ok

theorem noov_cancelLimit (h : Limits c w P K X QQ 0) (hd : c.env.debug = false) {s : State}
    {m Q : Int} {k : CancelBy} (hs : Held c P K X s m Q) (hQ : Q ≤ QQ) :
    NoOv (cancelLimit (lax w) c s k) := by
  obtain ⟨T, hT⟩ := hs.exp
  have hB := (exposure_small h hT hQ).om
  unfold cancelLimit
  refine noov_bal hB ?_
  refine noov_bind (follows_self w).margin.agree (order_margin h hT hQ) fun x hx => ?_
  refine noov_assert_bind (by simp) fun _ => ?_
  split
  · exact noov_ok
  · next removed active' hr =>
    refine noov_bind' noov_omRemove fun om' hom => ?_
    have hT' : Exposure c P K X s.acct s.pos om' T m Q := by
      obtain ⟨y, hy⟩ := omRemove_ok hom
      obtain ⟨xs, ys, he, hp⟩ := removeCancel_some hy
      have hnd := hT.nodup
      rw [he] at hnd
      have hsub : ∀ x ∈ om', x ∈ s.om := by
        intro x hx
        rw [hp.mem_iff] at hx
        rw [he]
        simp only [List.mem_append, List.mem_cons] at hx ⊢
        rcases hx with hx | hx <;> simp [hx]
      refine { hT with room := ?_, nodup := hnd.split.2.perm hp.symm,
                       orders := fun x hx => hT.orders x (hsub x hx),
                       done := fun x hx => hT.done x (hsub x hx) }
      have h1 := hT.room
      have h2 := (hT.orders y (by rw [he]; simp)).rem
      rw [he, qsum_append, qsum_cons] at h1
      rw [qsum_perm hp, qsum_append]
      omega
    refine noov_bind (follows_self w).margin.agree (order_margin h hT' hQ) fun y hy => ?_
    have hy0 := (orderMargin_bound (new := none) h.rates hT'.fair (by simp) hy).1
    refine noov_assert_bind (by simp) fun _ => ?_
    refine noov_bind ((follows_self w).refunds hd).agree (noov_refund h hd hT' hQ hy0)
      fun a' ha' => ?_
    refine noov_assert_bind (by simp) fun _ => ?_
    exact noov_any (noov_emptyCheck (exposure_small h (hT'.refund hy0 ha') hQ).om) fun _ => noov_ok

theorem noov_amendLimit (h : Limits c w P K X QQ 0) (hd : c.env.debug = false) {s : State}
    {m Q : Int} {id : Nat} {o : NewLimit} (hs : Held c P K X s m Q) (hp : 0 < o.price)
    (hP : o.price ≤ P) (hq : 0 < o.qty) (hQ : Q + o.qty ≤ QQ) :
    NoOv (amendLimit (lax w) c s id o) := by
  obtain ⟨T, hT⟩ := hs.exp
  have hb := hT.bounds
  have e1 := h.qty2
  unfold amendLimit
  cases hold : s.active.getById id with
  | none => exact noov_ok
  | some old =>
    obtain ⟨hmem, _⟩ := getById_some hold
    have hfit := hT.orders old (by rw [hs.inv.sync h.cap]; exact hmem)
    have f1 := hfit.filled
    have f2 := hfit.rem
    have f3 := hfit.total
    dsimp only
    refine noov_bind (follows_self w).quantity.agree (Mach.noov_total (by omega) f1 (by omega))
      fun total htot => ?_
    have ht : total = old.remaining + old.filledQuantity := by
      simp only [Limit.totalQuantity, bind_ok, assertP_ok, ok_inj] at htot
      obtain ⟨_, _, rfl⟩ := htot
      unfold Limit.filledQuantity
      cases old.fq <;> simp
    have hnq : o.totalQuantity = o.qty := rfl
    refine noov_chk_bind ⟨by omega, by omega⟩ (noov_chk_bind ⟨by omega, by omega⟩ ?_)
    have hc := noov_cancelLimit (k := .orderId id) h hd hs (by omega)
    split
    · refine noov_any hc fun r => ?_
      split
      · intro h; cases h
      · exact noov_ok
    · next hpos =>
      refine noov_bind' noov_setRemaining fun o' ho' => ?_
      simp only [NewLimit.setRemaining, bind_ok, assertP_ok, ok_inj] at ho'
      obtain ⟨_, _, rfl⟩ := ho'
      refine noov_bind ((follows_self w).cancels hd).agree hc fun r hr => ?_
      obtain ⟨s', x⟩ := r
      cases x with
      | error e => exact noov_ok
      | ok x =>
        exact noov_submitLimit h hd (hs.cancel h.rates h.cap hr) hp hP (by simp only; omega)
          (by simp only; omega)

theorem noov_debugMarginEq (hd : c.env.debug = false) {a : Accounts} {pos : Position} {b : Book}
    {p : Panic} : NoOv (debugMarginEq (lax w) c a b pos p) := by
  unfold debugMarginEq
  rw [hd]
  exact noov_ok

theorem noov_matchOrder (h : Limits c w P K X QQ 0) (hd : c.env.debug = false) {l : Loop}
    {o : Limit} {u : Update} {T m Q : Int} (hT : Exposure c P K X l.acct l.pos l.om T m Q)
    (hQ : Q ≤ QQ) (ho : o ∈ l.om) : NoOv (matchOrder (lax w) c u l o) := by
  obtain ⟨hs0, hK, _, h1, h2, hX⟩ := h.basics
  have hfit := hT.orders o ho
  have hb := hT.bounds
  have e1 := h.qty2
  have e2 := h.price2
  have e4 := h.money
  have e5 := h.amount
  have hB := exposure_small h hT hQ
  unfold matchOrder
  refine noov_any noov_filled fun r => ?_
  cases r with
  | none => exact noov_ok
  | some q =>
    dsimp only
    refine noov_debug_bind (by simp) fun _ => noov_bal hB.om ?_
    refine noov_any (noov_debugMarginEq hd) fun _ => ?_
    refine noov_bind (follows_self w).applies.agree ?_ fun r hr => ?_
    · unfold applyFill
      have f1 := Int.mul_le_mul_of_nonneg_right (by have := hfit.total; omega :
        o.filledQuantity + o.remaining ≤ QQ) hK
      have f2 := hfit.total
      refine noov_any (Mach.noov_fill h.rates.toRate (Int.le_of_lt hfit.price) hfit.top
        (fun x a hx => ?_) (by omega) (by omega) (by change _ ≤ w * c.env.scale; omega)) fun r => ?_
      · have := hfit.fq x a hx; omega
      split
      · exact noov_any noov_omRemove fun _ => noov_ok
      · refine noov_debug_bind (by simp) fun _ => noov_any noov_omUpdate fun _ => ?_
        split
        · intro h; cases h
        · exact noov_ok
    · obtain ⟨l1, o1⟩ := r
      obtain ⟨r1, r2, r3, r4, r5, r6, r7, r8, r9, _⟩ := applyFill_room hT.nodup ho hT.orders hr
      have hle : o.remaining ≤ qsum l.om := by
        obtain ⟨xs, ys, hxy⟩ := List.append_of_mem ho
        have hx : ∀ zs : Book, (∀ x ∈ zs, x ∈ l.om) → 0 ≤ qsum zs := fun zs hz =>
          qsum_nonneg fun x hx => by have := (hT.orders x (hz x hx)).rem; omega
        have h3 := hx xs (by intro x hx; rw [hxy]; simp [hx])
        have h4 := hx ys (by intro x hx; rw [hxy]; simp [hx])
        rw [hxy, qsum_append, qsum_cons]
        omega
      have hTq : T + q ≤ 2 * QQ := by have := hT.room; omega
      have f3 := Int.mul_le_mul_of_nonneg_right (by omega : q ≤ 2 * QQ) hK
      rw [Int.mul_assoc] at f3
      refine noov_bind ((follows_self w).settlesLimit hd).agree ?_ fun l2 h2 => ?_
      · unfold settleLimit
        rw [r6, r7, r8, r9]
        refine noov_bind (follows_self w).converts.agree (Mach.noov_convert h.rates.toRate
          (Int.le_of_lt hfit.price) hfit.top (Int.le_refl q) (by omega) (by omega)) fun v hv => ?_
        have hv' := convert_ok hv
        have hfee := fee_bound (m := true) (side := o.side) h.rates h.fees hfit.price hfit.top
          (by omega : 0 ≤ q)
        have hfe : Fill.fee c ⟨true, o.side, o.price, q⟩ =
          Lfest.dmul c.scale v c.spec.feeMaker := by rw [hv']; rfl
        rw [hfe] at hfee
        refine noov_dmul_bind (In.of_mul hs0 (by omega) (by omega)) ?_
        exact noov_any (noov_change h hd hT (by omega) hTq (Int.le_of_lt hfit.price) hfit.top
          hfee.1 hfee.2) fun _ => noov_ok
      · obtain ⟨g1, g2⟩ := hT.limitFill h.rates h.fees ho hr h2
        refine noov_any ?_ fun _ => noov_ok
        unfold releaseMargin
        refine noov_bind (follows_self w).margin.agree (order_margin h g1 hQ) fun k hk => ?_
        have hk0 := (orderMargin_bound (new := none) h.rates g1.fair (by simp) hk).1
        refine noov_debug_bind (by simp) fun _ => ?_
        rw [← g2]
        exact noov_any (noov_refund h hd g1 hQ hk0) fun _ => noov_ok

theorem noov_matchLoop (h : Limits c w P K X QQ 0) (hd : c.env.debug = false) {u : Update}
    {m Q : Int} (hQ : Q ≤ QQ) : ∀ (os : List Limit) (l : Loop) (T : Int),
    Exposure c P K X l.acct l.pos l.om T m Q → IdsNodup os → (∀ o ∈ os, o ∈ l.om) →
      NoOv (matchLoop (lax w) c u l os)
  | [], _, _, _, _, _ => noov_ok
  | o :: os, l, T, hT, hn, ho => by
    have hno := (IdsNodup.split (xs := []) hn).1
    have hn' := (IdsNodup.split (xs := []) hn).2
    simp only [List.nil_append] at hno hn'
    unfold matchLoop
    refine noov_bind ((follows_self w).matches_ hd).agree (noov_matchOrder h hd hT hQ
      (ho o (by simp))) fun r hr => ?_
    obtain ⟨l1, o1⟩ := r
    obtain ⟨⟨T1, g1, _⟩, g2⟩ := hT.match h.rates h.fees (ho o (by simp)) hr
    exact noov_any (noov_matchLoop h hd hQ os l1 T1 g1 hn'
      fun x hx => g2 x (ho x (by simp [hx])) (hno x hx)) fun _ => noov_ok

theorem noov_checkActive (h : Limits c w P K X QQ 0) (hd : c.env.debug = false) {s : State}
    {u : Update} {m Q : Int} (hs : Held c P K X s m Q) (hQ : Q ≤ QQ) :
    NoOv (checkActive (lax w) c s u) := by
  obtain ⟨T, hT⟩ := hs.exp
  have ho : ∀ o ∈ s.active, o ∈ s.om := fun o ho => by rw [hs.inv.sync h.cap]; exact ho
  unfold checkActive
  split
  · exact noov_ok
  refine noov_debug_bind (by simp) fun _ => ?_
  refine noov_bind ((follows_self w).loops hd _ _).agree (noov_matchLoop h hd hQ _ _ T hT
    hs.inv.nodup ho) fun r hr => ?_
  obtain ⟨l, orders⟩ := r
  obtain ⟨T', hT', _⟩ := Exposure.loop h.rates h.fees (l := s.loop) hT hs.inv.nodup ho hr
  have hB := exposure_small h hT' hQ
  refine noov_any noov_removeExecuted fun _ => ?_
  refine noov_debug_bind (by simp) fun _ => noov_debug_bind (by simp) fun _ => ?_
  refine noov_any ?_ fun _ => ?_
  · unfold debugEmpty
    split
    · exact noov_emptyCheck hB.om
    · exact noov_ok
  refine noov_any (noov_debugMarginEq hd) fun _ => ?_
  exact noov_any (noov_walletCheck hB.wallet) fun _ => noov_ok

theorem noov_updateState (h : Limits c w P K X QQ 0) (hd : c.env.debug = false) {s : State}
    {m Q : Int} {a : UpdateArg} {u : Update} (hs : Held c P K X s m Q) (hQ : Q ≤ QQ)
    (hq : ∀ x ∈ quotesOf a, 0 ≤ x ∧ x ≤ P) (hb : a.build c.env.debug = .ok u) :
    NoOv (updateState (lax w) c s u) := by
  obtain ⟨hs0, _⟩ := h.basics
  obtain ⟨T, hT⟩ := hs.exp
  have hB := exposure_small h hT hQ
  unfold updateState
  refine noov_bind (follows_self w).observes.agree ?_ fun s1 h1 => ?_
  · unfold observe
    refine noov_bind' noov_market fun ms' hms => ?_
    refine noov_any ?_ fun _ => noov_ok
    unfold sampleLog
    split
    · refine noov_any ?_ fun _ => noov_any ?_ fun _ => noov_ok
      · unfold userBalances
        exact noov_bal hB.wallet (noov_bal hB.pm (noov_bal hB.om noov_ok))
      · obtain ⟨s1, h1, h2⟩ : ∃ s1, Lfest.observe c s u = .ok s1 ∧ s1.ms = ms' := by
          refine ⟨_, by simp only [Lfest.observe, hms, bind, Except.bind]; rfl, rfl⟩
        subst h2
        have hs1 := hs.observe hq hb h1
        exact Mach.noov_mid hs0 hs1.bid0 hs1.bid hs1.ask0 hs1.ask h.price2
    · exact noov_ok
  have hs1 := hs.observe hq hb h1
  obtain ⟨T1, hT1⟩ := hs1.exp
  refine noov_any (Mach.noov_maintenance h.mm0 h.mm1 hT1.entry0 hT1.entry h.scale2 h.price2)
    fun r => ?_
  split
  · exact noov_any (noov_liquidate h hd hs1 hQ) fun _ => noov_ok
  · exact noov_any (noov_checkActive h hd hs1 hQ) fun _ => noov_ok

theorem noov_step (h : Limits c w P K X QQ 0) (hd : c.env.debug = false) {s : State} {m Q : Int}
    {op : Op} (hs : Held c P K X s m Q) (hQ : Q + asked op ≤ QQ) (hw : Within w P op) :
    NoOv (step (lax w) c s op) := by
  have ha := asked_nonneg op
  have hbuild : ∀ a, volumeOf a ≤ w → NoOv (build (lax w) c.env.debug a) := fun a ha => by
    rw [build_lax]; exact noov_build ha
  cases op with
  | update a =>
    obtain ⟨w1, w2⟩ := hw
    refine noov_bind (follows_self w).builds.agree (hbuild a w2) fun u hu => ?_
    exact noov_any (noov_updateState h hd hs (by omega) w1 hu) fun _ => noov_ok
  | checkActive a =>
    refine noov_bind (follows_self w).builds.agree (hbuild a hw) fun u hu => ?_
    exact noov_any (noov_checkActive h hd hs (by omega)) fun _ => noov_ok
  | market side qty uid =>
    unfold step
    dsimp only
    cases ho : NewMarket.new side qty uid with
    | error e => exact noov_ok
    | ok o =>
      obtain ⟨hq, rfl⟩ := newMarket_ok ho
      simp only [asked, if_pos hq] at *
      obtain ⟨T, hT⟩ := hs.exp
      have hb := hT.bounds
      exact noov_any (noov_submitMarket h hd hs hT (by omega) hq (by simp only; omega)
        (by simp only; omega)) fun _ => noov_ok
  | limit side price qty uid =>
    unfold step
    dsimp only
    cases ho : NewLimit.new side price qty uid with
    | error e => exact noov_ok
    | ok o =>
      obtain ⟨hp, hq, rfl⟩ := newLimit_ok ho
      simp only [asked, if_pos hq] at *
      exact noov_any (noov_submitLimit h hd hs hp hw hq hQ) fun _ => noov_ok
  | amend id side price qty uid =>
    unfold step
    dsimp only
    cases ho : NewLimit.new side price qty uid with
    | error e => exact noov_ok
    | ok o =>
      obtain ⟨hp, hq, rfl⟩ := newLimit_ok ho
      simp only [asked, if_pos hq] at *
      exact noov_any (noov_amendLimit h hd hs hp hw hq hQ) fun _ => noov_ok
  | cancel k =>
    exact noov_any (noov_cancelLimit h hd hs (by omega)) fun _ => noov_ok

/-- In a release build only the totals of the accounts can leave the range. -/
theorem noov_run (h : Limits c w P K X QQ 0) (hd : c.env.debug = false) :
    ∀ (ops : List Op) (s : State) (m Q : Int), Held c P K X s m Q →
      Q + (ops.map asked).sum ≤ QQ → (∀ op ∈ ops, Within w P op) → NoOv (run (lax w) c s ops)
  | [], _, _, _, _, _, _ => noov_ok
  | op :: ops, s, m, Q, hs, hQ, hw => by
    simp only [List.map_cons, List.sum_cons] at hQ
    have h1 := sum_map_nonneg asked_nonneg ops
    have hop := hw op (by simp)
    unfold run
    refine noov_bind ((follows_self w).steps hd).agree (noov_step h hd hs (by omega) hop)
      fun r hr => ?_
    exact noov_run h hd ops r.1 _ _ (h.held hs (by omega) hop hr) (by omega)
      fun o ho => hw o (by simp [ho])

end Lfest.Rel
