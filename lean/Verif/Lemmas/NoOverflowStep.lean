import Verif.Lemmas.NoOverflow
import Verif.Lemmas.ExposureStep

/-!
# Calls do not overflow within the limits
-/

namespace Lfest.Mach

open Spec

/-- The limits, for `n` limit order submissions and `Q` contracts. -/
structure Limits (c : Cfg) (w P K X Q n : Int) : Prop where
  rates : Rates c.env c.spec.initMarginReq P K
  fees : FeeFit c
  cap : c.maxOpen ≤ 10000
  mm0 : 0 ≤ c.spec.maintenanceMargin
  mm1 : c.spec.maintenanceMargin ≤ c.scale
  start : 0 ≤ c.start
  qty : 0 ≤ Q
  count : 0 ≤ n
  amount : X = c.start * c.env.scale + 4 * (Q * K)
  money : c.start * c.env.scale + 6 * (Q * K) + 2 * (n * X) + X ≤ w * c.env.scale
  price2 : 2 * P ≤ w
  scale2 : 2 * c.scale ≤ w
  qty2 : 2 * Q ≤ w
  minPrice : P + Spec.abs (c.spec.priceFilter.minPrice.getD 0) ≤ w
  minQty : Q + Spec.abs (c.spec.quantityFilter.minQuantity.getD 0) ≤ w
  up : P * Spec.abs c.spec.priceFilter.multiplierUp ≤ w * c.scale
  down : P * Spec.abs c.spec.priceFilter.multiplierDown ≤ w * c.scale

variable {c : Cfg} {w P K X QQ n : Int}

theorem Limits.basics (h : Limits c w P K X QQ n) :
    0 < c.env.scale ∧ 0 ≤ K ∧ 0 ≤ P ∧ 0 ≤ QQ * K ∧ 0 ≤ c.start * c.env.scale ∧ 0 ≤ X := by
  have hs := scale_pos c.env
  have h1 := h.rates.price
  have h2 := h.rates.pos
  have hK : 0 ≤ K := by omega
  have h3 := Int.mul_nonneg h.qty hK
  have h4 := Int.mul_nonneg h.start (by omega : 0 ≤ c.env.scale)
  have h5 := h.amount
  exact ⟨hs, hK, h2, h3, h4, by omega⟩

/-- All entries of the accounts fit, with an amount `X` to spare. -/
theorem Limits.total (h : Limits c w P K X QQ n) {a : Accounts} {pos : Position} {b : Book}
    {T m Q : Int} (hT : Exposure c P K X a pos b T m Q) (hQ : Q ≤ QQ) (hm : m ≤ n) :
    a.debitSum * c.env.scale + pp pos.outstandingFees * c.env.scale + X ≤ w * c.env.scale ∧
      a.debitSum * c.env.scale + X ≤ w * c.env.scale ∧ a.debitSum ≤ w := by
  obtain ⟨hs, hK, _, h1, h2, hX⟩ := h.basics
  have h3 := hT.cash.total
  obtain ⟨_, _, t0, t1, _, _⟩ := hT.bounds
  have h4 := Int.mul_le_mul_of_nonneg_right (by omega : T ≤ 2 * QQ) hK
  rw [Int.mul_assoc] at h4
  have h5 := Int.mul_le_mul_of_nonneg_right hm hX
  have h6 := h.money
  have h7 := Int.mul_nonneg (by unfold pp; split <;> omega : 0 ≤ pp pos.outstandingFees)
    (by omega : 0 ≤ c.env.scale)
  refine ⟨by omega, by omega, Int.le_of_mul_le_mul_right ?_ hs⟩
  omega

theorem Limits.room (h : Limits c w P K X QQ n) {a : Accounts} {pos : Position} {b : Book}
    {T m Q q : Int} (hT : Exposure c P K X a pos b T m Q) (hm : m ≤ n)
    (hq : 0 ≤ q) (hTq : T + q ≤ 2 * QQ) : Room w c.env P K a pos q := by
  obtain ⟨hs, hK, hP, h1, h2, hX⟩ := h.basics
  have h3 := hT.cash.total
  have h4 := Int.mul_le_mul_of_nonneg_right hTq hK
  rw [Int.mul_assoc, Int.add_mul] at h4
  have h5 := Int.mul_le_mul_of_nonneg_right hm hX
  have h6 := h.money
  have h7 := hT.cash.fees1
  have h8 := hT.cash.fees2
  have h9 := hT.hold
  have h10 := Int.mul_le_mul_of_nonneg_right h9 hK
  have h11 := Int.mul_nonneg h.count hX
  have h12 := h.price2
  have h13 := h.qty2
  exact ⟨hT.cash.gross, hq, by omega, by omega, by omega, by omega, by omega,
    by rw [Int.add_mul]; omega⟩

theorem Limits.orderMargin (h : Limits c w P K X QQ n) {a : Accounts} {pos : Position} {b : Book}
    {T m Q : Int} (hT : Exposure c P K X a pos b T m Q) (hQ : Q ≤ QQ) :
    NoOv (orderMargin w c.env c.spec.initMarginReq b pos) := by
  obtain ⟨hs, hK, hP, h1, h2, hX⟩ := h.basics
  obtain ⟨q0, q1, _, _, p1, _⟩ := hT.bounds
  have h3 := Int.mul_le_mul_of_nonneg_right (by omega : qsum b ≤ QQ) hK
  have h4 := h.money
  have h5 := Int.mul_nonneg h.count hX
  have h6 := h.qty2
  have h7 := h.qty
  exact noov_orderMargin h.rates hT.fair (by omega) (by omega) (by omega)

theorem Limits.balance (h : Limits c w P K X QQ n) {a : Accounts} {pos : Position} {b : Book}
    {T m Q : Int} (hT : Exposure c P K X a pos b T m Q) (hQ : Q ≤ QQ) (hm : m ≤ n) {i : AccountId}
    {β} {f : Int → Res β} (k : NoOv (f (a.balance i))) : NoOv (Mach.balance w a i >>= f) :=
  noov_balance_bind hT.cash.gross (h.total hT hQ hm).2.2 k

/-! ## Market orders -/

theorem Limits.settleMarket (h : Limits c w P K X QQ n) {s : State} {T m Q : Int} {o : FilledMarket}
    (hT : Exposure c P K X s.acct s.pos s.om T m Q) (hm : m ≤ n) (hP : o.avgFillPrice ≤ P)
    (hTq : T + o.qty ≤ 2 * QQ) : NoOv (settleMarket w c s o) := by
  obtain ⟨hs, hK, _, h1, h2, hX⟩ := h.basics
  unfold Mach.settleMarket
  refine noov_assert_bind (by simp) fun hq => noov_assert_bind (by simp) fun hp => ?_
  have hr := h.room hT hm (by omega : 0 ≤ o.qty) hTq
  have hqK : o.qty * K ≤ w * c.env.scale := by
    have e1 := hr.value
    have e2 := Int.mul_nonneg (abs_nonneg' s.pos.quantity) hK
    rw [Int.add_mul] at e1; omega
  refine noov_bind agree_convert (noov_convert h.rates.toRate (by omega) hP (Int.le_refl o.qty)
    (by omega) hqK) fun v hv => ?_
  have hv' := convert_ok hv
  have hfee := fee_bound (m := false) (side := o.side) h.rates h.fees hp hP (by omega : 0 ≤ o.qty)
  have hfe : Fill.fee c ⟨false, o.side, o.avgFillPrice, o.qty⟩ =
      Lfest.dmul c.scale v c.spec.feeTaker := by rw [hv']; rfl
  rw [hfe] at hfee
  refine noov_dmul_bind (In.of_mul hs (by omega) (by omega)) ?_
  refine noov_any (noov_changePosition h.rates hT.wf hT.entry0 hT.entry (by omega) hP hfee.1 hfee.2
    hr) fun _ => noov_ok

theorem funds_fit {a : Accounts} (hg : Gross a) :
    -a.debitSum ≤ a.balance .wallet + a.balance .positionMargin ∧
      a.balance .wallet + a.balance .positionMargin ≤ a.debitSum := by
  have h1 := hg.nonneg .wallet
  have h2 := hg.nonneg .orderMargin
  have h3 := hg.nonneg .positionMargin
  have h4 := hg.nonneg .exchangeFee
  have h5 := hg.nonneg .broker
  have h6 := hg.nonneg .treasury
  have h7 := hg.sums
  simp only [Accounts.debitSum, Accounts.creditSum, Accounts.get, Accounts.balance, TAccount.net]
    at *
  omega

theorem Limits.submitMarket (h : Limits c w P K X QQ n) {s : State} {m Q T : Int} {o : NewMarket}
    (hs : Held c P K X s m Q) (hT : Exposure c P K X s.acct s.pos s.om T m Q) (hm : m ≤ n)
    (hQ : Q ≤ QQ) (hq : 0 < o.qty) (hqQ : o.qty ≤ QQ) (hTq : T + o.qty ≤ 2 * QQ) :
    NoOv (submitMarket w c s o) := by
  obtain ⟨hs0, hK, _, h1, h2, hX⟩ := h.basics
  unfold Mach.submitMarket
  dsimp only
  have h3 := h.minQty
  refine noov_any (noov_qty (by omega) (by omega)) fun r => ?_
  split
  · exact noov_ok
  refine h.balance hT hQ hm (h.balance hT hQ hm ?_)
  have hw := h.total hT hQ hm
  have hf := funds_fit hT.cash.gross
  have ht := hs.touch o.side
  have hqK := Int.mul_le_mul_of_nonneg_right hqQ hK
  have h4 := h.money
  have h5 := Int.mul_nonneg h.count hX
  have h6 := h.qty2
  refine noov_any (noov_checkMarketOrder h.rates h.fees.taker1 h.fees.taker2 ht.1 ht.2 hT.wf
    (by omega) (by omega) (by change _ ≤ w * c.env.scale; omega) ⟨by omega, by omega⟩) fun r => ?_
  split
  · exact noov_ok
  · exact noov_any (h.settleMarket (s := { s with nextId := s.nextId + 1, log := _ })
      hT hm ht.2 hTq) fun _ => noov_ok

theorem Limits.liquidate (h : Limits c w P K X QQ n) {s : State} {m Q : Int}
    (hs : Held c P K X s m Q) (hm : m ≤ n) (hQ : Q ≤ QQ) : NoOv (liquidate w c s) := by
  obtain ⟨T, hT⟩ := hs.exp
  unfold Mach.liquidate
  refine noov_bind' noov_liquidationOrder fun o ho => ?_
  obtain ⟨o1, o2, o3⟩ := liquidationOrder_ok hT.wf ho
  have h1 := hT.liquidation ho
  have h2 := hT.bounds
  refine noov_any (h.submitMarket hs hT hm hQ o1 (by omega) ?_) fun r => ?_
  · have := abs_nonneg' (s.pos.quantity + signed o.side o.qty)
    omega
  · split
    · intro h; cases h
    · exact noov_ok

/-! ## Limit orders -/

theorem noov_emptyCheck {a : Accounts} {b : Book} (hg : Gross a) (hw : a.debitSum ≤ w) : NoOv (emptyCheck w b a) := by
  unfold emptyCheck
  split
  · exact noov_balance_bind hg hw (noov_assert (by simp))
  · exact noov_ok

theorem noov_walletCheck {a : Accounts} (hg : Gross a) (hw : a.debitSum ≤ w) :
    NoOv (walletCheck w a) :=
  noov_balance_bind hg hw (noov_assert (by simp))

/-- Reserving or returning order margin. -/
theorem Limits.reserve (h : Limits c w P K X QQ n) {a : Accounts} {pos : Position} {b : Book}
    {T m Q k x : Int} {d e : AccountId} (hT : Exposure c P K X a pos b T m Q)
    (hQ : Q ≤ QQ) (hm : m ≤ n)
    (hk : Lfest.orderMargin c.env c.spec.initMarginReq b pos = .ok k)
    (hx : x ≤ Spec.abs (k - a.balance .orderMargin)) :
    NoOv (transfer w c.env a d e x) ∧
      ∀ a', Lfest.transfer c.env a d e x = .ok a' → ∀ s : State, s.acct = a' →
        NoOv (appendChecks w s) := by
  obtain ⟨hs0, hK, _, h1, h2, hX⟩ := h.basics
  have hr := hT.reserveAmount h.rates h.start hQ h.amount hk
  have ht := h.total hT hQ hm
  have hx' := Int.mul_le_mul_of_nonneg_right hx (by omega : 0 ≤ c.env.scale)
  have hw : a.debitSum + x ≤ w := Int.le_of_mul_le_mul_right (by rw [Int.add_mul]; omega) hs0
  refine ⟨noov_transfer hT.cash.gross hw, fun a' ha' s hs => ?_⟩
  subst hs
  have hg := transfer_gross ha' hT.cash.gross
  have hsum := (transfer_sums ha').1
  have hw' : s.acct.debitSum ≤ w := by omega
  unfold appendChecks
  refine noov_assert_bind (by simp) fun _ => ?_
  refine noov_any (noov_emptyCheck hg hw') fun _ => ?_
  exact noov_any (noov_walletCheck hg hw') fun _ => noov_ok

theorem _root_.Lfest.Exposure.add {a : Accounts} {pos : Position} {b : Book} {T m Q : Int} {o : Limit}
    (hT : Exposure c P K X a pos b T m Q) (hX : 0 ≤ X) (hp : 0 < o.price) (hP : o.price ≤ P)
    (hq : 0 < o.remaining) (hf : o.fq = .unfilled) (hid : ∀ x ∈ b, x.id ≠ o.id) :
    Exposure c P K X a pos (b ++ [o]) T m (Q + o.remaining) := by
  have hg := hT.grow (by omega : Q ≤ Q + o.remaining) hX (Int.le_refl m)
  have hb := hT.bounds
  refine { hg with room := ?_, nodup := ?_, orders := ?_, done := ?_ }
  · rw [qsum_append, qsum_cons]
    have := hT.room
    simp [qsum] at *
    omega
  · have := hT.nodup
    unfold IdsNodup at *
    rw [List.map_append, List.nodup_append]
    refine ⟨this, by simp, ?_⟩
    intro x hx y hy
    simp only [List.mem_map] at hx
    obtain ⟨z, hz, rfl⟩ := hx
    simp only [List.map_cons, List.map_nil, List.mem_singleton] at hy
    subst hy
    exact hid z hz
  · intro x hx
    simp only [List.mem_append, List.mem_singleton] at hx
    rcases hx with hx | rfl
    · exact hg.orders x hx
    · refine ⟨hp, hP, hq, by simp [hf], ?_⟩
      simp [hf, Limit.filledQuantity]
      omega
  · intro x hx
    simp only [List.mem_append, List.mem_singleton] at hx
    rcases hx with hx | rfl
    · exact hg.done x hx
    · simpa [hf, Limit.filledQuantity] using hb.2.2.1

theorem Limits.appendLimit (h : Limits c w P K X QQ n) {s : State} {m Q T : Int} {o : Limit}
    (hT : Exposure c P K X s.acct s.pos s.om T m Q) (hm : m ≤ n) (hp : 0 < o.price)
    (hP : o.price ≤ P) (hq : 0 < o.remaining) (hQ : Q + o.remaining ≤ QQ) (hf : o.fq = .unfilled)
    (hid : ∀ x ∈ s.om, x.id ≠ o.id) : NoOv (appendLimit w c s o) := by
  obtain ⟨hs0, hK, _, h1, h2, hX⟩ := h.basics
  unfold Mach.appendLimit
  refine noov_bind' noov_omUpdate fun r hr => ?_
  cases r with
  | error e => exact noov_ok
  | ok om' =>
    have hom : om' = s.om ++ [o] := by
      rcases (omUpdate_ok hr).2 with ⟨_, _, h1⟩ | ⟨old, h1, _⟩
      · exact h1
      · obtain ⟨h2, h3⟩ := getById_some h1
        exact absurd h3 (hid old h2)
    have hT' := hT.add hX hp hP hq hf hid
    rw [← hom] at hT'
    dsimp only
    split
    · exact noov_ok
    refine noov_bind agree_orderMargin (h.orderMargin hT' hQ) fun k hk => ?_
    refine h.balance hT' hQ hm ?_
    have hr := hT'.reserveAmount h.rates h.start hQ h.amount hk
    have ht := h.total hT' hQ hm
    have hx : Spec.abs (k - s.acct.balance .orderMargin) ≤ w := by
      refine Int.le_of_mul_le_mul_right (Int.le_trans hr ?_) hs0
      have := Int.mul_nonneg (debitSum_nonneg hT.cash.gross) (by omega : 0 ≤ c.env.scale)
      omega
    have habs : ∀ z : Int, z ≤ Spec.abs z ∧ -z ≤ Spec.abs z := by
      intro z; unfold Spec.abs; split <;> omega
    have hz := habs (k - s.acct.balance .orderMargin)
    split
    · have hrv := h.reserve (d := .orderMargin) (e := .wallet) hT' hQ hm hk
        hz.1
      refine noov_chk_bind ⟨by omega, by omega⟩ ?_
      exact noov_bind agree_transfer hrv.1 fun a' ha' => noov_any (hrv.2 a' ha' _ rfl) fun _ => noov_ok
    split
    · have hrv := h.reserve (d := .orderMargin) (e := .wallet) hT' hQ hm hk
        (x := s.acct.balance .orderMargin - k) (by omega)
      refine noov_chk_bind ⟨by omega, by omega⟩ ?_
      exact noov_bind agree_transfer hrv.1 fun a' ha' => noov_any (hrv.2 a' ha' _ rfl) fun _ => noov_ok
    · exact noov_ok

theorem Limits.submitLimit (h : Limits c w P K X QQ n) {s : State} {m Q : Int} {o : NewLimit}
    (hs : Held c P K X s m Q) (hm : m ≤ n) (hp : 0 < o.price) (hP : o.price ≤ P) (hq : 0 < o.qty)
    (hQ : Q + o.qty ≤ QQ) : NoOv (submitLimit w c s o) := by
  obtain ⟨hs0, hK, _, h1, h2, hX⟩ := h.basics
  obtain ⟨T, hT⟩ := hs.exp
  have hb := hT.bounds
  have hs' : 0 < c.scale := hs0
  have hmid : 0 ≤ s.ms.mid c.scale ∧ s.ms.mid c.scale ≤ P := by
    rw [mid_eq]
    have e1 := hs.bid0
    have e2 := hs.bid
    have e3 := hs.ask0
    have e4 := hs.ask
    unfold Spec.mid
    rw [Int.tdiv_eq_ediv_of_nonneg (by omega)]
    omega
  unfold Mach.submitLimit
  dsimp only
  have h3 := h.minQty
  refine noov_any (noov_qty (by omega) (by omega)) fun r => ?_
  split
  · exact noov_ok
  refine noov_bind agree_mid (noov_mid hs' hs.bid0 hs.bid hs.ask0 hs.ask h.price2) fun x hx => ?_
  simp only [ok_inj] at hx; subst hx
  refine noov_any (noov_price hs' hP hmid.1 hmid.2 h.minPrice h.up h.down) fun r => ?_
  split
  · exact noov_ok
  refine h.balance hT (by omega) hm ?_
  have ht := h.total hT (by omega) hm
  have e1 := Int.mul_le_mul_of_nonneg_right (by omega : qsum s.om + o.qty ≤ QQ) hK
  have e2 := h.amount
  have e3 := h.qty2
  refine noov_any (noov_checkLimitOrder h.rates hT.fair ⟨hp, hP, Int.le_of_lt hq⟩ hT.cash.gross ?_ ?_
    ?_) fun r => ?_
  · simp only [NewLimit.intoPending]; omega
  · simp only [NewLimit.intoPending]; omega
  · have := h.qty; omega
  split
  · exact noov_ok
  split
  · exact noov_ok
  refine noov_any (h.appendLimit (s := { s with nextId := s.nextId + 1, log := _ }) hT hm hp hP hq hQ
    rfl ?_) fun r => ?_
  · intro x hx
    simp only at hx
    rw [hs.inv.sync h.cap] at hx
    have := (hs.inv.orders x hx).fresh
    simp only [NewLimit.intoPending]
    omega
  · split <;> exact noov_ok

theorem Limits.refund (h : Limits c w P K X QQ n) {a : Accounts} {pos : Position} {b : Book}
    {T m Q k : Int} (hT : Exposure c P K X a pos b T m Q) (hQ : Q ≤ QQ) (hm : m ≤ n) (hk : 0 ≤ k) :
    NoOv (refund w c.env a (a.balance .orderMargin) k) ∧
      ∀ a', Lfest.refund c.env a (a.balance .orderMargin) k = .ok a' → a'.debitSum ≤ w := by
  obtain ⟨hs0, hK, _, h1, h2, hX⟩ := h.basics
  have ht := h.total hT hQ hm
  have hb : a.balance .orderMargin = a.orderMargin.debits - a.orderMargin.credits := rfl
  have hB := Gross.balance_le hT.cash.gross .orderMargin
  have e1 := hT.cash.ombal
  obtain ⟨_, _, t0, t1, _, _⟩ := hT.bounds
  have e2 := Int.mul_le_mul_of_nonneg_right (by omega : T ≤ 2 * QQ) hK
  rw [Int.mul_assoc] at e2
  have e3 := h.amount
  have hw : a.debitSum + a.balance .orderMargin ≤ w :=
    Int.le_of_mul_le_mul_right (by rw [Int.add_mul, hb]; omega) hs0
  have hB0 : 0 ≤ a.balance .orderMargin := by have := hT.cash.omle; omega
  constructor
  · unfold Mach.refund
    split
    · exact noov_chk_bind ⟨by omega, by omega⟩ (noov_transfer hT.cash.gross (by omega))
    · exact noov_ok
  · intro a' ha'
    rcases refund_ok ha' with ⟨_, h3⟩ | ⟨_, rfl⟩
    · have := (transfer_sums h3).1
      omega
    · omega

theorem Limits.cancelLimit (h : Limits c w P K X QQ n) {s : State} {m Q : Int} {k : CancelBy}
    (hs : Held c P K X s m Q) (hm : m ≤ n) (hQ : Q ≤ QQ) : NoOv (cancelLimit w c s k) := by
  obtain ⟨T, hT⟩ := hs.exp
  unfold Mach.cancelLimit
  refine h.balance hT hQ hm ?_
  refine noov_bind agree_orderMargin (h.orderMargin hT hQ) fun x hx => ?_
  refine noov_assert_bind (by simp) fun _ => ?_
  split
  · exact noov_ok
  · next removed active' hr =>
    refine noov_bind' noov_omRemove fun om' hom => ?_
    have hT' : Exposure c P K X s.acct s.pos om' T m Q := by
      obtain ⟨y, hy⟩ := omRemove_ok hom
      obtain ⟨xs, ys, he, hp⟩ := removeCancel_some hy
      have hnd := hT.nodup
      rw [he] at hnd
      have hsub : ∀ x ∈ om', x ∈ s.om := by
        intro x hx
        rw [hp.mem_iff] at hx
        rw [he]
        simp only [List.mem_append, List.mem_cons] at hx ⊢
        rcases hx with hx | hx <;> simp [hx]
      refine { hT with room := ?_, nodup := hnd.split.2.perm hp.symm,
                       orders := fun x hx => hT.orders x (hsub x hx),
                       done := fun x hx => hT.done x (hsub x hx) }
      have h1 := hT.room
      have h2 := (hT.orders y (by rw [he]; simp)).rem
      rw [he, qsum_append, qsum_cons] at h1
      rw [qsum_perm hp, qsum_append]
      omega
    refine noov_bind agree_orderMargin (h.orderMargin hT' hQ) fun y hy => ?_
    have hy0 := (orderMargin_bound (new := none) h.rates hT'.fair (by simp) hy).1
    refine noov_assert_bind (by simp) fun _ => ?_
    have hr := h.refund hT' hQ hm hy0
    refine noov_bind agree_refund hr.1 fun a' ha' => ?_
    refine noov_assert_bind (by simp) fun _ => ?_
    exact noov_any (noov_emptyCheck (hT'.refund hy0 ha').cash.gross (hr.2 a' ha')) fun _ => noov_ok

theorem noov_setRemaining {o : NewLimit} {q : Int} : NoOv (o.setRemaining q) := by
  unfold NewLimit.setRemaining
  exact noov_assert_bind (by simp) fun _ => noov_ok

theorem Limits.amendLimit (h : Limits c w P K X QQ n) {s : State} {m Q : Int} {id : Nat}
    {o : NewLimit} (hs : Held c P K X s m Q) (hm : m ≤ n) (hp : 0 < o.price) (hP : o.price ≤ P)
    (hq : 0 < o.qty) (hQ : Q + o.qty ≤ QQ) : NoOv (amendLimit w c s id o) := by
  obtain ⟨T, hT⟩ := hs.exp
  have hb := hT.bounds
  have e1 := h.qty2
  unfold Mach.amendLimit
  cases hold : s.active.getById id with
  | none => exact noov_ok
  | some old =>
    obtain ⟨hmem, _⟩ := getById_some hold
    have hfit := hT.orders old (by rw [hs.inv.sync h.cap]; exact hmem)
    have f1 := hfit.filled
    have f2 := hfit.rem
    have f3 := hfit.total
    dsimp only
    refine noov_bind agree_total (noov_total (by omega) f1 (by omega)) fun total htot => ?_
    have ht : total = old.remaining + old.filledQuantity := by
      simp only [Limit.totalQuantity, bind_ok, assertP_ok, ok_inj] at htot
      obtain ⟨_, _, rfl⟩ := htot
      unfold Limit.filledQuantity
      cases old.fq <;> simp
    have hnq : o.totalQuantity = o.qty := rfl
    refine noov_chk_bind ⟨by omega, by omega⟩ (noov_chk_bind ⟨by omega, by omega⟩ ?_)
    have hc := h.cancelLimit (k := .orderId id) hs hm (by omega)
    split
    · refine noov_any hc fun r => ?_
      split
      · intro h; cases h
      · exact noov_ok
    · next hpos =>
      refine noov_bind' noov_setRemaining fun o' ho' => ?_
      simp only [NewLimit.setRemaining, bind_ok, assertP_ok, ok_inj] at ho'
      obtain ⟨_, _, rfl⟩ := ho'
      refine noov_bind agree_cancelLimit hc fun r hr => ?_
      obtain ⟨s', x⟩ := r
      cases x with
      | error e => exact noov_ok
      | ok x =>
        exact h.submitLimit (hs.cancel h.rates h.cap hr) hm hp hP (by simp only; omega)
          (by simp only; omega)

/-! ## Market updates -/

theorem Limits.debugMarginEq (h : Limits c w P K X QQ n) {a : Accounts} {pos : Position} {b : Book}
    {T m Q : Int} {p : Panic} (hT : Exposure c P K X a pos b T m Q) (hQ : Q ≤ QQ) (hm : m ≤ n)
    (hp : p ≠ .overflow) : NoOv (debugMarginEq w c a b pos p) := by
  unfold Mach.debugMarginEq
  split
  · exact noov_any (h.orderMargin hT hQ) fun _ => h.balance hT hQ hm (noov_assert hp)
  · exact noov_ok

theorem Limits.matchOrder (h : Limits c w P K X QQ n) {l : Loop} {o : Limit} {u : Update}
    {T m Q : Int} (hT : Exposure c P K X l.acct l.pos l.om T m Q) (hQ : Q ≤ QQ) (hm : m ≤ n)
    (ho : o ∈ l.om) : NoOv (matchOrder w c u l o) := by
  obtain ⟨hs0, hK, _, h1, h2, hX⟩ := h.basics
  have hfit := hT.orders o ho
  have hb := hT.bounds
  have e1 := h.qty2
  have e2 := h.price2
  have e3 := Int.mul_nonneg h.count hX
  have e4 := h.money
  unfold Mach.matchOrder
  refine noov_any noov_filled fun r => ?_
  cases r with
  | none => exact noov_ok
  | some q =>
    dsimp only
    refine noov_debug_bind (by simp) fun _ => h.balance hT hQ hm ?_
    refine noov_any (h.debugMarginEq hT hQ hm (by simp)) fun _ => ?_
    refine noov_bind agree_applyFill ?_ fun r hr => ?_
    · unfold applyFill
      have f1 := Int.mul_le_mul_of_nonneg_right (by have := hfit.total; omega :
        o.filledQuantity + o.remaining ≤ QQ) hK
      have f2 := hfit.total
      refine noov_any (noov_fill h.rates.toRate (Int.le_of_lt hfit.price) hfit.top (fun x a hx => ?_)
        (by omega) (by omega) (by change _ ≤ w * c.env.scale; omega)) fun r => ?_
      · have := hfit.fq x a hx; omega
      split
      · exact noov_any noov_omRemove fun _ => noov_ok
      · refine noov_debug_bind (by simp) fun _ => noov_any noov_omUpdate fun _ => ?_
        split
        · intro h; cases h
        · exact noov_ok
    · obtain ⟨l1, o1⟩ := r
      obtain ⟨r1, r2, r3, r4, r5, r6, r7, r8, r9, _⟩ := applyFill_room hT.nodup ho hT.orders hr
      have hle : o.remaining ≤ qsum l.om := by
        obtain ⟨xs, ys, hxy⟩ := List.append_of_mem ho
        have hx : ∀ zs : Book, (∀ x ∈ zs, x ∈ l.om) → 0 ≤ qsum zs := fun zs hz =>
          qsum_nonneg fun x hx => by have := (hT.orders x (hz x hx)).rem; omega
        have h3 := hx xs (by intro x hx; rw [hxy]; simp [hx])
        have h4 := hx ys (by intro x hx; rw [hxy]; simp [hx])
        rw [hxy, qsum_append, qsum_cons]
        omega
      have hrm := h.room hT hm (by omega : 0 ≤ q) (by have := hT.room; omega)
      have hqK : q * K ≤ w * c.env.scale := by
        have e1 := hrm.value
        have e2 := Int.mul_nonneg (abs_nonneg' l.pos.quantity) hK
        rw [Int.add_mul] at e1; omega
      refine noov_bind agree_settleLimit ?_ fun l2 h2 => ?_
      · unfold settleLimit
        rw [r6, r7, r8, r9]
        refine noov_bind agree_convert (noov_convert h.rates.toRate (Int.le_of_lt hfit.price) hfit.top
          (Int.le_refl q) (by omega) hqK) fun v hv => ?_
        have hv' := convert_ok hv
        have hfee := fee_bound (m := true) (side := o.side) h.rates h.fees hfit.price hfit.top
          (by omega : 0 ≤ q)
        have hfe : Fill.fee c ⟨true, o.side, o.price, q⟩ =
          Lfest.dmul c.scale v c.spec.feeMaker := by rw [hv']; rfl
        rw [hfe] at hfee
        refine noov_dmul_bind (In.of_mul hs0 (by omega) (by omega)) ?_
        exact noov_any (noov_changePosition h.rates hT.wf hT.entry0 hT.entry (Int.le_of_lt hfit.price)
          hfit.top hfee.1 hfee.2 hrm) fun _ => noov_ok
      · obtain ⟨g1, g2⟩ := hT.limitFill h.rates h.fees ho hr h2
        refine noov_any ?_ fun _ => noov_ok
        unfold releaseMargin
        refine noov_bind agree_orderMargin (h.orderMargin g1 hQ) fun k hk => ?_
        have hk0 := (orderMargin_bound (new := none) h.rates g1.fair (by simp) hk).1
        refine noov_debug_bind (by simp) fun _ => ?_
        rw [← g2]
        exact noov_any (h.refund g1 hQ hm hk0).1 fun _ => noov_ok

theorem Limits.matchLoop (h : Limits c w P K X QQ n) {u : Update} {m Q : Int} (hQ : Q ≤ QQ)
    (hm : m ≤ n) : ∀ (os : List Limit) (l : Loop) (T : Int),
    Exposure c P K X l.acct l.pos l.om T m Q → IdsNodup os → (∀ o ∈ os, o ∈ l.om) →
      NoOv (matchLoop w c u l os)
  | [], _, _, _, _, _ => noov_ok
  | o :: os, l, T, hT, hn, ho => by
    have hno := (IdsNodup.split (xs := []) hn).1
    have hn' := (IdsNodup.split (xs := []) hn).2
    simp only [List.nil_append] at hno hn'
    unfold Mach.matchLoop
    refine noov_bind agree_matchOrder (h.matchOrder hT hQ hm (ho o (by simp))) fun r hr => ?_
    obtain ⟨l1, o1⟩ := r
    obtain ⟨⟨T1, g1, _⟩, g2⟩ := hT.match h.rates h.fees (ho o (by simp)) hr
    exact noov_any (h.matchLoop hQ hm os l1 T1 g1 hn'
      fun x hx => g2 x (ho x (by simp [hx])) (hno x hx)) fun _ => noov_ok

theorem Limits.checkActive (h : Limits c w P K X QQ n) {s : State} {u : Update} {m Q : Int}
    (hs : Held c P K X s m Q) (hm : m ≤ n) (hQ : Q ≤ QQ) : NoOv (checkActive w c s u) := by
  obtain ⟨T, hT⟩ := hs.exp
  have ho : ∀ o ∈ s.active, o ∈ s.om := fun o ho => by rw [hs.inv.sync h.cap]; exact ho
  unfold Mach.checkActive
  split
  · exact noov_ok
  refine noov_debug_bind (by simp) fun _ => ?_
  refine noov_bind (agree_matchLoop _ _) (h.matchLoop hQ hm _ _ T hT hs.inv.nodup ho) fun r hr => ?_
  obtain ⟨l, orders⟩ := r
  obtain ⟨T', hT', _⟩ := Exposure.loop h.rates h.fees (l := s.loop) hT hs.inv.nodup ho hr
  have hw := (h.total hT' hQ hm).2.2
  have hg := hT'.cash.gross
  refine noov_any noov_removeExecuted fun _ => ?_
  refine noov_debug_bind (by simp) fun _ => noov_debug_bind (by simp) fun _ => ?_
  refine noov_any ?_ fun _ => ?_
  · unfold debugEmpty
    split
    · exact noov_emptyCheck hg hw
    · exact noov_ok
  refine noov_any (h.debugMarginEq hT' hQ hm (by simp)) fun _ => ?_
  exact noov_any (noov_walletCheck hg hw) fun _ => noov_ok

theorem noov_build {d : Bool} {a : UpdateArg} (h : volumeOf a ≤ w) : NoOv (build w d a) := by
  cases a with
  | smart ts b pf => exact noov_any (noov_smart h) fun _ => noov_ok
  | _ => exact noov_ok

theorem _root_.Lfest.Held.observe {s s' : State} {m Q : Int} {a : UpdateArg} {u : Update}
    (hs : Held c P K X s m Q) (hq : ∀ x ∈ quotesOf a, 0 ≤ x ∧ x ≤ P)
    (hb : a.build c.env.debug = .ok u) (h : Lfest.observe c s u = .ok s') :
    Held c P K X s' m Q := by
  obtain ⟨f1, f2, f3, f4, f5, f6⟩ := observe_fields h
  have h1 := (observe_quotes hb h).1
  have h2 : (0 ≤ s'.ms.bid ∧ s'.ms.bid ≤ P) ∧ 0 ≤ s'.ms.ask ∧ s'.ms.ask ≤ P := by
    have e1 := hs.bid0
    have e2 := hs.bid
    have e3 := hs.ask0
    have e4 := hs.ask
    cases a with
    | trade t => simp only [quotesAfter, Prod.mk.injEq] at h1; omega
    | custom k =>
      cases hk : k.market with
      | none => simp only [quotesAfter, hk, Prod.mk.injEq] at h1; omega
      | some x =>
        simp only [quotesAfter, hk, Prod.mk.injEq] at h1
        rw [h1.1, h1.2]
        exact ⟨hq _ (by simp [quotesOf, hk]), hq _ (by simp [quotesOf, hk])⟩
    | _ =>
      simp only [quotesAfter, Prod.mk.injEq] at h1
      rw [h1.1, h1.2]
      exact ⟨hq _ (by simp [quotesOf]), hq _ (by simp [quotesOf])⟩
  have hlog : fills s'.log = fills s.log := by
    simp only [Lfest.observe, bind_ok, ok_inj] at h
    obtain ⟨_, _, rfl⟩ := h
    simp only
    split <;> rfl
  exact ⟨by rw [f1, f2, f4, hlog]; exact hs.exact, hs.inv.congr f3 f4 (by omega), h2.1.1, h2.1.2, h2.2.1,
    h2.2.2⟩

theorem Limits.updateState (h : Limits c w P K X QQ n) {s : State} {m Q : Int} {a : UpdateArg}
    {u : Update} (hs : Held c P K X s m Q) (hm : m ≤ n) (hQ : Q ≤ QQ)
    (hq : ∀ x ∈ quotesOf a, 0 ≤ x ∧ x ≤ P) (hb : a.build c.env.debug = .ok u) :
    NoOv (updateState w c s u) := by
  obtain ⟨hs0, _⟩ := h.basics
  obtain ⟨T, hT⟩ := hs.exp
  unfold Mach.updateState
  refine noov_bind agree_observe ?_ fun s1 h1 => ?_
  · unfold observe
    refine noov_bind' noov_market fun ms' hms => ?_
    refine noov_any ?_ fun _ => noov_ok
    unfold sampleLog
    split
    · refine noov_any ?_ fun _ => noov_any ?_ fun _ => noov_ok
      · unfold userBalances
        exact h.balance hT hQ hm (h.balance hT hQ hm (h.balance hT hQ hm noov_ok))
      · obtain ⟨s1, h1, h2⟩ : ∃ s1, Lfest.observe c s u = .ok s1 ∧ s1.ms = ms' := by
          refine ⟨_, by simp only [Lfest.observe, hms, bind, Except.bind]; rfl, rfl⟩
        subst h2
        have hs1 := hs.observe hq hb h1
        exact noov_mid hs0 hs1.bid0 hs1.bid hs1.ask0 hs1.ask h.price2
    · exact noov_ok
  have hs1 := hs.observe hq hb h1
  obtain ⟨T1, hT1⟩ := hs1.exp
  refine noov_any (noov_maintenance h.mm0 h.mm1 hT1.entry0 hT1.entry h.scale2 h.price2) fun r => ?_
  split
  · exact noov_any (h.liquidate hs1 hm hQ) fun _ => noov_ok
  · exact noov_any (h.checkActive hs1 hm hQ) fun _ => noov_ok

theorem asked_nonneg (op : Op) : 0 ≤ asked op := by
  unfold asked; split <;> (try split) <;> omega

theorem submissions_nonneg (op : Op) : 0 ≤ submissions op := by
  unfold submissions; split <;> omega

theorem sum_map_nonneg {α} {f : α → Int} (h : ∀ x, 0 ≤ f x) : ∀ l : List α, 0 ≤ (l.map f).sum
  | [] => by simp
  | x :: l => by
    have h1 := h x
    have h2 := sum_map_nonneg h l
    simp only [List.map_cons, List.sum_cons]
    omega

/-- No call within the limits overflows. -/
theorem Limits.step (h : Limits c w P K X QQ n) {s : State} {m Q : Int} {op : Op}
    (hs : Held c P K X s m Q) (hm : m + submissions op ≤ n) (hQ : Q + asked op ≤ QQ)
    (hw : Within w P op) : NoOv (step w c s op) := by
  have ha := asked_nonneg op
  have hb := submissions_nonneg op
  cases op with
  | update a =>
    obtain ⟨w1, w2⟩ := hw
    refine noov_bind agree_build (noov_build w2) fun u hu => ?_
    exact noov_any (h.updateState hs (by omega) (by omega) w1 hu) fun _ => noov_ok
  | checkActive a =>
    refine noov_bind agree_build (noov_build hw) fun u hu => ?_
    exact noov_any (h.checkActive hs (by omega) (by omega)) fun _ => noov_ok
  | market side qty uid =>
    unfold Mach.step
    dsimp only
    cases ho : NewMarket.new side qty uid with
    | error e => exact noov_ok
    | ok o =>
      obtain ⟨hq, rfl⟩ := newMarket_ok ho
      simp only [asked, if_pos hq, submissions] at *
      obtain ⟨T, hT⟩ := hs.exp
      have hb := hT.bounds
      exact noov_any (h.submitMarket hs hT (by omega) (by omega) hq (by simp only; omega)
        (by simp only; omega)) fun _ => noov_ok
  | limit side price qty uid =>
    unfold Mach.step
    dsimp only
    cases ho : NewLimit.new side price qty uid with
    | error e => exact noov_ok
    | ok o =>
      obtain ⟨hp, hq, rfl⟩ := newLimit_ok ho
      simp only [asked, if_pos hq, submissions] at *
      exact noov_any (h.submitLimit hs (by omega) hp hw hq hQ) fun _ => noov_ok
  | amend id side price qty uid =>
    unfold Mach.step
    dsimp only
    cases ho : NewLimit.new side price qty uid with
    | error e => exact noov_ok
    | ok o =>
      obtain ⟨hp, hq, rfl⟩ := newLimit_ok ho
      simp only [asked, if_pos hq, submissions] at *
      exact noov_any (h.amendLimit hs (by omega) hp hw hq hQ) fun _ => noov_ok
  | cancel k =>
    exact noov_any (h.cancelLimit hs (by omega) (by omega)) fun _ => noov_ok

theorem Limits.held (h : Limits c w P K X QQ n) {s s' : State} {m Q : Int} {op : Op} {r : Resp}
    (hs : Held c P K X s m Q) (hQ : Q + asked op ≤ QQ) (hw : Within w P op)
    (hst : Lfest.step c s op = .ok (s', r)) :
    Held c P K X s' (m + submissions op) (Q + asked op) := by
  have hX := h.basics.2.2.2.2.2
  have ha := asked_nonneg op
  have hb := submissions_nonneg op
  have hgrow : ∀ {t}, Held c P K X t m Q → Held c P K X t (m + submissions op) (Q + asked op) :=
    fun ht => ht.grow (by omega) hX (by omega)
  rcases step_cases hst with ⟨a, u, x, rfl, hb, h1, rfl⟩ | ⟨a, u, rfl, hb, h1, rfl⟩ | ⟨err, rfl, rfl⟩ |
    ⟨_, _, _, x, rfl, hq, h1, rfl⟩ | ⟨_, _, _, _, x, rfl, hp, hq, h1, rfl⟩ |
    ⟨_, _, _, _, _, x, rfl, hp, hq, h1, rfl⟩ | ⟨_, x, rfl, h1, rfl⟩
  · obtain ⟨T, hT⟩ := hs.exp
    obtain ⟨s1, h2, h3⟩ := updateState_cases hT.wf h1
    have hs1 := hs.observe hw.1 hb h2
    rcases h3 with ⟨_, h3, _⟩ | ⟨_, h3, _⟩
    · exact hgrow (hs1.liquidate h.rates h.fees hX h3)
    · exact hgrow (hs1.active h.rates h.fees h.cap h3)
  · exact hgrow (hs.active h.rates h.fees h.cap h1)
  · exact hgrow hs
  · simp only [asked, if_pos hq, submissions] at *
    rw [Int.add_zero]
    exact hs.order h.rates h.fees hX hq h1
  · simp only [asked, if_pos hq, submissions] at *
    exact hs.limit h.rates hX h.cap h.start (o := ⟨_, _, _, _⟩) hp (by exact hw) hq h.amount hQ h1
  · simp only [asked, if_pos hq, submissions] at *
    exact hs.amend h.rates hX h.cap h.start (o := ⟨_, _, _, _⟩) hp (by exact hw) hq h.amount hQ h1
  · exact hgrow (hs.cancel h.rates h.cap h1)

/-- No sequence of calls within the limits overflows. -/
theorem Limits.run (h : Limits c w P K X QQ n) : ∀ (ops : List Op) (s : State) (m Q : Int),
    Held c P K X s m Q → m + (ops.map submissions).sum ≤ n → Q + (ops.map asked).sum ≤ QQ →
      (∀ op ∈ ops, Within w P op) → NoOv (run w c s ops)
  | [], _, _, _, _, _, _, _ => noov_ok
  | op :: ops, s, m, Q, hs, hm, hQ, hw => by
    simp only [List.map_cons, List.sum_cons] at hm hQ
    have h1 := sum_map_nonneg asked_nonneg ops
    have h2 := sum_map_nonneg submissions_nonneg ops
    have hop := hw op (by simp)
    unfold Mach.run
    refine noov_bind agree_step (h.step hs (by omega) (by omega) hop) fun r hr => ?_
    exact h.run ops r.1 _ _ (h.held hs (by omega) hop hr) (by omega) (by omega)
      fun o ho => hw o (by simp [ho])

theorem Limits.heldRun (h : Limits c w P K X QQ n) : ∀ (ops : List Op) (s s' : State) (m Q : Int),
    Held c P K X s m Q → Q + (ops.map asked).sum ≤ QQ → (∀ op ∈ ops, Within w P op) →
      Lfest.run c s ops = .ok s' →
        Held c P K X s' (m + (ops.map submissions).sum) (Q + (ops.map asked).sum)
  | [], s, s', m, Q, hs, _, _, hr => by
    simp only [Lfest.run, ok_inj] at hr
    subst hr
    simpa using hs
  | op :: ops, s, s', m, Q, hs, hQ, hw, hr => by
    simp only [List.map_cons, List.sum_cons] at hQ ⊢
    have h1 := sum_map_nonneg asked_nonneg ops
    have h2 := sum_map_nonneg submissions_nonneg ops
    simp only [Lfest.run, bind_ok] at hr
    obtain ⟨r, h3, h4⟩ := hr
    have := h.heldRun ops r.1 s' _ _ (h.held hs (by omega) (hw op (by simp)) h3) (by omega)
      (fun o ho => hw o (by simp [ho])) h4
    rw [← Int.add_assoc, ← Int.add_assoc]
    exact this

theorem abs_le {x k : Int} (h : Spec.abs x ≤ k) : x ≤ k ∧ -k ≤ x := by
  unfold Spec.abs at h; split at h <;> omega

theorem unitValue_rate {c : Cfg} {P : Int} (hP : 0 ≤ P) : Rate c.env P (unitValue c P) := by
  unfold unitValue
  split
  · next h => exact ⟨Int.le_refl _, hP, by rw [h]; simp⟩
  · split
    · exact ⟨Int.le_refl _, hP, fun _ => by omega⟩
    · exact ⟨by omega, hP, fun _ => Int.le_refl _⟩

/-- The limits of the specification imply the ones used in the proofs. -/
theorem limits_of_fits {Q : Int} (h : Fits c w P Q n) (hQ : 0 ≤ Q) (hn : 0 ≤ n) :
    Limits c w P (unitValue c P) (c.start * c.env.scale + 4 * (Q * unitValue c P)) Q n := by
  have hs := scale_pos c.env
  have hR := unitValue_rate (c := c) h.price
  have hK : 0 ≤ unitValue c P := by have := hR.price; have := hR.pos; omega
  have hQK := Int.mul_nonneg hQ hK
  have hst := Int.mul_nonneg h.start (by omega : 0 ≤ c.env.scale)
  have f1 := abs_le h.fees.1
  have f2 := abs_le h.fees.2
  have hmoney := h.money
  refine
    { rates := { hR with imr0 := h.initial.1, imr1 := h.initial.2 }
      fees := ⟨f1.1, f1.2, f2.1, f2.2⟩
      cap := h.capacity, mm0 := h.maintenance.1, mm1 := h.maintenance.2, start := h.start
      qty := hQ, count := hn, amount := rfl, money := ?_, price2 := h.width.1
      scale2 := h.width.2.2, qty2 := h.width.2.1, minPrice := h.filters.1, minQty := h.filters.2
      up := h.bands.1, down := h.bands.2 }
  generalize c.start * c.env.scale = A at *
  generalize Q * unitValue c P = B at *
  have e1 := Int.mul_nonneg hn hQK
  have e2 : 2 * (n + 1) * (A + 5 * B) = 2 * (n * A) + 10 * (n * B) + 2 * A + 10 * B := by grind
  have e3 : n * (A + 4 * B) = n * A + 4 * (n * B) := by grind
  rw [e2] at hmoney
  rw [e3]
  omega

end Lfest.Mach
