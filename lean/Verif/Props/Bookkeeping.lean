import Verif.Lemmas.BookkeepingKeeps
import Verif.Examples

/-!
# C107: any accounting that keeps the books will do

`Exchange` takes any implementation of the accounting trait. An implementation that keeps the books
gives the exchange that all the other theorems are about; and whatever the implementation does, the
exchange touches it only by transfers of positive amounts between two different accounts.
-/

namespace Lfest

open Spec Acct

variable {T : Type}

/-- The accounting that the crate ships keeps the books, as long as debits and credits balance. -/
theorem C107_in_memory (e : Env) :
    KeepsBooks (inMemory e) (fun a => a.debitSum = a.creditSum) where
  start x := by simp [inMemory, Accounts.new, Accounts.debitSum, Accounts.creditSum]
  start_wallet x := by
    simp [Says, inMemory, Accounts.new, Accounts.balance, Accounts.get, TAccount.net]
  start_treasury x := by
    simp [Says, inMemory, Accounts.new, Accounts.balance, Accounts.get, TAccount.net]
  start_others x i hw ht := by
    cases i <;> simp [Says, inMemory, Accounts.new, Accounts.balance, Accounts.get, TAccount.net] at *
  readable t i _ := ⟨_, rfl⟩
  carries_out t d c x hs hx hdc := by
    obtain ⟨a', ha, hm⟩ := inMemory_transfer (e := e) hs hx hdc
    have hsum := transfer_sums hm
    have key : ∀ i v, Says (inMemory e) t i v → Says (inMemory e) a' i
        (v + (if i = d then x else 0) - (if i = c then x else 0)) := by
      intro i v hv
      have h1 : t.balance i = v := by simpa [Says, inMemory] using hv
      rw [← h1, ← transfer_balance hm i]
      rfl
    refine ⟨a', ha, by omega, fun v hv => ?_, fun v hv => ?_, fun i v h1 h2 hv => ?_⟩
    · simpa [hdc] using key d v hv
    · simpa [hdc.symm] using key c v hv
    · simpa [h1, h2] using key i v hv

/-- Over an accounting that keeps the books, every history of calls gets the same answers as over
the accounting of the crate and ends alike: with the same panic, or with exchanges that look the
same in every respect. -/
theorem C107_same_answers {B : Bookkeeping T} {good : T → Prop} (hk : KeepsBooks B good) (c : Cfg)
    (ops : List Op) :
    (transcript (Acct.step B c) (Acct.State.init B c) ops).1 =
      (transcript (Lfest.step c) (Lfest.State.init c) ops).1 ∧
    (∀ p, (transcript (Acct.step B c) (Acct.State.init B c) ops).2 = .error p ↔
      (transcript (Lfest.step c) (Lfest.State.init c) ops).2 = .error p) ∧
    (∀ s s', (transcript (Acct.step B c) (Acct.State.init B c) ops).2 = .ok s →
      (transcript (Lfest.step c) (Lfest.State.init c) ops).2 = .ok s' → LooksLike B s s') := by
  obtain ⟨h1, h2⟩ := twin_transcript hk (c := c) ops (twin_init hk c)
  refine ⟨h1, fun p => ?_, fun s s' hs hs' => ?_⟩
  · revert h2
    rcases (transcript (Acct.step B c) (Acct.State.init B c) ops).2 with q | s <;>
      rcases (transcript (Lfest.step c) (Lfest.State.init c) ops).2 with q' | s' <;> intro h2
    · rw [show q = q' from h2]
      constructor <;> intro h <;> cases h <;> rfl
    · exact h2.elim
    · exact h2.elim
    · constructor <;> intro h <;> cases h
  · rw [hs, hs'] at h2
    exact twin_looks h2

/-- So do the balances and the fees that the exchange reports after it. -/
theorem C107_same_reports {B : Bookkeeping T} {good : T → Prop} (hk : KeepsBooks B good) (c : Cfg)
    (ops : List Op) (s : Acct.State T) (s' : Lfest.State)
    (h : (transcript (Acct.step B c) (Acct.State.init B c) ops).2 = .ok s)
    (h' : (transcript (Lfest.step c) (Lfest.State.init c) ops).2 = .ok s') :
    Acct.userBalances B s.acct = .ok (Lfest.userBalances s'.acct) ∧
    Acct.feesPaid B s = .ok s'.feesPaid := by
  have hl := (C107_same_answers hk c ops).2.2 s s' h h'
  have key : ∀ i, Acct.look B s.acct i = .ok (s'.acct.balance i) := by
    intro i
    unfold Acct.look
    rw [show B.balance s.acct i = _ from hl.balances i]
    rfl
  refine ⟨?_, key _⟩
  unfold Acct.userBalances
  rw [key, key, key]
  rfl

/-- Whatever the accounting does, a call that comes back leaves it as it is after some transfers of
positive amounts between different accounts, all of which it carried out. -/
theorem C107_only_transfers (B : Bookkeeping T) (c : Cfg) (s s' : Acct.State T) (op : Op) (r : Resp)
    (h : Acct.step B c s op = .ok (s', r)) :
    ∃ ps : List Posting, (∀ p ∈ ps, 0 < p.amount ∧ p.debit ≠ p.credit) ∧
      Posts B s.acct ps s'.acct :=
  step_posts B h

/-- An accounting that answers every transfer with an error never gets to see a second one: a call
that comes back leaves it untouched, and no market order is ever filled. The errors it answers with
reach nobody: the calls that meant to transfer something panic. -/
theorem C107_refused (B : Bookkeeping T)
    (hr : ∀ t d c x, ∃ err, B.transfer t d c x = .ok (.error err)) (c : Cfg) (s s' : Acct.State T)
    (op : Op) (r : Resp) (h : Acct.step B c s op = .ok (s', r)) :
    s'.acct = s.acct ∧ ∀ o, r ≠ .market (.ok o) := by
  constructor
  · obtain ⟨ps, _, hp⟩ := step_posts B h
    cases ps with
    | nil => exact hp
    | cons p ps =>
      obtain ⟨t1, h1, _⟩ := hp
      obtain ⟨err, he⟩ := hr s.acct p.debit p.credit p.amount
      rw [he, ok_inj] at h1
      cases h1
  · rintro o rfl
    cases op with
    | market side qty uid =>
      unfold Acct.step at h
      dsimp only at h
      cases hn : NewMarket.new side qty uid with
      | error err =>
        rw [hn] at h
        cases h
      | ok o' =>
        rw [hn] at h
        simp only [bind_ok, ok_inj, Prod.mk.injEq, Resp.market.injEq] at h
        obtain ⟨⟨s1, r1⟩, h, _, rfl⟩ := h
        unfold Acct.submitMarket at h
        simp only [bind_ok] at h
        obtain ⟨v, _, h⟩ := h
        cases v with
        | error err => cases h
        | ok _ =>
          simp only [bind_ok] at h
          obtain ⟨v, _, h⟩ := h
          cases v with
          | error err => cases h
          | ok _ =>
            simp only [bind_ok] at h
            obtain ⟨s3, h, _⟩ := h
            unfold Acct.settleMarket at h
            simp only [bind_ok] at h
            obtain ⟨_, _, _, _, _, _, _, h, _⟩ := h
            exact changePosition_refused hr h
    | update a =>
      unfold Acct.step at h
      simp only [bind_ok, ok_inj, Prod.mk.injEq] at h
      obtain ⟨_, _, _, _, _, h⟩ := h
      cases h
    | checkActive a =>
      unfold Acct.step at h
      simp only [bind_ok, ok_inj, Prod.mk.injEq] at h
      obtain ⟨_, _, _, _, _, h⟩ := h
      cases h
    | limit side price qty uid =>
      unfold Acct.step at h
      dsimp only at h
      cases hn : NewLimit.new side price qty uid <;> rw [hn] at h
      · cases h
      · simp only [bind_ok, ok_inj, Prod.mk.injEq] at h
        obtain ⟨_, _, _, h⟩ := h
        cases h
    | amend id side price qty uid =>
      unfold Acct.step at h
      dsimp only at h
      cases hn : NewLimit.new side price qty uid <;> rw [hn] at h
      · cases h
      · simp only [bind_ok, ok_inj, Prod.mk.injEq] at h
        obtain ⟨_, _, _, h⟩ := h
        cases h
    | cancel b =>
      unfold Acct.step at h
      simp only [bind_ok, ok_inj, Prod.mk.injEq] at h
      obtain ⟨_, _, _, h⟩ := h
      cases h

/-- An accounting that cannot say what the wallet holds: orders that pass the filters are answered
with its error, and nothing changes but the id of the next order and the record of the submission. -/
theorem C107_unreadable (B : Bookkeeping T) (c : Cfg) (s : Acct.State T) (err : Error)
    (hp : ∃ v, Says B s.acct .positionMargin v) (hw : B.balance s.acct .wallet = .ok (.error err)) :
    (∀ o : NewMarket, c.spec.quantityFilter.validate o.qty = .ok (.ok ()) →
      Acct.submitMarket B c s o =
        .ok ({ s with nextId := s.nextId + 1, log := .marketSubmit o :: s.log }, .error err)) ∧
    (∀ o : NewLimit, c.spec.quantityFilter.validate o.qty = .ok (.ok ()) →
      c.spec.priceFilter.validate c.scale o.price (s.ms.mid c.scale) = .ok (.ok ()) →
      Acct.submitLimit B c s o =
        .ok ({ s with nextId := s.nextId + 1, log := .limitSubmit o :: s.log }, .error err)) := by
  obtain ⟨v, hv⟩ := hp
  unfold Says at hv
  constructor
  · intro o hq
    simp only [Acct.submitMarket, Acct.marketRisk, hq, hv, hw, ok_then]
  · intro o hq hf
    simp only [Acct.submitLimit, Acct.limitRisk, hq, hf, hw, ok_then]

/-- … and the getters for the fees and the balances panic when the accounting cannot answer. -/
theorem C107_unreadable_getters (B : Bookkeeping T) (s : Acct.State T) :
    (∀ err, B.balance s.acct .exchangeFee = .ok (.error err) →
      Acct.feesPaid B s = .error .accounting) ∧
    ((∀ i, ∃ r, B.balance s.acct i = .ok r) →
      ((∃ i err, (i = .wallet ∨ i = .positionMargin ∨ i = .orderMargin) ∧
        B.balance s.acct i = .ok (.error err)) ↔
      Acct.userBalances B s.acct = .error .accounting)) := by
  constructor
  · intro err h
    simp only [Acct.feesPaid, Acct.look, h, ok_then]
  · intro h
    obtain ⟨w, hw⟩ := h .wallet
    obtain ⟨p, hp⟩ := h .positionMargin
    obtain ⟨o, ho⟩ := h .orderMargin
    simp only [Acct.userBalances, Acct.look, hw, hp, ho, ok_then]
    constructor
    · rintro ⟨i, err, rfl | rfl | rfl, he⟩
      · rw [hw] at he; injection he with he; subst he; rfl
      · rw [hp] at he; injection he with he; subst he
        cases w <;> rfl
      · rw [ho] at he; injection he with he; subst he
        cases w <;> cases p <;> rfl
    · intro hu
      cases w with
      | error e => exact ⟨_, e, .inl rfl, hw⟩
      | ok w =>
        cases p with
        | error e => exact ⟨_, e, .inr (.inl rfl), hp⟩
        | ok p =>
          cases o with
          | error e => exact ⟨_, e, .inr (.inr rfl), ho⟩
          | ok o => cases hu

/-! ## Examples -/

/-- Not code of /repo: an accounting that keeps one number per account -/
def Ex.netBook : Bookkeeping (AccountId → Int) :=
  { new := fun x i => if i = .wallet then x else if i = .treasury then -x else 0
    transfer := fun t d c x =>
      .ok (.ok (fun i => t i + (if i = d then x else 0) - (if i = c then x else 0)))
    balance := fun t i => .ok (.ok (t i)) }

/-- Not code of /repo: an accounting that keeps the initial balance and a journal of transfers -/
def Ex.journal : Bookkeeping (Int × List Posting) :=
  { new := fun x => (x, [])
    transfer := fun t d c x => .ok (.ok (t.1, ⟨d, c, x⟩ :: t.2))
    balance := fun t i => .ok (.ok (t.2.foldr
      (fun p v => v + (if i = p.debit then p.amount else 0) - (if i = p.credit then p.amount else 0))
      (if i = .wallet then t.1 else if i = .treasury then -t.1 else 0))) }

/-- Not code of /repo: an accounting that turns down every transfer -/
def Ex.refusing : Bookkeeping (AccountId → Int) :=
  { Ex.netBook with transfer := fun _ _ _ _ => .ok (.error .accountLookupFailure) }

/-- Not code of /repo: an accounting that cannot find the wallet once there is a position -/
def Ex.lost : Bookkeeping (AccountId → Int) :=
  { Ex.netBook with balance := fun t i =>
      if i = .wallet ∧ t .positionMargin ≠ 0 then .ok (.error .accountLookupFailure) else .ok (.ok (t i)) }

/-- Non-vacuity of C107_same_answers and C107_same_reports: two other accountings that keep the
books. -/
example : KeepsBooks Ex.netBook (fun _ => True) where
  start _ := trivial
  start_wallet _ := rfl
  start_treasury _ := rfl
  start_others x i hw ht := by simp [Says, Ex.netBook, hw, ht]
  readable _ _ _ := ⟨_, rfl⟩
  carries_out t d c x _ hx hdc := by
    refine ⟨_, rfl, trivial, fun v hv => ?_, fun v hv => ?_, fun i v h1 h2 hv => ?_⟩
    · simp [Says, Ex.netBook, hdc] at hv ⊢
      omega
    · simp [Says, Ex.netBook, hdc.symm] at hv ⊢
      omega
    · simp [Says, Ex.netBook, h1, h2] at hv ⊢
      omega

theorem Ex.journal_keeps : KeepsBooks Ex.journal (fun _ => True) where
  start _ := trivial
  start_wallet _ := rfl
  start_treasury _ := rfl
  start_others x i hw ht := by simp [Says, Ex.journal, hw, ht]
  readable _ _ _ := ⟨_, rfl⟩
  carries_out t d c x _ hx hdc := by
    refine ⟨_, rfl, trivial, fun v hv => ?_, fun v hv => ?_, fun i v h1 h2 hv => ?_⟩
    · simp only [Says, Ex.journal, Except.ok.injEq, List.foldr_cons, hdc, if_true, if_false] at hv ⊢
      omega
    · simp only [Says, Ex.journal, Except.ok.injEq, List.foldr_cons, hdc.symm, if_true, if_false] at hv ⊢
      omega
    · simp only [Says, Ex.journal, Except.ok.injEq, List.foldr_cons, h1, h2, if_false] at hv ⊢
      omega

/-- … and a history with fills, a cancellation and a flipped position, at the end of which the
journal has eleven entries or more and the exchange has been paid fees. -/
example : ∃ s s', (transcript (Acct.step Ex.journal Ex.linR) (Acct.State.init Ex.journal Ex.linR)
      Ex.ops3).2 = .ok s ∧
    (transcript (Lfest.step Ex.linR) (Lfest.State.init Ex.linR) Ex.ops3).2 = .ok s' ∧
    11 ≤ s.acct.2.length ∧ 0 < s'.feesPaid := by
  have h : (match (transcript (Acct.step Ex.journal Ex.linR) (Acct.State.init Ex.journal Ex.linR)
        Ex.ops3).2, (transcript (Lfest.step Ex.linR) (Lfest.State.init Ex.linR) Ex.ops3).2 with
      | .ok s, .ok s' => decide (11 ≤ s.acct.2.length) && decide (0 < s'.feesPaid)
      | _, _ => false) = true := by
    decide +kernel
  split at h
  · next s s' h1 h2 =>
    simp only [Bool.and_eq_true, decide_eq_true_eq] at h
    exact ⟨s, s', h1, h2, h.1, h.2⟩
  · cases h

/-- Non-vacuity of C107_only_transfers: a market order that posts something. -/
example : ∃ s s' r, Acct.step Ex.journal Ex.linR s (.market .sell (Ex.d 7) 0) = .ok (s', r) ∧
    s.acct.2.length < s'.acct.2.length := by
  have h : (match (transcript (Acct.step Ex.journal Ex.linR) (Acct.State.init Ex.journal Ex.linR)
        Ex.ops2).2 with
      | .ok s => (match Acct.step Ex.journal Ex.linR s (.market .sell (Ex.d 7) 0) with
        | .ok (s', _) => decide (s.acct.2.length < s'.acct.2.length)
        | .error _ => false)
      | .error _ => false) = true := by
    decide +kernel
  split at h
  · next s _ =>
    split at h
    · next s' r h1 => exact ⟨s, s', r, h1, of_decide_eq_true h⟩
    · cases h
  · cases h

/-- Non-vacuity of C107_refused: the accounting refuses, quotes come in, and then a market order
panics. -/
example : (∀ t d c x, ∃ err, Ex.refusing.transfer t d c x = .ok (.error err)) ∧
    ∃ s r, Acct.step Ex.refusing Ex.linR (Acct.State.init Ex.refusing Ex.linR)
      (.update (.bba ⟨Ex.d 100, Ex.d 101, 1⟩)) = .ok (s, r) ∧
    ∃ p, Acct.step Ex.refusing Ex.linR s (.market .buy (Ex.d 5) 0) = .error p ∧
      p = .accounting := by
  refine ⟨fun _ _ _ _ => ⟨_, rfl⟩, ?_⟩
  have h : (match Acct.step Ex.refusing Ex.linR (Acct.State.init Ex.refusing Ex.linR)
        (.update (.bba ⟨Ex.d 100, Ex.d 101, 1⟩)) with
      | .ok (s, _) => (match Acct.step Ex.refusing Ex.linR s (.market .buy (Ex.d 5) 0) with
        | .ok _ => false
        | .error p => decide (p = .accounting))
      | .error _ => false) = true := by
    decide +kernel
  split at h
  · next s r h1 =>
    split at h
    · cases h
    · next p h2 => exact ⟨s, r, h1, p, h2, of_decide_eq_true h⟩
  · cases h

/-- Non-vacuity of C107_unreadable: after a market order the wallet is lost, and the next order is
answered with the error. -/
example : ∃ s r, (transcript (Acct.step Ex.lost Ex.linR) (Acct.State.init Ex.lost Ex.linR)
      [.update (.bba ⟨Ex.d 100, Ex.d 101, 1⟩), .market .buy (Ex.d 5) 0]).2 = .ok s ∧
    (∃ v, Says Ex.lost s.acct .positionMargin v) ∧
    Ex.lost.balance s.acct .wallet = .ok (.error .accountLookupFailure) ∧
    Ex.linR.spec.quantityFilter.validate (Ex.d 5) = .ok (.ok ()) ∧
    Acct.step Ex.lost Ex.linR s (.market .buy (Ex.d 5) 0) = .ok r ∧
    r.2 = .market (.error .accountLookupFailure) := by
  have h : (match (transcript (Acct.step Ex.lost Ex.linR) (Acct.State.init Ex.lost Ex.linR)
        [.update (.bba ⟨Ex.d 100, Ex.d 101, 1⟩), .market .buy (Ex.d 5) 0]).2 with
      | .ok s => (match Acct.step Ex.lost Ex.linR s (.market .buy (Ex.d 5) 0) with
        | .ok r => decide (Ex.lost.balance s.acct .wallet = .ok (.error .accountLookupFailure)) &&
            decide (r.2 = .market (.error .accountLookupFailure))
        | .error _ => false)
      | .error _ => false) = true := by
    decide +kernel
  split at h
  · next s h0 =>
    split at h
    · next r h1 =>
      simp only [Bool.and_eq_true, decide_eq_true_eq] at h
      exact ⟨s, r, h0, ⟨_, rfl⟩, h.1, by decide +kernel, h1, h.2⟩
    · cases h
  · cases h

/-- Non-vacuity of C107_unreadable_getters: the wallet cannot be read while there is a position. -/
example : Acct.userBalances Ex.lost (fun i => if i = .positionMargin then 5 else 0) =
    .error .accounting := rfl

end Lfest
