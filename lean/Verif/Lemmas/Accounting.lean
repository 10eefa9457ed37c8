import Verif.Lemmas.Monad

/-! Effect of a transfer on the accounts. -/

namespace Lfest

theorem transfer_ok {e : Env} {a a' : Accounts} {d c : AccountId} {x : Int}
    (h : transfer e a d c x = .ok a') :
    0 < x ∧ d ≠ c ∧
      a' = (a.set { a.get c with credits := (a.get c).credits + x } c).set
        { a.get d with debits := (a.get d).debits + x } d := by
  simp only [transfer, bind_ok, assertP_ok, debugP_ok, ok_inj] at h
  obtain ⟨_, h1, _, h2, _, _, h3⟩ := h
  exact ⟨h1, h2, h3.symm⟩

/-- A transfer succeeds exactly for a positive amount between two different accounts. -/
theorem transfer_total {e : Env} {a : Accounts} {d c : AccountId} {x : Int}
    (hs : a.debitSum = a.creditSum) (hx : 0 < x) (hdc : d ≠ c) :
    ∃ a', transfer e a d c x = .ok a' := by
  refine ⟨(a.set { a.get c with credits := (a.get c).credits + x } c).set
        { a.get d with debits := (a.get d).debits + x } d, ?_⟩
  simp only [transfer, bind_ok, assertP_ok, debugP_ok]
  refine ⟨(), hx, (), hdc, (), fun _ => ?_, trivial⟩
  simp only [Accounts.debitSum, Accounts.creditSum] at *
  cases d <;> cases c <;> simp [Accounts.set, Accounts.get] at * <;> omega

theorem transfer_balance {e : Env} {a a' : Accounts} {d c : AccountId} {x : Int}
    (h : transfer e a d c x = .ok a') (i : AccountId) :
    a'.balance i = a.balance i + (if i = d then x else 0) - (if i = c then x else 0) := by
  obtain ⟨_, hdc, rfl⟩ := transfer_ok h
  cases d <;> cases c <;> simp at hdc <;> cases i <;>
    simp [Accounts.balance, Accounts.get, Accounts.set, TAccount.net] <;> omega

theorem transfer_sums {e : Env} {a a' : Accounts} {d c : AccountId} {x : Int}
    (h : transfer e a d c x = .ok a') :
    a'.debitSum = a.debitSum + x ∧ a'.creditSum = a.creditSum + x := by
  obtain ⟨_, hdc, rfl⟩ := transfer_ok h
  cases d <;> cases c <;> simp at hdc <;>
    simp [Accounts.debitSum, Accounts.creditSum, Accounts.get, Accounts.set] <;> omega

theorem transfer_get_other {e : Env} {a a' : Accounts} {d c : AccountId} {x : Int}
    (h : transfer e a d c x = .ok a') {i : AccountId} (hd : i ≠ d) (hc : i ≠ c) :
    a'.get i = a.get i := by
  obtain ⟨_, hdc, rfl⟩ := transfer_ok h
  cases d <;> cases c <;> simp at hdc <;> cases i <;> simp at hd hc <;>
    simp [Accounts.get, Accounts.set]

theorem transfer_pos {e : Env} {a a' : Accounts} {d c : AccountId} {x : Int}
    (h : transfer e a d c x = .ok a') : 0 < x := (transfer_ok h).1

end Lfest
