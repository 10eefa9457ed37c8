import Verif.Model.Currency

/-!
# Double entry accounting (in-memory implementation)
-/

namespace Lfest

/-- accounting/account.rs:10-20 -/
structure TAccount where
  debits : Int
  credits : Int
  deriving DecidableEq, Repr

/-- accounting/account.rs:47-49 -/
def TAccount.net (a : TAccount) : Int := a.debits - a.credits

/-- accounting/in_memory_accounting.rs:15-25; the `usize` constants 0..5 -/
inductive AccountId where
  | wallet | orderMargin | positionMargin | exchangeFee | broker | treasury
  deriving DecidableEq, Repr

/-- accounting/in_memory_accounting.rs:29-37, the array of six accounts -/
structure Accounts where
  wallet : TAccount
  orderMargin : TAccount
  positionMargin : TAccount
  exchangeFee : TAccount
  broker : TAccount
  treasury : TAccount
  deriving DecidableEq, Repr

/-- accounting/in_memory_accounting.rs:35, array read -/
def Accounts.get (a : Accounts) : AccountId → TAccount
  | .wallet => a.wallet
  | .orderMargin => a.orderMargin
  | .positionMargin => a.positionMargin
  | .exchangeFee => a.exchangeFee
  | .broker => a.broker
  | .treasury => a.treasury

/-- accounting/in_memory_accounting.rs:35, array write -/
def Accounts.set (a : Accounts) (t : TAccount) : AccountId → Accounts
  | .wallet => { a with wallet := t }
  | .orderMargin => { a with orderMargin := t }
  | .positionMargin => { a with positionMargin := t }
  | .exchangeFee => { a with exchangeFee := t }
  | .broker => { a with broker := t }
  | .treasury => { a with treasury := t }

/-- accounting/in_memory_accounting.rs:96-101 `margin_balance_of` (never fails, since every
`AccountId` is valid) -/
def Accounts.balance (a : Accounts) (i : AccountId) : Int := (a.get i).net

/-- accounting/utils.rs:13-24, sum of debits -/
def Accounts.debitSum (a : Accounts) : Int :=
  a.wallet.debits + a.orderMargin.debits + a.positionMargin.debits + a.exchangeFee.debits +
    a.broker.debits + a.treasury.debits

/-- accounting/utils.rs:13-24, sum of credits -/
def Accounts.creditSum (a : Accounts) : Int :=
  a.wallet.credits + a.orderMargin.credits + a.positionMargin.credits +
    a.exchangeFee.credits + a.broker.credits + a.treasury.credits

/-- accounting/in_memory_accounting.rs:58-67 `new`. The debug assertion of the accounting
equation holds trivially and is omitted. -/
def Accounts.new (start : Int) : Accounts :=
  let z : TAccount := ⟨0, 0⟩
  { wallet := ⟨start, 0⟩, orderMargin := z, positionMargin := z, exchangeFee := z,
    broker := z, treasury := ⟨0, start⟩ }

/-- accounting/transaction.rs:59-78 `Transaction::new` followed by
accounting/in_memory_accounting.rs:69-93 `create_margin_transfer`, with
accounting/account.rs:37-44 `post_debit`, `post_credit` inlined. -/
def transfer (e : Env) (a : Accounts) (debit credit : AccountId) (amount : Int) :
    Res Accounts := do
  assertP (amount > 0) .txnAmount
  assertP (debit ≠ credit) .txnAccounts
  let da := a.get debit
  let da' : TAccount := { da with debits := da.debits + amount }
  let ca := a.get credit
  let a1 := a.set { ca with credits := ca.credits + amount } credit
  let a2 := a1.set da' debit
  debugP e.debug (a2.debitSum = a2.creditSum) .accountingEquation
  .ok a2

end Lfest
