import Verif.Lemmas.ReleaseDebug
import Verif.Lemmas.ReleaseRoom
import Verif.Props.Build
import Verif.Props.Overflow
import Verif.Lemmas.Rounds

/-!
# Release builds (C102)

`Lfest.Rel` is the exchange with the arithmetic left open. `Rel.checked w` stops at the first result
outside `-w … w`, as a debug build does. `Rel.wrapping w mul` drops the upper bits of sums and
differences, as a release build does; `mul` says what becomes of products and quotients.
-/

namespace Lfest

open Spec

/-- **C102**: with checked arithmetic the open model is the model on bounded integers of C79. -/
theorem C102_debug_build {w : Int} (hw : 0 ≤ w) (c : Cfg) (s : State) (ops : List Op) :
    Rel.run (Rel.checked w) c s ops = Mach.run w c s ops := Rel.run_checked hw ops s

/-- **C102**: where a debug build's arithmetic does not overflow, a release build computes the same,
whatever its operators do with results that do not fit. -/
theorem C102_same_unless_overflow {w : Int} {c : Cfg} {s : State} {ops : List Op} {π : Rel.Arith}
    (hw : 0 ≤ w) (hdebug : c.env.debug = false) (ha : Exact w π.add) (hm : Exact w π.mul)
    (ht : Exact w π.total) (hno : Mach.run w c s ops ≠ .error .overflow) :
    Rel.run π c s ops = run c s ops := by
  rw [← Rel.run_checked hw] at hno
  rcases (Rel.follows_exact ha hm ht).runs hdebug ops s with h | ⟨_, h⟩
  · exact absurd h hno
  · have hid : ∀ s : State, Rel.mapS id s = s := fun _ => rfl
    rw [hid] at h
    rw [h]
    cases run c s ops <;> rfl

theorem init_wrapped {w : Int} {c : Cfg} (h0 : 0 ≤ c.start) (hw : c.start ≤ w) :
    Rel.mapS (Rel.wrap w) (State.init c) = State.init c := by
  have h1 : Rel.wrap w 0 = 0 := Rel.wrap_eq ⟨by omega, by omega⟩
  have h2 : Rel.wrap w c.start = c.start := Rel.wrap_eq ⟨by omega, hw⟩
  simp only [Rel.mapS, Rel.mapA, Rel.mapT, State.init, Accounts.new, h1, h2]

theorem start_fits {w P Q : Int} {c : Cfg} (h : Fits c w P Q 0) (hQ : 0 ≤ Q) : c.start ≤ w := by
  have hl := Mach.limits_of_fits h hQ (Int.le_refl 0)
  obtain ⟨hs, hK, _, h1, h2, _⟩ := hl.basics
  have := h.money
  exact Int.le_of_mul_le_mul_right (by omega) hs

/-- A run during which only the totals of the accounts leave the range. -/
theorem wrapped_run {w P K X QQ : Int} {c : Cfg} {ops : List Op} {mul : Int → Res Int}
    (hdebug : c.env.debug = false) (hmul : Exact w mul) (hl : Mach.Limits c w P K X QQ 0)
    (hinit : Rel.mapS (Rel.wrap w) (State.init c) = State.init c)
    (hno : Mach.NoOv (Rel.run (Rel.lax w) c (State.init c) ops))
    (hheld : ∀ s, run c (State.init c) ops = .ok s → ∃ m Q, Q ≤ QQ ∧ Held c P K X s m Q) :
    (∀ s, run c (State.init c) ops = .ok s →
      ∃ a, Rel.run (Rel.wrapping w mul) c (State.init c) ops = .ok { s with acct := a } ∧
        Rel.userBalances (Rel.wrapping w mul) a = .ok (userBalances s.acct)) ∧
    ∀ p, run c (State.init c) ops = .error p →
      Rel.run (Rel.wrapping w mul) c (State.init c) ops = .error p := by
  have F := Rel.follows_wrapping (w := w) hmul
  obtain ⟨_, h2⟩ := (F.runs hdebug ops (State.init c)).resolve_left hno
  rw [hinit] at h2
  constructor
  · intro s hs
    rw [hs] at h2
    refine ⟨_, h2, ?_⟩
    obtain ⟨m, Q, hQ, hh⟩ := hheld s hs
    have hB := Rel.exposure_small hl hh.exact hQ
    rcases F.users (a := s.acct) with h | h
    · exact absurd h (Rel.noov_bal hB.wallet (Rel.noov_bal hB.pm (Rel.noov_bal hB.om Mach.noov_ok)))
    · exact h.2
  · intro p hp
    rw [hp] at h2
    exact h2

/-- **C102**: in a release build neither the number of calls nor the contracts asked for need a limit,
only the contracts that trade and those waiting at any one time. A history with prices up to `P` that
stays within `Q` such contracts ends where the unbounded program ends, with the same panic if there is
one. Only the running totals of the accounts may have wrapped around, and the balances computed from
them are right. -/
theorem C102_release_history {w P Q : Int} {c : Cfg} {ops : List Op} {mul : Int → Res Int}
    (hdebug : c.env.debug = false) (hmul : Exact w mul) (hQ : 0 ≤ Q) (hfit : Fits c w P Q 0)
    (hops : ∀ op ∈ ops, Within w P op) (hroom : Room c Q ops) :
    (∀ s, run c (State.init c) ops = .ok s →
      ∃ a, Rel.run (Rel.wrapping w mul) c (State.init c) ops = .ok { s with acct := a } ∧
        Rel.userBalances (Rel.wrapping w mul) a = .ok (userBalances s.acct)) ∧
    ∀ p, run c (State.init c) ops = .error p →
      Rel.run (Rel.wrapping w mul) c (State.init c) ops = .error p := by
  have hl := Mach.limits_of_fits hfit hQ (Int.le_refl 0)
  have h0 : ∀ K X, Held c P K X (State.init c) 0 0 := fun _ _ => .init hfit.price hfit.start
  exact wrapped_run hdebug hmul hl (init_wrapped hfit.start (start_fits hfit hQ))
    (Rel.noov_room hl hdebug ops (State.init c) 0 0 (h0 _ _) hroom hops)
    fun s hs => Rel.held_room hl hQ ops (State.init c) s 0 0 (h0 _ _) hQ hroom hops hs

/-- **C102**: the same for a history that asks for `Q` contracts in total. Liquidations may trade
further contracts. -/
theorem C102_release_asked {w P : Int} {c : Cfg} {ops : List Op} {mul : Int → Res Int}
    (hdebug : c.env.debug = false) (hmul : Exact w mul)
    (hfit : Fits c w P (ops.map asked).sum 0) (hops : ∀ op ∈ ops, Within w P op) :
    (∀ s, run c (State.init c) ops = .ok s →
      ∃ a, Rel.run (Rel.wrapping w mul) c (State.init c) ops = .ok { s with acct := a } ∧
        Rel.userBalances (Rel.wrapping w mul) a = .ok (userBalances s.acct)) ∧
    ∀ p, run c (State.init c) ops = .error p →
      Rel.run (Rel.wrapping w mul) c (State.init c) ops = .error p := by
  have hQ := Mach.sum_map_nonneg Mach.asked_nonneg ops
  have hl := Mach.limits_of_fits hfit hQ (Int.le_refl 0)
  have h0 : ∀ K X, Held c P K X (State.init c) 0 0 := fun _ _ => .init hfit.price hfit.start
  exact wrapped_run hdebug hmul hl (init_wrapped hfit.start (start_fits hfit hQ))
    (Rel.noov_run hl hdebug ops (State.init c) 0 0 (h0 _ _) (by omega) hops)
    fun s hs => ⟨_, _, by omega,
      hl.heldRun ops (State.init c) s 0 0 (h0 _ _) (by omega) hops hs⟩

/-- **C102**: every call of a history within these limits gives the same response, or the same
panic. -/
theorem C102_release_responses {w P Q : Int} {c : Cfg} {ops : List Op} {op : Op} {s t : State}
    {mul : Int → Res Int} (hdebug : c.env.debug = false) (hmul : Exact w mul) (hQ : 0 ≤ Q)
    (hfit : Fits c w P Q 0) (hops : ∀ o ∈ ops ++ [op], Within w P o) (hroom : Room c Q (ops ++ [op]))
    (hs : run c (State.init c) ops = .ok s)
    (ht : Rel.run (Rel.wrapping w mul) c (State.init c) ops = .ok t) :
    (Rel.step (Rel.wrapping w mul) c t op).map Prod.snd = (step c s op).map Prod.snd := by
  have hl := Mach.limits_of_fits hfit hQ (Int.le_refl 0)
  have hinit := init_wrapped hfit.start (start_fits hfit hQ)
  have F := Rel.follows_wrapping (w := w) hmul
  have h0 : ∀ K X, Held c P K X (State.init c) 0 0 := fun _ _ => .init hfit.price hfit.start
  have hops' : ∀ o ∈ ops, Within w P o := fun o ho => hops o (by simp [ho])
  have hroom' : Room c Q ops := fun xs x ys he => hroom xs x (ys ++ [op]) (by rw [he]; simp)
  have hno := Rel.noov_room hl hdebug ops (State.init c) 0 0 (h0 _ _) hroom' hops'
  obtain ⟨_, h2⟩ := (F.runs hdebug ops (State.init c)).resolve_left hno
  rw [hinit, hs, ht] at h2
  have h2 : t = Rel.mapS (Rel.wrap w) s := by cases h2; rfl
  obtain ⟨m, Q', _, hh⟩ := Rel.held_room hl hQ ops (State.init c) s 0 0 (h0 _ _) hQ hroom' hops' hs
  have hlast := hroom ops op [] rfl s hs
  have hno := Rel.noov_step hl hdebug (hh.shrink hl.cap) (by omega) (hops op (by simp))
  obtain ⟨_, h3⟩ := (F.steps hdebug).resolve_left hno
  rw [h2, h3]
  cases step c s op <;> rfl

/-- Two fills, a cancellation and a flip of the position, on 64 bits: the hypotheses hold and the
history runs. -/
example : Fits Ex.linR (2 ^ 63 - 1) (Ex.d 1000) (Ex.ops3.map asked).sum 0 ∧
    (∀ op ∈ Ex.ops3, Within (2 ^ 63 - 1) (Ex.d 1000) op) ∧
    Ex.after Ex.linR Ex.ops3 (fun s => decide (s.pos.quantity = -(Ex.d 2))) = true := by
  refine ⟨?_, by decide +kernel, by decide +kernel⟩
  constructor <;> decide +kernel

/-- Nothing overflows in that history. -/
example : Mach.run (2 ^ 63 - 1) Ex.linR (State.init Ex.linR) Ex.ops3 ≠ .error .overflow := by
  decide +kernel

/-! ## The case `C79_every_width_overflows` in a release build -/

theorem release_run {ops : List Op} {s : State} (h : run Ex.lin (State.init Ex.lin) ops = .ok s) :
    run Ex.linR (State.init Ex.linR) ops = .ok s := by
  obtain ⟨tr, h⟩ := run_history h
  have := C56_release_agrees _ _ _ _ h
  exact history_run this

theorem rounds_room : ∀ n, Room Ex.linR (Ex.d 9) (Ex.rounds n)
  | 0 => by
    have h0 : Room Ex.linR (Ex.d 9) [] := fun xs _ _ h => by simp at h
    refine Room.snoc (op := .update (.bba ⟨Ex.d 100, Ex.d 101, 1⟩)) h0 fun s hs => ?_
    cases hs
    decide +kernel
  | n + 1 => by
    obtain ⟨s, h1, h2⟩ := Idle.rounds n
    obtain ⟨s1, g1, g2, g3, g4, g5, g6, g7⟩ := place_step h2
    have e : Ex.rounds n ++ [Ex.place, .cancel (.userOrderId 7)] =
      (Ex.rounds n ++ [Ex.place]) ++ [.cancel (.userOrderId 7)] := by simp
    rw [Ex.rounds, e]
    refine Room.snoc (Room.snoc (rounds_room n) fun t ht => ?_) fun t ht => ?_
    · rw [release_run h1] at ht
      cases ht
      simp only [traded, resting, h2.quiet, h2.active]
      decide +kernel
    · have h3 : run Ex.lin (State.init Ex.lin) (Ex.rounds n ++ [Ex.place]) = .ok s1 := by
        rw [run_append h1]
        simp only [run, g1, bind, Except.bind]
      rw [release_run h3] at ht
      cases ht
      simp only [traded, resting, g7, g5]
      have : fills (.limitSubmit ⟨7, .buy, Ex.d 100, Ex.d 9⟩ :: s.log) = [] := by
        simp only [fills]; exact h2.quiet
      rw [this]
      simp [fillSum, NewLimit.intoPending, asked]

theorem rounds_within : ∀ n, ∀ op ∈ Ex.rounds n, Within (2 ^ 31 - 1) (Ex.d 101) op
  | 0 => by decide +kernel
  | n + 1 => fun op h => by
    rw [Ex.rounds, List.mem_append] at h
    rcases h with h | h
    · exact rounds_within n op h
    · revert op; decide +kernel

theorem rounds_fit : Fits Ex.linR (2 ^ 31 - 1) (Ex.d 101) (Ex.d 9) 0 := by
  constructor <;> decide +kernel

/-- **C102**: placing and cancelling an order, which stops a debug build sooner or later on integers
of any width, goes on for ever in a release build: 32 bits are enough for correct balances after any
number of rounds, although the totals behind them have long wrapped around. -/
theorem C102_endless_rounds (mul : Int → Res Int) (hmul : Exact (2 ^ 31 - 1) mul) (n : Nat) : ∃ t,
    Rel.run (Rel.wrapping (2 ^ 31 - 1) mul) Ex.linR (State.init Ex.linR) (Ex.rounds n) = .ok t ∧
      t.active = [] ∧ t.pos = .neutral ∧
      Rel.userBalances (Rel.wrapping (2 ^ 31 - 1) mul) t.acct = .ok ⟨Ex.linR.start, 0, 0⟩ := by
  obtain ⟨s, h1, h2⟩ := Idle.rounds n
  obtain ⟨a, h3, h4⟩ := (C102_release_history rfl hmul (by decide) rounds_fit (rounds_within n)
    (rounds_room n)).1 s (release_run h1)
  refine ⟨_, h3, h2.active, h2.pos, ?_⟩
  rw [h4, h2.acct]
  simp [userBalances, Accounts.balance, Accounts.get, TAccount.net, churned, Ex.linR, Ex.lin]

/-- The debug build stops within 24 rounds. By then the totals of the release build have wrapped
around: the wallet's credits are shown as negative. -/
example : Mach.run (2 ^ 31 - 1) Ex.lin (State.init Ex.lin) (Ex.rounds 24) = .error .overflow ∧
    (match Rel.run (Rel.wrapping (2 ^ 31 - 1) (Mach.chk (2 ^ 31 - 1))) Ex.linR (State.init Ex.linR)
        (Ex.rounds 24) with
      | .ok t => decide (t.acct.wallet.credits < 0)
      | .error _ => false) = true := by
  decide +kernel

example : Exact (2 ^ 31 - 1) (Mach.chk (2 ^ 31 - 1)) := fun x h1 h2 => by
  simp [Mach.chk]; omega

/-! ## Beyond the limits -/

/-- Quotes 100 / 101. -/
def Ex.quoted : List Op := [.update (.bba ⟨Ex.d 100, Ex.d 101, 1⟩)]

/-- A purchase whose value fits into 64 bits, while value and fee together do not. -/
def Ex.huge : Op := .market .buy 91287128712871000 0

/-- **C102**: beyond the limits a release build goes wrong without a panic. An account of 1000 asks for
contracts worth more than 90 trillion. The exchange must refuse, and a debug build on 64 bits stops,
because the sum of margin and fee does not fit. A release build finds that sum negative, accepts the
order and opens the position, leaving a wallet far below zero. Products that do not fit would still
stop it: none occurs. -/
theorem C102_silent_overflow :
    (∃ s t, run Ex.linR (State.init Ex.linR) Ex.quoted = .ok s ∧
      step Ex.linR s Ex.huge = .ok (t, .market (.error (.risk .notEnoughAvailableBalance))) ∧
      t.pos = .neutral) ∧
    Mach.run (2 ^ 63 - 1) Ex.linR (State.init Ex.linR) (Ex.quoted ++ [Ex.huge]) = .error .overflow ∧
    ∃ s, Rel.run (Rel.wrapping (2 ^ 63 - 1) (Mach.chk (2 ^ 63 - 1))) Ex.linR (State.init Ex.linR)
        (Ex.quoted ++ [Ex.huge]) = .ok s ∧ s.pos.quantity = 91287128712871000 ∧
      s.acct.balance .wallet < -(Ex.d 90000000000000) := by
  refine ⟨?_, by decide +kernel, ?_⟩
  · have h : Ex.last Ex.linR Ex.quoted Ex.huge (fun _ t r => decide (t.pos = .neutral ∧
        r = .market (.error (.risk .notEnoughAvailableBalance)))) = true := by decide +kernel
    unfold Ex.last at h
    split at h
    · next s hs =>
      split at h
      · next t r ht =>
        obtain ⟨h1, rfl⟩ := of_decide_eq_true h
        exact ⟨s, t, hs, ht, h1⟩
      · cases h
    · cases h
  · have h : (match Rel.run (Rel.wrapping (2 ^ 63 - 1) (Mach.chk (2 ^ 63 - 1))) Ex.linR
        (State.init Ex.linR) (Ex.quoted ++ [Ex.huge]) with
      | .ok s => decide (s.pos.quantity = 91287128712871000 ∧
          s.acct.balance .wallet < -(Ex.d 90000000000000))
      | .error _ => false) = true := by decide +kernel
    split at h
    · next s hs => exact ⟨s, hs, of_decide_eq_true h⟩
    · cases h

end Lfest
