import Verif.Lemmas.NoOverflowStep
import Verif.Lemmas.Ledger
import Verif.Examples

/-!
# Placing and cancelling the same order

Every round adds the order's margin to the running totals of two accounts.
-/

namespace Lfest

open Spec Ex

theorem Mach.chk_le {w x y : Int} (h : Mach.chk w x = .ok y) : x ≤ w := by
  unfold Mach.chk at h
  split at h
  · omega
  · cases h

/-- The accounts after `k` rounds. -/
def churned (k : Int) : Accounts :=
  ⟨⟨100000000 + k * 90000000, k * 90000000⟩, ⟨k * 90000000, k * 90000000⟩, ⟨0, 0⟩, ⟨0, 0⟩, ⟨0, 0⟩,
    ⟨0, 100000000⟩⟩

/-- The accounts in the middle of the next round. -/
def placed (k : Int) : Accounts :=
  ⟨⟨100000000 + k * 90000000, k * 90000000 + 90000000⟩, ⟨k * 90000000 + 90000000, k * 90000000⟩, ⟨0, 0⟩, ⟨0, 0⟩, ⟨0, 0⟩,
    ⟨0, 100000000⟩⟩

/-- Quotes 100 / 101 and no order or position, after `k` rounds. -/
structure Idle (s : State) (k : Int) : Prop where
  bid : s.ms.bid = d 100
  ask : s.ms.ask = d 101
  acct : s.acct = churned k
  pos : s.pos = .neutral
  active : s.active = []
  om : s.om = []
  quiet : fills s.log = []

/-- The order of a round. -/
abbrev theOrder (id : Nat) (ts : Int) : Limit := (⟨7, .buy, d 100, d 9⟩ : NewLimit).intoPending id ts

theorem place_step {s : State} {k : Int} (h : Idle s k) : ∃ s', step lin s place = .ok (s', .limit (.ok (theOrder s.nextId s.ms.ts))) ∧ s'.ms = s.ms ∧
   s'.acct = placed k ∧ s'.pos = .neutral ∧ s'.active = [theOrder s.nextId s.ms.ts] ∧ s'.om = s'.active ∧
   s'.log = .limitSubmit ⟨7, .buy, d 100, d 9⟩ :: s.log := by
  obtain ⟨ms, log, id, acct, pos, active, om, trig, ups⟩ := s
  obtain ⟨bid, ask, ts, st⟩ := ms
  obtain ⟨h1, h2, h3, h4, h5, h6, _⟩ := h
  simp only at h1 h2 h3 h4 h5 h6
  subst h1 h2 h3 h4 h5 h6
  have hw : (churned k).balance .wallet = 100000000 := by
    simp [Accounts.balance, Accounts.get, TAccount.net, churned]
  have ho : (churned k).balance .orderMargin = 0 := by
    simp [Accounts.balance, Accounts.get, TAccount.net, churned]
  simp only [step, place]
  simp only [show NewLimit.new .buy (d 100) (d 9) 7 = .ok ⟨7, .buy, d 100, d 9⟩ from rfl]
  simp only [submitLimit]
  simp only [show lin.spec.quantityFilter.validate (d 9) = .ok (.ok ()) from rfl, bind, Except.bind]
  have hp : ∀ ts st, lin.spec.priceFilter.validate lin.scale (d 100) ((⟨d 100, d 101, ts, st⟩ : MarketState).mid lin.scale) = .ok (.ok ()) := fun _ _ => rfl
  simp only [hp, hw]
  have hc : ∀ ts, checkLimitOrder lin .neutral ((⟨7, .buy, d 100, d 9⟩ : NewLimit).intoPending id ts) 100000000 [] = .ok (.ok ()) := fun _ => rfl
  simp only [hc]
  have hm : ∀ ts st, marketable ⟨d 100, d 101, ts, st⟩ .buy (d 100) = false := fun _ _ => rfl
  have hu : omUpdate lin.maxOpen [] (theOrder id ts) = .ok (.ok [theOrder id ts]) := rfl
  have hi : Book.insert activeCap [] (theOrder id ts) = .ok ([theOrder id ts], none) := rfl
  have hom : orderMargin lin.env lin.spec.initMarginReq [theOrder id ts] .neutral = .ok 90000000 := rfl
  have ht : transfer lin.env (churned k) .orderMargin .wallet (90000000 - 0) = .ok (placed k) := by
    simp [transfer, assertP, debugP, bind, Except.bind, lin, churned, placed, Accounts.get, Accounts.set,
      Accounts.debitSum, Accounts.creditSum]
    have h1 : 100000000 + k * 90000000 + (k * 90000000 + 90000000) =
      k * 90000000 + 90000000 + k * 90000000 + 100000000 := by omega
    simp [h1]
  have hw' : (placed k).balance .wallet = 10000000 := by
    simp [Accounts.balance, Accounts.get, TAccount.net, placed]; omega
  have ho' : (placed k).balance .orderMargin = 90000000 := by
    simp [Accounts.balance, Accounts.get, TAccount.net, placed]; omega
  have hside : (theOrder id ts).side = .buy := rfl
  have hprice : (theOrder id ts).price = d 100 := rfl
  simp only [hside, hprice, hm, appendLimit, Bool.false_eq_true, if_false, hu, hi, hom, ho, ht, bind, Except.bind]
  simp [appendChecks, assertP, bind, Except.bind, hw']

theorem cancel_step {s : State} {k : Int} (h2 : s.acct = placed k) (h3 : s.pos = .neutral) {id : Nat} {ts : Int}
    (h4 : s.active = [theOrder id ts]) (h5 : s.om = s.active) : ∃ s', step lin s (.cancel (.userOrderId 7)) = .ok (s', .limit (.ok (theOrder id ts))) ∧ s'.ms = s.ms ∧
   s'.acct = churned (k + 1) ∧ s'.pos = .neutral ∧ s'.active = [] ∧ s'.om = s'.active ∧
   s'.log = .limitCancel :: s.log := by
  obtain ⟨ms, log, nid, acct, pos, active, om, trig, ups⟩ := s
  simp only at h2 h3 h4 h5
  subst h2 h3 h5 h4
  have ho' : (placed k).balance .orderMargin = 90000000 := by
    simp [Accounts.balance, Accounts.get, TAccount.net, placed]; omega
  have ho : (churned (k + 1)).balance .orderMargin = 0 := by
    simp [Accounts.balance, Accounts.get, TAccount.net, churned]
  have hom : orderMargin lin.env lin.spec.initMarginReq [theOrder id ts] .neutral = .ok 90000000 := rfl
  have hom' : orderMargin lin.env lin.spec.initMarginReq [] .neutral = .ok 0 := rfl
  have hr : Book.removeCancel [theOrder id ts] (.userOrderId 7) = some (theOrder id ts, []) := rfl
  have hor : omRemove [theOrder id ts] (.userOrderId 7) = .ok [] := rfl
  have ht : refund lin.env (placed k) 90000000 0 = .ok (churned (k + 1)) := by
    simp [refund, transfer, assertP, debugP, bind, Except.bind, lin, churned, placed, Accounts.get, Accounts.set,
      Accounts.debitSum, Accounts.creditSum]
    have h1 : 100000000 + k * 90000000 + 90000000 + (k * 90000000 + 90000000) =
      k * 90000000 + 90000000 + (k * 90000000 + 90000000) + 100000000 := by omega
    simp [h1]
    omega
  simp only [step, cancelLimit, ho', hom, hom', hr, hor, ht, assertP, bind, Except.bind]
  simp [ho]

theorem Idle.round {s : State} {k : Int} (h : Idle s k) :
    ∃ s', run lin s [place, .cancel (.userOrderId 7)] = .ok s' ∧ Idle s' (k + 1) := by
  obtain ⟨s1, h1, h2, h3, h4, h5, h6, h7⟩ := place_step h
  obtain ⟨s2, g1, g2, g3, g4, g5, g6, g7⟩ := cancel_step h3 h4 h5 h6
  refine ⟨s2, by simp [run, h1, g1, bind, Except.bind], ?_, ?_, g3, g4, g5, by rw [g6, g5], ?_⟩
  · rw [g2, h2]; exact h.bid
  · rw [g2, h2]; exact h.ask
  · rw [g7, h7]; exact h.quiet

/-- Placing an order does not succeed on integers that cannot hold the total. -/
theorem place_overflow {w : Int} {s : State} {k : Int} (h : Idle s k) (hw : w < k * 90000000 + 90000000) :
    Mach.step w lin s place = .error .overflow := by
  refine (Mach.agree_step).resolve_right fun he => ?_
  obtain ⟨s1, h1, _⟩ := place_step h
  rw [h1] at he
  simp only [Mach.step, place] at he
  simp only [show NewLimit.new .buy (d 100) (d 9) 7 = .ok ⟨7, .buy, d 100, d 9⟩ from rfl] at he
  simp only [bind_ok, Prod.exists, ok_inj, Prod.mk.injEq, Resp.limit.injEq] at he
  obtain ⟨s2, r, he, rfl, rfl⟩ := he
  simp only [Mach.submitLimit, bind_ok] at he
  obtain ⟨v, _, he⟩ := he
  split at he
  · simp at he
  simp only [bind_ok] at he
  obtain ⟨mk, _, v, _, he⟩ := he
  split at he
  · simp at he
  simp only [bind_ok] at he
  obtain ⟨wl, _, v, _, he⟩ := he
  split at he
  · simp at he
  split at he
  · simp at he
  simp only [bind_ok] at he
  obtain ⟨⟨s3, r⟩, he, h5⟩ := he
  cases r with
  | error e => simp at h5
  | ok r =>
    rw [h.om, h.acct, h.pos, h.active] at he
    simp only [Mach.appendLimit, bind_ok] at he
    obtain ⟨om', hom, he⟩ := he
    have hu : omUpdate lin.maxOpen [] (theOrder s.nextId s.ms.ts) =
      .ok (.ok [theOrder s.nextId s.ms.ts]) := rfl
    rw [hu] at hom
    cases hom
    have hi : Book.insert activeCap [] (theOrder s.nextId s.ms.ts) =
      .ok ([theOrder s.nextId s.ms.ts], none) := rfl
    simp only [hi, bind_ok] at he
    obtain ⟨nm, h1, m, h2, he⟩ := he
    have hm := Mach.agree_orderMargin.resolve_left (by rw [h1]; simp)
    rw [h1] at hm
    have hom : orderMargin lin.env lin.spec.initMarginReq [theOrder s.nextId s.ms.ts] .neutral =
      .ok 90000000 := rfl
    rw [hom] at hm
    cases hm
    have ho : (churned k).balance .orderMargin = 0 := by
      simp [Accounts.balance, Accounts.get, TAccount.net, churned]
    simp only [Mach.balance, ho, Mach.chk] at h2
    split at h2
    · cases h2
      simp only [bind_ok, show (90000000 : Int) > 0 by decide, if_true] at he
      obtain ⟨dd, h3, a, h4, _⟩ := he
      simp only [Mach.chk] at h3
      split at h3
      · cases h3
        simp only [Mach.transfer, bind_ok, assertP_ok] at h4
        obtain ⟨_, _, _, _, x, hx, _⟩ := h4
        have := Mach.chk_le hx
        simp only [churned, Accounts.get] at this
        omega
      · cases h3
    · cases h2

theorem Idle.rounds : ∀ n : Nat, ∃ s, run lin (State.init lin) (rounds n) = .ok s ∧ Idle s n
  | 0 => by
    refine ⟨_, rfl, rfl, rfl, ?_, rfl, rfl, rfl, rfl⟩
    simp [churned, Accounts.new, lin, State.init]
  | n + 1 => by
    obtain ⟨s, h1, h2⟩ := Idle.rounds n
    obtain ⟨s', h3, h4⟩ := h2.round
    exact ⟨s', by rw [Ex.rounds, run_append h1]; exact h3, by exact_mod_cast h4⟩

theorem Mach.run_append {w : Int} {c : Cfg} : ∀ (xs ys : List Op) (s : State),
    Mach.run w c s (xs ++ ys) = Mach.run w c s xs >>= fun s' => Mach.run w c s' ys
  | [], _, _ => rfl
  | x :: xs, ys, s => by
    simp only [List.cons_append, Mach.run]
    cases Mach.step w c s x with
    | error e => rfl
    | ok r => exact Mach.run_append xs ys r.1

end Lfest
