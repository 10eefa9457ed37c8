import Verif.SpecRich
import Verif.Props.Fair

/-!
# C157: on a fair market the chance to multiply the money by n is at most one in n
-/

namespace Lfest

open Spec Fair

theorem chance_bound {f : Ending → Rat} {k : Rat} {ok : Ending → Bool} : ∀ xs : List Ending,
    (∀ o ∈ xs, 0 ≤ o.prob ∧ 0 ≤ f o ∧ (ok o = true → k ≤ f o)) → k * chanceOf ok xs ≤ mean f xs
  | [], _ => by simp [chanceOf, mean]
  | o :: os, h => by
    have i := chance_bound os (fun x hx => h x (by simp [hx]))
    obtain ⟨h1, h2, h3⟩ := h o (by simp)
    simp only [chanceOf, mean]
    split
    · next e =>
      have := mul_le_mul_of_nonneg_left (h3 e) h1
      linarith
    · have := mul_nonneg h1 h2
      linarith

/-- C157: if nobody is left with debts, the probability to be worth `k` or more after fees at the end is at
most what the account is worth now, less the mean of the fees, divided by `k`, up to the mean rounding. -/
theorem C157_chance_to_get_rich (c : Cfg) (user : Strategy) (m : Market) (p : Int) (s : State)
    (seen : List (Op × Resp)) (outs : List Ending) (k : Int) (hk : c.env.kind = .linear)
    (hr : Reachable c s) (hm : 0 ≤ c.spec.feeMaker) (ht : 0 ≤ c.spec.feeTaker)
    (hu : ∀ seen, ∀ op ∈ user seen, own op) (hf : fair (s.ms.bid, s.ms.ask) m)
    (hp : meanPrice p m = p) (h : play c user m p s seen 0 = .ok outs)
    (hd : ∀ o ∈ outs, 0 ≤ afterFees c o.final o.price) :
    k * chanceOf (fun o => decide (k ≤ afterFees c o.final o.price)) outs ≤ afterFees c s p -
      mean (fun o => (((feeSum c (fills o.final.log) - feeSum c (fills s.log)) * c.scale : Int) : Rat)) outs +
      mean (fun o => ((profitRounding c (fills o.final.log) - profitRounding c (fills s.log) : Int) : Rat))
        outs := by
  obtain ⟨_, k3⟩ := (C152_no_gain_expected c user m p s seen outs hk hr hu hf hp h).1
  refine le_trans (chance_bound (f := fun o => (afterFees c o.final o.price : Rat)) outs fun o ho =>
    ⟨k3 o ho, by exact_mod_cast hd o ho, fun e => ?_⟩)
    (C152_fees_are_lost c user m p s seen outs hk hr hm ht hu hf hp h)
  exact_mod_cast of_decide_eq_true e

/-- C157, new accounts: the chance to have `n` times the starting balance is at most one in `n`, up to the
mean rounding. -/
theorem C157_multiplying (c : Cfg) (user : Strategy) (m : Market) (p : Int) (outs : List Ending) (n : Int)
    (hk : c.env.kind = .linear) (hm : 0 ≤ c.spec.feeMaker) (ht : 0 ≤ c.spec.feeTaker)
    (hu : ∀ seen, ∀ op ∈ user seen, own op) (hf : fair (0, 0) m) (hp : meanPrice p m = p)
    (h : play c user m p (State.init c) [] 0 = .ok outs)
    (hd : ∀ o ∈ outs, 0 ≤ afterFees c o.final o.price) :
    (n * chanceOf (fun o => decide (n * (c.start * c.scale) ≤ afterFees c o.final o.price)) outs - 1) *
      (c.start * c.scale) ≤
      mean (fun o => ((profitRounding c (fills o.final.log) - feeSum c (fills o.final.log) * c.scale : Int) :
        Rat)) outs := by
  have k := C157_chance_to_get_rich c user m p (State.init c) [] outs (n * (c.start * c.scale)) hk
    ⟨[], rfl⟩ hm ht hu hf hp h hd
  have z : afterFees c (State.init c) p = c.start * c.scale := by
    simp [afterFees, State.init, equity, Position.quantity, Position.outstandingFees, Accounts.new,
      Accounts.balance, Accounts.get, TAccount.net]
  have z1 : feeSum c (fills (State.init c).log) = 0 := rfl
  have z2 : profitRounding c (fills (State.init c).log) = 0 := rfl
  have e : mean (fun o => ((profitRounding c (fills o.final.log) : Int) : Rat)) outs =
      mean (fun o => ((profitRounding c (fills o.final.log) - feeSum c (fills o.final.log) * c.scale : Int) :
        Rat) + ((feeSum c (fills o.final.log) * c.scale : Int) : Rat)) outs := by
    congr 1
    funext o
    push_cast
    ring
  rw [z, z1, z2] at k
  simp only [sub_zero] at k
  rw [e, ending_mean_add] at k
  push_cast at k ⊢
  linarith

/-- The hypotheses of C157 are met: nobody has debts at the end, and with probability 1/2 the account has
gained 6 or more after fees. -/
example : fair (0, 0) Ex.coins ∧ meanPrice (Ex.d 100) Ex.coins = Ex.d 100 ∧
    0 ≤ Ex.linR.spec.feeMaker ∧ 0 ≤ Ex.linR.spec.feeTaker ∧ Ex.linR.env.kind = .linear ∧
    (∀ seen, ∀ op ∈ Ex.follow seen, own op) ∧
    Ex.endings Ex.linR Ex.follow Ex.coins (Ex.d 100) (fun outs =>
      outs.all (fun o => decide (0 ≤ afterFees Ex.linR o.final o.price)) &&
      decide (chanceOf (fun o => decide ((Ex.linR.start + Ex.d 6) * Ex.linR.scale ≤
        afterFees Ex.linR o.final o.price)) outs = 1 / 2)) = true := by
  refine ⟨?_, ?_, by decide, by decide, rfl, Ex.follow_own, by decide +kernel⟩
  · have q := fun p => (C152_quotes_and_trades p).1
    have t := (C152_quotes_and_trades (Ex.d 90)).2.1 ⟨3, Ex.d 90, Ex.d 1, .sell⟩ (Int.le_refl _)
    simp only [Ex.coins, fair, quotes, meanPrice, q, Ex.d]
    norm_num
    exact t
  · simp only [Ex.coins, meanPrice, Ex.d]
    norm_num

end Lfest
