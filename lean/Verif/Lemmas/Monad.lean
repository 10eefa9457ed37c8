import Verif.Model.Exchange

/-! Inversion lemmas for computations that may panic. -/

namespace Lfest

theorem bind_ok {α β} {x : Res α} {f : α → Res β} {b : β} :
    (x >>= f) = .ok b ↔ ∃ a, x = .ok a ∧ f a = .ok b := by
  cases x with
  | error e => simp [bind, Except.bind]
  | ok a => simp [bind, Except.bind]

theorem assertP_ok {c : Prop} [Decidable c] {p : Panic} {u : Unit} :
    assertP c p = .ok u ↔ c := by
  unfold assertP; split <;> simp_all

theorem debugP_ok {d : Bool} {c : Prop} [Decidable c] {p : Panic} {u : Unit} :
    debugP d c p = .ok u ↔ (d = true → c) := by
  unfold debugP assertP; split <;> (try split) <;> simp_all

theorem expectSome_ok {α} {o : Option α} {p : Panic} {a : α} :
    expectSome o p = .ok a ↔ o = some a := by
  unfold expectSome; split <;> simp_all

theorem ok_inj {α} {a b : α} : (Except.ok a : Res α) = .ok b ↔ a = b := by simp

theorem error_ok {α} {p : Panic} {b : α} : (Except.error p : Res α) = .ok b ↔ False := by simp

theorem ddiv_ok {s a b r : Int} : ddiv s a b = .ok r ↔ b ≠ 0 ∧ r = (a * s).tdiv b := by
  unfold ddiv; split <;> simp_all [eq_comm]

theorem drem_ok {a b r : Int} : drem a b = .ok r ↔ b ≠ 0 ∧ r = a.tmod b := by
  unfold drem; split <;> simp_all [eq_comm]

theorem scale_pos (e : Env) : 0 < e.scale := by
  unfold Env.scale
  have : 0 < 10 ^ e.decimals := Nat.pow_pos (by decide)
  omega

theorem cscale_pos (c : Cfg) : 0 < c.scale := scale_pos c.env

end Lfest
