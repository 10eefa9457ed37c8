import Verif.Lemmas.Solo
import Verif.Examples

/-!
# Strategies that hold one position at a time: C82
-/

namespace Lfest

open Spec

/-- C82, exactly: after any history of calls of a strategy that holds one position at a time, the
next such call panics if and only if the wallet is negative and the call is a market update that
can fill orders (not plain quotes) and does not liquidate. -/
theorem C82_exact (c : Cfg) (ops : List Op) (s : State) (op : Op) (hc : soundConfig c)
    (hf : followed c (State.init c) ops) (hrun : run c (State.init c) ops = .ok s)
    (hop : oneAtATime c s op) :
    (∃ p, step c s op = .error p) ↔
      ∃ a, op = .update a ∧ mayFill a = true ∧ ¬ breach c s.pos (quotesAfter s.ms a) ∧
        s.acct.balance .wallet < 0 := by
  have hr : Reachable c s := ⟨ops, hrun⟩
  have hs := Solo.run hc ops _ s ⟨[], rfl⟩ (Solo.init c) hf hrun
  constructor
  · rintro ⟨p, hp⟩
    rcases hs.step hc hr hop with ⟨s', r, h, _⟩ | ⟨_, h⟩
    · rw [h] at hp; cases hp
    · exact h
  · rintro ⟨a, rfl, h1, h2, h3⟩
    exact ⟨_, (hs.update hc hr hop).2 h1 h2 h3⟩

/-- C82 for strategies that see quotes only: no history panics. -/
theorem C82_quotes_never_panic (c : Cfg) (ops : List Op) (hc : soundConfig c)
    (hf : followed c (State.init c) ops) (hq : ∀ a, .update a ∈ ops → mayFill a = false) :
    ∃ s, run c (State.init c) ops = .ok s := by
  suffices h : ∀ (ops : List Op) (s : State), Reachable c s → Solo c s → followed c s ops →
      (∀ a, .update a ∈ ops → mayFill a = false) → ∃ s', run c s ops = .ok s' from
    h ops _ ⟨[], rfl⟩ (Solo.init c) hf hq
  intro ops
  induction ops with
  | nil => intro s _ _ _ _; exact ⟨s, rfl⟩
  | cons op ops ih =>
    intro s hr hs hf hq
    rcases hs.step hc hr hf.1 with ⟨s1, r, h1, hs1⟩ | ⟨_, a, rfl, hb, _⟩
    · obtain ⟨s', h'⟩ := ih s1 (hr.step h1) hs1 (hf.2 s1 r h1) (fun a ha => hq a (by simp [ha]))
      exact ⟨s', by simp only [run, h1, bind, Except.bind, h']⟩
    · rw [hq a (by simp)] at hb; cases hb

/-- C82 for strategies that stay solvent: a history panics only after a call that has taken the
wallet below zero. -/
theorem C82_solvent_never_panics (c : Cfg) (ops : List Op) (hc : soundConfig c)
    (hf : followed c (State.init c) ops)
    (hw : ∀ pre suf s, ops = pre ++ suf → run c (State.init c) pre = .ok s →
      0 ≤ s.acct.balance .wallet) :
    ∃ s, run c (State.init c) ops = .ok s := by
  suffices h : ∀ (ops : List Op) (s : State), Reachable c s → Solo c s → followed c s ops →
      (∀ pre suf s', ops = pre ++ suf → run c s pre = .ok s' → 0 ≤ s'.acct.balance .wallet) →
      ∃ s', run c s ops = .ok s' from
    h ops _ ⟨[], rfl⟩ (Solo.init c) hf hw
  intro ops
  induction ops with
  | nil => intro s _ _ _ _; exact ⟨s, rfl⟩
  | cons op ops ih =>
    intro s hr hs hf hw
    rcases hs.step hc hr hf.1 with ⟨s1, r, h1, hs1⟩ | ⟨_, _, _, _, _, hn⟩
    · obtain ⟨s', h'⟩ := ih s1 (hr.step h1) hs1 (hf.2 s1 r h1) (fun pre suf s' e h =>
        hw (op :: pre) suf s' (by simp [e]) (by simp only [run, h1, bind, Except.bind, h]))
      exact ⟨s', by simp only [run, h1, bind, Except.bind, h']⟩
    · have := hw [] (op :: ops) s rfl rfl
      omega

/-- C82, the margin of such a strategy: exactly that of the position it holds, and no order
margin. -/
theorem C82_margin (c : Cfg) (ops : List Op) (s : State) (hc : soundConfig c)
    (hf : followed c (State.init c) ops) (hrun : run c (State.init c) ops = .ok s) :
    s.acct.balance .positionMargin = share c.env (value c.env (Spec.abs s.pos.quantity)
      s.pos.entryPrice) c.spec.initMarginReq ∧
    s.acct.balance .orderMargin = 0 := by
  have hs := Solo.run hc ops _ s ⟨[], rfl⟩ (Solo.init c) hf hrun
  exact ⟨hs.exact, hs.noMargin⟩

/-! Examples: whether a history is followed can be evaluated. -/

instance {P : Int → Prop} [DecidablePred P] (x : Option Int) :
    Decidable (∀ m, x = some m → P m) :=
  match x with
  | none => .isTrue (by simp)
  | some v => decidable_of_iff (P v) (by simp)

instance (f : QuantityFilter) (q : Int) : Decidable (quantityOk f q) := by
  unfold quantityOk within onGrid; infer_instance

instance (f : PriceFilter) (p : Int) : Decidable (updatePrice f p) := by
  unfold updatePrice; infer_instance

instance (f : PriceFilter) (a : UpdateArg) : Decidable (updateOk f a) := by
  cases a <;> simp only [updateOk, updateQuotes] <;> infer_instance

instance (c : Cfg) (s : State) (op : Op) : Decidable (oneAtATime c s op) := by
  cases op <;> simp only [oneAtATime] <;> infer_instance

/-- `followed`, evaluated. -/
def Ex.follows (c : Cfg) : State → List Op → Bool
  | _, [] => true
  | s, op :: ops => decide (oneAtATime c s op) &&
    match step c s op with
    | .ok (s', _) => Ex.follows c s' ops
    | .error _ => true

theorem Ex.follows_sound {c : Cfg} {ops : List Op} {s : State} (h : Ex.follows c s ops = true) :
    followed c s ops := by
  induction ops generalizing s with
  | nil => trivial
  | cons op ops ih =>
    simp only [Ex.follows, Bool.and_eq_true, decide_eq_true_eq] at h
    refine ⟨h.1, fun s' r hs => ih ?_⟩
    have := h.2
    rw [hs] at this
    exact this

/-- A long position is opened and reversed, the short position is liquidated, an order is
refused, and a further position is opened and closed; with trades in between. -/
def Ex.solo : List Op :=
  [.update (.bba ⟨Ex.d 100, Ex.d 101, 1⟩), .market .buy (Ex.d 3) 0,
   .update (.trade ⟨2, Ex.d 99, Ex.d 1, .sell⟩),
   .update (.bba ⟨Ex.d 104, Ex.d 105, 3⟩), .market .sell (Ex.d 5) 0,
   .update (.bba ⟨Ex.d 159, Ex.d 160, 4⟩), .market .buy (Ex.d 500) 0,
   .market .buy (Ex.d 1) 0, .update (.bba ⟨Ex.d 163, Ex.d 164, 5⟩), .market .sell (Ex.d 1) 0]

example : followed Ex.lin (State.init Ex.lin) Ex.solo ∧ soundConfig Ex.lin ∧
    Ex.after Ex.lin Ex.solo (fun s => decide (0 ≤ s.acct.balance .wallet ∧
      (fills s.log).length = 5 ∧ s.pos = .neutral)) = true :=
  ⟨Ex.follows_sound (by decide +kernel), by unfold soundConfig; decide, by decide +kernel⟩

/-- A history of the kind where the wallet does become negative: a liquidation far below the
liquidation price. The next quotes are accepted, the next trade panics. -/
example : followed { Ex.lin with spec := { Ex.lin.spec with initMarginReq := 10000 } }
      (State.init Ex.lin) [.update (.bba ⟨Ex.d 100, Ex.d 101, 1⟩), .market .buy (Ex.d 90) 0,
        .update (.bba ⟨Ex.d 10, Ex.d 11, 2⟩), .update (.bba ⟨Ex.d 60, Ex.d 61, 3⟩),
        .update (.trade ⟨3, Ex.d 60, Ex.d 1, .buy⟩)] ∧
    Ex.crash { Ex.lin with spec := { Ex.lin.spec with initMarginReq := 10000 } }
      [.update (.bba ⟨Ex.d 100, Ex.d 101, 1⟩), .market .buy (Ex.d 90) 0,
        .update (.bba ⟨Ex.d 10, Ex.d 11, 2⟩), .update (.bba ⟨Ex.d 60, Ex.d 61, 3⟩)]
      (.update (.trade ⟨3, Ex.d 60, Ex.d 1, .buy⟩)) .walletNegative
      (fun s => decide (s.acct.balance .wallet < 0)) = true :=
  ⟨Ex.follows_sound (by decide +kernel), by decide +kernel⟩

end Lfest
