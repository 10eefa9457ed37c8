import Verif.Lemmas.DuoStep
import Verif.Props.Solo

/-!
# Strategies with limit orders that hold one position at a time: C85
-/

namespace Lfest

open Spec

/-- C85, exactly: after any history of calls of a strategy that holds one position at a time and
rests an order on each side, or the order that closes its position, the next such call panics if
and only if it is a market update that can fill orders (not plain quotes), does not liquidate, and
leaves the wallet negative once its fills are settled. Nothing but the negative wallet is ever the
reason. -/
theorem C85_exact (c : Cfg) (ops : List Op) (s : State) (op : Op) (p : Panic) (hc : soundConfig c)
    (hf : bracketed c (State.init c) ops) (hrun : run c (State.init c) ops = .ok s)
    (hop : bracket c s op) :
    step c s op = .error p ↔ p = .walletNegative ∧
      ∃ a, mayFill a = true ∧ walletAfter c s a < 0 ∧
        (op = .checkActive a ∨ (op = .update a ∧ ¬ breach c s.pos (quotesAfter s.ms a))) := by
  have hr : Reachable c s := ⟨ops, hrun⟩
  have hs := Duo.run hc ops _ s ⟨[], rfl⟩ (Duo.init c) hf hrun
  rcases hs.step hc hr hop with ⟨⟨s', r, h, _⟩, hb⟩ | ⟨h, hb⟩
  · rw [h]
    exact ⟨fun e => (by cases e), fun e => absurd e.2 hb⟩
  · rw [h]
    exact ⟨fun e => by cases e; exact ⟨rfl, hb⟩, fun e => by rw [e.1]⟩

/-- C85, the margins of such a strategy are exact: the position margin is that of the position, the
order margin is what the resting orders require. -/
theorem C85_margins (c : Cfg) (ops : List Op) (s : State) (hc : soundConfig c)
    (hf : bracketed c (State.init c) ops) (hrun : run c (State.init c) ops = .ok s) :
    s.acct.balance .positionMargin = share c.env (value c.env (Spec.abs s.pos.quantity)
      s.pos.entryPrice) c.spec.initMarginReq ∧
    s.acct.balance .orderMargin = marginReq c s.active s.pos.quantity := by
  have hs := Duo.run hc ops _ s ⟨[], rfl⟩ (Duo.init c) hf hrun
  exact ⟨hs.pair.exact, hs.pair.line⟩

/-- C85, the fills keep the shape of the strategy: without a position there are at most two orders,
on different sides and for the same quantity; with a position there is at most one order and it
closes the position exactly. With a position the order margin is zero. -/
theorem C85_shape (c : Cfg) (ops : List Op) (s : State) (hc : soundConfig c)
    (hf : bracketed c (State.init c) ops) (hrun : run c (State.init c) ops = .ok s) :
    (s.pos = .neutral → s.active.length ≤ 2 ∧
      s.active.Pairwise (fun x y => x.side ≠ y.side ∧ x.remaining = y.remaining)) ∧
    (s.pos ≠ .neutral → s.acct.balance .orderMargin = 0 ∧
      (s.active = [] ∨ ∃ o, s.active = [o] ∧ o.remaining = opposing s.pos.quantity o.side)) := by
  have hs := Duo.run hc ops _ s ⟨[], rfl⟩ (Duo.init c) hf hrun
  refine ⟨fun hn => ⟨(hs.pair.flat hn).1, (hs.pair.flat hn).2.1⟩, fun hn => ?_⟩
  have hh := (hs.pair.held hn).2.2
  refine ⟨?_, hh⟩
  rw [hs.pair.line]
  rcases hh with he | ⟨o, he, ho⟩
  · rw [he, marginReq_nil]
  · rw [he, marginReq_exit ho]

/-- C85, entries are always paid for: an update that fills a single order of a strategy without a
position does not panic. -/
theorem C85_entry_never_panics (c : Cfg) (ops : List Op) (s : State) (a : UpdateArg)
    (hc : soundConfig c) (hf : bracketed c (State.init c) ops)
    (hrun : run c (State.init c) ops = .ok s) (hop : bracket c s (.update a))
    (hn : s.pos = .neutral) (h1 : (makerFills a s.active).length = 1) :
    ∃ s' r, step c s (.update a) = .ok (s', r) := by
  have hr : Reachable c s := ⟨ops, hrun⟩
  have hs := Duo.run hc ops _ s ⟨[], rfl⟩ (Duo.init c) hf hrun
  have hw := hs.opening hc.2.2.1 hr.linv hn hop.2.2.1 h1
  obtain ⟨s', r, h, _⟩ := (hs.update hc hr hop).1 (.inr (.inr hw))
  exact ⟨s', r, h⟩

/-- C85 for strategies that see quotes only: no history panics. -/
theorem C85_quotes_never_panic (c : Cfg) (ops : List Op) (hc : soundConfig c)
    (hf : bracketed c (State.init c) ops)
    (hq : ∀ a, .update a ∈ ops ∨ .checkActive a ∈ ops → mayFill a = false) :
    ∃ s, run c (State.init c) ops = .ok s := by
  suffices h : ∀ (ops : List Op) (s : State), Reachable c s → Duo c s → bracketed c s ops →
      (∀ a, .update a ∈ ops ∨ .checkActive a ∈ ops → mayFill a = false) →
      ∃ s', run c s ops = .ok s' from
    h ops _ ⟨[], rfl⟩ (Duo.init c) hf hq
  intro ops
  induction ops with
  | nil => intro s _ _ _ _; exact ⟨s, rfl⟩
  | cons op ops ih =>
    intro s hr hs hf hq
    rcases hs.step hc hr hf.1 with ⟨⟨s1, r, h1, hs1⟩, _⟩ | ⟨_, a, hb, _, he⟩
    · obtain ⟨s', h'⟩ := ih s1 (hr.step h1) hs1 (hf.2 s1 r h1) (fun a ha => hq a (by
        rcases ha with ha | ha
        · exact .inl (by simp [ha])
        · exact .inr (by simp [ha])))
      exact ⟨s', by simp only [run, h1, bind, Except.bind, h']⟩
    · have hm := hq a (by
        rcases he with rfl | ⟨rfl, _⟩
        · exact .inr (by simp)
        · exact .inl (by simp))
      rw [hm] at hb; cases hb

/-! Examples. -/

instance (a : UpdateArg) (os : List Limit) : Decidable (wholeFills a os) :=
  inferInstanceAs (Decidable (∀ o ∈ os, _))

instance (c : Cfg) (s : State) (rest : List Limit) (side : Side) (p q : Int) :
    Decidable (fits c s rest side p q) := by
  unfold fits; infer_instance

instance (c : Cfg) (s : State) (op : Op) : Decidable (bracket c s op) := by
  cases op <;> simp only [bracket] <;> infer_instance

/-- `bracketed`, evaluated. -/
def Ex.brackets (c : Cfg) : State → List Op → Bool
  | _, [] => true
  | s, op :: ops => decide (bracket c s op) &&
    match step c s op with
    | .ok (s', _) => Ex.brackets c s' ops
    | .error _ => true

theorem Ex.brackets_sound {c : Cfg} {ops : List Op} {s : State} (h : Ex.brackets c s ops = true) :
    bracketed c s ops := by
  induction ops generalizing s with
  | nil => trivial
  | cons op ops ih =>
    simp only [Ex.brackets, Bool.and_eq_true, decide_eq_true_eq] at h
    refine ⟨h.1, fun s' r hs => ih ?_⟩
    have := h.2
    rw [hs] at this
    exact this

/-- An order on each side, one of them amended; a trade fills the buy, a candle fills the sell.
Then an entry at market with an exit that is placed, amended and cancelled, and a liquidation. -/
def Ex.pairs : List Op :=
  [.update (.bba ⟨Ex.d 100, Ex.d 101, 1⟩), .limit .buy (Ex.d 98) (Ex.d 3) 1,
   .limit .sell (Ex.d 104) (Ex.d 3) 2, .amend 0 .buy (Ex.d 99) (Ex.d 3) 1,
   .update (.trade ⟨2, Ex.d 98, Ex.d 5, .sell⟩),
   .update (.candle ⟨Ex.d 106, Ex.d 107, Ex.d 97, Ex.d 108, 3⟩),
   .market .buy (Ex.d 2) 0, .limit .sell (Ex.d 120) (Ex.d 2) 3,
   .amend 3 .sell (Ex.d 121) (Ex.d 2) 3, .update (.trade ⟨4, Ex.d 119, Ex.d 1, .buy⟩),
   .cancel (.userOrderId 3), .update (.bba ⟨Ex.d 20, Ex.d 21, 5⟩)]

example : bracketed Ex.lin (State.init Ex.lin) Ex.pairs ∧ soundConfig Ex.lin ∧
    Ex.after Ex.lin Ex.pairs (fun s => decide (0 ≤ s.acct.balance .wallet ∧
      (fills s.log).length = 4 ∧ s.pos = .neutral)) = true :=
  ⟨Ex.brackets_sound (by decide +kernel), by unfold soundConfig; decide, by decide +kernel⟩

/-- Four calls in, an order rests on each side and nothing is held, and the next update is a single
fill: the hypotheses of `C85_entry_never_panics`. -/
example : Ex.after Ex.lin (Ex.pairs.take 4) (fun s => decide (s.pos = .neutral ∧
    s.active.length = 2 ∧ 0 < s.acct.balance .orderMargin ∧
    (makerFills (.trade ⟨2, Ex.d 98, Ex.d 5, .sell⟩) s.active).length = 1 ∧
    bracket Ex.lin s (.update (.trade ⟨2, Ex.d 98, Ex.d 5, .sell⟩)))) = true := by decide +kernel

/-- Such a history that does panic: the quotes are far apart, leverage is ten, both orders are
filled at once, and the loss exceeds the wallet. -/
def Ex.wide : List Op :=
  [.update (.bba ⟨Ex.d 10, Ex.d 200, 1⟩), .limit .buy (Ex.d 199) (Ex.d 6) 1,
   .limit .sell (Ex.d 11) (Ex.d 6) 2]

example : bracketed { Ex.lin with spec := { Ex.lin.spec with initMarginReq := 10000 } }
      (State.init Ex.lin)
      (Ex.wide ++ [.update (.candle ⟨Ex.d 50, Ex.d 51, Ex.d 5, Ex.d 300, 2⟩)]) ∧
    Ex.crash { Ex.lin with spec := { Ex.lin.spec with initMarginReq := 10000 } } Ex.wide
      (.update (.candle ⟨Ex.d 50, Ex.d 51, Ex.d 5, Ex.d 300, 2⟩))
      .walletNegative (fun s => decide (0 ≤ s.acct.balance .wallet ∧ s.active.length = 2)) = true :=
  ⟨Ex.brackets_sound (by decide +kernel), by decide +kernel⟩

/-- C85 does not extend to positions that are liquidated while their closing order rests: cancelling
that order then panics. -/
theorem C85_liquidated_exit_panics :
    ∃ s, Reachable Ex.lin s ∧ s.pos = .neutral ∧ 0 < s.acct.balance .wallet ∧
      step Ex.lin s (.cancel (.orderId 0)) = .error .cancelMarginMismatch := by
  obtain ⟨s, hr, hp, hs⟩ := Ex.crash_reach (c := Ex.lin)
    (ops := [.update (.bba ⟨Ex.d 100, Ex.d 101, 1⟩), .market .buy (Ex.d 2) 0,
      .limit .sell (Ex.d 120) (Ex.d 2) 1, .update (.bba ⟨Ex.d 20, Ex.d 21, 2⟩)])
    (op := .cancel (.orderId 0)) (p := .cancelMarginMismatch)
    (f := fun s => decide (s.pos = .neutral ∧ 0 < s.acct.balance .wallet)) (by decide +kernel)
  simp only [decide_eq_true_eq] at hp
  exact ⟨s, hr, hp.1, hp.2, hs⟩

end Lfest
