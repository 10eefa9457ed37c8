import Verif.Lemmas.Panics
import Verif.Props.Margin
import Verif.Examples

/-!
# The assertions that can fail: C67
-/

namespace Lfest

open Spec

/-- C67: with a sound configuration, a call on any reachable exchange that panics does so at one
of the assertions listed for that kind of call, the list depending only on the build profile and
on the update passed in. -/
theorem C67_possible_panics (c : Cfg) (s : State) (op : Op) (p : Panic) (hc : soundConfig c)
    (hr : Reachable c s) (h : step c s op = .error p) : p ∈ possiblePanics c.env.debug op :=
  step_only hc hr p h

/-- All entries of the lists for the update types of the library. -/
def builtinPanics : List Panic :=
  [.divByZero, .txnAmount, .flipMargin, .marginToFree, .closedMargin, .settlePrice,
   .walletNegative, .matchMarginMismatch, .matchMarginIncrease, .finalMarginMismatch, .tradeQty,
   .fillNotPositive, .smartEmpty, .smartBba, .smartNoValidTrade, .smartTradeQty, .invalidUpdate,
   .liquidateSubmit, .cancelMarginMismatch, .cancelMarginIncrease]

theorem possiblePanics_sub {d : Bool} {op : Op} {p : Panic} (h : p ∈ possiblePanics d op) :
    p ∈ builtinPanics ∨ ((p = .fillTooLarge ∨ p = .matchQty) ∧
      ∃ k, op = .update (.custom k) ∨ op = .checkActive (.custom k)) := by
  revert p
  cases op with
  | update u =>
    cases u with
    | custom k =>
      intro p h
      suffices p ∈ builtinPanics ∨ (p = .fillTooLarge ∨ p = .matchQty) from
        this.imp_right fun h => ⟨h, k, .inl rfl⟩
      revert p
      cases d <;> simp only [possiblePanics, buildPanics, matchPanics, marketPanics, fillPanics,
        mayFill, isCustom, Bool.false_eq_true, ↓reduceIte] <;> (repeat' split) <;> decide
    | _ =>
      refine fun {p} h => .inl ?_
      revert p
      cases d <;> simp only [possiblePanics, buildPanics, matchPanics, marketPanics, fillPanics,
        mayFill, isCustom, Bool.false_eq_true, ↓reduceIte] <;> (repeat' split) <;> decide
  | checkActive u =>
    cases u with
    | custom k =>
      intro p h
      suffices p ∈ builtinPanics ∨ (p = .fillTooLarge ∨ p = .matchQty) from
        this.imp_right fun h => ⟨h, k, .inr rfl⟩
      revert p
      cases d <;> simp only [possiblePanics, buildPanics, matchPanics, fillPanics,
        mayFill, isCustom, Bool.false_eq_true, ↓reduceIte] <;> (repeat' split) <;> decide
    | _ =>
      refine fun {p} h => .inl ?_
      revert p
      cases d <;> simp only [possiblePanics, buildPanics, matchPanics, fillPanics,
        mayFill, isCustom, Bool.false_eq_true, ↓reduceIte] <;> (repeat' split) <;> decide
  | market =>
    refine fun {p} h => .inl ?_
    revert p
    cases d <;> simp only [possiblePanics, marketPanics, fillPanics] <;> decide
  | limit => refine fun {p} h => .inl ?_; revert p; simp only [possiblePanics]; decide
  | cancel => refine fun {p} h => .inl ?_; revert p; simp only [possiblePanics]; decide
  | amend => refine fun {p} h => .inl ?_; revert p; simp only [possiblePanics]; decide

/-- C67: in particular the other assertions of the code are never violated, in debug builds or
in release builds. -/
theorem C67_never (c : Cfg) (s : State) (op : Op) (p : Panic) (hc : soundConfig c)
    (hr : Reachable c s)
    (hp : p ∈ [.txnAccounts, .accountingEquation, .setRemaining, .totalQuantity,
      .newQty, .newPrice, .increaseQty, .increasePrice, .decreaseQty, .decreaseTooMuch,
      .decreaseNegative, .changeQty, .neutralMargin, .flipQty, .omRemaining, .omSame,
      .omNotSmaller, .omRemove, .imrAboveOne, .orderRemaining, .bbaUnreachable, .liquidateOrder,
      .liquidateNeutral, .settleQty, .amendCancel, .booksDiffer, .emptyButMargin,
      .executedNotActive, .matchRemaining, .matchUpdate, .idsCapacity]) :
    step c s op ≠ .error p := by
  intro h
  have hm := possiblePanics_sub (C67_possible_panics c s op p hc hr h)
  clear h
  rcases hm with hm | ⟨rfl | rfl, _⟩
  · revert p; decide
  · revert hp; decide
  · revert hp; decide

/-- C67: a fill larger than the order or not positive is only ever reported for an update type
written by the user. -/
theorem C67_builtin_fills (c : Cfg) (s : State) (op : Op) (hc : soundConfig c)
    (hr : Reachable c s) (hk : ∀ k, op ≠ .update (.custom k) ∧ op ≠ .checkActive (.custom k)) :
    step c s op ≠ .error .fillTooLarge ∧ step c s op ≠ .error .matchQty := by
  constructor <;> intro h <;>
    rcases possiblePanics_sub (C67_possible_panics c s op _ hc hr h) with hm | ⟨_, k, e | e⟩
  · revert hm; decide
  · exact (hk k).1 e
  · exact (hk k).2 e
  · revert hm; decide
  · exact (hk k).1 e
  · exact (hk k).2 e

/-- C67: an update that carries only quotes can fail, besides the validity check of debug builds,
only while liquidating. -/
theorem C67_quotes (c : Cfg) (s : State) (b : Bba) (p : Panic) (hc : soundConfig c)
    (hr : Reachable c s) (h : step c s (.update (.bba b)) = .error p) :
    (c.env.debug = true ∧ p = .invalidUpdate) ∨ p = .liquidateSubmit ∨
      p ∈ marketPanics c.env.debug := by
  have := C67_possible_panics c s _ p hc hr h
  simp only [possiblePanics, buildPanics, matchPanics, mayFill, if_true, List.nil_append,
    List.append_nil, List.mem_append, List.mem_cons] at this
  rcases this with h | h | h
  · left; split at h
    · next hd => exact ⟨hd, by simpa using h⟩
    · simp at h
  · exact .inr (.inl h)
  · exact .inr (.inr h)

/-- The configurations of the witnesses are sound. -/
theorem C67_configs_sound : soundConfig Ex.lin ∧ soundConfig Ex.linR ∧ soundConfig Ex.inv ∧
    soundConfig Ex.fine ∧ soundConfig Ex.tick := by
  unfold soundConfig; decide

/-- Quotes `b` / `a` at time `t`. -/
def Ex.q (b a t : Int) : Op := .update (.bba ⟨Ex.d b, Ex.d a, t⟩)

/-- The inverse contract in a release build. -/
def Ex.invR : Cfg := { Ex.inv with env := { Ex.inv.env with debug := false } }

/-- No entry can be dropped from the list of market orders: each of the assertions fails on some
reachable exchange. -/
theorem C67_market_witnesses :
    Ex.panics Ex.lin [] (.market .buy (Ex.d 1) 0) .settlePrice = true ∧
    Ex.panics Ex.inv [] (.market .buy (Ex.d 1) 0) .divByZero = true ∧
    Ex.panics Ex.fine [.update (.bba ⟨1, 2, 1⟩)] (.market .buy 1 0) .txnAmount = true ∧
    Ex.panics Ex.fine [.update (.bba ⟨1, 2, 1⟩), .market .buy 100000 0] (.market .sell 1 0)
      .marginToFree = true ∧
    Ex.panics Ex.inv [Ex.q 100 101 1, .market .buy (Ex.d 1010) 1, Ex.q 200 202 2,
      .market .buy (Ex.d 1010) 2] (.market .sell (Ex.d 2020) 0) .closedMargin = true ∧
    Ex.panics Ex.inv [Ex.q 100 101 1, .market .buy (Ex.d 1010) 1, Ex.q 200 202 2,
      .market .buy (Ex.d 1010) 2] (.market .sell (Ex.d 2030) 0) .flipMargin = true ∧
    Ex.panics Ex.invR [Ex.q 100 101 1, .market .buy (Ex.d 1010) 1, Ex.q 200 202 2,
      .market .buy (Ex.d 1010) 2] (.market .sell (Ex.d 2030) 0) .flipMargin = true := by
  decide +kernel

/-- The same for limit orders and cancellations. -/
theorem C67_order_witnesses :
    Ex.panics Ex.lin [Ex.q 100 101 1, .market .buy (Ex.d 5) 0, .limit .sell (Ex.d 110) (Ex.d 5) 1,
      .market .sell (Ex.d 5) 0] (.limit .sell (Ex.d 110) (Ex.d 7) 2) .walletNegative = true ∧
    Ex.panics Ex.lin [Ex.q 100 101 1, .limit .sell (Ex.d 110) (Ex.d 3) 1, .market .buy (Ex.d 3) 0]
      (.cancel (.orderId 0)) .cancelMarginMismatch = true ∧
    Ex.panics Ex.tick Ex.tickOps (.cancel (.orderId 1)) .cancelMarginIncrease = true := by
  decide +kernel

/-- The same for updates. -/
theorem C67_update_witnesses :
    Ex.panics Ex.lin [Ex.q 100 101 1, .limit .sell (Ex.d 110) (Ex.d 3) 1, .market .buy (Ex.d 3) 0]
      (.update (.trade ⟨2, Ex.d 100, Ex.d 1, .buy⟩)) .finalMarginMismatch = true ∧
    Ex.panics Ex.lin [Ex.q 100 101 1, .limit .sell (Ex.d 110) (Ex.d 3) 1, .market .buy (Ex.d 3) 0]
      (.update (.trade ⟨2, Ex.d 111, Ex.d 1, .buy⟩)) .matchMarginMismatch = true ∧
    Ex.panics Ex.inv [Ex.q 100 101 1, .market .buy (Ex.d 1010) 0,
      .limit .sell (Ex.d 150) (Ex.d 1010) 1, .limit .sell (Ex.d 110) (Ex.d 1010) 2]
      (.update (.trade ⟨2, Ex.d 160, Ex.d 1010, .buy⟩)) .matchMarginIncrease = true ∧
    Ex.panics Ex.linR [Ex.q 100 101 1, .limit .sell (Ex.d 110) (Ex.d 9) 1, Ex.q 120 121 2,
      .limit .buy (Ex.d 119) (Ex.d 2) 2]
      (.update (.trade ⟨3, Ex.d 118, Ex.d 5, .sell⟩)) .walletNegative = true ∧
    Ex.panics Ex.lin [Ex.q 100 101 1, .limit .buy (Ex.d 95) (Ex.d 2) 1]
      (.update (.trade ⟨2, Ex.d 94, 0, .sell⟩)) .tradeQty = true ∧
    Ex.panics Ex.linR [Ex.q 100 101 1, .limit .buy (Ex.d 95) (Ex.d 2) 1]
      (.update (.trade ⟨2, Ex.d 94, 0, .sell⟩)) .fillNotPositive = true ∧
    Ex.panics Ex.lin [] (Ex.q 101 100 1) .invalidUpdate = true ∧
    Ex.panics { Ex.lin with spec := { Ex.lin.spec with quantityFilter := ⟨none, some (Ex.d 3), 1000⟩ } }
      [Ex.q 100 101 1, .market .buy (Ex.d 2) 0, .market .buy (Ex.d 2) 0] (Ex.q 50 52 2)
      .liquidateSubmit = true := by
  decide +kernel

/-- The same for updates of a user's own type. -/
theorem C67_custom_witnesses :
    Ex.panics Ex.lin Ex.ops1 (.update (.custom ⟨2, true, true, none, [(1, Ex.d 4)]⟩))
      .fillTooLarge = true ∧
    Ex.panics Ex.linR Ex.ops1 (.checkActive (.custom ⟨2, true, true, none, [(1, Ex.d 4)]⟩))
      .fillTooLarge = true ∧
    Ex.panics Ex.lin Ex.ops1 (.update (.custom ⟨2, true, true, none, [(1, 0)]⟩))
      .matchQty = true ∧
    Ex.panics Ex.linR Ex.ops1 (.update (.custom ⟨2, true, true, none, [(1, 0)]⟩))
      .fillNotPositive = true := by
  decide +kernel

/-- The same for smart candles. -/
theorem C67_smart_witnesses :
    Ex.panics Ex.linR [] (.update (.smart [] ⟨Ex.d 100, Ex.d 101, 1⟩ (.default 100000)))
      .smartEmpty = true ∧
    Ex.panics Ex.lin [] (.update (.smart [⟨1, 1, 1, .buy⟩] ⟨Ex.d 100, Ex.d 101, 1⟩
      (.default 100000))) .smartNoValidTrade = true ∧
    Ex.panics Ex.linR [] (.update (.smart [⟨1, Ex.d 1, 1, .buy⟩] ⟨Ex.d 100, Ex.d 100, 1⟩
      (.default 100000))) .smartBba = true ∧
    Ex.panics Ex.lin [] (.update (.smart [⟨1, Ex.d 1, 0, .buy⟩] ⟨Ex.d 100, Ex.d 101, 1⟩
      (.default 100000))) .smartTradeQty = true ∧
    Ex.panics Ex.linR [] (.update (.smart [⟨1, Ex.d 1, 1, .buy⟩] ⟨Ex.d 100, Ex.d 101, 1⟩
      { PriceFilter.default 100000 with tickSize := 0 })) .divByZero = true := by
  decide +kernel

end Lfest
