import Verif.Props.Matching
import Verif.Props.Ledger
import Verif.Props.Tracker
import Verif.Props.Panics

/-!
# Market updates of the user's own type: C87
-/

namespace Lfest

open Spec

/-- What a user's own update answers for a limit order: nothing if its type cannot fill orders. -/
def Custom.answer (k : Custom) (o : Limit) : Option Int :=
  if k.canFill = true then k.fills.lookup o.id else none

/-- C87: an update that returns `Ok` has done exactly what the user's type said. Each order it
answered a quantity for has lost exactly this quantity, which was positive and not more than was
open; every other order is as before; the quantities are reported in the order of the list of
active orders; the market state is the one put in place, at the time of the update. -/
theorem C87_obeyed (c : Cfg) (s s' : State) (k : Custom) (ups : List LimitUpdate)
    (hr : Reachable c s) (h : step c s (.update (.custom k)) = .ok (s', .update (.ok ups))) :
    (∀ o ∈ s.active, k.answer o = none → o ∈ s'.active) ∧
    (∀ o ∈ s.active, ∀ q, k.answer o = some q →
      0 < q ∧ q ≤ o.remaining ∧ openQty s' o.id = o.remaining - q) ∧
    (∀ o' ∈ s'.active, ∃ o ∈ s.active, o.id = o'.id) ∧
    ups = s.active.filterMap (fun o => (k.answer o).map (report c.env k.ts o)) ∧
    s'.ms.ts = k.ts ∧
    (∀ bid ask n, k.market = some (bid, ask, n) → (s'.ms.bid, s'.ms.ask, s'.ms.step) =
      (bid, ask, n + 1)) ∧
    (k.market = none → (s'.ms.bid, s'.ms.ask, s'.ms.step) = (s.ms.bid, s.ms.ask, s.ms.step + 1)) := by
  obtain ⟨h1, h2, h3⟩ := C38_every_order c s s' _ ups hr h
  obtain ⟨m1, m3, m2⟩ := C43_update c s s' _ _ hr h
  obtain ⟨_, hu, _⟩ := update_spec hr.inv h
  refine ⟨h1, fun o ho q hq => ?_, h3, ?_, ?_, ?_, ?_⟩
  · obtain ⟨a1, a2, a3, _⟩ := h2 o ho q hq
    exact ⟨a1, a2, a3⟩
  · rw [hu]
    simp only [reports, updateTime]
    congr 1
    funext o
    show (match k.answer o, some k.ts with
      | some q, some ts => some (report c.env ts o q)
      | _, _ => none) = _
    cases k.answer o <;> rfl
  · simpa [updateTime] using m1.symm
  · intro bid ask n hk
    simp only [quotesAfter, stepAfter, hk] at m2 m3
    simp only [Prod.mk.injEq] at m2 ⊢
    exact ⟨m2.1, m2.2, m3⟩
  · intro hk
    simp only [quotesAfter, stepAfter, hk] at m2 m3
    simp only [Prod.mk.injEq] at m2 ⊢
    exact ⟨m2.1, m2.2, m3⟩

/-- C87: a quantity that is not positive or exceeds what is open is never accepted: the update
liquidates the position before any order is looked at, or it panics. -/
theorem C87_bad_fill (c : Cfg) (s : State) (k : Custom) (o : Limit) (q : Int) (hr : Reachable c s)
    (ho : o ∈ s.active) (hq : k.answer o = some q) (hbad : q ≤ 0 ∨ o.remaining < q) :
    (∃ p, step c s (.update (.custom k)) = .error p) ∨
    ∃ s' e, step c s (.update (.custom k)) = .ok (s', .update (.error e)) := by
  cases h : step c s (.update (.custom k)) with
  | error p => exact .inl ⟨p, rfl⟩
  | ok x =>
    obtain ⟨s', r⟩ := x
    right
    have hform : ∃ u, r = .update u := by
      simp only [step, bind_ok] at h
      obtain ⟨_, _, y, _, e⟩ := h
      cases e
      exact ⟨_, rfl⟩
    obtain ⟨u, rfl⟩ := hform
    cases u with
    | error e => exact ⟨s', e, rfl⟩
    | ok ups =>
      have := (C87_obeyed c s s' k ups hr h).2.1 o ho q hq
      omega

/-- C87: whatever a user's update does, the money is accounted for: an update that returns `Ok`
books one fill for each order it answered a quantity for, at the limit price of the order and as
maker, and the balances shown change by the realised profit less the fees of these fills. -/
theorem C87_accounted (c : Cfg) (s s' : State) (k : Custom) (ups : List LimitUpdate)
    (hr : Reachable c s) (h : step c s (.update (.custom k)) = .ok (s', .update (.ok ups))) :
    fills s'.log = (s.active.filterMap (fun o => (k.answer o).map
      (fun q => ⟨true, o.side, o.price, q⟩))).reverse ++ fills s.log ∧
    equity s' - equity s =
      ((ledger c (fills s'.log)).realised - (ledger c (fills s.log)).realised) -
      ((ledger c (fills s'.log)).paid - (ledger c (fills s.log)).paid) := by
  refine ⟨(update_spec hr.inv h).2.2.2.1, ?_⟩
  obtain ⟨ops', h'⟩ := hr.step h
  obtain ⟨ops, hr⟩ := hr
  have h1 := C02_equity c ops s hr
  have h2 := C02_equity c ops' s' h'
  omega

/-- C87: an update whose type says that it cannot fill orders leaves orders, position and balances
alone, whatever it would answer, unless it liquidates. -/
theorem C87_cannot_fill (c : Cfg) (s s' : State) (k : Custom) (ups : List LimitUpdate)
    (hk : k.canFill = false)
    (h : step c s (.update (.custom k)) = .ok (s', .update (.ok ups))) :
    ups = [] ∧ s'.active = s.active ∧ s'.pos = s.pos ∧
    s'.acct = s.acct := by
  simp only [step, UpdateArg.build, updateState, bind_ok, ok_inj, exists_eq_left'] at h
  obtain ⟨x, ⟨s1, ho, h⟩, he⟩ := h
  split at h
  · obtain ⟨s2, _, e⟩ := bind_ok.1 h
    cases e
    simp at he
  · obtain ⟨s2, h2, e⟩ := bind_ok.1 h
    rw [checkActive_bba h2 hk] at e
    cases e
    simp only [observe, bind_ok, ok_inj] at ho
    obtain ⟨_, _, rfl⟩ := ho
    cases he
    exact ⟨rfl, rfl, rfl, rfl⟩

theorem matchLoop_validity {c : Cfg} {k : Custom} {v : Bool} (os : List Limit) : ∀ l,
    matchLoop c (.custom k) l os = matchLoop c (.custom { k with valid := v }) l os := by
  induction os with
  | nil => intro l; rfl
  | cons o os ih =>
    intro l
    simp only [matchLoop, ih]
    rfl

/-- C87: the validation of a user's type decides in debug builds, before anything else, and is not
consulted in release builds. -/
theorem C87_validation (c : Cfg) (s : State) (k : Custom) :
    (c.env.debug = true → k.valid = false →
      step c s (.update (.custom k)) = .error .invalidUpdate) ∧
    (c.env.debug = false →
      step c s (.update (.custom k)) = step c s (.update (.custom { k with valid := true }))) := by
  constructor
  · intro hd hv
    simp [step, UpdateArg.build, updateState, observe, MarketState.update, debugValidate, hd,
      Update.validate, Custom.validate, hv, bind, Except.bind]
  · intro hd
    have h : ∀ s1, checkActive c s1 (.custom k) =
        checkActive c s1 (.custom { k with valid := true }) := by
      intro s1
      simp only [checkActive]
      rw [matchLoop_validity (v := true)]
      rfl
    have h2 : observe c s (.custom k) = observe c s (.custom { k with valid := true }) := by
      simp only [observe, MarketState.update, debugValidate, hd]
      rfl
    simp only [step, UpdateArg.build, updateState, bind, Except.bind, h, h2]

/-! Examples. -/

/-- A user's type that fills parts of two orders at once, one of them far from the market, and
replaces the quotes. -/
def Ex.own : Custom := ⟨7, true, true, some (Ex.d 102, Ex.d 103, 40), [(2, Ex.d 1), (1, Ex.d 2)]⟩

example : Ex.last Ex.lin Ex.ops1 (.update (.custom Ex.own)) (fun s s' r => Ex.isOk r && decide (
    s.active.map Limit.remaining = [Ex.d 3, Ex.d 2] ∧
    s.active.map Ex.own.answer = [some (Ex.d 2), some (Ex.d 1)] ∧
    s'.active.map Limit.remaining = [Ex.d 1, Ex.d 1] ∧ s'.ms.bid = Ex.d 102 ∧ s'.ms.step = 41 ∧
    (fills s'.log).length = (fills s.log).length + 2)) = true := by decide +kernel

/-- Quantities that do not fit panic, unless the update liquidates. -/
example : Ex.panics Ex.lin Ex.ops1 (.update (.custom { Ex.own with fills := [(1, Ex.d 4)] }))
      .fillTooLarge = true ∧
    Ex.panics Ex.lin Ex.ops1 (.update (.custom { Ex.own with fills := [(1, 0)] })) .matchQty = true ∧
    Ex.last Ex.lin Ex.ops1 (.update (.custom { Ex.own with
        market := some (Ex.d 10, Ex.d 11, 0), fills := [(1, Ex.d 4)] }))
      (fun s s' r => !Ex.isOk r && decide (s'.active = s.active ∧ s'.pos = .neutral)) = true := by
  decide +kernel

/-- A type that cannot fill orders. -/
example : Ex.last Ex.lin Ex.ops1 (.update (.custom { Ex.own with canFill := false }))
    (fun s s' r => Ex.isOk r && decide (s'.active = s.active ∧ s.active ≠ [] ∧
      s'.ms.bid = Ex.d 102)) = true := by decide +kernel

/-- A type that refuses. -/
example : Ex.panics Ex.lin Ex.ops1 (.update (.custom { Ex.own with valid := false }))
      .invalidUpdate = true ∧
    Ex.last Ex.linR Ex.ops1 (.update (.custom { Ex.own with valid := false }))
      (fun _ s' r => Ex.isOk r && decide (s'.updates.length = 2)) = true := by decide +kernel

end Lfest
