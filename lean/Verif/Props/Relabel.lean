import Verif.Lemmas.Relabel
import Verif.Examples

/-!
# User order ids are opaque and only time differences matter (C74)
-/

namespace Lfest

open Relabel

/-- C74: a call with other user order ids and another origin of time, on the exchange with the same
replacement, does the same: same panic, same balances, position, prices, quantities, order ids and
errors, and the response carries the new user order ids and the new times. The user order ids of
limit orders have to stay distinct, and the id 0 of liquidation orders has to stay. -/
theorem C74_call (l : Relabel) (c : Cfg) (s : State) (op : Op)
    (hf : ∀ a b, l.limitId a = l.limitId b → a = b) (h0 : l.marketId 0 = 0) :
    step c (l.state s) (l.op op) = (step c s op).map (fun r => (l.state r.1, l.resp r.2)) :=
  step_eq (fun a b h => hf a b h) h0 c s op

/-- The replacement leaves everything but ids and times alone. -/
example (l : Relabel) (s : State) : (l.state s).acct = s.acct ∧ (l.state s).pos = s.pos ∧
    (l.state s).nextId = s.nextId ∧ (l.state s).ms.bid = s.ms.bid ∧
    (l.state s).ms.ask = s.ms.ask ∧
    (l.state s).active.map (fun o => (o.id, o.side, o.price, o.remaining)) =
      s.active.map (fun o => (o.id, o.side, o.price, o.remaining)) := by
  refine ⟨rfl, rfl, rfl, rfl, rfl, ?_⟩
  show (s.active.map l.limit).map _ = _
  rw [List.map_map]
  rfl

theorem trace_eq {l : Relabel} (hf : Function.Injective l.limitId) (h0 : l.marketId 0 = 0)
    (c : Cfg) : ∀ (ops : List Op) (s : State), trace c (l.state s) (ops.map l.op) =
      (trace c s ops).map (fun r => (r.1.map l.resp, l.state r.2))
  | [], _ => rfl
  | op :: ops, s => by
    rw [List.map_cons]
    unfold trace
    rw [step_eq hf h0]
    refine bind_map _ _ _ _ _ (fun r => ?_)
    refine Eq.trans (congrArg (· >>= _) (trace_eq hf h0 c ops r.1)) ?_
    exact bind_map _ _ _ _ _ (fun _ => rfl)

/-- An update overwrites the exchange's clock without reading it. -/
theorem update_clock (c : Cfg) (s : State) (x : Int) (a : UpdateArg) :
    step c { s with ms := { s.ms with ts := x } } (.update a) = step c s (.update a) := by
  simp only [step]
  cases a.build c.env.debug with
  | error e => rfl
  | ok u =>
    have : updateState c { s with ms := { s.ms with ts := x } } u = updateState c s u := by
      have : observe c { s with ms := { s.ms with ts := x } } u = observe c s u := by
        unfold observe
        have : ({ s.ms with ts := x } : MarketState).update c.env.debug c.spec.priceFilter u =
            s.ms.update c.env.debug c.spec.priceFilter u := by
          unfold MarketState.update
          cases debugValidate c.env.debug c.spec.priceFilter u with
          | error e => rfl
          | ok r =>
            cases r <;> cases u with
            | custom k => cases hk : k.market <;> simp [Update.applyQuotes, hk, Update.ts]
            | _ => rfl
        simp only [this]
      unfold updateState
      rw [this]
    show (updateState c _ u >>= _) = (updateState c s u >>= _)
    rw [this]

/-- C74, histories: a new exchange fed the same calls with other user order ids answers the same,
up to these ids. If the first call is a market update, all times may be shifted as well. -/
theorem C74_history (l : Relabel) (c : Cfg) (ops : List Op)
    (hf : ∀ a b, l.limitId a = l.limitId b → a = b) (h0 : l.marketId 0 = 0)
    (hs : l.shift = 0 ∨ ∃ a rest, ops = .update a :: rest) :
    (trace c (State.init c) (ops.map l.op)).map Prod.fst =
      (trace c (State.init c) ops).map (fun r => r.1.map l.resp) := by
  have hf' : Function.Injective l.limitId := fun a b h => hf a b h
  have key := trace_eq hf' h0 c ops (State.init c)
  have hi : l.state (State.init c) =
      { State.init c with ms := { (State.init c).ms with ts := (State.init c).ms.ts + l.shift } } := by
    simp [state, State.init, market, trigger, Trigger.new]
  have : trace c (l.state (State.init c)) (ops.map l.op) =
      trace c (State.init c) (ops.map l.op) := by
    rcases hs with h | ⟨a, rest, rfl⟩
    · rw [hi, h, Int.add_zero]
    · rw [List.map_cons]
      unfold trace
      rw [hi]
      exact congrArg (· >>= _) (update_clock c (State.init c) _ (l.arg a))
  rw [← this, key]
  cases trace c (State.init c) ops <;> rfl

/-- C74, histories, the exchange afterwards: everything but ids and times is the same. -/
theorem C74_history_state (l : Relabel) (c : Cfg) (a : UpdateArg) (ops : List Op)
    (hf : ∀ a b, l.limitId a = l.limitId b → a = b) (h0 : l.marketId 0 = 0) :
    run c (State.init c) ((.update a :: ops).map l.op) =
      (run c (State.init c) (.update a :: ops)).map l.state := by
  have hf' : Function.Injective l.limitId := fun a b h => hf a b h
  have key : ∀ (ops : List Op) (s : State), run c (l.state s) (ops.map l.op) =
      (run c s ops).map l.state := by
    intro ops
    induction ops with
    | nil => intro s; rfl
    | cons op ops ih =>
      intro s
      rw [List.map_cons]
      unfold run
      rw [step_eq hf' h0]
      exact bind_map _ _ _ _ _ (fun r => ih r.1)
  have hi : l.state (State.init c) =
      { State.init c with ms := { (State.init c).ms with ts := (State.init c).ms.ts + l.shift } } := by
    simp [state, State.init, market, trigger, Trigger.new]
  rw [← key (.update a :: ops), List.map_cons]
  unfold run
  rw [hi]
  exact congrArg (· >>= _) (update_clock c (State.init c) _ (l.arg a)).symm

namespace Ex

/-- Limit ids doubled, market ids kept, a day later. -/
def later : Relabel := ⟨fun a => 2 * a, id, 86400000000000⟩

/-- Two limit ids become one. -/
def merged : Relabel := ⟨fun _ => 0, id, 0⟩

def ids : Except Panic (List Resp × State) → List Nat
  | .ok (rs, _) => rs.filterMap (fun r => match r with | .limit (.ok o) => some o.id | _ => none)
  | .error _ => []

end Ex

/-- The replacement meets the hypotheses, and does change what is sent and answered. -/
example : (∀ a b, Ex.later.limitId a = Ex.later.limitId b → a = b) ∧ Ex.later.marketId 0 = 0 ∧
    Ex.after Ex.lin Ex.ops3 (fun s => decide (Ex.later.state s ≠ s)) = true ∧
    Ex.ops3.map Ex.later.op ≠ Ex.ops3 := by
  refine ⟨fun a b h => ?_, rfl, by decide +kernel, by decide +kernel⟩
  have : 2 * a = 2 * b := h
  omega

/-- Ids have to stay distinct: a cancellation by user order id otherwise hits another order. -/
theorem C74_needs_distinct_ids :
    Ex.ids (trace Ex.lin (State.init Ex.lin) (Ex.ops1 ++ [Op.cancel (.userOrderId 2)])) = [1, 2, 2] ∧
    Ex.ids (trace Ex.lin (State.init Ex.lin)
      ((Ex.ops1 ++ [Op.cancel (.userOrderId 2)]).map Ex.merged.op)) = [1, 2, 1] := by
  decide +kernel

end Lfest
