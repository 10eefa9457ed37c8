import Verif.Lemmas.ReleaseLimits

/-!
# With checked arithmetic the release model is the model on bounded integers
-/

namespace Lfest.Rel

open Mach (chk In)

variable {w : Int}

theorem chk_val {x y : Int} (h : chk w x = .ok y) : y = x ∧ In w x := by
  unfold chk at h
  split at h
  · next hx => cases h; exact ⟨rfl, hx⟩
  · cases h

theorem pnl_fits {e : Env} {x y q v : Int} (hw : 0 ≤ w) (h : Mach.pnl w e x y q = .ok v) :
    In w v := by
  unfold Mach.pnl at h
  split at h
  · cases h; exact ⟨by omega, by omega⟩
  · split at h <;>
    · simp only [bind_ok] at h
      obtain ⟨_, _, _, _, h⟩ := h
      obtain ⟨h1, h2⟩ := chk_val h
      rw [h1]; exact h2

theorem settlePnl_checked {e : Env} {a : Accounts} {v : Int} (h : In w v) :
    settlePnl (checked w) e a v = Mach.settlePnl w e a v := by
  unfold settlePnl Mach.settlePnl
  split
  · rfl
  split
  · have h' : In w (-v) := by unfold In at *; omega
    have : (checked w).add (-v) = .ok (-v) := chk_ok h'
    rw [this]; rfl
  · rfl

theorem bind_congr' {α β} {m : Res α} {f g : α → Res β} (h : ∀ x, m = .ok x → f x = g x) :
    (m >>= f) = (m >>= g) := by
  cases m with
  | error e => rfl
  | ok x => exact h x rfl

theorem decrease_checked {e : Env} {imr : Int} {a : Accounts} {i : Inner} {q p dir f : Int}
    (hw : 0 ≤ w) : decrease (checked w) e imr a i q p dir f = Mach.decrease w e imr a i q p dir f := by
  unfold decrease Mach.decrease
  refine bind_congr' fun _ _ => bind_congr' fun _ _ => bind_congr' fun _ _ => bind_congr' fun _ _ =>
    bind_congr' fun _ _ => bind_congr' fun v hv => ?_
  have hv : Mach.pnl w e _ _ _ = .ok v := hv
  rw [settlePnl_checked (pnl_fits hw hv)]
  rfl

theorem change_checked {e : Env} {imr : Int} {a : Accounts} {pos : Position} {q p : Int}
    {side : Side} {f : Int} (hw : 0 ≤ w) : changePosition (checked w) e imr a pos q p side f =
      Mach.changePosition w e imr a pos q p side f := by
  unfold changePosition Mach.changePosition flip Mach.flip
  simp only [decrease_checked hw]
  rfl

theorem offset_checked : ∀ (xs : List (Int × Int)) (pos : Int),
    offsetOrders (checked w) pos xs = Mach.offsetOrders w pos xs
  | [], _ => rfl
  | (p, q) :: xs, pos => by
    unfold offsetOrders Mach.offsetOrders
    simp only [offset_checked xs]
    rfl

theorem sumValue_checked {e : Env} : ∀ (xs : List (Int × Int)) (acc : Int),
    sumValue (checked w) e acc xs = Mach.sumValue w e acc xs
  | [], _ => rfl
  | (p, q) :: xs, acc => by
    unfold sumValue Mach.sumValue
    simp only [sumValue_checked xs]
    rfl

theorem internal_checked {e : Env} {imr : Int} {b : Book} {pos : Position} {new : Option Limit} :
    orderMarginInternal (checked w) e imr b pos new =
      Mach.orderMarginInternal w e imr b pos new := by
  unfold orderMarginInternal Mach.orderMarginInternal offsetBuys offsetSells Mach.offsetBuys
    Mach.offsetSells
  simp only [sumValue_checked, offset_checked]
  rfl

theorem margin_checked {e : Env} {imr : Int} {b : Book} {pos : Position} :
    orderMargin (checked w) e imr b pos = Mach.orderMargin w e imr b pos := internal_checked

theorem with_checked {e : Env} {imr : Int} {b : Book} {pos : Position} {o : Limit} :
    orderMarginWithOrder (checked w) e imr b pos o = Mach.orderMarginWithOrder w e imr b pos o :=
  internal_checked

theorem loop_checked : ∀ (xs : List (Int × Int)) (last sum : Int),
    aggregateLoop (checked w) last sum xs = Mach.aggregateLoop w last sum xs
  | [], _, _ => rfl
  | (p, q) :: xs, last, sum => by
    unfold aggregateLoop Mach.aggregateLoop
    simp only [loop_checked xs]
    rfl

theorem build_checked {d : Bool} {a : UpdateArg} : build (checked w) d a = Mach.build w d a := by
  cases a with
  | smart ts b pf =>
    have h : ∀ xs, aggregate (checked w) xs = Mach.aggregate w xs := fun xs => by
      cases xs with
      | nil => rfl
      | cons x xs => exact loop_checked _ _ _
    unfold build Mach.build smartNew Mach.smartNew
    simp only [h]
    rfl
  | _ => rfl

theorem submitMarket_checked {c : Cfg} {s : State} {o : NewMarket} (hw : 0 ≤ w) :
    submitMarket (checked w) c s o = Mach.submitMarket w c s o := by
  unfold submitMarket Mach.submitMarket settleMarket Mach.settleMarket
  simp only [change_checked hw]
  rfl

theorem submitLimit_checked {c : Cfg} {s : State} {o : NewLimit} :
    submitLimit (checked w) c s o = Mach.submitLimit w c s o := by
  unfold submitLimit Mach.submitLimit appendLimit Mach.appendLimit checkLimitOrder
    Mach.checkLimitOrder
  simp only [margin_checked, with_checked]
  rfl

theorem cancelLimit_checked {c : Cfg} {s : State} {k : CancelBy} :
    cancelLimit (checked w) c s k = Mach.cancelLimit w c s k := by
  unfold cancelLimit Mach.cancelLimit
  simp only [margin_checked]
  rfl

theorem amendLimit_checked {c : Cfg} {s : State} {id : Nat} {o : NewLimit} :
    amendLimit (checked w) c s id o = Mach.amendLimit w c s id o := by
  unfold amendLimit Mach.amendLimit
  simp only [cancelLimit_checked, submitLimit_checked]
  rfl

theorem matchOrder_checked {c : Cfg} {u : Update} {l : Loop} {o : Limit} (hw : 0 ≤ w) :
    matchOrder (checked w) c u l o = Mach.matchOrder w c u l o := by
  unfold matchOrder Mach.matchOrder settleLimit Mach.settleLimit releaseMargin Mach.releaseMargin
    debugMarginEq Mach.debugMarginEq
  simp only [change_checked hw, margin_checked]
  rfl

theorem matchLoop_checked {c : Cfg} {u : Update} (hw : 0 ≤ w) : ∀ (os : List Limit) (l : Loop),
    matchLoop (checked w) c u l os = Mach.matchLoop w c u l os
  | [], _ => rfl
  | o :: os, l => by
    unfold matchLoop Mach.matchLoop
    simp only [matchOrder_checked hw, matchLoop_checked hw os]

theorem checkActive_checked {c : Cfg} {s : State} {u : Update} (hw : 0 ≤ w) :
    checkActive (checked w) c s u = Mach.checkActive w c s u := by
  unfold checkActive Mach.checkActive debugMarginEq Mach.debugMarginEq
  simp only [matchLoop_checked hw, margin_checked]
  rfl

theorem step_checked {c : Cfg} {s : State} {op : Op} (hw : 0 ≤ w) :
    step (checked w) c s op = Mach.step w c s op := by
  unfold step Mach.step updateState Mach.updateState liquidate Mach.liquidate
  simp only [build_checked, checkActive_checked hw, submitMarket_checked hw, submitLimit_checked,
    amendLimit_checked, cancelLimit_checked]
  rfl

theorem run_checked {c : Cfg} (hw : 0 ≤ w) : ∀ (ops : List Op) (s : State),
    run (checked w) c s ops = Mach.run w c s ops
  | [], _ => rfl
  | op :: ops, s => by
    unfold run Mach.run
    simp only [step_checked hw, run_checked hw ops]

end Lfest.Rel
