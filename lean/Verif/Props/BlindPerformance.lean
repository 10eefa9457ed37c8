import Verif.Props.Blind
import Verif.Model.Performance
import Verif.Model.DRatio
import Verif.Model.Drawdown
import Verif.Model.Sample32
import Verif.Model.DRatioF64
import Verif.Model.Drawdown32

/-!
# C140: ratios and drawdowns do not see leverage
-/

namespace Lfest
open Spec

/-- A function of the record that looks at the newest call, blindly, and at the rest sees only what is blind. -/
theorem blind_fold {α : Type} (f : List Event → α) (g : α → Event → α) (hc : ∀ ev evs, f (ev :: evs) = g (f evs) ev)
    (hg : ∀ x a b, blind b = blind a → g x b = g x a) :
    ∀ l l' : List Event, l'.map blind = l.map blind → f l' = f l
  | [], [], _ => rfl
  | [], _ :: _, h => by simp at h
  | _ :: _, [], h => by simp at h
  | a :: l, b :: l', h => by
    simp only [List.map_cons, List.cons.injEq] at h
    rw [hc, hc, blind_fold f g hc hg l l' h.2, hg _ _ _ h.1]

/-- C140: the returns behind sharpe, sortino and kelly, the histograms behind the discriminant ratio and the values
behind the drawdowns are the same, as real numbers and in single precision. -/
theorem C140_performance (c c' : Cfg) (ops : List Op) (s s' : State) (tr tr' : List (Op × Resp))
    (hcap : c.maxOpen ≤ 10000) (hcap' : c'.maxOpen ≤ 10000) (he : c'.env = c.env)
    (hf : sameFees c c') (hst : c'.start = c.start) (hi : c'.sampleSecs = c.sampleSecs)
    (h : history c (State.init c) ops = .ok (s, tr))
    (h' : history c' (State.init c') ops = .ok (s', tr'))
    (hn : TermsNotHit c c' tr tr') :
    Returns.replay c'.env s'.log = Returns.replay c.env s.log ∧
    Quantiles.replay c'.env s'.log = Quantiles.replay c.env s.log ∧
    Drawdowns.replay c'.env s'.log = Drawdowns.replay c.env s.log ∧
    (∀ ln toF64, Returns32.replay ln toF64 s'.log = Returns32.replay ln toF64 s.log) ∧
    (∀ ln b m, QuantilesF64.replay ln b m s'.log = QuantilesF64.replay ln b m s.log) ∧
    (∀ toF64, Drawdowns32.replay c'.env toF64 s'.log = Drawdowns32.replay c.env toF64 s.log) := by
  have hb := C140_tracker_calls c c' ops s s' tr tr' hcap hcap' he hf hst hi h h' hn
  rw [he]
  refine ⟨?_, ?_, ?_, fun ln f => ?_, fun ln b m => ?_, fun f => ?_⟩
  · refine blind_fold (Returns.replay c.env) (fun x ev => match ev with
      | .sample b _ => x.sample ((b.sum : ℝ) / c.env.scale) | _ => x) ?_ ?_ _ _ hb
    · intro ev evs; cases ev <;> rfl
    · intro x a b hab; cases a <;> cases b <;> simp_all [blind, UserBalances.sum]
  · refine blind_fold (Quantiles.replay c.env) (fun x ev => match ev with
      | .sample b mid => x.sample ((b.sum : ℝ) / c.env.scale) ((mid : ℝ) / c.env.scale) | _ => x) ?_ ?_ _ _ hb
    · intro ev evs; cases ev <;> rfl
    · intro x a b hab; cases a <;> cases b <;> simp_all [blind, UserBalances.sum]
  · refine blind_fold (Drawdowns.replay c.env) (Drawdowns.handle c.env) (fun _ _ => rfl) ?_ _ _ hb
    intro x a b hab; cases a <;> cases b <;> simp_all [blind, Drawdowns.handle, UserBalances.sum]
  · refine blind_fold (Returns32.replay ln f) (fun x ev => match ev with
      | .sample b _ => x.sample ln (.of (f b.sum)) | _ => x) ?_ ?_ _ _ hb
    · intro ev evs; cases ev <;> rfl
    · intro x a b hab; cases a <;> cases b <;> simp_all [blind, UserBalances.sum]
  · refine blind_fold (QuantilesF64.replay ln b m) (fun x ev => match ev with
      | .sample y mid => x.sample ln (.of (b y.sum)) (.of (m mid)) | _ => x) ?_ ?_ _ _ hb
    · intro ev evs; cases ev <;> rfl
    · intro x a b hab; cases a <;> cases b <;> simp_all [blind, UserBalances.sum]
  · refine blind_fold (Drawdowns32.replay c.env f) (fun x ev => x.handle c.env f ev) (fun _ _ => rfl) ?_ _ _ hb
    intro x a b hab; cases a <;> cases b <;> simp_all [blind, Drawdowns32.handle, UserBalances.sum]

end Lfest
