import Verif.Props.Cash
import Verif.Props.Matching
import Verif.Props.Panics
import Verif.SpecPriority

/-!
# C108: there is no priority among one's own orders

All resting orders are matched against an update on their own. The order in which they are stored,
which depends on submissions and on earlier cancellations, decides in which order the fills are
booked. It does not decide which fills there are, and in linear contracts it makes no difference to
the result beyond rounding. In inverse contracts it does.
-/

namespace Lfest
open Spec

theorem boughtAndSold_nonneg (fs : List Fill) : 0 ≤ boughtAndSold fs := by
  induction fs with
  | nil => exact Int.le_refl 0
  | cons f fs ih =>
    unfold boughtAndSold Spec.abs
    split <;> omega

theorem netBought_boughtAndSold (fs : List Fill) : Spec.abs (netBought fs) ≤ boughtAndSold fs := by
  induction fs with
  | nil => decide
  | cons f fs ih =>
    have e : netBought (f :: fs) = f.signed + netBought fs := rfl
    have e' : boughtAndSold (f :: fs) = Spec.abs f.qty + boughtAndSold fs := rfl
    have hf : f.signed = f.qty ∨ f.signed = -f.qty := by
      unfold Fill.signed
      cases f.side <;> simp
    rw [e, e']
    generalize netBought fs = x at *
    generalize boughtAndSold fs = y at *
    generalize f.signed = z at *
    unfold Spec.abs at *
    (repeat' split at ih) <;> (repeat' split) <;> omega

theorem rounding_le (c : Cfg) (fs : List Fill) :
    profitRounding c fs ≤ anyOrderRounding c fs := by
  have key : ∀ v, boughtAndSold fs ≤ v → profitRounding c fs ≤ fs.length * (2 * c.scale + v) := by
    induction fs with
    | nil => intro v _; simp [profitRounding]
    | cons f fs ih =>
      intro v hv
      have h0 : boughtAndSold fs ≤ v := by
        unfold boughtAndSold Spec.abs at hv
        split at hv <;> omega
      have h1 := ih v h0
      have h2 := netBought_boughtAndSold (f :: fs)
      unfold profitRounding
      rw [List.length_cons]
      have : ((fs.length + 1 : Nat) : Int) * (2 * c.scale + v) =
          fs.length * (2 * c.scale + v) + (2 * c.scale + v) := by
        rw [Int.natCast_add, Int.add_mul]
        omega
      omega
  exact key _ (Int.le_refl _)

theorem boughtAndSold_perm {fs gs : List Fill} (h : fs.Perm gs) : boughtAndSold fs = boughtAndSold gs := by
  induction h with
  | nil => rfl
  | cons f _ ih => unfold boughtAndSold; rw [ih]
  | swap f g l => unfold boughtAndSold boughtAndSold; omega
  | trans _ _ h1 h2 => exact h1.trans h2

theorem netBought_perm {fs gs : List Fill} (h : fs.Perm gs) : netBought fs = netBought gs := by
  induction h with
  | nil => rfl
  | cons f _ ih => unfold netBought; rw [ih]
  | swap f g l => unfold netBought netBought; omega
  | trans _ _ h1 h2 => exact h1.trans h2

theorem feeSum_perm {c : Cfg} {fs gs : List Fill} (h : fs.Perm gs) :
    feeSum c fs = feeSum c gs := by
  induction h with
  | nil => rfl
  | cons f _ ih => unfold feeSum; rw [ih]
  | swap f g l => unfold feeSum feeSum; omega
  | trans _ _ h1 h2 => exact h1.trans h2

theorem fillRule_anonymous {u : UpdateArg} (hu : BuiltIn u) (o : Limit) :
    fillRule u (anonymous o) = fillRule u o := by
  cases u with
  | custom k => exact hu.elim
  | _ => rfl

theorem survivor_anonymous {e : Env} {u : UpdateArg} (hu : BuiltIn u) (o : Limit) :
    survivor e u (anonymous o) = (survivor e u o).map anonymous := by
  unfold survivor
  rw [fillRule_anonymous hu]
  cases fillRule u o with
  | none => rfl
  | some q =>
    dsimp only
    by_cases h : q = o.remaining
    · rw [if_pos h, if_pos (show q = (anonymous o).remaining from h)]; rfl
    · rw [if_neg h, if_neg (show ¬ q = (anonymous o).remaining from h)]; rfl

theorem survivors_anonymous {e : Env} {u : UpdateArg} (hu : BuiltIn u) (os : List Limit) :
    (os.filterMap (survivor e u)).map anonymous =
      (os.map anonymous).filterMap (survivor e u) := by
  rw [List.map_filterMap, List.filterMap_map]
  congr 1
  funext o
  exact (survivor_anonymous hu o).symm

theorem makerFills_anonymous {u : UpdateArg} (hu : BuiltIn u) (os : List Limit) :
    makerFills u os = makerFills u (os.map anonymous) := by
  unfold makerFills
  rw [List.filterMap_map]
  congr 1
  funext o
  exact congrArg (Option.map _) (fillRule_anonymous hu o).symm

theorem report_anonymous (e : Env) (ts : Int) (o : Limit) (q : Int) :
    report e ts (anonymous o) q = anonymousReport (report e ts o q) := by
  unfold report
  by_cases h : q = o.remaining
  · rw [if_pos h, if_pos (show q = (anonymous o).remaining from h)]; rfl
  · rw [if_neg h, if_neg (show ¬ q = (anonymous o).remaining from h)]; rfl

theorem reports_anonymous {e : Env} {u : UpdateArg} (hu : BuiltIn u) (os : List Limit) :
    (reports e u os).map anonymousReport = reports e u (os.map anonymous) := by
  unfold reports
  rw [List.map_filterMap, List.filterMap_map]
  congr 1
  funext o
  dsimp only [Function.comp]
  rw [fillRule_anonymous hu]
  cases fillRule u o with
  | none => rfl
  | some q =>
    cases updateTime u with
    | none => rfl
    | some ts => exact congrArg some (report_anonymous e ts o q).symm

/-- C108, which fills: two exchanges with the same resting orders, submitted and stored in whatever
order, report the same fills for an update and are left with the same orders. Their histories,
positions and balances need not be the same. -/
theorem C108_same_fills (c : Cfg) (s1 s2 s1' s2' : State) (u : UpdateArg) (hu : BuiltIn u)
    (ups1 ups2 : List LimitUpdate) (hr1 : Reachable c s1) (hr2 : Reachable c s2)
    (hp : (s1.active.map anonymous).Perm (s2.active.map anonymous))
    (h1 : step c s1 (.update u) = .ok (s1', .update (.ok ups1)))
    (h2 : step c s2 (.update u) = .ok (s2', .update (.ok ups2))) :
    (ups1.map anonymousReport).Perm (ups2.map anonymousReport) ∧
    (s1'.active.map anonymous).Perm (s2'.active.map anonymous) ∧
    ∃ new1 new2, fills s1'.log = new1 ++ fills s1.log ∧ fills s2'.log = new2 ++ fills s2.log ∧
      new1.Perm new2 := by
  obtain ⟨a1, b1, _, d1, _, _⟩ := update_spec hr1.inv h1
  obtain ⟨a2, b2, _, d2, _, _⟩ := update_spec hr2.inv h2
  refine ⟨?_, ?_, _, _, d1, d2, ?_⟩
  · rw [b1, b2, reports_anonymous hu, reports_anonymous hu]
    exact hp.filterMap _
  · have a1 := a1.map anonymous
    have a2 := a2.map anonymous
    rw [survivors_anonymous hu] at a1 a2
    exact a1.trans ((hp.filterMap _).trans a2.symm)
  · rw [makerFills_anonymous hu s1.active, makerFills_anonymous hu s2.active]
    exact (List.reverse_perm _).trans ((hp.filterMap _).trans (List.reverse_perm _).symm)

/-- C108, quantity and fees: two histories with the same fills, in whatever order, end with the same
position quantity, and with fee rates that are not negative they have been charged the same. -/
theorem C108_quantity_and_fees (c : Cfg) (ops1 ops2 : List Op) (s1 s2 : State)
    (h1 : run c (State.init c) ops1 = .ok s1) (h2 : run c (State.init c) ops2 = .ok s2)
    (hp : (fills s1.log).Perm (fills s2.log)) :
    s1.pos.quantity = s2.pos.quantity ∧
    (0 ≤ c.spec.feeMaker → 0 ≤ c.spec.feeTaker →
      s1.feesPaid + s1.pos.outstandingFees = s2.feesPaid + s2.pos.outstandingFees) := by
  constructor
  · rw [(C06_position_quantity c ops1 s1 h1).1, (C06_position_quantity c ops2 s2 h2).1,
      netBought_perm hp]
  · intro hm ht
    rw [C04_fee_schedule c ops1 s1 h1 hm ht, C04_fee_schedule c ops2 s2 h2 hm ht, feeSum_perm hp]

/-- C108, profit: in a linear contract two histories with the same fills, in whatever order, have
gained the same at any mark price, up to an allowance for rounding. -/
theorem C108_profit (c : Cfg) (ops1 ops2 : List Op) (s1 s2 : State) (p : Int)
    (hk : c.env.kind = .linear) (h1 : run c (State.init c) ops1 = .ok s1)
    (h2 : run c (State.init c) ops2 = .ok s2) (hp : (fills s1.log).Perm (fills s2.log)) :
    Spec.abs (gainAt c s1 p - gainAt c s2 p) ≤ 2 * anyOrderRounding c (fills s1.log) := by
  have e1 := C68_marked c ops1 s1 p hk h1
  have e2 := C68_marked c ops2 s2 p hk h2
  have r1 := rounding_le c (fills s1.log)
  have r2 := rounding_le c (fills s2.log)
  have hr : anyOrderRounding c (fills s2.log) = anyOrderRounding c (fills s1.log) := by
    unfold anyOrderRounding
    rw [boughtAndSold_perm hp, hp.length_eq]
  have hsum : ((fills s1.log).map (fun f => f.signed * (p - f.price))).sum =
      ((fills s2.log).map (fun f => f.signed * (p - f.price))).sum := sum_perm (hp.map _)
  rw [hsum] at e1
  unfold gainAt
  unfold Spec.abs at *
  (repeat' split at e1) <;> (repeat' split at e2) <;> split <;> omega

/-- C108, flat: … so if everything has been closed again and the fee rates are not negative, the
balances differ by no more than the allowance. -/
theorem C108_flat (c : Cfg) (ops1 ops2 : List Op) (s1 s2 : State) (hk : c.env.kind = .linear)
    (hm : 0 ≤ c.spec.feeMaker) (ht : 0 ≤ c.spec.feeTaker)
    (h1 : run c (State.init c) ops1 = .ok s1) (h2 : run c (State.init c) ops2 = .ok s2)
    (hp : (fills s1.log).Perm (fills s2.log)) (hn : netBought (fills s1.log) = 0) :
    s1.pos = .neutral ∧ s2.pos = .neutral ∧ s1.feesPaid = s2.feesPaid ∧
    Spec.abs ((equity s1 - equity s2) * c.scale) ≤ 2 * anyOrderRounding c (fills s1.log) := by
  have n1 := (C06_position_quantity c ops1 s1 h1).2.2.2.mp hn
  have n2 := (C06_position_quantity c ops2 s2 h2).2.2.2.mp (netBought_perm hp ▸ hn)
  have hf := (C108_quantity_and_fees c ops1 ops2 s1 s2 h1 h2 hp).2 hm ht
  have hg := C108_profit c ops1 ops2 s1 s2 0 hk h1 h2 hp
  rw [n1, n2] at hf
  simp only [Position.outstandingFees, Int.add_zero] at hf
  refine ⟨n1, n2, hf, ?_⟩
  unfold gainAt at hg
  rw [n1, n2, hf] at hg
  simp only [Position.quantity, Int.zero_mul, Int.add_zero] at hg
  rw [← Int.sub_mul] at hg
  have e : equity s1 - c.start + s2.feesPaid - (equity s2 - c.start + s2.feesPaid) =
      equity s1 - equity s2 := by omega
  rwa [e] at hg

/-- Long 2, a sell above and a buy below, both of which one candle fills. -/
def Ex.sellFirst (q : Int) : List Op :=
  [Ex.q 100 101 1, .market .buy (Ex.d (2 * q)) 0, .limit .sell (Ex.d 140) (Ex.d q) 1,
   .limit .buy (Ex.d 70) (Ex.d (2 * q)) 2]

/-- The same orders, submitted in the other order. -/
def Ex.buyFirst (q : Int) : List Op :=
  [Ex.q 100 101 1, .market .buy (Ex.d (2 * q)) 0, .limit .buy (Ex.d 70) (Ex.d (2 * q)) 2,
   .limit .sell (Ex.d 140) (Ex.d q) 1]

/-- The candle. -/
def Ex.both : UpdateArg := .candle ⟨Ex.d 100, Ex.d 101, Ex.d 60, Ex.d 150, 3⟩

/-- … and everything is sold. -/
def Ex.closing (q : Int) : List Op := [Ex.q 100 101 5, .market .sell (Ex.d (3 * q)) 0]

/-- Do both runs succeed, with the given property? -/
def Ex.twoRuns (c : Cfg) (ops1 ops2 : List Op) (p : State → State → Bool) : Bool :=
  match run c (State.init c) ops1, run c (State.init c) ops2 with
  | .ok s1, .ok s2 => p s1 s2
  | _, _ => false

theorem Ex.two_runs {c : Cfg} {ops1 ops2 : List Op} {p : State → State → Bool}
    (h : Ex.twoRuns c ops1 ops2 p = true) :
    ∃ s1 s2, run c (State.init c) ops1 = .ok s1 ∧ run c (State.init c) ops2 = .ok s2 ∧
      p s1 s2 = true := by
  unfold Ex.twoRuns at h
  split at h
  · next s1 s2 e1 e2 => exact ⟨s1, s2, e1, e2, h⟩
  · cases h

/-- What the update reports. -/
def Ex.reported (c : Cfg) (s : State) (u : UpdateArg) : List LimitUpdate :=
  match step c s (.update u) with
  | .ok (_, .update (.ok ups)) => ups
  | _ => []

theorem Ex.reported_ok {c : Cfg} {s : State} {u : UpdateArg} (h : Ex.reported c s u ≠ []) :
    ∃ s', step c s (.update u) = .ok (s', .update (.ok (Ex.reported c s u))) := by
  unfold Ex.reported at h ⊢
  split at h
  · next s' ups e => exact ⟨s', by rw [e]⟩
  · exact absurd rfl h

/-- The hypotheses of `C108_same_fills` are met: the orders are stored the other way round, both are
filled. -/
example : ∃ s1 s2 s1' s2' ups1 ups2, Reachable Ex.lin s1 ∧ Reachable Ex.lin s2 ∧
    (s1.active.map anonymous).Perm (s2.active.map anonymous) ∧ s1.active.length = 2 ∧
    step Ex.lin s1 (.update Ex.both) = .ok (s1', .update (.ok ups1)) ∧
    step Ex.lin s2 (.update Ex.both) = .ok (s2', .update (.ok ups2)) ∧
    ups1.length = 2 ∧ ups1.map anonymousReport ≠ ups2.map anonymousReport := by
  have h : Ex.twoRuns Ex.lin (Ex.sellFirst 1) (Ex.buyFirst 1) (fun s1 s2 =>
      decide ((s1.active.map anonymous).Perm (s2.active.map anonymous) ∧ s1.active.length = 2 ∧
        Ex.reported Ex.lin s1 Ex.both ≠ [] ∧ Ex.reported Ex.lin s2 Ex.both ≠ [] ∧
        (Ex.reported Ex.lin s1 Ex.both).length = 2 ∧
        (Ex.reported Ex.lin s1 Ex.both).map anonymousReport ≠
          (Ex.reported Ex.lin s2 Ex.both).map anonymousReport)) = true := by decide +kernel
  obtain ⟨s1, s2, e1, e2, h⟩ := Ex.two_runs h
  simp only [decide_eq_true_eq] at h
  obtain ⟨t1, u1⟩ := Ex.reported_ok h.2.2.1
  obtain ⟨t2, u2⟩ := Ex.reported_ok h.2.2.2.1
  exact ⟨s1, s2, t1, t2, _, _, ⟨_, e1⟩, ⟨_, e2⟩, h.1, h.2.1, u1, u2, h.2.2.2.2⟩

/-- The hypotheses of `C108_profit` and `C108_flat` are met: the fills are not in the same order, and
there is a difference of one unit in the last place. So the allowance cannot be dropped. -/
theorem C108_rounding : ∃ s1 s2,
    run Ex.linR (State.init Ex.linR)
      (Ex.sellFirst 1 ++ [.update Ex.both] ++ Ex.closing 1) = .ok s1 ∧
    run Ex.linR (State.init Ex.linR)
      (Ex.buyFirst 1 ++ [.update Ex.both] ++ Ex.closing 1) = .ok s2 ∧
    (fills s1.log).Perm (fills s2.log) ∧ netBought (fills s1.log) = 0 ∧
    equity s1 = 109764281 ∧ equity s2 = 109764280 := by
  have h : Ex.twoRuns Ex.linR (Ex.sellFirst 1 ++ [.update Ex.both] ++ Ex.closing 1)
      (Ex.buyFirst 1 ++ [.update Ex.both] ++ Ex.closing 1) (fun s1 s2 =>
      decide ((fills s1.log).Perm (fills s2.log) ∧ netBought (fills s1.log) = 0 ∧
        equity s1 = 109764281 ∧ equity s2 = 109764280)) = true := by decide +kernel
  obtain ⟨s1, s2, e1, e2, h⟩ := Ex.two_runs h
  simp only [decide_eq_true_eq] at h
  exact ⟨s1, s2, e1, e2, h⟩

/-- In inverse contracts the order in which two orders were submitted makes a material difference,
although the fills and the fees are the same: the account ends with 1025.16 or with 1024.01. -/
theorem C108_inverse_priority : ∃ s1 s2,
    run Ex.invR (State.init Ex.invR)
      (Ex.sellFirst 2500 ++ [.update Ex.both] ++ Ex.closing 2500) = .ok s1 ∧
    run Ex.invR (State.init Ex.invR)
      (Ex.buyFirst 2500 ++ [.update Ex.both] ++ Ex.closing 2500) = .ok s2 ∧
    (fills s1.log).Perm (fills s2.log) ∧ s1.pos = .neutral ∧ s2.pos = .neutral ∧
    s1.feesPaid = s2.feesPaid ∧ equity s1 = 102516377 ∧ equity s2 = 102400936 := by
  have h : Ex.twoRuns Ex.invR (Ex.sellFirst 2500 ++ [.update Ex.both] ++ Ex.closing 2500)
      (Ex.buyFirst 2500 ++ [.update Ex.both] ++ Ex.closing 2500) (fun s1 s2 =>
      decide ((fills s1.log).Perm (fills s2.log) ∧ s1.pos = .neutral ∧ s2.pos = .neutral ∧
        s1.feesPaid = s2.feesPaid ∧ equity s1 = 102516377 ∧ equity s2 = 102400936)) = true := by
    decide +kernel
  obtain ⟨s1, s2, e1, e2, h⟩ := Ex.two_runs h
  simp only [decide_eq_true_eq] at h
  exact ⟨s1, s2, e1, e2, h⟩

end Lfest
