import Verif.SpecLives
import Verif.Props.Lots
import Verif.Props.Alone
import Verif.Props.Cash

/-!
# C147: an account is the sum of the lives of its orders
-/

namespace Lfest

open Spec Audit Life

/-! ### Lists -/

/-- Change one element of a list of lists. -/
theorem flatMap_change {β : Type} {k : Nat} {a : List β} {h : Nat → List β} (hk : h k = []) :
    ∀ {L : List Nat}, L.Nodup → k ∈ L →
      (L.flatMap (fun i => if k = i then a else h i)).Perm (a ++ L.flatMap h)
  | [], _, hm => by cases hm
  | x :: L, hn, hm => by
    simp only [List.nodup_cons] at hn
    simp only [List.flatMap_cons]
    by_cases e : k = x
    · subst e
      rw [if_pos rfl, hk]
      have : L.flatMap (fun i => if k = i then a else h i) = L.flatMap h := by
        have : ∀ i ∈ L, (if k = i then a else h i) = h i := by
          intro i hi
          exact if_neg (fun e : k = i => hn.1 (e ▸ hi))
        simp only [List.flatMap_def, List.map_congr_left this]
      rw [this]
      exact List.Perm.refl _
    · rw [if_neg e]
      have hm' : k ∈ L := (List.mem_cons.1 hm).resolve_left e
      refine ((flatMap_change hk hn.2 hm').append_left (h x)).trans ?_
      rw [← List.append_assoc, ← List.append_assoc]
      exact List.perm_append_comm.append_right _

/-- By ids or in the sequence of the list. -/
theorem by_ids {β : Type} {g : Limit → List β} {n : Nat} : ∀ {l : List Limit},
    (l.map Limit.id).Nodup → (∀ o ∈ l, o.id < n) →
      ((List.range n).flatMap (fun id =>
        match l.find? (fun o => o.id == id) with
        | some o => g o
        | none => [])).Perm (l.flatMap g)
  | [], _, _ => by simp
  | o :: l, hn, hlt => by
    simp only [List.map_cons, List.nodup_cons] at hn
    have ih := by_ids (g := g) (n := n) hn.2 (fun x hx => hlt x (List.mem_cons_of_mem _ hx))
    have hnone : l.find? (fun x => x.id == o.id) = none := by
      rw [List.find?_eq_none]
      intro x hx e
      exact hn.1 (List.mem_map.2 ⟨x, hx, by simpa using e⟩)
    have hk : (fun id => match l.find? (fun o => o.id == id) with
        | some o => g o
        | none => []) o.id = [] := by
      simp only [hnone]
    have := flatMap_change (a := g o) (h := fun id => match l.find? (fun o => o.id == id) with
        | some o => g o
        | none => []) hk (List.nodup_range (n := n))
      (List.mem_range.2 (hlt o List.mem_cons_self))
    refine List.Perm.trans (List.Perm.of_eq ?_) (this.trans (ih.append_left _))
    congr 1
    funext id
    simp only [List.find?_cons]
    by_cases e : o.id = id
    · simp [e]
    · have hb : (o.id == id) = false := by simpa using e
      simp only [hb, if_neg e]

theorem flatMap_split {α β : Type} {f g h : α → List β} : ∀ {l : List α},
    (∀ x ∈ l, f x = g x ++ h x) → (l.flatMap f).Perm (l.flatMap g ++ l.flatMap h)
  | [], _ => by simp
  | x :: l, hx => by
    simp only [List.flatMap_cons, hx x List.mem_cons_self]
    refine ((flatMap_split (fun y hy => hx y (List.mem_cons_of_mem _ hy))).append_left _).trans ?_
    rw [List.append_assoc, List.append_assoc]
    refine List.Perm.append_left _ ?_
    rw [← List.append_assoc, ← List.append_assoc]
    exact List.perm_append_comm.append_right _

theorem shuffle (a b d a' b' d' : List Fill) :
    ((a' ++ b' ++ d') ++ (a ++ b ++ d)).Perm ((a ++ a') ++ (b ++ b') ++ (d ++ d')) := by
  rw [List.perm_iff_count]
  intro x
  simp only [List.count_append]
  omega

theorem nextId_history {c : Cfg} : ∀ {ops : List Op} {s s' : State} {tr : List (Op × Resp)},
    Reachable c s → history c s ops = .ok (s', tr) → s.nextId ≤ s'.nextId
  | [], s, s', tr, _, h => by
    simp only [history, ok_inj, Prod.mk.injEq] at h
    obtain ⟨rfl, rfl⟩ := h
    exact Nat.le_refl _
  | op :: ops, s, s', tr, hr, h => by
    simp only [history, bind_ok, ok_inj, Prod.mk.injEq] at h
    obtain ⟨⟨s1, r⟩, h1, ⟨s2, tr2⟩, h2, rfl, rfl⟩ := h
    have := (step_nextId hr.inv h1).1
    have := nextId_history (hr.step h1) h2
    show s.nextId ≤ s2.nextId
    omega

/-! ### One call -/

/-- The fills still to come under an id. -/
def due (s : State) (tr : List (Op × Resp)) (id : Nat) : List Fill :=
  match now s id with
  | some o => portions o (life id tr)
  | none => tradedBy (life id tr)

/-- The fills a call tells of under an id. -/
def told (s : State) (x : Op × Resp) (id : Nat) : List Fill :=
  match now s id with
  | some o => portions o (events id x)
  | none => []

theorem now_some {s : State} {id : Nat} {o : Limit} (h : now s id = some o) :
    o ∈ s.active ∧ o.id = id := by
  refine ⟨List.mem_of_find?_eq_some h, ?_⟩
  simpa using List.find?_some h

theorem now_none {s : State} {id : Nat} (h : now s id = none) : ∀ o ∈ s.active, o.id ≠ id := by
  simpa [now, List.find?_eq_none] using h

/-- What is due before a call is what the call tells of and what is due afterwards. -/
theorem due_step {c : Cfg} {s s1 s2 : State} {op : Op} {r : Resp} {ops : List Op}
    {tr : List (Op × Resp)} (hr : Reachable c s) (h1 : step c s op = .ok (s1, r))
    (h2 : history c s1 ops = .ok (s2, tr)) (ha : audible op) (id : Nat) :
    due s ((op, r) :: tr) id = told s (op, r) id ++ due s1 tr id := by
  have hl : life id ((op, r) :: tr) = events id (op, r) ++ life id tr := rfl
  have hn := (step_nextId hr.inv h1).1
  have hr1 := hr.step h1
  unfold due told
  rw [hl]
  cases hnow : now s id with
  | some o =>
    obtain ⟨ho, rfl⟩ := now_some hnow
    have hf := (hr.inv.orders o ho).fresh
    dsimp only
    rcases life_open hr h1 ho with ⟨e, h3⟩ | ⟨o', e, h3, h4⟩ | ⟨x, e, h3, h4⟩ | ⟨h3, _⟩
    · rw [e, now_mem hr1.inv h3]; rfl
    · have hid : o'.id = o.id := h4.1.1
      have := now_mem hr1.inv h3
      rw [hid] at this
      rw [e, this]
      rfl
    · obtain ⟨e2, _⟩ := life_over ops s1 s2 tr o.id hr1 h4 (by omega) h2
      rw [e, e2, now_gone h4]
      simp [tradedBy]
    · exact absurd ha h3
  | none =>
    dsimp only
    rcases life_closed hr h1 (now_none hnow) with ⟨e, hg⟩ | ⟨_, o, e, ho, rfl, _⟩
    · rw [e, now_gone hg]; rfl
    · rw [e, now_mem hr1.inv ho]; rfl

/-- The fills of a call are those it tells of, and that of a liquidation. -/
theorem told_step {c : Cfg} {s s' : State} {op : Op} {r : Resp} {N : Nat} (hr : Reachable c s)
    (hst : step c s op = .ok (s', r)) (ha : audible op) (hN : s.nextId ≤ N) :
    ∃ forced new : List Fill, forced.length = ([(op, r)].filter liquidates).length ∧
      fills s'.log = new ++ fills s.log ∧
      new.Perm (taken (op, r) ++ forced ++ (List.range N).flatMap (told s (op, r))) := by
  have hi := hr.inv
  have hq : ∀ x : Op × Resp, (∀ id o, portions o (events id x) = []) →
      (List.range N).flatMap (told s x) = [] := by
    intro x hx
    rw [List.flatMap_eq_nil_iff]
    intro id _
    unfold told
    cases now s id with
    | none => rfl
    | some o => exact hx id o
  rcases step_cases hst with ⟨u, u', x, rfl, hb, hu, rfl⟩ | ⟨u, u', rfl, hb, hu, rfl⟩ |
    ⟨err, rfl, rfl⟩ |
    ⟨side, q, uid, x, rfl, _, _, rfl⟩ | ⟨side, p, q, uid, x, rfl, _, _, hsub, rfl⟩ |
    ⟨i, side, p, q, uid, x, rfl, _, _, hamend, rfl⟩ | ⟨b, x, rfl, _, rfl⟩
  · obtain ⟨ht, _, _⟩ := C43_update c s s' u _ hr hst
    cases x with
    | ok ups =>
      obtain ⟨_, h2, _, h4, h5, _⟩ := update_spec hi hst
      refine ⟨[], _, rfl, h4, ?_⟩
      have hp := by_ids (g := fun o => portions o (events o.id (.update u, .update (.ok ups)))) (n := N)
        hi.nodup (fun o ho => Nat.lt_of_lt_of_le (hi.orders o ho).fresh hN)
      have e1 : (List.range N).flatMap (told s (.update u, .update (.ok ups))) =
          (List.range N).flatMap (fun id => match s.active.find? (fun o => o.id == id) with
            | some o => portions o (events o.id (.update u, .update (.ok ups)))
            | none => []) := by
        congr 1
        funext id
        unfold told
        cases hnow : now s id with
        | none =>
          have h : s.active.find? (fun o => o.id == id) = none := hnow
          simp only [h]
        | some o =>
          have h : s.active.find? (fun o => o.id == id) = some o := hnow
          simp only [h, (now_some hnow).2]
      have e2 : s.active.flatMap (fun o => portions o (events o.id (.update u, .update (.ok ups)))) =
          makerFills u s.active := by
        have : ∀ o ∈ s.active, portions o (events o.id (.update u, .update (.ok ups))) =
            ((fillRule u o).map (fun q => (⟨true, o.side, o.price, q⟩ : Fill))).toList := by
          intro o ho
          have hev : events o.id (.update u, .update (.ok ups)) =
              ((fillRule u o).map (report c.env s'.ms.ts o)).toList.filterMap (heard o.id) := by
            rw [h2]
            exact heard_one ht _ hi.nodup ho
          rw [hev]
          cases hf : fillRule u o with
          | none => rfl
          | some q =>
            by_cases hq : q = o.remaining
            · simp [report, hq, heard, portions]
            · simp [report, hq, heard, filledBy, portions]
              omega
        rw [List.flatMap_def, List.map_congr_left this, ← List.flatMap_def]
        simp only [makerFills]
        induction s.active with
        | nil => rfl
        | cons y ys ih =>
          simp only [List.flatMap_cons, List.filterMap_cons, ih]
          cases fillRule u y <;> rfl
      rw [e1]
      rw [e2] at hp
      exact (List.reverse_perm _).trans hp.symm
    | error err =>
      obtain ⟨_, h2, _, _⟩ := C30_liquidation_flattens c s s' u err hr hst
      refine ⟨[closingFill s.pos (quotesAfter s.ms u)], [closingFill s.pos (quotesAfter s.ms u)], rfl, h2, ?_⟩
      rw [hq _ (fun _ _ => rfl)]
      exact List.Perm.refl _
  · exact absurd ha (fun h => h)
  · refine ⟨[], [], ?_, rfl, ?_⟩
    · cases op <;> rfl
    · rw [hq _ (fun _ _ => by cases op <;> rfl)]
      cases op <;> exact List.Perm.refl _
  · cases x with
    | ok f =>
      obtain ⟨h1, h2, _⟩ := C21_market_order c s s' hr side q uid f hst
      refine ⟨[], [⟨false, side, touchPrice s.ms side, q⟩], rfl, h2, ?_⟩
      rw [hq _ (fun _ _ => rfl)]
      simp [taken, h1]
    | error err =>
      refine ⟨[], [], rfl, ?_, ?_⟩
      · obtain ⟨h1, _⟩ := C17_rejected_market c s s' side q uid err hst
        rw [h1]; rfl
      · rw [hq _ (fun _ _ => rfl)]
        exact List.Perm.refl _
  · have hf : fills s'.log = fills s.log := by
      rcases turn hr hst with ⟨u, h | h, _⟩ | ⟨u, h, _⟩ | ⟨_, _, _, h, _⟩ | ⟨_, h2⟩
      all_goals first | cases h | exact h2
    refine ⟨[], [], by cases x <;> rfl, hf, ?_⟩
    rw [hq]
    · cases x <;> exact List.Perm.refl _
    · intro id o
      cases x with
      | error _ => rfl
      | ok n => simp only [events]; split <;> rfl
  · have hf : fills s'.log = fills s.log := by
      rcases turn hr hst with ⟨u, h | h, _⟩ | ⟨u, h, _⟩ | ⟨_, _, _, h, _⟩ | ⟨_, h2⟩
      all_goals first | cases h | exact h2
    refine ⟨[], [], by cases x <;> rfl, hf, ?_⟩
    rw [hq]
    · cases x <;> exact List.Perm.refl _
    · intro id o
      cases x with
      | error err =>
        simp only [events]
        split <;> first | rfl | (split <;> rfl)
      | ok n =>
        simp only [events]
        split <;> split <;> rfl
  · have hf : fills s'.log = fills s.log := by
      rcases turn hr hst with ⟨u, h | h, _⟩ | ⟨u, h, _⟩ | ⟨_, _, _, h, _⟩ | ⟨_, h2⟩
      all_goals first | cases h | exact h2
    refine ⟨[], [], by cases x <;> rfl, hf, ?_⟩
    rw [hq]
    · cases x <;> exact List.Perm.refl _
    · intro id o
      cases x with
      | error _ => rfl
      | ok n => simp only [events]; split <;> rfl

/-! ### Whole histories -/

theorem due_history {c : Cfg} {N : Nat} : ∀ (ops : List Op) (s s' : State) (tr : List (Op × Resp)),
    Reachable c s → (∀ op ∈ ops, audible op) → history c s ops = .ok (s', tr) → s'.nextId ≤ N →
    ∃ forced new : List Fill, forced.length = (tr.filter liquidates).length ∧
      fills s'.log = new ++ fills s.log ∧
      new.Perm (tr.flatMap taken ++ forced ++ (List.range N).flatMap (due s tr))
  | [], s, s', tr, hr, _, h, _ => by
    simp only [history, ok_inj, Prod.mk.injEq] at h
    obtain ⟨rfl, rfl⟩ := h
    refine ⟨[], [], rfl, rfl, ?_⟩
    have : (List.range N).flatMap (due s []) = [] := by
      rw [List.flatMap_eq_nil_iff]
      intro id _
      unfold due
      cases now s id <;> rfl
    rw [this]
    exact List.Perm.refl _
  | op :: ops, s, s', tr, hr, ha, h, hN => by
    simp only [history, bind_ok, ok_inj, Prod.mk.injEq] at h
    obtain ⟨⟨s1, r⟩, h1, ⟨s2, tr2⟩, h2, rfl, rfl⟩ := h
    have hr1 := hr.step h1
    obtain ⟨f2, n2, l2, e2, p2⟩ := due_history (N := N) ops s1 s2 tr2 hr1
      (fun x hx => ha x (List.mem_cons_of_mem _ hx)) h2 hN
    have hn := (step_nextId hr.inv h1).1
    have hN' : s2.nextId ≤ N := hN
    have hn2 : s1.nextId ≤ s2.nextId := nextId_history hr1 h2
    obtain ⟨f1, n1, l1, e1, p1⟩ := told_step (N := N) hr h1 (ha op List.mem_cons_self) (by omega)
    refine ⟨f1 ++ f2, n2 ++ n1, ?_, by rw [e2, e1, List.append_assoc], ?_⟩
    · rw [List.length_append, l1, l2, ← List.length_append, ← List.filter_append]; rfl
    · have hsp := flatMap_split (l := List.range N) (f := due s ((op, r) :: tr2))
        (fun id _ => due_step hr h1 h2 (ha op List.mem_cons_self) id)
      refine (p2.append p1).trans ?_
      rw [List.flatMap_cons]
      refine List.Perm.trans ?_ (hsp.append_left _).symm
      exact shuffle _ _ _ _ _ _

/-- C147: the fills of an account are those the answers to its market orders tell of, one for each
liquidation, and those each of its limit orders had in its life, in some sequence. -/
theorem C147_sum_of_lives (c : Cfg) (ops : List Op) (s : State) (tr : List (Op × Resp))
    (ha : ∀ op ∈ ops, audible op) (h : history c (State.init c) ops = .ok (s, tr)) :
    ∃ forced : List Fill, forced.length = (tr.filter liquidates).length ∧
      (fills s.log).Perm (tr.flatMap taken ++ forced ++
        (List.range s.nextId).flatMap (fun id => tradedBy (life id tr))) := by
  obtain ⟨forced, new, h1, h2, h3⟩ := due_history (N := s.nextId) ops _ s tr ⟨[], rfl⟩ ha h (Nat.le_refl _)
  refine ⟨forced, h1, ?_⟩
  rw [h2]
  exact (List.Perm.of_eq (List.append_nil new)).trans h3

/-- An order filled in part by a trade, one filled by a candle, and two market orders. -/
example : (match history Ex.lin (State.init Ex.lin) Ex.ops3 with
    | .ok (s, tr) => decide ((List.range s.nextId).map (fun id => tradedBy (life id tr)) =
        [[], [⟨true, .sell, Ex.d 110, Ex.d 2⟩], [⟨true, .buy, Ex.d 95, Ex.d 2⟩], []] ∧
        (tr.flatMap taken).length = 2 ∧ (fills s.log).length = 4)
    | _ => false) = true := by decide +kernel

/-! ### The same lives -/

theorem flatten_nonempty {β : Type} : ∀ l : List (List β),
    (l.filter (fun x => !x.isEmpty)).flatten = l.flatten
  | [] => rfl
  | [] :: l => by simpa using flatten_nonempty l
  | (x :: xs) :: l => by simpa using flatten_nonempty l

theorem flatten_perm {β : Type} {l l' : List (List β)} (h : l.Perm l') :
    l.flatten.Perm l'.flatten := by
  induction h with
  | nil => exact List.Perm.refl _
  | cons x _ ih => simpa using ih.append_left x
  | swap x y l =>
    simp only [List.flatten_cons, ← List.append_assoc]
    exact List.perm_append_comm.append_right _
  | trans _ _ h1 h2 => exact h1.trans h2

theorem netBought_sum : ∀ l : List Fill, netBought l = (l.map Fill.signed).sum
  | [] => rfl
  | f :: l => by simp [netBought, netBought_sum l]

theorem feeSum_sum (c : Cfg) : ∀ l : List Fill, feeSum c l = (l.map (Fill.fee c)).sum
  | [] => rfl
  | f :: l => by simp [feeSum, feeSum_sum c l]

/-- C147: two accounts with the same market orders, whose limit orders had the same fills in their
lives, in whichever sequence, and apart from orders that were never filled, hold the same quantity and
have run up the same fees. In a linear contract they are worth the same at every price, up to
rounding: what the sequence changes about realised profit and entry price (C146) makes no difference
to the sum. -/
theorem C147_same_lives (c : Cfg) (ops ops' : List Op) (s s' : State) (tr tr' : List (Op × Resp))
    (ha : ∀ op ∈ ops, audible op) (ha' : ∀ op ∈ ops', audible op)
    (h : history c (State.init c) ops = .ok (s, tr))
    (h' : history c (State.init c) ops' = .ok (s', tr'))
    (hl : ∀ x ∈ tr, liquidates x = false) (hl' : ∀ x ∈ tr', liquidates x = false)
    (hm : (tr.flatMap taken).Perm (tr'.flatMap taken))
    (hL : (filledLives s tr).Perm (filledLives s' tr')) :
    (fills s.log).Perm (fills s'.log) ∧
    s.pos.quantity = s'.pos.quantity ∧
    (0 ≤ c.spec.feeMaker → 0 ≤ c.spec.feeTaker →
      s.feesPaid + s.pos.outstandingFees = s'.feesPaid + s'.pos.outstandingFees) ∧
    (c.env.kind = .linear → ∀ p : Int,
      Spec.abs (((equity s + s.feesPaid) * c.scale + s.pos.quantity * (p - s.pos.entryPrice)) -
        ((equity s' + s'.feesPaid) * c.scale + s'.pos.quantity * (p - s'.pos.entryPrice))) ≤
      profitRounding c (fills s.log) + profitRounding c (fills s'.log)) := by
  have hp : (fills s.log).Perm (fills s'.log) := by
    obtain ⟨f, e, q⟩ := C147_sum_of_lives c ops s tr ha h
    obtain ⟨f', e', q'⟩ := C147_sum_of_lives c ops' s' tr' ha' h'
    have h0 : tr.filter liquidates = [] := by
      rw [List.filter_eq_nil_iff]
      intro x hx
      simp [hl x hx]
    have h0' : tr'.filter liquidates = [] := by
      rw [List.filter_eq_nil_iff]
      intro x hx
      simp [hl' x hx]
    rw [h0] at e
    rw [h0'] at e'
    rw [List.eq_nil_of_length_eq_zero e, List.append_nil] at q
    rw [List.eq_nil_of_length_eq_zero e', List.append_nil] at q'
    have h1 := flatten_perm hL
    rw [filledLives, filledLives, flatten_nonempty, flatten_nonempty, ← List.flatMap_def,
      ← List.flatMap_def] at h1
    exact q.trans ((hm.append h1).trans q'.symm)
  have r := history_run h
  have r' := history_run h'
  have q : s.pos.quantity = s'.pos.quantity := by
    rw [(C06_position_quantity c ops s r).1, (C06_position_quantity c ops' s' r').1, netBought_sum,
      netBought_sum]
    exact sum_perm (hp.map _)
  refine ⟨hp, q, fun h1 h2 => ?_, fun hk p => ?_⟩
  · rw [C04_fee_schedule c ops s r h1 h2, C04_fee_schedule c ops' s' r' h1 h2, feeSum_sum, feeSum_sum]
    exact sum_perm (hp.map _)
  · have m := C68_marked c ops s p hk r
    have m' := C68_marked c ops' s' p hk r'
    rw [sum_perm (hp.map (fun f => f.signed * (p - f.price)))] at m
    have e1 : (equity s - c.start + s.feesPaid) * c.scale =
        (equity s + s.feesPaid) * c.scale - c.start * c.scale := by
      rw [← Int.sub_mul]; congr 1; omega
    have e2 : (equity s' - c.start + s'.feesPaid) * c.scale =
        (equity s' + s'.feesPaid) * c.scale - c.start * c.scale := by
      rw [← Int.sub_mul]; congr 1; omega
    rw [e1] at m
    rw [e2] at m'
    unfold Spec.abs at m m' ⊢
    split at m <;> split at m' <;> split <;> omega

/-- The hypotheses of C147_same_lives are met by the two histories of C146_bystanders_matter, which end
with different entry prices. -/
example : Ex.beside Ex.lin (Ex.around [] []) (Ex.around [Ex.far] [Ex.back]) (fun s tr s' tr' =>
    decide ((∀ x ∈ tr, liquidates x = false) ∧ (∀ x ∈ tr', liquidates x = false) ∧
      tr.flatMap taken = tr'.flatMap taken ∧ filledLives s tr = filledLives s' tr' ∧
      (filledLives s tr).length = 2 ∧ (tr.flatMap taken).length = 1 ∧
      fills s.log ≠ fills s'.log ∧ s.pos.entryPrice ≠ s'.pos.entryPrice)) = true := by
  decide +kernel

end Lfest
