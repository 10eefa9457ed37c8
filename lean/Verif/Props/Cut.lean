import Verif.SpecCut
import Verif.Props.Wait
import Verif.Props.Batch
import Verif.Props.Split

/-!
# C126: cutting a limit order into parts

The parts of a limit order are filled by the same trades, each by all of their volume. Together they
are filled no later than the whole, need no more margin and pay no more fees.
-/

namespace Lfest
open Spec

theorem through_alike {u : UpdateArg} {o p : Limit} (hb : BuiltIn u) (h2 : p.side = o.side)
    (h3 : p.price = o.price) : through u p = through u o := by
  cases u with
  | custom k => exact hb.elim
  | _ => simp only [through, h2, h3]

/-- The volume of the matched updates. -/
def volumeThrough (o : Limit) : List UpdateArg → Option Int
  | [] => some 0
  | u :: us => plus (through u o) (volumeThrough o us)

theorem brings_matched (o : Limit) (x : Op × Resp) :
    brings o x = match matched x with
      | some u => through u o
      | none => some 0 := by
  unfold brings matched
  split <;> simp_all [atLeast0]

theorem passed_matched (o : Limit) : ∀ tr : List (Op × Resp),
    passed o tr = volumeThrough o (tr.filterMap matched)
  | [] => rfl
  | x :: tr => by
    rw [passed, passed_matched o tr, brings_matched, List.filterMap_cons]
    cases matched x with
    | some u => rfl
    | none =>
      dsimp only
      cases volumeThrough o (List.filterMap matched tr) <;> simp [plus]

theorem volume_alike {o p : Limit} (h2 : p.side = o.side) (h3 : p.price = o.price) :
    ∀ us : List UpdateArg, (∀ u ∈ us, BuiltIn u) → volumeThrough p us = volumeThrough o us
  | [], _ => rfl
  | u :: us, hb => by
    simp only [volumeThrough, through_alike (hb u (by simp)) h2 h3,
      volume_alike h2 h3 us (fun x hx => hb x (by simp [hx]))]

theorem left_parts {v : Int} (hv : 0 ≤ v) : ∀ qs : List Int, (∀ q ∈ qs, 0 ≤ q) →
    (qs.map fun q => left q (some v)).sum ≤ left qs.sum (some v) ∧ 0 ≤ qs.sum ∧
      qs.sum - (qs.map fun q => left q (some v)).sum = (qs.map fun q => smaller v q).sum ∧
      (qs.map fun q => smaller v q).sum ≤ v * qs.length
  | [], _ => by simp [left]; split <;> omega
  | q :: qs, h => by
    obtain ⟨h1, h2, h3, h4⟩ := left_parts hv qs (fun x hx => h x (by simp [hx]))
    have hq := h q (by simp)
    simp only [List.map_cons, List.sum_cons, List.length_cons]
    have e : v * ((qs.length + 1 : Nat) : Int) = v * qs.length + v := by
      rw [Int.natCast_add, Int.mul_add]; simp
    rw [e]
    simp only [left, smaller] at h1 h3 h4 ⊢
    refine ⟨?_, by omega, ?_, ?_⟩
    · split <;> split <;> split at h1 <;> omega
    · split <;> split <;> omega
    · split <;> omega

/-- C126: if the same market updates are matched in two histories, the parts of an order are together
open by no more than the whole. What unlimited volume fills is filled in both; a volume `v` fills `v`
of the whole, and `v` of each of the parts. -/
theorem C126_parts_fill_faster (c : Cfg) (s s' t t' : State) (hs : Reachable c s)
    (ht : Reachable c t) (o : Limit) (ps : List Limit) (ho : o ∈ s.active) (hp : ∀ p ∈ ps, p ∈ t.active)
    (hparts : partsOf o.side o.price o.remaining (ps.map fun p => (p.side, p.price, p.remaining)))
    (ops ops' : List Op) (tr tr' : List (Op × Resp)) (h : history c s ops = .ok (s', tr))
    (h' : history c t ops' = .ok (t', tr')) (hw : ∀ x ∈ tr, withdraws o.id x = false)
    (hw' : ∀ p ∈ ps, ∀ x ∈ tr', withdraws p.id x = false)
    (hsame : tr.filterMap matched = tr'.filterMap matched)
    (hb : ∀ u ∈ tr.filterMap matched, BuiltIn u) :
    openTogether t' ps ≤ openQty s' o.id ∧
    match passed o tr with
    | none => openTogether t' ps = 0 ∧ openQty s' o.id = 0
    | some v => o.remaining - openQty s' o.id = smaller v o.remaining ∧
      o.remaining - openTogether t' ps = (ps.map fun p => smaller v p.remaining).sum ∧
      o.remaining - openTogether t' ps ≤ v * ps.length := by
  have e0 := C103_waiting c s s' hs o ho ops tr h hw
  have ep : ∀ p ∈ ps, passed p tr' = passed o tr := fun p hpm => by
    have hsp := hparts.1 (p.side, p.price, p.remaining) (List.mem_map.2 ⟨p, hpm, rfl⟩)
    rw [passed_matched, passed_matched, ← hsame]
    exact volume_alike hsp.1 hsp.2 _ hb
  have e1 : openTogether t' ps = (ps.map fun p => left p.remaining (passed o tr)).sum := by
    unfold openTogether
    congr 1
    refine List.map_congr_left (fun p hpm => ?_)
    rw [C103_waiting c t t' ht p (hp p hpm) ops' tr' h' (hw' p hpm), ep p hpm]
  have hsum : (ps.map fun p => p.remaining).sum = o.remaining := by
    have := hparts.2
    rw [List.map_map] at this
    exact this
  have hrem : ∀ q ∈ ps.map fun p => p.remaining, 0 ≤ q := fun q hq => by
    obtain ⟨p, hpm, rfl⟩ := List.mem_map.1 hq
    exact Int.le_of_lt (ht.inv.orders p (hp p hpm)).rem
  rw [e0, e1]
  cases hv : passed o tr with
  | none =>
    have : ∀ l : List Limit, (l.map fun p => left p.remaining none).sum = 0 := fun l => by
      induction l with
      | nil => rfl
      | cons p l ih => rw [List.map_cons, List.sum_cons, ih]; rfl
    rw [this]
    exact ⟨by simp [left], rfl, rfl⟩
  | some v =>
    have hv0 := passed_nonneg hv
    obtain ⟨h1, h2, h3, h4⟩ := left_parts hv0 (ps.map fun p => p.remaining) hrem
    simp only [List.map_map, Function.comp_def, List.length_map] at h1 h3 h4
    rw [hsum] at h1 h2 h3
    refine ⟨h1, ?_, h3, by omega⟩
    simp only [left, smaller]
    split <;> split <;> omega

/-- Values of the parts and the whole. -/
theorem value_of_parts (e : Env) {p : Int} (hp : 0 ≤ p) : ∀ qs : List Int, (∀ q ∈ qs, 0 ≤ q) →
    0 ≤ qs.sum ∧ (qs.map fun q => value e q p).sum ≤ value e qs.sum p ∧
      value e qs.sum p ≤ (qs.map fun q => value e q p).sum + qs.length
  | [], _ => by simp [value_zero]
  | q :: qs, h => by
    obtain ⟨h0, h1, h2⟩ := value_of_parts e hp qs (fun x hx => h x (by simp [hx]))
    have hq := h q (by simp)
    have h3 := value_parts e hq h0 hp
    simp only [List.map_cons, List.sum_cons, List.length_cons]
    omega

theorem resting_map {α : Type} (f : Limit → α) (g : NewLimit → α) (ts : Int)
    (h : ∀ n i, f ⟨n.uid, n.side, n.price, n.qty, i, ts, .unfilled⟩ = g n) :
    ∀ (l : List NewLimit) (next : Nat), (restingOrders next ts l).map f = l.map g
  | [], _ => rfl
  | n :: l, next => by
    simp only [restingOrders, List.map_cons, h, resting_map f g ts h l]

theorem resting_mem {next : Nat} {ts : Int} : ∀ {l : List NewLimit} {o : Limit},
    o ∈ restingOrders next ts l → ∃ n ∈ l, o.side = n.side ∧ o.price = n.price ∧ o.remaining = n.qty := by
  intro l
  induction l generalizing next with
  | nil => intro o h; simp [restingOrders] at h
  | cons n l ih =>
    intro o h
    simp only [restingOrders, List.mem_cons] at h
    rcases h with rfl | h
    · exact ⟨n, by simp, rfl, rfl, rfl⟩
    · obtain ⟨m, hm, h1⟩ := ih h
      exact ⟨m, by simp [hm], h1⟩

/-- The margin of the parts and of the whole. -/
theorem margin_of_parts {c : Cfg} {os : List Limit} {pos : Int} {n : NewLimit} {l : List NewLimit}
    {next : Nat} {ts : Int} (hc : soundConfig c) (hg : GoodOrders os) (hn : 0 < n.price)
    (hq : ∀ m ∈ l, 0 < m.qty)
    (hparts : partsOf n.side n.price n.qty (l.map fun m => (m.side, m.price, m.qty)))
    (hopp : opposing pos n.side = 0) :
    marginReq c (os ++ restingOrders next ts l) pos ≤ marginReq c (os ++ restingOrders next ts [n]) pos ∧
    marginReq c (os ++ restingOrders next ts [n]) pos ≤
      marginReq c (os ++ restingOrders next ts l) pos + l.length + 1 := by
  have hsum : (l.map fun m => m.qty).sum = n.qty := by
    have := hparts.2
    rw [List.map_map] at this
    exact this
  have hlike : ∀ m ∈ l, m.side = n.side ∧ m.price = n.price := fun m hm =>
    hparts.1 (m.side, m.price, m.qty) (List.mem_map.2 ⟨m, hm, rfl⟩)
  have hv := value_of_parts c.env (Int.le_of_lt hn) (l.map fun m => m.qty) (fun q hq' => by
    obtain ⟨m, hm, rfl⟩ := List.mem_map.1 hq'
    exact Int.le_of_lt (hq m hm))
  rw [hsum, List.map_map, List.length_map] at hv
  have hgl : GoodOrders (os ++ restingOrders next ts l) := by
    intro o ho
    rcases List.mem_append.1 ho with ho | ho
    · exact hg o ho
    · obtain ⟨m, hm, _, h2, h3⟩ := resting_mem ho
      rw [h2, h3, (hlike m hm).2]
      exact ⟨hn, Int.le_of_lt (hq m hm)⟩
  have hgn : GoodOrders (os ++ restingOrders next ts [n]) := by
    intro o ho
    rcases List.mem_append.1 ho with ho | ho
    · exact hg o ho
    · obtain ⟨m, hm, _, h2, h3⟩ := resting_mem ho
      simp only [List.mem_singleton] at hm
      subst hm
      rw [h2, h3]
      exact ⟨hn, hv.1⟩
  -- the side of the order
  have hfl : (restingOrders next ts l).filter (fun o => o.side == n.side) = restingOrders next ts l :=
    List.filter_eq_self.2 (fun o ho => by
      obtain ⟨m, hm, h1, _⟩ := resting_mem ho
      rw [h1, (hlike m hm).1]; simp)
  have hfn : (restingOrders next ts [n]).filter (fun o => o.side == n.side) =
      restingOrders next ts [n] := by simp [restingOrders]
  have hvl : ((restingOrders next ts l).map fun o => value c.env o.remaining o.price) =
      l.map ((fun q => value c.env q n.price) ∘ fun m => m.qty) := by
    rw [resting_map (fun o => value c.env o.remaining o.price)
      (fun m => value c.env m.qty m.price) ts (fun _ _ => rfl)]
    exact List.map_congr_left (fun m hm => by simp only [Function.comp, (hlike m hm).2])
  have hsame : sideValue c.env n.side 0 (os ++ restingOrders next ts l) ≤
        sideValue c.env n.side 0 (os ++ restingOrders next ts [n]) ∧
      sideValue c.env n.side 0 (os ++ restingOrders next ts [n]) ≤
        sideValue c.env n.side 0 (os ++ restingOrders next ts l) + l.length := by
    rw [sideValue_zero hgl, sideValue_zero hgn]
    simp only [List.filter_append, List.map_append, List.sum_append, hfl, hfn, hvl]
    simp only [restingOrders, List.map_cons, List.map_nil, List.sum_cons, List.sum_nil]
    omega
  -- the other side
  have hother : ∀ side, side ≠ n.side → ∀ k,
      sideValue c.env side k (os ++ restingOrders next ts l) =
        sideValue c.env side k (os ++ restingOrders next ts [n]) := fun side hside k => by
    refine sideValue_congr ?_
    rw [List.filter_append, List.filter_append]
    congr 1
    have hnil : ∀ m : List NewLimit, (∀ x ∈ m, x.side = n.side) →
        (restingOrders next ts m).filter (fun o => o.side == side) = [] := fun m hm =>
      List.filter_eq_nil_iff.2 (fun o ho => by
        obtain ⟨x, hx, h1, _⟩ := resting_mem ho
        rw [h1, hm x hx]
        simp only [beq_iff_eq]
        exact fun e => hside e.symm)
    rw [hnil l (fun x hx => (hlike x hx).1), hnil [n] (by simp)]
  have hi0 : 0 ≤ c.spec.initMarginReq := hc.2.2.1
  have hi1 : c.spec.initMarginReq ≤ c.env.scale := hc.2.2.2.1
  -- from values to margins
  have key : ∀ x y : Int, 0 ≤ x → x ≤ y → y ≤ x + l.length →
      share c.env x c.spec.initMarginReq ≤ share c.env y c.spec.initMarginReq ∧
      share c.env y c.spec.initMarginReq ≤ share c.env x c.spec.initMarginReq + l.length + 1 := by
    intro x y hx hxy hy
    refine ⟨share_mono hi0 hx hxy, ?_⟩
    have h1 := (share_parts c.env hx (y := y - x) (by omega) hi0).2
    have h2 : share c.env (y - x) c.spec.initMarginReq ≤ y - x := by
      have hS := scale_pos c.env
      unfold share
      rw [Int.tdiv_eq_ediv_of_nonneg (Int.mul_nonneg (by omega) hi0)]
      refine Int.ediv_le_of_le_mul hS ?_
      exact Int.mul_le_mul_of_nonneg_left hi1 (by omega)
    rw [show x + (y - x) = y by omega] at h1
    omega
  have hnl := fun k => sideValue_nonneg (e := c.env) (side := .buy) (k := k) hgl
  unfold marginReq
  cases hside : n.side with
  | buy =>
    have ho := hother .sell (by simp [hside])
    simp only [hside, opposing] at hopp hsame
    rw [hopp, ho]
    refine key _ _ (larger_nonneg (hnl _)) (larger_mono hsame.1 (Int.le_refl _)) ?_
    unfold larger
    split <;> split <;> omega
  | sell =>
    have ho := hother .buy (by simp [hside])
    simp only [hside, opposing] at hopp hsame
    rw [hopp]
    refine key _ _ (larger_nonneg (hnl _)) ?_ ?_
    · rw [ho]; exact larger_mono (Int.le_refl _) hsame.1
    · rw [ho]
      unfold larger
      split <;> split <;> omega

/-- C126, margin: if an order that does not reduce the position is accepted, so are its parts, if each
passes the quantity filter and there is room for them; and they reserve no more margin, up to a unit
per part less. -/
theorem C126_parts_accepted (c : Cfg) (s s1 s2 : State) (n : NewLimit) (l : List NewLimit)
    (tr tr' : List (Op × Resp)) (hc : soundConfig c) (hr : Reachable c s) (hl : inLine c s)
    (hparts : partsOf n.side n.price n.qty (l.map fun m => (m.side, m.price, m.qty))) (hne : l ≠ [])
    (hq : ∀ m ∈ l, 0 < m.qty ∧ quantityOk c.spec.quantityFilter m.qty)
    (hfree : s.active.length + l.length ≤ c.maxOpen) (hopp : opposing s.pos.quantity n.side = 0)
    (h : history c s (submitAll [n]) = .ok (s1, tr)) (hall : allAccepted tr)
    (h' : history c s (submitAll l) = .ok (s2, tr')) :
    allAccepted tr' ∧ s2.acct.balance .orderMargin ≤ s1.acct.balance .orderMargin ∧
      s1.acct.balance .orderMargin ≤ s2.acct.balance .orderMargin + l.length + 1 := by
  obtain ⟨ha, _, hm⟩ := (C92_batch_rule c s s1 [n] tr hc hr hl (by simp) h).1 hall
  have hn := ha n (by simp)
  have hlike : ∀ m ∈ l, m.side = n.side ∧ m.price = n.price := fun m hm =>
    hparts.1 (m.side, m.price, m.qty) (List.mem_map.2 ⟨m, hm, rfl⟩)
  have hmp := margin_of_parts (next := s.nextId) (ts := s.ms.ts) hc (goodOrders hr.inv) hn.1
    (fun m hm => (hq m hm).1) hparts hopp
  have hall' : allAccepted tr' := by
    refine (C92_batch_rule c s s2 l tr' hc hr hl hne h').2 ⟨fun m hml => ?_, hfree, by omega⟩
    obtain ⟨a1, a2, a3, a4, a5⟩ := hn
    unfold admissible
    rw [(hlike m hml).1, (hlike m hml).2]
    exact ⟨a1, (hq m hml).1, (hq m hml).2, a4, a5⟩
  have e1 := C92_effect c s s1 [n] tr hc hr hl h hall
  have e2 := C92_effect c s s2 l tr' hc hr hl h' hall'
  have f1 := e1.2.2.2.2.2.1
  have f2 := e2.2.2.2.2.2.1
  rw [e1.1, e1.2.2.2.1] at f1
  rw [e2.1, e2.2.2.2.1] at f2
  exact ⟨hall', by omega, by omega⟩

/-- C126, fees: the fills of the parts are charged no more than a fill of the whole, and up to two
units per part less. -/
theorem C126_fees_of_parts (c : Cfg) (side : Side) (p : Int) (qs : List Int) (hp : 0 < p)
    (h0 : 0 ≤ c.spec.feeMaker) (h1 : c.spec.feeMaker ≤ c.env.scale) (hq : ∀ q ∈ qs, 0 ≤ q) :
    (qs.map fun q => Fill.fee c ⟨true, side, p, q⟩).sum ≤ Fill.fee c ⟨true, side, p, qs.sum⟩ ∧
    Fill.fee c ⟨true, side, p, qs.sum⟩ ≤
      (qs.map fun q => Fill.fee c ⟨true, side, p, q⟩).sum + 2 * qs.length := by
  have := C97_fees_of_parts { c with spec := { c.spec with feeTaker := c.spec.feeMaker } } side p qs hp
    h0 h1 hq
  simpa only [Fill.fee, if_true, Bool.false_eq_true, if_false] using this

/-- C126, sharpness: cut into two halves, an order of ten needs a trade of five instead of ten. -/
theorem C126_twice_as_fast : ∃ (c : Cfg) (s s' t t' : State) (o : Limit) (ps : List Limit)
    (u : UpdateArg) (tr tr' : List (Op × Resp)), Reachable c s ∧ Reachable c t ∧ o ∈ s.active ∧
    (∀ p ∈ ps, p ∈ t.active) ∧ ps.length = 2 ∧
    partsOf o.side o.price o.remaining (ps.map fun p => (p.side, p.price, p.remaining)) ∧
    BuiltIn u ∧ history c s [.update u] = .ok (s', tr) ∧ history c t [.update u] = .ok (t', tr') ∧
    (∀ x ∈ tr, withdraws o.id x = false) ∧ (∀ p ∈ ps, ∀ x ∈ tr', withdraws p.id x = false) ∧
    tr.filterMap matched = [u] ∧ tr'.filterMap matched = [u] ∧
    openTogether t' ps = 0 ∧ 2 * openQty s' o.id = o.remaining ∧ 0 < o.remaining := by
  let whole : List Op := [.update (.bba ⟨Ex.d 99, Ex.d 100, 1⟩), .limit .buy (Ex.d 90) (Ex.d 10) 0]
  let parts : List Op := [.update (.bba ⟨Ex.d 99, Ex.d 100, 1⟩), .limit .buy (Ex.d 90) (Ex.d 5) 0,
    .limit .buy (Ex.d 90) (Ex.d 5) 1]
  let u : UpdateArg := .trade ⟨2, Ex.d 89, Ex.d 5, .sell⟩
  have h : Ex.onward Ex.lin whole [.update u] (fun s s' tr =>
      match s.active with
      | [o] => tr.all (fun x => !withdraws o.id x) && decide (tr.filterMap matched = [u]) &&
          decide (o.side = .buy ∧ o.price = Ex.d 90 ∧ o.remaining = Ex.d 10 ∧
            2 * openQty s' o.id = o.remaining)
      | _ => false) = true := by decide +kernel
  have h' : Ex.onward Ex.lin parts [.update u] (fun s s' tr =>
      decide (s.active.length = 2) && decide (tr.filterMap matched = [u]) &&
      s.active.all (fun p => tr.all fun x => !withdraws p.id x) &&
      decide (partsOf .buy (Ex.d 90) (Ex.d 10) (s.active.map fun p => (p.side, p.price, p.remaining)) ∧
        openTogether s' s.active = 0)) = true := by decide +kernel
  obtain ⟨s, s', tr, hr, hh, hp⟩ := Ex.onward_reach h
  obtain ⟨t, t', tr', hr', hh', hp'⟩ := Ex.onward_reach h'
  split at hp
  · rename_i o ho
    simp only [Bool.and_eq_true, decide_eq_true_eq, List.all_eq_true, Bool.not_eq_true'] at hp hp'
    obtain ⟨⟨w1, w2⟩, w3, w4, w5, w6⟩ := hp
    obtain ⟨⟨⟨v1, v2⟩, v3⟩, v4, v5⟩ := hp'
    refine ⟨Ex.lin, s, s', t, t', o, t.active, u, tr, tr', hr, hr', by rw [ho]; simp, fun _ h => h, v1,
      by rw [w3, w4, w5]; exact v4, trivial, hh, hh', w1, fun p hpm x hx => v3 p hpm x hx, w2, v2, v5,
      w6, by rw [w5]; decide⟩
  · simp at hp

/-- Non-vacuity of C126_parts_accepted: a buy of three next to a long position and another buy, in
three parts. -/
example : Ex.after Ex.lin Ex.ops2 (fun s => decide (0 < s.pos.quantity ∧ s.active ≠ [] ∧
      s.acct.balance .orderMargin = marginReq Ex.lin s.active s.pos.quantity ∧
      opposing s.pos.quantity .buy = 0 ∧ s.active.length + 3 ≤ Ex.lin.maxOpen ∧
      partsOf .buy (Ex.d 90) (Ex.d 3)
        [(.buy, Ex.d 90, Ex.d 1), (.buy, Ex.d 90, Ex.d 1), (.buy, Ex.d 90, Ex.d 1)]) &&
    (match history Ex.lin s (submitAll [⟨0, .buy, Ex.d 90, Ex.d 3⟩]) with
    | .ok (_, tr) => tr.all (fun x => Ex.isOk x.2)
    | _ => false)) = true := by decide +kernel

example : quantityOk Ex.lin.spec.quantityFilter (Ex.d 1) := by
  unfold quantityOk within onGrid; decide +kernel

example : soundConfig Ex.lin ∧ 0 < Ex.lin.spec.feeMaker ∧ Ex.lin.spec.feeMaker ≤ Ex.lin.env.scale := by
  unfold soundConfig; decide

end Lfest
