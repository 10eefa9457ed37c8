import Verif.Lemmas.Trace
import Verif.Lemmas.Arith

/-! The fill rules of the market updates. -/

namespace Lfest

open Spec

/-! ### Sorting -/

theorem insertBy_perm {α} (key : α → Int) (x : α) (l : List α) :
    (insertBy key x l).Perm (x :: l) := by
  induction l with
  | nil => exact .refl _
  | cons y ys ih =>
    simp only [insertBy]
    split
    · exact .refl _
    · exact (ih.cons y).trans (.swap x y ys)

theorem sortBy_perm {α} (key : α → Int) (l : List α) : (sortBy key l).Perm l := by
  induction l with
  | nil => exact .refl _
  | cons x xs ih => exact (insertBy_perm key x _).trans (ih.cons x)

theorem insertBy_sorted {α} (key : α → Int) (x : α) (l : List α)
    (h : l.Pairwise (fun a b => key a ≤ key b)) :
    (insertBy key x l).Pairwise (fun a b => key a ≤ key b) := by
  induction l with
  | nil => simp [insertBy]
  | cons y ys ih =>
    simp only [insertBy]
    rw [List.pairwise_cons] at h
    split
    · next hk =>
      rw [List.pairwise_cons]
      refine ⟨fun z hz => ?_, by rw [List.pairwise_cons]; exact h⟩
      simp only [List.mem_cons] at hz
      rcases hz with rfl | hz
      · exact hk
      · have := h.1 z hz; omega
    · next hk =>
      rw [List.pairwise_cons]
      refine ⟨fun z hz => ?_, ih h.2⟩
      rw [(insertBy_perm key x ys).mem_iff] at hz
      simp only [List.mem_cons] at hz
      rcases hz with rfl | hz
      · omega
      · exact h.1 z hz

theorem sortBy_sorted {α} (key : α → Int) (l : List α) :
    (sortBy key l).Pairwise (fun a b => key a ≤ key b) := by
  induction l with
  | nil => simp [sortBy]
  | cons x xs ih => exact insertBy_sorted key x _ ih

/-! ### Cumulative volume -/

/-- Sum of the quantities with price strictly before `k` in the order given by `key`. -/
def volBefore (key : Int → Int) (k : Int) : List (Int × Int) → Int
  | [] => 0
  | x :: xs => (if key x.1 < k then x.2 else 0) + volBefore key k xs

theorem volBefore_perm {key : Int → Int} {k : Int} {l l' : List (Int × Int)} (h : l.Perm l') :
    volBefore key k l = volBefore key k l' := by
  induction h with
  | nil => rfl
  | cons x _ ih => simp [volBefore, ih]
  | swap x y l => simp only [volBefore]; omega
  | trans _ _ i1 i2 => exact i1.trans i2

theorem volBefore_zero {key : Int → Int} {k : Int} {l : List (Int × Int)}
    (h : ∀ x ∈ l, k ≤ key x.1) : volBefore key k l = 0 := by
  induction l with
  | nil => rfl
  | cons x xs ih =>
    have := h x (by simp)
    simp only [volBefore]
    rw [if_neg (by omega), ih (fun y hy => h y (by simp [hy]))]
    omega

theorem aggregateLoop_find {key : Int → Int} (k : Int) (l : List (Int × Int)) :
    ∀ (last sum : Int), (∀ x ∈ l, key last ≤ key x.1) →
      l.Pairwise (fun a b => key a.1 ≤ key b.1) →
      ((aggregateLoop last sum l).reverse.find? (fun v => decide (key v.1 < k))).map Prod.snd =
        if key last < k then some (sum + volBefore key k l) else none := by
  induction l with
  | nil =>
    intro last sum _ _
    simp only [aggregateLoop, volBefore, List.reverse_singleton, List.find?_cons]
    by_cases h : key last < k <;> simp [h]
  | cons x xs ih =>
    obtain ⟨price, q⟩ := x
    intro last sum hl hs
    rw [List.pairwise_cons] at hs
    have hle := hl (price, q) (by simp)
    simp only at hle
    simp only [aggregateLoop]
    split
    · simp only [List.reverse_cons, List.find?_append]
      have i := ih price (sum + q) (fun x hx => hs.1 x hx) hs.2
      by_cases hp : key price < k
      · rw [if_pos hp] at i
        have hlast : key last < k := by omega
        rw [if_pos hlast]
        simp only [volBefore, if_pos hp]
        cases hf : ((aggregateLoop price (sum + q) xs).reverse.find? fun v => decide (key v.1 < k)) with
        | none => rw [hf] at i; simp at i
        | some v => rw [hf] at i; simp at i ⊢; omega
      · rw [if_neg hp] at i
        have hz : volBefore key k ((price, q) :: xs) = 0 := by
          refine volBefore_zero (fun y hy => ?_)
          simp only [List.mem_cons] at hy
          rcases hy with rfl | hy
          · simp only; omega
          · have := hs.1 y hy; simp only at this; omega
        rw [hz]
        cases hf : ((aggregateLoop price (sum + q) xs).reverse.find? fun v => decide (key v.1 < k)) with
        | some v => rw [hf] at i; simp at i
        | none =>
          simp only [Option.none_or, List.find?_cons, List.find?_nil]
          by_cases h : key last < k <;> simp [h]
    · next hne =>
      have he : price = last := by simpa using hne
      subst he
      rw [ih price (sum + q) (fun x hx => hl x (by simp [hx])) hs.2]
      by_cases hp : key price < k
      · simp only [if_pos hp, volBefore]; congr 1; omega
      · simp [if_neg hp]

/-- The aggregated, sorted volume looked up from the back. -/
theorem aggregate_find {key : Int → Int} (k : Int) (l : List (Int × Int))
    (hs : l.Pairwise (fun a b => key a.1 ≤ key b.1)) :
    ((aggregate l).reverse.find? (fun v => decide (key v.1 < k))).map Prod.snd =
      if ∃ x ∈ l, key x.1 < k then some (volBefore key k l) else none := by
  cases l with
  | nil => simp [aggregate]
  | cons x xs =>
    obtain ⟨price, q⟩ := x
    have hs' := hs
    rw [List.pairwise_cons] at hs
    simp only [aggregate]
    rw [aggregateLoop_find (key := key) k _ price 0 (fun y hy => by
      simp only [List.mem_cons] at hy
      rcases hy with rfl | hy
      · exact Int.le_refl _
      · exact hs.1 y hy) hs']
    by_cases hp : key price < k
    · rw [if_pos hp, if_pos ⟨(price, q), by simp, hp⟩]; congr 1; omega
    · rw [if_neg hp, if_neg]
      rintro ⟨y, hy, hk⟩
      simp only [List.mem_cons] at hy
      rcases hy with rfl | hy
      · exact hp hk
      · have := hs.1 y hy; simp only at this; omega

theorem volBefore_trades (side : Side) (key : Int → Int) (k : Int) (ts : List Trade) :
    volBefore key k (tradesOf side ts) =
      tradeSum (ts.filter (fun t => decide (t.side = side ∧ key t.price < k))) := by
  induction ts with
  | nil => rfl
  | cons t ts ih =>
    simp only [tradesOf, List.filter_cons] at *
    by_cases h1 : t.side = side
    · by_cases h2 : key t.price < k
      · simp [h1, h2, volBefore, tradeSum, ih]
      · simp [h1, h2, volBefore, ih]
    · simp [h1, ih]

theorem lowHigh_le (ts : List Trade) : ∀ lo hi : Int,
    (lowHigh lo hi ts).1 ≤ lo ∧ hi ≤ (lowHigh lo hi ts).2 ∧
    ∀ t ∈ ts, (lowHigh lo hi ts).1 ≤ t.price ∧ t.price ≤ (lowHigh lo hi ts).2 := by
  induction ts with
  | nil => intro lo hi; simp [lowHigh]
  | cons t ts ih =>
    intro lo hi
    simp only [lowHigh]
    obtain ⟨h1, h2, h3⟩ := ih (if t.price < lo then t.price else lo)
      (if t.price > hi then t.price else hi)
    have e1 : (if t.price < lo then t.price else lo) ≤ lo ∧
        (if t.price < lo then t.price else lo) ≤ t.price := by split <;> omega
    have e2 : hi ≤ (if t.price > hi then t.price else hi) ∧
        t.price ≤ (if t.price > hi then t.price else hi) := by split <;> omega
    refine ⟨by omega, by omega, ?_⟩
    intro x hx
    simp only [List.mem_cons] at hx
    rcases hx with rfl | hx
    · omega
    · exact h3 x hx

theorem umin_smaller (a b : Int) : umin a b = smaller a b := by
  unfold umin smaller; split <;> split <;> omega

/-- The smart candle agrees with the volume rule. -/
theorem SmartCandle.filled_eq {debug : Bool} {ts : List Trade} {b : Bba} {pf : PriceFilter}
    {sc : SmartCandle} (h : SmartCandle.new debug ts b pf = .ok sc) (o : Limit) :
    sc.filled o = fillRule (.smart ts b pf) o ∧ sc.bba = b ∧ some sc.ts = updateTime (.smart ts b pf) := by
  unfold SmartCandle.new at h
  split at h
  · simp at h
  · next t0 rest =>
    simp only [bind_ok] at h
    obtain ⟨_, _, _, _, r, _, h⟩ := h
    split at h
    · simp at h
    · simp only [bind_ok, ok_inj] at h
      obtain ⟨_, _, rfl⟩ := h
      refine ⟨?_, rfl, by simp [updateTime, List.getLast?_eq_some_getLast]⟩
      simp only [SmartCandle.filled, fillRule]
      generalize t0 :: rest = ts
      generalize hlh : lowHigh t0.price t0.price ts = lh
      have hb := (lowHigh_le ts t0.price t0.price).2.2
      rw [hlh] at hb
      cases hside : o.side with
      | buy =>
        have hh : (fun t => hits t .buy o.price) =
            (fun t : Trade => decide (t.side = .sell ∧ t.price < o.price)) := rfl
        rw [hh]; dsimp only
        have e := aggregate_find (key := id) o.price (sortBy (fun x => x.1) (tradesOf .sell ts))
          (sortBy_sorted (fun x : Int × Int => x.1) _)
        rw [volBefore_perm (sortBy_perm _ _), volBefore_trades] at e
        simp only [id] at e
        have hex : (∃ x ∈ sortBy (fun x : Int × Int => x.1) (tradesOf .sell ts), x.1 < o.price) ↔
            ts.filter (fun t => decide (t.side = .sell ∧ t.price < o.price)) ≠ [] := by
          rw [ne_eq, List.filter_eq_nil_iff]
          constructor
          · rintro ⟨x, hx, hlt⟩ hh
            rw [(sortBy_perm _ _).mem_iff] at hx
            simp only [tradesOf, List.mem_map, List.mem_filter] at hx
            obtain ⟨t, ⟨ht, hs⟩, rfl⟩ := hx
            exact hh t ht (by simp at hs; simp [hs]; exact hlt)
          · intro hh
            simp only [Classical.not_forall, Classical.not_not] at hh
            obtain ⟨t, ht, hd⟩ := hh
            simp at hd
            refine ⟨(t.price, t.qty), ?_, hd.2⟩
            rw [(sortBy_perm _ _).mem_iff]
            simp only [tradesOf, List.mem_map, List.mem_filter]
            exact ⟨t, ⟨ht, by simp [hd.1]⟩, rfl⟩
        by_cases hlow : lh.1 ≥ o.price
        · rw [if_pos hlow, if_pos]
          rw [List.filter_eq_nil_iff]
          intro t ht
          have := (hb t ht).1
          simp; intro _; omega
        · rw [if_neg hlow]
          generalize hg : (aggregate (sortBy (fun x => x.1) (tradesOf Side.sell ts))).reverse.find?
            (fun v => decide (v.1 < o.price)) = g at e ⊢
          by_cases hne : ts.filter (fun t => decide (t.side = .sell ∧ t.price < o.price)) = []
          · rw [if_pos hne]
            rw [if_neg (fun hx => hex.1 hx hne)] at e
            cases g with
            | none => rfl
            | some v => simp at e
          · rw [if_neg hne]
            rw [if_pos (hex.2 hne)] at e
            cases g with
            | none => simp at e
            | some v =>
              simp only [Option.map_some, Option.some.injEq] at e ⊢
              rw [umin_smaller, e]
      | sell =>
        have hh : (fun t => hits t .sell o.price) =
            (fun t : Trade => decide (t.side = .buy ∧ o.price < t.price)) := rfl
        rw [hh]; dsimp only
        have e := aggregate_find (key := fun x => -x) (-o.price) (sortBy (fun x => -x.1) (tradesOf .buy ts))
          (sortBy_sorted (fun x : Int × Int => -x.1) _)
        rw [volBefore_perm (sortBy_perm _ _), volBefore_trades] at e
        have hk : ∀ x : Int, (-x < -o.price) ↔ (o.price < x) := fun x => by omega
        simp only [hk] at e
        have hex : (∃ x ∈ sortBy (fun x : Int × Int => -x.1) (tradesOf .buy ts), o.price < x.1) ↔
            ts.filter (fun t => decide (t.side = .buy ∧ o.price < t.price)) ≠ [] := by
          rw [ne_eq, List.filter_eq_nil_iff]
          constructor
          · rintro ⟨x, hx, hlt⟩ hh
            rw [(sortBy_perm _ _).mem_iff] at hx
            simp only [tradesOf, List.mem_map, List.mem_filter] at hx
            obtain ⟨t, ⟨ht, hs⟩, rfl⟩ := hx
            exact hh t ht (by simp at hs; simp [hs]; exact hlt)
          · intro hh
            simp only [Classical.not_forall, Classical.not_not] at hh
            obtain ⟨t, ht, hd⟩ := hh
            simp at hd
            refine ⟨(t.price, t.qty), ?_, hd.2⟩
            rw [(sortBy_perm _ _).mem_iff]
            simp only [tradesOf, List.mem_map, List.mem_filter]
            exact ⟨t, ⟨ht, by simp [hd.1]⟩, rfl⟩
        by_cases hlow : lh.2 ≤ o.price
        · rw [if_pos hlow, if_pos]
          rw [List.filter_eq_nil_iff]
          intro t ht
          have := (hb t ht).2
          simp; intro _; omega
        · rw [if_neg hlow]
          generalize hg : (aggregate (sortBy (fun x => -x.1) (tradesOf Side.buy ts))).reverse.find?
            (fun v => decide (v.1 > o.price)) = g at e ⊢
          by_cases hne : ts.filter (fun t => decide (t.side = .buy ∧ o.price < t.price)) = []
          · rw [if_pos hne]
            rw [if_neg (fun hx => hex.1 hx hne)] at e
            cases g with
            | none => rfl
            | some v => simp at e
          · rw [if_neg hne]
            rw [if_pos (hex.2 hne)] at e
            cases g with
            | none => simp at e
            | some v =>
              simp only [Option.map_some, Option.some.injEq] at e ⊢
              rw [umin_smaller, e]

/-- All updates agree with the fill rule. -/
theorem filled_eq {debug : Bool} {a : UpdateArg} {u : Update} {o : Limit} {x}
    (hb : a.build debug = .ok u) (h : u.filled debug o = .ok x) : x = fillRule a o := by
  cases a with
  | bba b =>
    simp only [UpdateArg.build, ok_inj] at hb; subst hb
    simp [Update.filled] at h
  | trade t =>
    simp only [UpdateArg.build, ok_inj] at hb; subst hb
    simp only [Update.filled, Trade.filled, bind_ok] at h
    obtain ⟨_, _, _, _, h⟩ := h
    simp only [fillRule, ← umin_smaller]
    cases hs : o.side with
    | buy =>
      simp only [hs] at h
      split at h
      · next hc =>
        simp only [ok_inj] at h; subst h
        rw [if_pos]; simp only [hits, decide_eq_true_eq]; exact ⟨hc.2, hc.1⟩
      · next hc =>
        simp only [ok_inj] at h; subst h
        rw [if_neg]; simp only [hits, decide_eq_true_eq]; exact fun hh => hc ⟨hh.2, hh.1⟩
    | sell =>
      simp only [hs] at h
      split at h
      · next hc =>
        simp only [ok_inj] at h; subst h
        rw [if_pos]; simp only [hits, decide_eq_true_eq]; exact ⟨hc.2, hc.1⟩
      · next hc =>
        simp only [ok_inj] at h; subst h
        rw [if_neg]; simp only [hits, decide_eq_true_eq]; exact fun hh => hc ⟨hh.2, hh.1⟩
  | candle k =>
    simp only [UpdateArg.build, ok_inj] at hb; subst hb
    simp only [Update.filled, Candle.filled, bind_ok] at h
    obtain ⟨_, _, h⟩ := h
    simp only [fillRule]
    cases hs : o.side with
    | buy =>
      simp only [hs] at h ⊢
      by_cases hc : k.low < o.price
      · rw [if_pos hc] at h ⊢; simp only [ok_inj] at h; exact h.symm
      · rw [if_neg hc] at h ⊢; simp only [ok_inj] at h; exact h.symm
    | sell =>
      simp only [hs] at h ⊢
      by_cases hc : o.price < k.high
      · rw [if_pos hc] at h ⊢; simp only [ok_inj] at h; exact h.symm
      · rw [if_neg hc] at h ⊢; simp only [ok_inj] at h; exact h.symm
  | smart ts b pf =>
    simp only [UpdateArg.build, bind_ok, ok_inj] at hb
    obtain ⟨sc, hsc, rfl⟩ := hb
    simp only [Update.filled, ok_inj] at h; subst h
    exact (SmartCandle.filled_eq hsc o).1
  | custom k =>
    simp only [UpdateArg.build, ok_inj] at hb; subst hb
    simp only [Update.filled, ok_inj] at h; subst h; rfl

theorem build_ts {debug : Bool} {a : UpdateArg} {u : Update}
    (hb : a.build debug = .ok u) : updateTime a = some u.ts := by
  cases a with
  | smart ts b pf =>
    simp only [UpdateArg.build, bind_ok, ok_inj] at hb
    obtain ⟨sc, hsc, rfl⟩ := hb
    exact (SmartCandle.filled_eq hsc ⟨0, .buy, 0, 0, 0, 0, .unfilled⟩).2.2.symm
  | _ => simp only [UpdateArg.build, ok_inj] at hb; subst hb; rfl


/-! ### Outcomes in terms of the specification -/

theorem Outcome.spec {c : Cfg} {a : UpdateArg} {u : Update} {o : Limit} {x : Out}
    (hb : a.build c.env.debug = .ok u) (h : Outcome c u o x) :
    (fillRule a o = none ∧ x = ⟨o, none⟩) ∨
    ∃ q, fillRule a o = some q ∧ 0 < q ∧ q ≤ o.remaining ∧
      x = ⟨filledBy c.env o q, some (q, report c.env u.ts o q)⟩ := by
  rcases h with ⟨h1, rfl⟩ | ⟨q, o', r, h1, h2, rfl⟩
  · exact .inl ⟨(filled_eq hb h1).symm, rfl⟩
  · refine .inr ⟨q, (filled_eq hb h1).symm, ?_⟩
    simp only [Limit.fill, bind_ok, assertP_ok] at h2
    obtain ⟨_, hle, _, hq, h2⟩ := h2
    refine ⟨hq, hle, ?_⟩
    cases hfq : o.fq with
    | unfilled =>
      simp only [hfq] at h2
      split at h2
      · next he =>
        simp only [ok_inj, Prod.mk.injEq] at h2
        obtain ⟨rfl, rfl⟩ := h2
        simp [filledBy, report, he, reportOf, Limit.filledQuantity, hfq, avgAfter]
      · next he =>
        simp only [ok_inj, Prod.mk.injEq] at h2
        obtain ⟨rfl, rfl⟩ := h2
        simp [filledBy, report, he, reportOf, Limit.filledQuantity, hfq, avgAfter]
    | filled cum avg =>
      simp only [hfq, bind_ok] at h2
      obtain ⟨avg', ha, h2⟩ := h2
      have ha := newWeightedPrice_ok ha
      split at h2
      · next he =>
        have he' : q = o.remaining := by omega
        simp only [ok_inj, Prod.mk.injEq] at h2
        obtain ⟨rfl, rfl⟩ := h2
        simp [filledBy, report, he', reportOf, Limit.filledQuantity, hfq, avgAfter, ha]
      · next he =>
        have he' : q ≠ o.remaining := by omega
        simp only [ok_inj, Prod.mk.injEq] at h2
        obtain ⟨rfl, rfl⟩ := h2
        simp [filledBy, report, he', reportOf, Limit.filledQuantity, hfq, avgAfter, ha]

theorem Outcomes.spec {c : Cfg} {a : UpdateArg} {u : Update} {os : List Limit}
    {xs : List Out} (hb : a.build c.env.debug = .ok u)
    (h : Outcomes c u os xs) :
    (xs.filter (fun x => !x.full)).map Out.after = os.filterMap (survivor c.env a) ∧
    xs.filterMap Out.report = reports c.env a os ∧
    (∀ l, fills (outEvents xs ++ l) = (makerFills a os).reverse ++ fills l) ∧
    (∀ o ∈ os, ∀ q, fillRule a o = some q → 0 < q ∧ q ≤ o.remaining) := by
  have ht := build_ts hb
  induction h with
  | nil => simp [reports, makerFills, outEvents]
  | @cons o os x xs h _ ih =>
    obtain ⟨i1, i2, i3, i4⟩ := ih
    rcases h.spec hb with ⟨hr, rfl⟩ | ⟨q, hr, hq, hle, rfl⟩
    · refine ⟨?_, ?_, ?_, ?_⟩
      · simp [Out.full, survivor, hr]; exact i1
      · simp only [reports] at i2
        simp [reports, hr]; exact i2
      · intro l
        simp only [makerFills] at i3
        simp [outEvents, Out.events, makerFills, hr]; exact i3 l
      · intro o' ho' q hq
        simp only [List.mem_cons] at ho'
        rcases ho' with rfl | ho'
        · rw [hr] at hq; simp at hq
        · exact i4 o' ho' q hq
    · refine ⟨?_, ?_, ?_, ?_⟩
      · by_cases he : q = o.remaining
        · simp [Out.full, survivor, hr, report, he, LimitUpdate.isFull]; exact i1
        · simp [Out.full, survivor, hr, report, he, LimitUpdate.isFull]; exact i1
      · simp only [reports, ht] at i2
        simp [Out.report, reports, hr, ht]; exact i2
      · intro l
        simp only [makerFills] at i3
        simp [outEvents, Out.events, makerFills, hr]
        rw [i3]; simp [fills, filledBy]
      · intro o' ho' q' hq'
        simp only [List.mem_cons] at ho'
        rcases ho' with rfl | ho'
        · rw [hr] at hq'; simp at hq'; subst hq'; exact ⟨hq, hle⟩
        · exact i4 o' ho' q' hq'

theorem build_mayFill {debug : Bool} {a : UpdateArg} {u : Update} (hb : a.build debug = .ok u) :
    mayFill a = u.canFill := by
  cases a with
  | smart ts b pf =>
    simp only [UpdateArg.build, bind_ok, ok_inj] at hb
    obtain ⟨sc, hsc, rfl⟩ := hb; rfl
  | _ => simp only [UpdateArg.build, ok_inj] at hb; subst hb; rfl

theorem fillRule_none {a : UpdateArg} (h : mayFill a = false) (o : Limit) : fillRule a o = none := by
  cases a with
  | bba b => rfl
  | custom k => simp only [mayFill] at h; simp [fillRule, h]
  | _ => simp [mayFill] at h

/-- An update that cannot fill orders. -/
theorem canFill_none {debug : Bool} {a : UpdateArg} {u : Update} (hb : a.build debug = .ok u)
    (hf : u.canFill = false) (o : Limit) : fillRule a o = none :=
  fillRule_none (by rw [build_mayFill hb, hf]) o

theorem no_survivors (e : Env) {a : UpdateArg} (h : ∀ o, fillRule a o = none) (os : List Limit) :
    os.filterMap (survivor e a) = os := by
  have : survivor e a = some := by funext o; simp [survivor, h]
  rw [this, List.filterMap_some]

/-- The matching step in terms of the specification. -/
theorem checkActive_spec {c : Cfg} {s s' : State} {a : UpdateArg} {u : Update}
    (hb : a.build c.env.debug = .ok u) (hi : Inv c s) (h : checkActive c s u = .ok s') :
    s'.active.Perm (s.active.filterMap (survivor c.env a)) ∧
    s'.updates = reports c.env a s.active ∧
    fills s'.log = (makerFills a s.active).reverse ++ fills s.log ∧
    (∀ o ∈ s.active, ∀ q, fillRule a o = some q → 0 < q ∧ q ≤ o.remaining) ∧
    s'.ms = s.ms ∧ s'.nextId = s.nextId := by
  cases hf : u.canFill with
  | false =>
    have hn := canFill_none hb hf
    rw [checkActive_bba h hf]
    rw [no_survivors _ hn]
    exact ⟨.refl _, by simp [reports, hn], by simp [makerFills, hn],
      by simp [hn], rfl, rfl⟩
  | true =>
    obtain ⟨xs, hxs, hp, hu, hl, hm, hn, _⟩ := checkActive_out hi h hf
    obtain ⟨e1, e2, e3, e4⟩ := hxs.spec hb
    exact ⟨e1 ▸ hp, hu.trans e2, by rw [hl, e3], e4, hm, hn⟩

/-- A market update that does not liquidate. -/
theorem update_spec {c : Cfg} {s s' : State} {a : UpdateArg} {ups} (hi : Inv c s)
    (h : step c s (.update a) = .ok (s', .update (.ok ups))) :
    s'.active.Perm (s.active.filterMap (survivor c.env a)) ∧
    ups = reports c.env a s.active ∧ s'.updates = reports c.env a s.active ∧
    fills s'.log = (makerFills a s.active).reverse ++ fills s.log ∧
    (∀ o ∈ s.active, ∀ q, fillRule a o = some q → 0 < q ∧ q ≤ o.remaining) ∧
    s'.nextId = s.nextId := by
  simp only [step, bind_ok, ok_inj, Prod.mk.injEq] at h
  obtain ⟨u, hb, ⟨s2, r⟩, h, rfl, h2⟩ := h
  simp only [Resp.update.injEq] at h2; subst h2
  simp only [updateState, bind_ok] at h
  obtain ⟨s1, h1, h⟩ := h
  obtain ⟨_, _, e3, e4, e5, _⟩ := observe_fields h1
  have hi1 : Inv c s1 := hi.congr e3 e4 (by omega)
  split at h
  · simp [bind_ok] at h
  · simp only [bind_ok, ok_inj, Prod.mk.injEq] at h
    obtain ⟨s3, h3, rfl, h4⟩ := h
    obtain ⟨f1, f2, f3, f4, f5, f6⟩ := checkActive_spec hb hi1 h3
    rw [e3] at f1 f2 f3 f4
    simp only [Except.ok.injEq] at h4; subst h4
    exact ⟨f1, f2, f2, by rw [f3, fills_observe h1], f4, by rw [f6]; omega⟩

/-! ### Open quantity -/

theorem openQty_of_mem {s : State} {o : Limit} (hn : IdsNodup s.active) (ho : o ∈ s.active) :
    openQty s o.id = o.remaining := by
  have := getById_of_mem hn ho
  unfold Book.getById at this
  simp [openQty, this]

theorem openQty_of_not {s : State} {id : Nat} (h : ∀ o ∈ s.active, o.id ≠ id) :
    openQty s id = 0 := by
  have : s.active.find? (fun o => o.id == id) = none := by
    rw [List.find?_eq_none]; intro o ho; simpa using h o ho
  simp [openQty, this]

theorem survivor_fixed {e : Env} {a : UpdateArg} {o o' : Limit} (h : survivor e a o = some o') :
    o'.id = o.id ∧ o'.side = o.side ∧ o'.price = o.price := by
  unfold survivor at h
  split at h
  · simp at h; simp [h]
  · split at h
    · simp at h
    · simp at h; simp [← h, filledBy]

/-- What one update does to the open quantity of an order. -/
theorem update_openQty {c : Cfg} {s s' : State} {a : UpdateArg} {ups} (hi : Inv c s)
    (h : step c s (.update a) = .ok (s', .update (.ok ups))) :
    (∀ o ∈ s.active,
      (∃ o' ∈ s'.active, o'.id = o.id ∧ o'.side = o.side ∧ o'.price = o.price ∧
        o'.remaining = o.remaining - (fillRule a o).getD 0) ∨
      ((∀ o' ∈ s'.active, o'.id ≠ o.id) ∧ fillRule a o = some o.remaining)) ∧
    (∀ id, (∀ o ∈ s.active, o.id ≠ id) → ∀ o ∈ s'.active, o.id ≠ id) := by
  obtain ⟨hp, _⟩ := update_spec hi h
  constructor
  · intro o ho
    cases hf : fillRule a o with
    | none =>
      left
      refine ⟨o, ?_, rfl, rfl, rfl, by simp⟩
      rw [hp.mem_iff, List.mem_filterMap]
      exact ⟨o, ho, by simp [survivor, hf]⟩
    | some q =>
      by_cases he : q = o.remaining
      · right
        refine ⟨fun o' ho' hid => ?_, by rw [he]⟩
        rw [hp.mem_iff, List.mem_filterMap] at ho'
        obtain ⟨p, hpm, hs⟩ := ho'
        have hpid := (survivor_fixed hs).1
        have := getById_of_mem hi.nodup ho
        have h2 := getById_of_mem hi.nodup hpm
        rw [← hpid, hid, this] at h2
        simp at h2; subst h2
        simp [survivor, hf, he] at hs
      · left
        refine ⟨filledBy c.env o q, ?_, rfl, rfl, rfl, by simp [filledBy]⟩
        rw [hp.mem_iff, List.mem_filterMap]
        exact ⟨o, ho, by simp [survivor, hf, he]⟩
  · intro id hno o ho
    rw [hp.mem_iff, List.mem_filterMap] at ho
    obtain ⟨p, hpm, hs⟩ := ho
    rw [(survivor_fixed hs).1]; exact hno p hpm

/-- Induction over histories for a property of each active order that new orders have and
matching keeps. -/
theorem run_active_induct {c : Cfg} {P : Limit → Prop} (hnew : ∀ o, o.fq = .unfilled → P o)
    (hchk : ∀ {s s' : State} {a : UpdateArg} {u : Update}, Inv c s →
      a.build c.env.debug = .ok u → checkActive c s u = .ok s' →
      (∀ o ∈ s.active, P o) → ∀ o ∈ s'.active, P o)
    {ops : List Op} {s : State} (h : run c (State.init c) ops = .ok s) : ∀ o ∈ s.active, P o := by
  obtain ⟨tr, h⟩ := run_history h
  have key := history_induct (c := c) (P := fun s _ => Inv c s ∧ ∀ o ∈ s.active, P o)
    (fun s s' op r tr hp hst => by
      obtain ⟨hi, hp⟩ := hp
      refine ⟨step_inv hi hst, ?_⟩
      have hsub : ∀ {s s' : State} {n : NewLimit} {x}, Inv c s → (∀ o ∈ s.active, P o) →
          submitLimit c s n = .ok (s', x) → ∀ o ∈ s'.active, P o := by
        intro s s' n x hi hp h o ho
        obtain ⟨_, _, _, _, _, _, h2⟩ := submitLimit_arenas (fun x hx => (hi.orders x hx).fresh) h
        rcases h2 with ⟨err, rfl, h3, _⟩ | ⟨rfl, _, _, h3, _⟩
        · rw [h3] at ho; exact hp o ho
        · rw [h3] at ho
          simp only [List.mem_append, List.mem_singleton] at ho
          rcases ho with ho | rfl
          · exact hp o ho
          · exact hnew _ rfl
      have hcan : ∀ {s s' : State} {b : CancelBy} {x}, (∀ o ∈ s.active, P o) →
          cancelLimit c s b = .ok (s', x) → ∀ o ∈ s'.active, P o := by
        intro s s' b x hp h o ho
        obtain ⟨_, ⟨_, rfl, _⟩ | ⟨removed, active', a, m', h1, _, h2, h3, h4, _, rfl, _⟩⟩ :=
          cancelLimit_ok h
        · exact hp o ho
        · obtain ⟨xs, ys, e1, e2⟩ := removeCancel_some h1
          simp only at ho
          rw [e2.mem_iff] at ho
          refine hp o ?_
          rw [e1]; simp only [List.mem_append, List.mem_cons] at *
          rcases ho with ho | ho
          · exact .inl ho
          · exact .inr (.inr ho)
      rcases step_cases hst with ⟨a, u, x, rfl, hb, h, rfl⟩ | ⟨a, u, rfl, hb, h, rfl⟩ |
        ⟨err, rfl, rfl⟩ | ⟨side, qty, uid, x, rfl, _, h, rfl⟩ |
        ⟨_, _, _, _, x, rfl, _, _, h, rfl⟩ | ⟨_, _, _, _, _, x, rfl, _, _, h, rfl⟩ |
        ⟨_, x, rfl, h, rfl⟩
      · simp only [updateState, bind_ok] at h
        obtain ⟨s1, h1, h⟩ := h
        obtain ⟨_, _, e3, e4, e5, _⟩ := observe_fields h1
        have hi1 : Inv c s1 := hi.congr e3 e4 (by omega)
        rw [← e3] at hp
        split at h
        · simp only [bind_ok, ok_inj, Prod.mk.injEq] at h
          obtain ⟨s3, h3, rfl, _⟩ := h
          obtain ⟨_, _, f3, _⟩ := liquidate_fields h3
          rw [f3]; exact hp
        · simp only [bind_ok, ok_inj, Prod.mk.injEq] at h
          obtain ⟨s3, h3, rfl, _⟩ := h
          exact hchk hi1 hb h3 hp
      · exact hchk hi hb h hp
      · exact hp
      · rw [(submitMarket_fields h).2.2.1]; exact hp
      · exact hsub hi hp h
      · rcases amendLimit_cases h with ⟨_, rfl, _⟩ | ⟨old, total, _, _, ⟨_, _, x, hc⟩ | ⟨hq, h⟩⟩
        · exact hp
        · exact hcan hp hc
        · rcases h with ⟨err, hc, _⟩ | ⟨s1, x, hc, hs⟩
          · exact hcan hp hc
          · exact hsub (cancelLimit_inv hi hc) (hcan hp hc) hs
      · exact hcan hp h)
    ops _ _ [] tr ⟨Inv.init c, by simp [State.init]⟩ h
  exact key.2

end Lfest
