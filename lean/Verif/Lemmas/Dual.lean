import Verif.SpecDual
import Verif.Reference
import Verif.Lemmas.Fill
import Verif.Lemmas.Clean

/-! # Both sides of a contract on the reference exchange -/

namespace Lfest.Dual

open Spec Ref

/-! ## Prices -/

theorem price_pos {S p p' : Int} (hS : 0 < S) (h : price S p p') : 0 < p' := by
  obtain ⟨h1, h2⟩ := h
  have h3 := Int.mul_pos hS hS
  rcases Int.lt_or_le 0 p' with h4 | h4
  · exact h4
  · have := Int.mul_le_mul_of_nonneg_left h4 (Int.le_of_lt h1)
    omega

theorem price_symm {S p p' : Int} (hS : 0 < S) (h : price S p p') : price S p' p :=
  ⟨price_pos hS h, by rw [Int.mul_comm]; exact h.2⟩

theorem price_lt {S a a' b b' : Int} (hS : 0 < S) (ha : price S a a') (hb : price S b b') (h : a < b) :
    b' < a' := by
  rcases Int.lt_or_le b' a' with h1 | h1
  · exact h1
  · have h2 := Int.mul_le_mul_of_nonneg_left h1 (Int.le_of_lt ha.1)
    have h3 := Int.mul_lt_mul_of_pos_right h (price_pos hS hb)
    have := ha.2; have := hb.2
    omega

theorem price_lt_iff {S a a' b b' : Int} (hS : 0 < S) (ha : price S a a') (hb : price S b b') :
    a < b ↔ b' < a' :=
  ⟨price_lt hS ha hb, price_lt hS (price_symm hS hb) (price_symm hS ha)⟩

theorem price_le_iff {S a a' b b' : Int} (hS : 0 < S) (ha : price S a a') (hb : price S b b') :
    a ≤ b ↔ b' ≤ a' := by
  have := price_lt_iff hS hb ha
  omega

theorem price_eq_iff {S a a' b b' : Int} (hS : 0 < S) (ha : price S a a') (hb : price S b b') :
    a = b ↔ a' = b' := by
  have := price_lt_iff hS hb ha
  have := price_lt_iff hS ha hb
  omega

variable {c c' : Cfg}

theorem scale_same (h : Terms c c') : c'.env.scale = c.env.scale := by
  unfold Env.scale; rw [h.decimals]

theorem value_dual (h : Terms c c') {p p' : Int} (hp : price c.env.scale p p') (q : Int) :
    value c'.env q p' = value c.env q p := by
  have hS := scale_pos c.env
  unfold value
  rw [h.inverse, h.linear]
  dsimp only
  rw [scale_same h]
  have e1 : (q * p').tdiv c.env.scale = (p * (q * p')).tdiv (p * c.env.scale) :=
    (Int.mul_tdiv_mul_of_pos _ _ hp.1).symm
  have e2 : (q * c.env.scale).tdiv p = (c.env.scale * (q * c.env.scale)).tdiv (c.env.scale * p) :=
    (Int.mul_tdiv_mul_of_pos _ _ hS).symm
  rw [e1, e2]
  have e3 : p * (q * p') = c.env.scale * (q * c.env.scale) := by
    calc p * (q * p') = q * (p * p') := by rw [← Int.mul_assoc, Int.mul_comm p q, Int.mul_assoc]
      _ = q * (c.env.scale * c.env.scale) := by rw [hp.2]
      _ = c.env.scale * (q * c.env.scale) := by
        rw [← Int.mul_assoc, Int.mul_comm q, Int.mul_assoc, Int.mul_comm q]
  rw [e3, Int.mul_comm p c.env.scale]

theorem share_dual (h : Terms c c') (x r : Int) : share c'.env x r = share c.env x r := by
  unfold share; rw [scale_same h]

theorem value_neg (e : Env) (q p : Int) : value e (-q) p = -value e q p := by
  unfold value
  cases e.kind <;> simp only [Int.neg_mul, Int.neg_tdiv]

theorem pnl_dual (h : Terms c c') {a a' b b' : Int} (ha : price c.env.scale a a')
    (hb : price c.env.scale b b') (q : Int) : Spec.pnl c'.env a' b' (-q) = Spec.pnl c.env a b q := by
  unfold Spec.pnl
  rw [h.inverse, h.linear]
  dsimp only
  rw [value_neg, value_neg, value_dual h ha, value_dual h hb]
  omega

/-! ## Lists -/

theorem along_pairs {α β : Type} {R : α → β → Prop} : ∀ {xs : List α} {ys : List β}, along R xs ys →
    ∃ l : List (α × β), xs = l.map Prod.fst ∧ ys = l.map Prod.snd ∧ ∀ p ∈ l, R p.1 p.2
  | [], [], _ => ⟨[], rfl, rfl, by simp⟩
  | [], _ :: _, h => by cases h
  | _ :: _, [], h => by cases h
  | a :: xs, b :: ys, h => by
    obtain ⟨l, h1, h2, h3⟩ := along_pairs h.2
    refine ⟨(a, b) :: l, by rw [h1]; rfl, by rw [h2]; rfl, ?_⟩
    intro p hp
    rcases List.mem_cons.1 hp with rfl | hp
    · exact h.1
    · exact h3 p hp

theorem pairs_along {α β : Type} {R : α → β → Prop} : ∀ {l : List (α × β)}, (∀ p ∈ l, R p.1 p.2) →
    along R (l.map Prod.fst) (l.map Prod.snd)
  | [], _ => trivial
  | p :: _, h => ⟨h p List.mem_cons_self, pairs_along fun x hx => h x (List.mem_cons_of_mem _ hx)⟩

theorem along_length {α β : Type} {R : α → β → Prop} {xs : List α} {ys : List β} (h : along R xs ys) :
    ys.length = xs.length := by
  obtain ⟨l, rfl, rfl, _⟩ := along_pairs h
  simp

theorem along_append {α β : Type} {R : α → β → Prop} : ∀ {xs : List α} {ys : List β} {xs' : List α}
    {ys' : List β}, along R xs ys → along R xs' ys' → along R (xs ++ xs') (ys ++ ys')
  | [], [], _, _, _, h => h
  | [], _ :: _, _, _, h, _ => by cases h
  | _ :: _, [], _, _, h, _ => by cases h
  | _ :: _, _ :: _, _, _, h, h' => ⟨h.1, along_append h.2 h'⟩

theorem along_map {α β α' β' : Type} {R : α → β → Prop} {R' : α' → β' → Prop} {f : α → α'} {g : β → β'}
    (hfg : ∀ a b, R a b → R' (f a) (g b)) : ∀ {xs : List α} {ys : List β}, along R xs ys →
    along R' (xs.map f) (ys.map g)
  | [], [], _ => trivial
  | [], _ :: _, h => by cases h
  | _ :: _, [], h => by cases h
  | _ :: _, _ :: _, h => ⟨hfg _ _ h.1, along_map hfg h.2⟩

theorem along_dropLast {α β : Type} {R : α → β → Prop} {xs : List α} {ys : List β} (h : along R xs ys) :
    along R xs.dropLast ys.dropLast := by
  obtain ⟨l, rfl, rfl, hl⟩ := along_pairs h
  rw [← List.map_dropLast, ← List.map_dropLast]
  exact pairs_along fun p hp => hl p (List.dropLast_subset _ hp)

theorem along_last {α β : Type} {R : α → β → Prop} {xs : List α} {ys : List β} (h : along R xs ys) :
    (xs.getLast? = none ∧ ys.getLast? = none) ∨ ∃ a b, xs.getLast? = some a ∧ ys.getLast? = some b ∧ R a b := by
  obtain ⟨l, rfl, rfl, hl⟩ := along_pairs h
  rw [List.getLast?_map, List.getLast?_map]
  cases e : l.getLast? with
  | none => exact .inl ⟨rfl, rfl⟩
  | some p => exact .inr ⟨p.1, p.2, rfl, rfl, hl p (List.mem_of_getLast? e)⟩

theorem along_find {α β : Type} {R : α → β → Prop} {p : α → Bool} {q : β → Bool}
    (hpq : ∀ a b, R a b → q b = p a) : ∀ {xs : List α} {ys : List β}, along R xs ys →
    (xs.find? p = none ∧ ys.find? q = none) ∨ ∃ a b, xs.find? p = some a ∧ ys.find? q = some b ∧ R a b
  | [], [], _ => .inl ⟨rfl, rfl⟩
  | [], _ :: _, h => by cases h
  | _ :: _, [], h => by cases h
  | a :: xs, b :: ys, h => by
    have e := hpq _ _ h.1
    cases hp : p a with
    | true => rw [hp] at e; exact .inr ⟨a, b, by simp [hp], by simp [e], h.1⟩
    | false =>
      rw [hp] at e
      rw [List.find?_cons_of_neg (by simp [hp]), List.find?_cons_of_neg (by simp [e])]
      exact along_find hpq h.2

theorem along_takeOut {R : Limit → Limit → Prop} {p q : Limit → Bool} (hpq : ∀ a b, R a b → q b = p a) :
    ∀ {xs ys : List Limit}, along R xs ys → along R (takeOut p xs) (takeOut q ys)
  | [], [], _ => trivial
  | [], _ :: _, h => by cases h
  | _ :: _, [], h => by cases h
  | a :: xs, b :: ys, h => by
    have e := hpq _ _ h.1
    cases hp : p a with
    | true =>
      rw [hp] at e
      simp only [takeOut, hp, e]
      rcases along_last h.2 with ⟨h1, h2⟩ | ⟨y, z, h1, h2, h3⟩
      · simp only [h1, h2]; trivial
      · simp only [h1, h2]; exact ⟨h3, along_dropLast h.2⟩
    | false =>
      rw [hp] at e
      simp only [takeOut, hp, e]
      exact ⟨h.1, along_takeOut hpq h.2⟩

/-! ## Margin of the orders -/

theorem opposite_beq (a b : Side) : (opposite a == opposite b) = (a == b) := by
  cases a <;> cases b <;> rfl

theorem better_dual {S : Int} (hS : 0 < S) {side : Side} {a a' b b' : Int} (ha : price S a a')
    (hb : price S b b') : better (opposite side) a' b' = better side a b := by
  have h1 := price_lt_iff hS ha hb
  have h2 := price_lt_iff hS hb ha
  cases side <;> simp only [better, opposite, h1, h2]

theorem sideValue_dual (h : Terms c c') {side : Side} {k : Int} {os os' : List Limit}
    (ho : along (limit c.env.scale) os os') :
    sideValue c'.env (opposite side) k os' = sideValue c.env side k os := by
  have hS := scale_pos c.env
  obtain ⟨l, rfl, rfl, hl⟩ := along_pairs ho
  have e1 : (l.map Prod.fst).filter (fun o => o.side == side) =
      (l.filter (fun p => p.1.side == side)).map Prod.fst := by rw [List.filter_map]; rfl
  have e2 : (l.map Prod.snd).filter (fun o => o.side == opposite side) =
      (l.filter (fun p => p.1.side == side)).map Prod.snd := by
    rw [List.filter_map]
    congr 1
    apply List.filter_congr
    intro p hp
    simp only [Function.comp, (hl p hp).1, opposite_beq]
  simp only [sideValue, e1, e2]
  generalize hm : l.filter (fun p => p.1.side == side) = m
  have hml : ∀ p ∈ m, limit c.env.scale p.1 p.2 := by
    intro p hp; rw [← hm] at hp; exact hl p (List.mem_filter.1 hp).1
  rw [List.zipIdx_map, List.zipIdx_map, List.map_map, List.map_map]
  congr 1
  apply List.map_congr_left
  intro x hx
  have hx1 := hml x.1 (List.fst_mem_of_mem_zipIdx hx)
  simp only [Function.comp, Prod.map]
  have hu : uncovered (opposite side) k (m.zipIdx.map (Prod.map Prod.snd id)) (x.1.2, x.2) =
      uncovered side k (m.zipIdx.map (Prod.map Prod.fst id)) (x.1.1, x.2) := by
    unfold uncovered
    have hq : qtyOf ((m.zipIdx.map (Prod.map Prod.snd id)).filter
          (fun y => before (opposite side) y (x.1.2, x.2))) =
        qtyOf ((m.zipIdx.map (Prod.map Prod.fst id)).filter (fun y => before side y (x.1.1, x.2))) := by
      rw [List.filter_map, List.filter_map]
      have : m.zipIdx.filter ((fun y => before (opposite side) y (x.1.2, x.2)) ∘ Prod.map Prod.snd id) =
          m.zipIdx.filter ((fun y => before side y (x.1.1, x.2)) ∘ Prod.map Prod.fst id) := by
        apply List.filter_congr
        intro y hy
        have hy1 := hml y.1 (List.fst_mem_of_mem_zipIdx hy)
        simp only [Function.comp, before, Prod.map, id, better_dual hS hy1.2.1 hx1.2.1,
          price_eq_iff hS hy1.2.1 hx1.2.1]
      rw [this]
      unfold qtyOf
      rw [List.map_map, List.map_map]
      congr 1
      apply List.map_congr_left
      intro y hy
      exact (hml y.1 (List.fst_mem_of_mem_zipIdx ((List.mem_filter.1 hy).1))).2.2.1
    rw [hq, hx1.2.2.1]
  exact (congrArg (fun q => value c'.env q x.1.2.price) hu).trans (value_dual h hx1.2.1 _)

theorem larger_comm (a b : Int) : larger a b = larger b a := by unfold larger; split <;> split <;> omega

theorem marginReq_dual (h : Terms c c') {os os' : List Limit} (ho : along (limit c.env.scale) os os')
    (pos : Int) : marginReq c' os' (-pos) = marginReq c os pos := by
  have e1 := sideValue_dual h (side := .buy) (k := larger (-pos) 0) ho
  have e2 := sideValue_dual h (side := .sell) (k := larger pos 0) ho
  simp only [opposite] at e1 e2
  unfold marginReq
  rw [Int.neg_neg, e1, e2, larger_comm, share_dual h, h.margin]

/-! ## Booking a fill -/

def fill (S : Int) (f f' : Fill) : Prop :=
  f'.maker = f.maker ∧ f'.side = opposite f.side ∧ price S f.price f'.price ∧ f'.qty = f.qty

structure Books (S : Int) (l l' : Ledger) : Prop where
  qty : l'.qty = -l.qty
  entry : l.qty ≠ 0 → price S l.entry l'.entry
  owed : l'.owed = l.owed
  paid : l'.paid = l.paid
  realised : l'.realised = l.realised

theorem signed_dual {S : Int} {f f' : Fill} (h : fill S f f') : f'.signed = -f.signed := by
  unfold Fill.signed
  rw [h.2.1, h.2.2.2]
  cases f.side <;> simp [opposite]

theorem fee_dual (h : Terms c c') {f f' : Fill} (hf : fill c.env.scale f f') : f'.fee c' = f.fee c := by
  unfold Fill.fee
  rw [share_dual h, hf.2.2.2, value_dual h hf.2.2.1, hf.1, h.maker, h.taker]

theorem opposing_dual (q : Int) (side : Side) : opposing (-q) (opposite side) = opposing q side := by
  cases side <;> simp only [opposing, opposite, Int.neg_neg]

theorem ledger_dual (h : Terms c c') {l l' : Ledger} (hl : Books c.env.scale l l') {f f' : Fill}
    (hf : fill c.env.scale f f') (ha : l.qty = 0 ∨ 0 < opposing l.qty f.side) :
    Books c.env.scale (l.fill c f) (l'.fill c' f') := by
  have hfee := fee_dual h hf
  have hs := signed_dual hf
  by_cases h0 : l.qty = 0
  · have h0' : l'.qty = 0 := by rw [hl.qty, h0]; rfl
    unfold Ledger.fill
    simp only [if_pos h0, if_pos h0']
    exact ⟨hs, fun _ => hf.2.2.1, hfee, hl.paid, hl.realised⟩
  · have h0' : ¬ l'.qty = 0 := by rw [hl.qty]; omega
    have ha := ha.resolve_left h0
    have hn : ¬ ((0 < l.qty ∧ f.side = .buy) ∨ (l.qty < 0 ∧ f.side = .sell)) := by
      intro hc
      unfold opposing larger at ha
      rcases hc with ⟨h1, h2⟩ | ⟨h1, h2⟩ <;> rw [h2] at ha <;> dsimp only at ha <;> split at ha <;> omega
    have hn' : ¬ ((0 < l'.qty ∧ f'.side = .buy) ∨ (l'.qty < 0 ∧ f'.side = .sell)) := by
      rw [hf.2.1, hl.qty]
      intro hc
      apply hn
      rcases hc with ⟨h1, h2⟩ | ⟨h1, h2⟩
      · right; refine ⟨by omega, ?_⟩; cases hsd : f.side <;> rw [hsd] at h2 <;> first | rfl | cases h2
      · left; refine ⟨by omega, ?_⟩; cases hsd : f.side <;> rw [hsd] at h2 <;> first | rfl | cases h2
    have habs : Spec.abs l'.qty = Spec.abs l.qty := by
      rw [hl.qty]; unfold Spec.abs; split <;> split <;> omega
    have hp := hl.entry h0
    have hpnl : ∀ k : Int, Spec.pnl c'.env l'.entry f'.price (if 0 < l'.qty then k else -k) =
        Spec.pnl c.env l.entry f.price (if 0 < l.qty then k else -k) := by
      intro k
      rw [← pnl_dual h hp hf.2.2.1]
      congr 1
      rw [hl.qty]
      split <;> split <;> omega
    unfold Ledger.fill
    simp only [if_neg h0, if_neg h0', if_neg hn, if_neg hn', habs, hfee, hf.2.2.2, hl.owed, hpnl]
    refine ⟨by simp only [hs, hl.qty]; omega, ?_, rfl, by simp only [hl.paid], by simp only [hl.realised]⟩
    intro hq
    dsimp only at hq ⊢
    have hsq : f.signed = f.qty ∨ f.signed = -f.qty := by
      unfold Fill.signed; split <;> simp
    by_cases h1 : f.qty < Spec.abs l.qty
    · simp only [if_pos h1]; exact hp
    · by_cases h2 : f.qty = Spec.abs l.qty
      · exfalso
        apply hq
        unfold Fill.signed
        unfold opposing larger at ha
        unfold Spec.abs at h2
        cases hsd : f.side <;> rw [hsd] at ha <;> dsimp only at ha ⊢ <;> split at ha <;> split at h2 <;> omega
      · simp only [if_neg h1, if_neg h2]; exact hf.2.2.1

theorem initial_dual (h : Terms c c') {p p' : Int} (hp : price c.env.scale p p') (q : Int) :
    initial c' q p' = initial c q p := by
  unfold initial; rw [share_dual h, value_dual h hp, h.margin]

theorem opposing_qty {q : Int} {side : Side} (h : ¬ opposing q side = 0) : q ≠ 0 := by
  rintro rfl
  apply h
  cases side <;> rfl

theorem locked_dual (h : Terms c c') {l l' : Ledger} (hl : Books c.env.scale l l') {f f' : Fill}
    (hf : fill c.env.scale f f') (k : Int) : lockedAfter c' l' k f' = lockedAfter c l k f := by
  unfold lockedAfter
  rw [hl.qty, hf.2.1, opposing_dual, hf.2.2.2]
  simp only [initial_dual h hf.2.2.1]
  by_cases h0 : opposing l.qty f.side = 0
  · simp only [if_pos h0]
  · simp only [if_neg h0, initial_dual h (hl.entry (opposing_qty h0))]

/-! ## The exchange -/

structure Twins (S : Int) (x y : Ref.Exchange) : Prop where
  quotes : quotes S x.market.bid x.market.ask y.market.bid y.market.ask
  ts : y.market.ts = x.market.ts
  step : y.market.step = x.market.step
  orders : along (limit S) x.orders y.orders
  next : y.next = x.next
  book : Books S x.book y.book
  reserved : y.reserved = x.reserved
  locked : y.locked = x.locked

theorem wallet_dual (h : Terms c c') {x y : Ref.Exchange} (t : Twins c.env.scale x y) :
    y.wallet c' = x.wallet c := by
  unfold Ref.Exchange.wallet
  rw [h.start, t.book.realised, t.book.paid, t.reserved, t.locked]

theorem required_dual (h : Terms c c') {x y : Ref.Exchange} (t : Twins c.env.scale x y) :
    y.required c' = x.required c := by
  unfold Ref.Exchange.required
  rw [t.book.qty, marginReq_dual h t.orders]

theorem touch_dual {S : Int} {x y : Ref.Exchange} (t : Twins S x y) (side : Side) :
    price S (touchPrice x.market side) (touchPrice y.market (opposite side)) := by
  cases side
  · exact t.quotes.2
  · exact t.quotes.1

theorem needed_dual (h : Terms c c') {p p' : Int} (hp : price c.env.scale p p') (q : Int) :
    needed c' q p' = needed c q p := by
  unfold needed; rw [share_dual h, share_dual h, value_dual h hp, h.margin, h.taker]

theorem affordable_dual (h : Terms c c') {x y : Ref.Exchange} (t : Twins c.env.scale x y) (side : Side)
    (q : Int) : affordable c' y (opposite side) q = affordable c x side q := by
  unfold affordable
  simp only [t.book.qty, opposing_dual, needed_dual h (touch_dual t side), wallet_dual h t, t.locked]

theorem marketOrder_dual (h : Terms c c') {x y : Ref.Exchange} (t : Twins c.env.scale x y) (side : Side)
    (q : Int) (uid : Nat)
    (ha : ∀ f, (x.marketOrder c side q uid).2 = .ok f → x.book.qty = 0 ∨ 0 < opposing x.book.qty side) :
    Twins c.env.scale (x.marketOrder c side q uid).1 (y.marketOrder c' (opposite side) q uid).1 ∧
    resp c.env.scale (.market (x.marketOrder c side q uid).2)
      (.market (y.marketOrder c' (opposite side) q uid).2) := by
  unfold Ref.Exchange.marketOrder at ha ⊢
  rw [h.quantities]
  cases hq : quantityError c.spec.quantityFilter q with
  | some err => exact ⟨t, rfl⟩
  | none =>
    have hp := touch_dual t side
    rw [hq] at ha
    dsimp only at ha ⊢
    rw [affordable_dual h t]
    by_cases hc : affordable c x side q = true
    · simp only [if_pos hc] at ha ⊢
      have hf : fill c.env.scale ⟨false, side, touchPrice x.market side, q⟩
          ⟨false, opposite side, touchPrice y.market (opposite side), q⟩ := ⟨rfl, rfl, hp, rfl⟩
      refine ⟨⟨t.quotes, t.ts, t.step, t.orders, by simp only [Ref.Exchange.fill, t.next],
        ledger_dual h t.book hf (ha _ rfl), t.reserved, ?_⟩, rfl, hp, rfl, rfl, t.next, rfl, t.ts, t.ts⟩
      simp only [Ref.Exchange.fill, t.locked]
      exact locked_dual h t.book hf _
    · simp only [if_neg hc]
      exact ⟨⟨t.quotes, t.ts, t.step, t.orders, by simp only [t.next], t.book, t.reserved, t.locked⟩, rfl⟩

theorem crossing_dual {S : Int} (hS : 0 < S) {x y : Ref.Exchange} (t : Twins S x y) {side : Side} {p p' : Int}
    (hp : price S p p') : crossing y.market (opposite side) p' = crossing x.market side p := by
  cases side
  · simp only [crossing, opposite, price_le_iff hS t.quotes.2 hp]
  · simp only [crossing, opposite, price_le_iff hS hp t.quotes.1]

theorem priceError_refused {e : Env} {f : PriceFilter} {p m : Int} {err : OrderError}
    (h : priceError e f p m = some err) : priceRefused (.limit (.error (.order err))) = true := by
  unfold priceError at h
  repeat' split at h
  all_goals first | (simp only [Option.some.injEq] at h; subst h; rfl) | cases h

theorem limitOrder_dual (h : Terms c c') {x y : Ref.Exchange} (t : Twins c.env.scale x y) {side : Side}
    {p p' : Int} (hp : price c.env.scale p p') {q : Int} {uid : Nat}
    (hr : priceRefused (.limit (x.limitOrder c side p q uid).2) = false)
    (hr' : priceRefused (.limit (y.limitOrder c' (opposite side) p' q uid).2) = false) :
    Twins c.env.scale (x.limitOrder c side p q uid).1 (y.limitOrder c' (opposite side) p' q uid).1 ∧
    resp c.env.scale (.limit (x.limitOrder c side p q uid).2)
      (.limit (y.limitOrder c' (opposite side) p' q uid).2) := by
  have hS := scale_pos c.env
  unfold Ref.Exchange.limitOrder at hr hr' ⊢
  rw [h.quantities] at hr' ⊢
  cases hq : quantityError c.spec.quantityFilter q with
  | some err =>
    refine ⟨t, ?_⟩
    unfold quantityError at hq
    repeat' split at hq
    all_goals first | (simp only [Option.some.injEq] at hq; subst hq; rfl) | cases hq
  | none =>
    rw [hq] at hr hr'
    dsimp only at hr hr' ⊢
    cases e1 : priceError c.env c.spec.priceFilter p (mid x.market) with
    | some err =>
      rw [e1] at hr
      dsimp only at hr
      rw [priceError_refused e1] at hr; cases hr
    | none =>
      cases e2 : priceError c'.env c'.spec.priceFilter p' (mid y.market) with
      | some err =>
        rw [e2] at hr'
        dsimp only at hr'
        rw [priceError_refused e2] at hr'; cases hr'
      | none =>
        dsimp only
        have hord : limit c.env.scale ⟨uid, side, p, q, x.next, x.market.ts, .unfilled⟩
            ⟨uid, opposite side, p', q, y.next, y.market.ts, .unfilled⟩ :=
          ⟨rfl, hp, rfl, rfl, t.next, rfl, t.ts⟩
        have t1 : Twins c.env.scale { x with next := x.next + 1 } { y with next := y.next + 1 } :=
          ⟨t.quotes, t.ts, t.step, t.orders, by simp only [t.next], t.book, t.reserved, t.locked⟩
        have hos := along_append t.orders (xs' := [_]) (ys' := [_]) ⟨hord, trivial⟩
        have t2 : Twins c.env.scale
            { x with next := x.next + 1,
                     orders := x.orders ++ [⟨uid, side, p, q, x.next, x.market.ts, .unfilled⟩] }
            { y with next := y.next + 1,
                     orders := y.orders ++ [⟨uid, opposite side, p', q, y.next, y.market.ts, .unfilled⟩] } :=
          ⟨t.quotes, t.ts, t.step, hos, by simp only [t.next], t.book, t.reserved, t.locked⟩
        have r2 := required_dual h t2
        rw [r2, wallet_dual h t, required_dual h t, crossing_dual hS t hp, h.places, along_length t.orders]
        split
        · exact ⟨t1, rfl⟩
        · split
          · exact ⟨t1, hp, touch_dual t side⟩
          · split
            · exact ⟨t1, rfl⟩
            · exact ⟨⟨t.quotes, t.ts, t.step, hos, by simp only [t.next], t.book, by simp only [t.reserved],
                t.locked⟩, hord⟩

theorem cancel_dual (h : Terms c c') {x y : Ref.Exchange} (t : Twins c.env.scale x y) (b : CancelBy) :
    Twins c.env.scale (x.cancel c b).1 (y.cancel c' b).1 ∧
    resp c.env.scale (.limit (x.cancel c b).2) (.limit (y.cancel c' b).2) := by
  have hn : ∀ o o', limit c.env.scale o o' → names b o' = names b o := by
    intro o o' ho
    cases b <;> simp only [names, ho.2.2.2.2.1, ho.2.2.2.2.2.1]
  unfold Ref.Exchange.cancel
  rcases along_find hn t.orders with ⟨h1, h2⟩ | ⟨a, a', h1, h2, h3⟩
  · simp only [h1, h2]
    refine ⟨t, ?_⟩
    cases b with
    | orderId id =>
      simp only [Ref.Exchange.missing, t.next]
      split <;> rfl
    | userOrderId uid => rfl
  · simp only [h1, h2]
    have hos := along_takeOut hn t.orders
    have t2 : Twins c.env.scale { x with orders := takeOut (names b) x.orders }
        { y with orders := takeOut (names b) y.orders } :=
      ⟨t.quotes, t.ts, t.step, hos, t.next, t.book, t.reserved, t.locked⟩
    exact ⟨⟨t.quotes, t.ts, t.step, hos, t.next, t.book, required_dual h t2, t.locked⟩, h3⟩

theorem amend_dual (h : Terms c c') {x y : Ref.Exchange} (t : Twins c.env.scale x y) {id : Nat} {side : Side}
    {p p' : Int} (hp : price c.env.scale p p') {q : Int} {uid : Nat}
    (hr : priceRefused (.limit (x.amend c id side p q uid).2) = false)
    (hr' : priceRefused (.limit (y.amend c' id (opposite side) p' q uid).2) = false) :
    Twins c.env.scale (x.amend c id side p q uid).1 (y.amend c' id (opposite side) p' q uid).1 ∧
    resp c.env.scale (.limit (x.amend c id side p q uid).2)
      (.limit (y.amend c' id (opposite side) p' q uid).2) := by
  have hn : ∀ o o', limit c.env.scale o o' → (o'.id == id) = (o.id == id) := by
    intro o o' ho; rw [ho.2.2.2.2.1]
  unfold Ref.Exchange.amend at hr hr' ⊢
  rcases along_find hn t.orders with ⟨h1, h2⟩ | ⟨a, a', h1, h2, h3⟩
  · simp only [h1, h2]
    refine ⟨t, ?_⟩
    simp only [Ref.Exchange.missing, t.next]
    split <;> rfl
  · simp only [h1, h2, h3.2.2.2.1] at hr hr' ⊢
    have tc := (cancel_dual h t (.orderId id)).1
    by_cases hq : q ≤ a.filledQuantity
    · simp only [if_pos hq]
      exact ⟨tc, rfl⟩
    · simp only [if_neg hq] at hr hr' ⊢
      exact limitOrder_dual h tc hp hr hr'

/-! ## Market updates -/

theorem hits_dual {S : Int} (hS : 0 < S) {t t' : Trade} (ht : trade S t t') {side : Side} {p p' : Int}
    (hp : price S p p') : hits t' (opposite side) p' = hits t side p := by
  obtain ⟨h1, h2, _⟩ := ht
  have e1 := price_lt_iff hS h2 hp
  have e2 := price_lt_iff hS hp h2
  cases side <;> cases hs : t.side <;> rw [hs] at h1 <;> simp [hits, opposite, h1, hs, e1, e2]

theorem tradeSum_dual {S : Int} : ∀ {ts ts' : List Trade}, along (trade S) ts ts' → tradeSum ts' = tradeSum ts
  | [], [], _ => rfl
  | [], _ :: _, h => by cases h
  | _ :: _, [], h => by cases h
  | _ :: _, _ :: _, h => by simp only [tradeSum, h.1.2.2.1, tradeSum_dual h.2]

theorem along_filter {α β : Type} {R : α → β → Prop} {p : α → Bool} {q : β → Bool}
    (hpq : ∀ a b, R a b → q b = p a) : ∀ {xs : List α} {ys : List β}, along R xs ys →
    along R (xs.filter p) (ys.filter q)
  | [], [], _ => trivial
  | [], _ :: _, h => by cases h
  | _ :: _, [], h => by cases h
  | a :: xs, b :: ys, h => by
    have e := hpq _ _ h.1
    cases hp : p a with
    | true =>
      rw [hp] at e
      rw [List.filter_cons_of_pos (by simp [hp]), List.filter_cons_of_pos (by simp [e])]
      exact ⟨h.1, along_filter hpq h.2⟩
    | false =>
      rw [hp] at e
      rw [List.filter_cons_of_neg (by simp [hp]), List.filter_cons_of_neg (by simp [e])]
      exact along_filter hpq h.2

theorem along_nil {α β : Type} {R : α → β → Prop} {xs : List α} {ys : List β} (h : along R xs ys) :
    ys = [] ↔ xs = [] := by
  cases xs <;> cases ys <;> simp_all [along]

theorem fillRule_dual {S : Int} (hS : 0 < S) {u u' : UpdateArg} (hu : arg S u u') {o o' : Limit}
    (ho : limit S o o') : fillRule u' o' = fillRule u o := by
  obtain ⟨h1, h2, h3, _⟩ := ho
  cases u <;> cases u' <;> simp only [arg] at hu
  · rfl
  · simp only [fillRule, h1, hits_dual hS hu h2, hu.2.2.1, h3]
  · rename_i k k'
    obtain ⟨_, ⟨hl, hh⟩, _⟩ := hu
    have e1 := price_lt_iff hS hl h2
    have e2 := price_lt_iff hS h2 hh
    cases hs : o.side <;> simp only [fillRule, h1, hs, opposite, h3, e1, e2]
  · rename_i ts b pf ts' b' pf'
    have hf := along_filter (R := trade S) (p := fun t => hits t o.side o.price)
      (q := fun t => hits t o'.side o'.price)
      (fun a b hab => by rw [h1]; exact hits_dual hS hab h2) hu.1
    simp only [fillRule, along_nil hf, tradeSum_dual hf, h3]

theorem updateTime_dual {S : Int} {u u' : UpdateArg} (hu : arg S u u') : updateTime u' = updateTime u := by
  cases u <;> cases u' <;> simp only [arg] at hu
  · simp only [updateTime, hu.2]
  · simp only [updateTime, hu.2.2.2]
  · simp only [updateTime, hu.2.2]
  · rcases along_last hu.1 with ⟨h1, h2⟩ | ⟨a, a', h1, h2, h3⟩
    · simp only [updateTime, h1, h2]
    · simp only [updateTime, h1, h2, Option.map_some, h3.2.2.2]

theorem filledBy_dual {S : Int} {e e' : Env} {o o' : Limit} (ho : limit S o o') (q : Int) :
    limit S (filledBy e o q) (filledBy e' o' q) := by
  obtain ⟨h1, h2, h3, h4, h5, h6, h7⟩ := ho
  exact ⟨h1, h2, by simp only [filledBy, h3], by simp only [filledBy, Limit.filledQuantity] at h4 ⊢; rw [h4],
    h5, h6, h7⟩

/-- From a position of `q` on, no fill of the list, oldest first, adds to the position. -/
def steps : Int → List Fill → Prop
  | _, [] => True
  | q, f :: fs => (q = 0 ∨ 0 < opposing q f.side) ∧ steps (q + f.signed) fs

theorem netBought_signed (fs : List Fill) (f : Fill) : netBought (f :: fs) = netBought fs + f.signed := by
  simp only [netBought]; omega

theorem neverAdds_steps : ∀ (fs gs : List Fill), neverAdds (fs.reverse ++ gs) →
    neverAdds gs ∧ steps (netBought gs) fs
  | [], gs, h => ⟨by simpa using h, trivial⟩
  | f :: fs, gs, h => by
    have h' : neverAdds (fs.reverse ++ (f :: gs)) := by simpa using h
    obtain ⟨h1, h2⟩ := neverAdds_steps fs (f :: gs) h'
    rw [netBought_signed] at h2
    exact ⟨h1.2, h1.1, h2⟩

theorem fill_qty (l : Ledger) (f : Fill) : (l.fill c f).qty = l.qty + f.signed := by
  unfold Ledger.fill
  dsimp only
  split
  · rename_i h; simp only [h]; omega
  · split <;> rfl

theorem matched_dual (h : Terms c c') {u u' : UpdateArg} (hu : arg c.env.scale u u') {x y : Ref.Exchange}
    (t : Twins c.env.scale x y) {o o' : Limit} (ho : limit c.env.scale o o')
    (ha : ∀ q, fillRule u o = some q → x.book.qty = 0 ∨ 0 < opposing x.book.qty o.side) :
    Twins c.env.scale (x.matched c u o) (y.matched c' u' o') := by
  have hS := scale_pos c.env
  unfold Ref.Exchange.matched
  rw [fillRule_dual hS hu ho]
  cases hq : fillRule u o with
  | none => exact t
  | some q =>
    dsimp only
    obtain ⟨h1, h2, h3, h4, h5, h6, h7⟩ := id ho
    have hid : ∀ a a', limit c.env.scale a a' → (a'.id == o'.id) = (a.id == o.id) := by
      intro a a' haa; rw [haa.2.2.2.2.1, h5]
    have hos : along (limit c.env.scale)
        (if q = o.remaining then takeOut (fun y => y.id == o.id) x.orders
          else x.orders.map (fun y => if y.id = o.id then filledBy c.env o q else y))
        (if q = o'.remaining then takeOut (fun y => y.id == o'.id) y.orders
          else y.orders.map (fun y => if y.id = o'.id then filledBy c'.env o' q else y)) := by
      rw [h3]
      split
      · exact along_takeOut hid t.orders
      · refine along_map (R := limit c.env.scale) ?_ t.orders
        intro a a' haa
        show limit _ (if a.id = o.id then filledBy c.env o q else a) (if a'.id = o'.id then filledBy c'.env o' q else a')
        rw [haa.2.2.2.2.1, h5]
        split
        · exact filledBy_dual ho q
        · exact haa
    have hf : fill c.env.scale ⟨true, o.side, o.price, q⟩ ⟨true, o'.side, o'.price, q⟩ := ⟨rfl, h1, h2, rfl⟩
    have hb := ledger_dual h t.book hf (ha q hq)
    have hl : lockedAfter c' y.book y.locked ⟨true, o'.side, o'.price, q⟩ =
        lockedAfter c x.book x.locked ⟨true, o.side, o.price, q⟩ := by
      rw [t.locked]; exact locked_dual h t.book hf _
    have hm := marginReq_dual h hos (x.book.fill c ⟨true, o.side, o.price, q⟩).qty
    rw [← hb.qty] at hm
    refine ⟨t.quotes, t.ts, t.step, hos, t.next, hb, ?_, hl⟩
    simp only [Ref.Exchange.required, Ref.Exchange.fill, t.reserved]
    rw [hm]

theorem matched_qty (u : UpdateArg) (x : Ref.Exchange) (o : Limit) :
    (x.matched c u o).book.qty = x.book.qty + match fillRule u o with
      | none => 0
      | some q => Fill.signed ⟨true, o.side, o.price, q⟩ := by
  unfold Ref.Exchange.matched
  cases fillRule u o with
  | none => simp
  | some q => exact fill_qty _ _

theorem fold_dual (h : Terms c c') {u u' : UpdateArg} (hu : arg c.env.scale u u') :
    ∀ {os os' : List Limit} {x y : Ref.Exchange}, along (limit c.env.scale) os os' →
    Twins c.env.scale x y → steps x.book.qty (makerFills u os) →
    Twins c.env.scale (os.foldl (Ref.Exchange.matched c u) x) (os'.foldl (Ref.Exchange.matched c' u') y)
  | [], [], _, _, _, t, _ => t
  | [], _ :: _, _, _, ho, _, _ => by cases ho
  | _ :: _, [], _, _, ho, _, _ => by cases ho
  | o :: os, o' :: os', x, y, ho, t, ha => by
    have hm := matched_qty (c := c) u x o
    simp only [List.foldl_cons]
    cases hq : fillRule u o with
    | none =>
      rw [hq] at hm
      have e : makerFills u (o :: os) = makerFills u os := by simp [makerFills, hq]
      rw [e] at ha
      refine fold_dual h hu ho.2 (matched_dual h hu t ho.1 (fun q e => by rw [hq] at e; cases e)) ?_
      rw [hm]; simpa using ha
    | some q =>
      rw [hq] at hm
      have e : makerFills u (o :: os) = ⟨true, o.side, o.price, q⟩ :: makerFills u os := by
        simp [makerFills, hq]
      rw [e] at ha
      refine fold_dual h hu ho.2 (matched_dual h hu t ho.1 (fun _ _ => ha.1)) ?_
      rw [hm]; exact ha.2

theorem matchAll_dual (h : Terms c c') {u u' : UpdateArg} (hu : arg c.env.scale u u') {x y : Ref.Exchange}
    (t : Twins c.env.scale x y) (ha : steps x.book.qty (makerFills u x.orders)) :
    Twins c.env.scale (x.matchAll c u) (y.matchAll c' u') :=
  fold_dual h hu t.orders t ha

theorem report_dual {S : Int} {e e' : Env} {o o' : Limit} (ho : limit S o o') (ts q : Int) :
    limitUpdate S (report e ts o q) (report e' ts o' q) := by
  obtain ⟨h1, h2, h3, h4, h5, h6, h7⟩ := id ho
  unfold report
  rw [h3]
  split
  · exact ⟨h1, h2, h2, rfl, by simp only [h4], h5, h6, h7, rfl⟩
  · exact filledBy_dual ho q

theorem along_filterMap {α β γ δ : Type} {R : α → β → Prop} {Q : γ → δ → Prop} {f : α → Option γ}
    {g : β → Option δ}
    (hfg : ∀ a b, R a b → (f a = none ∧ g b = none) ∨ ∃ u v, f a = some u ∧ g b = some v ∧ Q u v) :
    ∀ {xs : List α} {ys : List β}, along R xs ys → along Q (xs.filterMap f) (ys.filterMap g)
  | [], [], _ => trivial
  | [], _ :: _, h => by cases h
  | _ :: _, [], h => by cases h
  | a :: xs, b :: ys, h => by
    rcases hfg a b h.1 with ⟨h1, h2⟩ | ⟨u, v, h1, h2, h3⟩
    · rw [List.filterMap_cons_none h1, List.filterMap_cons_none h2]; exact along_filterMap hfg h.2
    · rw [List.filterMap_cons_some h1, List.filterMap_cons_some h2]; exact ⟨h3, along_filterMap hfg h.2⟩

theorem reports_dual {S : Int} (hS : 0 < S) {e e' : Env} {u u' : UpdateArg} (hu : arg S u u')
    {os os' : List Limit} (h : along (limit S) os os') :
    along (limitUpdate S) (reports e u os) (reports e' u' os') := by
  unfold reports
  refine along_filterMap (R := limit S) ?_ h
  intro a b hab
  rw [fillRule_dual hS hu hab, updateTime_dual hu]
  cases fillRule u a with
  | none => exact .inl ⟨rfl, rfl⟩
  | some q =>
    cases updateTime u with
    | none => exact .inl ⟨rfl, rfl⟩
    | some ts => exact .inr ⟨_, _, rfl, rfl, report_dual hab ts q⟩

/-- The quotes after an update, if there were quotes before or it brings them. -/
theorem seen_dual {S : Int} {u u' : UpdateArg} (hu : arg S u u') {m m' : MarketState}
    (hq : quotes S m.bid m.ask m'.bid m'.ask ∨ setsQuotes u = true) (ht : m'.ts = m.ts) (hs : m'.step = m.step) :
    quotes S (seen m [.update u]).bid (seen m [.update u]).ask (seen m' [.update u']).bid
      (seen m' [.update u']).ask ∧
    (seen m' [.update u']).ts = (seen m [.update u]).ts ∧
    (seen m' [.update u']).step = (seen m [.update u]).step := by
  have htime := updateTime_dual hu
  simp only [seen, htime, ht]
  cases u <;> cases u' <;> simp only [arg] at hu
  · exact ⟨hu.1, trivial, by simp only [stepAfter, hs]⟩
  · exact ⟨hq.resolve_right (by simp [setsQuotes]), trivial, by simp only [stepAfter, hs]⟩
  · exact ⟨hu.1, trivial, by simp only [stepAfter, hs]⟩
  · exact ⟨hu.2, trivial, by simp only [stepAfter, hs]⟩

theorem update_dual (h : Terms c c') {u u' : UpdateArg} (hu : arg c.env.scale u u') {x y : Ref.Exchange}
    (t : Twins c.env.scale { x with market := seen x.market [.update u] }
      { y with market := seen y.market [.update u'] })
    (hx : closesOut (.update (x.update c u).2) = false) (hy : closesOut (.update (y.update c' u').2) = false)
    (ha : steps x.book.qty (makerFills u x.orders)) :
    Twins c.env.scale (x.update c u).1 (y.update c' u').1 ∧
    resp c.env.scale (.update (x.update c u).2) (.update (y.update c' u').2) := by
  by_cases h1 : ({ x with market := seen x.market [.update u] } : Ref.Exchange).underwater c = true
  · rw [update_down h1] at hx; cases hx
  · by_cases h2 : ({ y with market := seen y.market [.update u'] } : Ref.Exchange).underwater c' = true
    · rw [update_down h2] at hy; cases hy
    · rw [update_up h1, update_up h2]
      exact ⟨matchAll_dual h hu t ha, reports_dual (scale_pos c.env) hu t.orders⟩

end Lfest.Dual
