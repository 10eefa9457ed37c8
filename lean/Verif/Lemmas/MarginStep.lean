import Verif.Lemmas.Margin
import Verif.Lemmas.Trace

/-! How operations change the margin requirement and the order margin balance. -/

namespace Lfest

open Spec

/-! ### Removing and filling orders -/

theorem filter_side_idem (side : Side) (os : List Limit) :
    (os.filter (fun o => o.side == side)).filter (fun o => o.side == side) =
      os.filter (fun o => o.side == side) := by
  rw [List.filter_filter]; simp

/-- The value of a side only depends on the orders of that side. -/
theorem sideValue_congr {e : Env} {side : Side} {k : Int} {os os' : List Limit}
    (h : os.filter (fun o => o.side == side) = os'.filter (fun o => o.side == side)) :
    sideValue e side k os = sideValue e side k os' := by
  unfold sideValue; rw [h]

theorem GoodOrders.perm {l l' : List Limit} (h : GoodOrders l) (hp : l.Perm l') : GoodOrders l' :=
  fun o ho => h o (hp.mem_iff.2 ho)

theorem GoodOrders.filter {l : List Limit} (h : GoodOrders l) (p) : GoodOrders (l.filter p) :=
  fun o ho => h o (List.mem_filter.1 ho).1

theorem sideValue_zero_perm {e : Env} {side : Side} {l l' : List Limit} (h : GoodOrders l)
    (hp : l.Perm l') : sideValue e side 0 l = sideValue e side 0 l' := by
  rw [sideValue_zero h, sideValue_zero (h.perm hp)]
  exact sum_perm ((hp.filter _).map _)

theorem sideValue_price {e : Env} {side : Side} {k : Int} {os : List Limit}
    (h : distinctPrices (os.filter (fun o => o.side == side))) :
    sideValue e side k os = priceValue e side k (os.filter (fun o => o.side == side)) := by
  have := sideValue_distinct (e := e) (side := side) (k := k) h
  rw [filter_side_idem] at this
  rw [← this]
  exact sideValue_congr (filter_side_idem side os).symm

theorem sideValue_perm {e : Env} {side : Side} {k : Int} {l l' : List Limit}
    (h : distinctPrices (l.filter (fun o => o.side == side)))
    (hp : l.Perm l') : sideValue e side k l = sideValue e side k l' := by
  rw [sideValue_price h, sideValue_price (h.perm (hp.filter _))]
  exact priceValue_perm e side k (hp.filter _)

/-- Removing an order never raises the value of a side if nothing is covered or prices are
distinct. -/
theorem sideValue_remove {e : Env} {side : Side} {k : Int} {xs ys os' : List Limit} {o : Limit}
    (hg : GoodOrders (xs ++ o :: ys))
    (h : k = 0 ∨ distinctPrices ((xs ++ o :: ys).filter (fun o => o.side == side)))
    (hp : os'.Perm (xs ++ ys)) :
    sideValue e side k os' ≤ sideValue e side k (xs ++ o :: ys) := by
  have hm : (xs ++ o :: ys).Perm (o :: os') := List.perm_middle.trans (hp.symm.cons o)
  have hg' := hg.perm hm
  have hgt : GoodOrders os' := fun x hx => hg' x (by simp [hx])
  rcases h with rfl | hd
  · rw [sideValue_zero_perm hg hm, sideValue_zero hg', sideValue_zero hgt]
    simp only [List.filter_cons]
    split
    · have := value_nonneg e (hg' o (by simp)).2 (Int.le_of_lt (hg' o (by simp)).1)
      simp only [List.map_cons, List.sum_cons]; omega
    · exact Int.le_refl _
  · rw [sideValue_perm hd hm]
    have hd' := hd.perm (hm.filter (fun o => o.side == side))
    rw [sideValue_price hd', sideValue_price (by
      simp only [List.filter_cons] at hd'
      split at hd'
      · exact hd'.of_cons
      · exact hd')]
    simp only [List.filter_cons]
    split
    · next hs =>
      have hgf := hg'.filter (fun o => o.side == side)
      simp only [List.filter_cons, hs, if_true] at hgf
      exact priceValue_cons hgf
    · exact Int.le_refl _

/-- Cancelling never raises the requirement if the orders that reduce the position have
distinct prices. -/
theorem marginReq_remove {c : Cfg} {pos : Int} {xs ys os' : List Limit} {o : Limit}
    (hi : 0 ≤ c.spec.initMarginReq) (hg : GoodOrders (xs ++ o :: ys))
    (h : distinctPrices ((xs ++ o :: ys).filter (fun o => decide (0 < opposing pos o.side))))
    (hp : os'.Perm (xs ++ ys)) :
    marginReq c os' pos ≤ marginReq c (xs ++ o :: ys) pos := by
  have hgt : GoodOrders os' := by
    refine GoodOrders.perm (fun x hx => hg x ?_) hp.symm
    simp only [List.mem_append, List.mem_cons] at hx ⊢
    rcases hx with h | h <;> simp [h]
  have key : ∀ side, opposing pos side = 0 ∨
      distinctPrices ((xs ++ o :: ys).filter (fun o => o.side == side)) := by
    intro side
    by_cases h0 : 0 < opposing pos side
    · right
      have : ((xs ++ o :: ys).filter (fun o => o.side == side)) =
          ((xs ++ o :: ys).filter (fun o => decide (0 < opposing pos o.side))).filter
            (fun o => o.side == side) := by
        rw [List.filter_filter]
        refine List.filter_congr (fun x _ => ?_)
        by_cases hx : x.side = side
        · simp [hx, h0]
        · simp [hx]
      rw [this]
      exact h.filter _
    · left
      cases side <;> simp only [opposing, larger] at h0 ⊢ <;> split <;> simp_all <;> omega
  have k1 := key .buy
  have k2 := key .sell
  simp only [opposing] at k1 k2
  exact marginReq_mono hgt hi (sideValue_remove hg k1 hp) (sideValue_remove hg k2 hp)

/-- What a fill does to the order margin book: the order is removed (up to reordering) or
replaced by one with less remaining. -/
def BookFill (b b' : List Limit) (o : Limit) (q : Int) : Prop :=
  ∃ xs ys, b = xs ++ o :: ys ∧
    ((q = o.remaining ∧ b'.Perm (xs ++ ys)) ∨
     (q < o.remaining ∧ ∃ o', b' = xs ++ o' :: ys ∧ o'.id = o.id ∧ o'.side = o.side ∧
        o'.price = o.price ∧ o'.remaining = o.remaining - q))

/-- The other side is not affected by a fill. -/
theorem BookFill.other {e : Env} {b b' : List Limit} {o : Limit} {q k : Int} {side : Side}
    (h : BookFill b b' o q) (hd : distinctPrices b) (hs : o.side ≠ side) :
    sideValue e side k b' = sideValue e side k b := by
  obtain ⟨xs, ys, rfl, ⟨_, hp⟩ | ⟨_, o', rfl, _, h2, _⟩⟩ := h
  · have e1 : sideValue e side k (xs ++ o :: ys) = sideValue e side k (xs ++ ys) :=
      sideValue_congr (by simp [List.filter_append, hs])
    rw [e1]
    refine sideValue_perm ?_ hp
    have hd' : distinctPrices (xs ++ ys) := (hd.perm List.perm_middle).of_cons
    exact (hd'.perm hp.symm).filter _
  · exact sideValue_congr (by simp [List.filter_append, hs, h2])

/-- A fill of an order whose side is not covered lowers the value of the side. -/
theorem BookFill.own {e : Env} {b b' : List Limit} {o : Limit} {q : Int} {side : Side}
    (h : BookFill b b' o q) (hg : GoodOrders b) (hq : 0 < q) :
    sideValue e side 0 b' ≤ sideValue e side 0 b := by
  obtain ⟨xs, ys, rfl, ⟨_, hp⟩ | ⟨hlt, o', rfl, _, h2, h3, h4⟩⟩ := h
  · exact sideValue_remove hg (.inl rfl) hp
  · have ho := hg o (by simp)
    have hg' : GoodOrders (xs ++ o' :: ys) := by
      intro x hx
      simp only [List.mem_append, List.mem_cons] at hx
      rcases hx with h | rfl | h
      · exact hg x (by simp [h])
      · rw [h3, h4]; exact ⟨ho.1, by omega⟩
      · exact hg x (by simp [h])
    rw [sideValue_zero hg, sideValue_zero hg']
    simp only [List.filter_append, List.filter_cons, h2]
    split
    · have := value_mono (e := e) (q := o'.remaining) (q' := o.remaining) ho.1 (by omega) (by omega)
      rw [← h3] at this
      simp only [List.map_append, List.map_cons, List.sum_append, List.sum_cons, h3] at this ⊢
      omega
    · exact Int.le_refl _

/-- Distinct prices are kept by a fill. -/
theorem BookFill.distinct {b b' : List Limit} {o : Limit} {q : Int}
    (h : BookFill b b' o q) (hd : distinctPrices b) : distinctPrices b' := by
  obtain ⟨xs, ys, rfl, ⟨_, hp⟩ | ⟨hlt, o', rfl, _, h2, h3, h4⟩⟩ := h
  · have hd' : distinctPrices (xs ++ ys) := (hd.perm List.perm_middle).of_cons
    exact hd'.perm hp.symm
  · have h1 := hd.perm List.perm_middle
    refine Spec.distinctPrices.perm ?_ List.perm_middle.symm
    unfold distinctPrices at *
    rw [List.pairwise_cons] at h1 ⊢
    rw [h2, h3]
    exact h1

theorem BookFill.good {b b' : List Limit} {o : Limit} {q : Int}
    (h : BookFill b b' o q) (hg : GoodOrders b) : GoodOrders b' := by
  obtain ⟨xs, ys, rfl, ⟨_, hp⟩ | ⟨hlt, o', rfl, _, h2, h3, h4⟩⟩ := h
  · refine GoodOrders.perm (fun x hx => hg x ?_) hp.symm
    simp only [List.mem_append, List.mem_cons] at hx ⊢
    rcases hx with h | h <;> simp [h]
  · have ho := hg o (by simp)
    intro x hx
    simp only [List.mem_append, List.mem_cons] at hx
    rcases hx with h | rfl | h
    · exact hg x (by simp [h])
    · rw [h3, h4]; exact ⟨ho.1, by omega⟩
    · exact hg x (by simp [h])

/-- `o` is the best priced order of its side. -/
def Best (b : List Limit) (o : Limit) : Prop :=
  ∀ y ∈ b, y.side = o.side → y.id ≠ o.id → better o.side o.price y.price = true

theorem better_asymm {side : Side} {a b : Int} (h : better side a b = true) :
    better side b a = false := by
  cases side <;> simp [better] at * <;> omega

/-- A fill of the best order of a covered side does not raise the value of the side. -/
theorem BookFill.best {e : Env} {b b' : List Limit} {o : Limit} {q k k' : Int}
    (h : BookFill b b' o q) (hg : GoodOrders b) (hd : distinctPrices b) (hn : IdsNodup b)
    (hb : Best b o) (hq : 0 < q) (hk : k - q ≤ k') :
    sideValue e o.side k' b' ≤ sideValue e o.side k b := by
  have hd' := h.distinct hd
  obtain ⟨xs, ys, rfl, h⟩ := h
  have hm : (xs ++ o :: ys).Perm (o :: (xs ++ ys)) := List.perm_middle
  have hsplit := hn.split.1
  have hgm := hg.perm hm
  rw [sideValue_perm (hd.filter _) hm, sideValue_price ((hd.perm hm).filter _)]
  have hfr : ∀ x ∈ (xs ++ ys).filter (fun y => y.side == o.side),
      better o.side o.price x.price = true := by
    intro x hx
    simp only [List.mem_filter, beq_iff_eq] at hx
    have : x ∈ xs ++ o :: ys := by
      have := hx.1
      simp only [List.mem_append, List.mem_cons] at this ⊢
      rcases this with h | h <;> simp [h]
    exact hb x this hx.2 (hsplit x hx.1)
  have hgf : ∀ x ∈ (xs ++ ys).filter (fun y => y.side == o.side), 0 < x.price ∧ 0 ≤ x.remaining :=
    fun x hx => hgm x (by simp [(List.mem_filter.1 hx).1])
  have ho := hgm o (by simp)
  simp only [List.filter_cons, beq_self_eq_true, if_true]
  have hirr : better o.side o.price o.price = false := by cases o.side <;> simp [better]
  -- the other orders of the side
  have hrest : ∀ d : Int, 0 ≤ d → ∀ x ∈ (xs ++ ys).filter (fun y => y.side == o.side),
      d - k' ≤ o.remaining - k →
      value e (clip (d + qsum (((xs ++ ys).filter (fun y => y.side == o.side)).filter
        (fun y => better o.side y.price x.price)) + x.remaining - k') x.remaining) x.price ≤
      value e (clip (qsum ((o :: (xs ++ ys).filter (fun y => y.side == o.side)).filter
        (fun y => better o.side y.price x.price)) + x.remaining - k) x.remaining) x.price := by
    intro d hd0 x hx hdk
    have hx' := hgf x hx
    refine value_mono hx'.1 (clip_nonneg hx'.2) (clip_mono hx'.2 ?_ (Int.le_refl _))
    simp only [List.filter_cons, hfr x hx, if_true]
    simp only [qsum, List.map_cons, List.sum_cons]
    omega
  have hown : ((o :: (xs ++ ys).filter (fun y => y.side == o.side)).filter
      (fun y => better o.side y.price o.price)) = [] := by
    rw [List.filter_eq_nil_iff]
    intro x hx
    simp only [List.mem_cons] at hx
    rcases hx with rfl | hx
    · simp [hirr]
    · simp [better_asymm (hfr x hx)]
  rcases h with ⟨hqr, hp⟩ | ⟨hlt, o', rfl, h1, h2, h3, h4⟩
  · rw [sideValue_perm (hd'.filter _) hp, sideValue_price (hd'.perm hp |>.filter _)]
    unfold priceValue
    simp only [List.map_cons, List.sum_cons, hown]
    have h0 : 0 ≤ value e (clip (qsum [] + o.remaining - k) o.remaining) o.price :=
      value_nonneg e (clip_nonneg ho.2) (Int.le_of_lt ho.1)
    have := sum_map_le (fun x hx => hrest 0 (Int.le_refl 0) x hx (by omega))
    simp only [Int.zero_add] at this
    omega
  · have hm' : (xs ++ o' :: ys).Perm (o' :: (xs ++ ys)) := List.perm_middle
    rw [sideValue_perm (hd'.filter _) hm', sideValue_price ((hd'.perm hm').filter _)]
    unfold priceValue
    simp only [List.filter_cons, h2, beq_self_eq_true, if_true, List.map_cons, List.sum_cons]
    have hown' : (if better o.side o'.price o'.price = true then
        o' :: List.filter (fun y => better o.side y.price o'.price)
          ((xs ++ ys).filter (fun y => y.side == o.side))
        else List.filter (fun y => better o.side y.price o'.price)
          ((xs ++ ys).filter (fun y => y.side == o.side))) = [] := by
      rw [h3, hirr]
      simp only [Bool.false_eq_true, if_false]
      rw [List.filter_eq_nil_iff]
      intro x hx
      simp [better_asymm (hfr x hx)]
    rw [hown', h3, h4]
    have e1 : value e (clip (qsum [] + (o.remaining - q) - k') (o.remaining - q)) o.price ≤
        value e (clip (qsum [] + o.remaining - k) o.remaining) o.price := by
      refine value_mono ho.1 (clip_nonneg (by omega)) (clip_mono (by omega) (by omega) (by omega))
    have e2 := sum_map_le (fun x hx => hrest (o.remaining - q) (by omega) x hx (by omega))
    have e3 : ∀ x ∈ (xs ++ ys).filter (fun y => y.side == o.side),
        value e (clip (qsum (if better o.side o'.price x.price = true then
          o' :: List.filter (fun y => better o.side y.price x.price)
            ((xs ++ ys).filter (fun y => y.side == o.side))
          else List.filter (fun y => better o.side y.price x.price)
            ((xs ++ ys).filter (fun y => y.side == o.side))) + x.remaining - k') x.remaining) x.price =
        value e (clip ((o.remaining - q) + qsum (((xs ++ ys).filter (fun y => y.side == o.side)).filter
          (fun y => better o.side y.price x.price)) + x.remaining - k') x.remaining) x.price := by
      intro x hx
      rw [h3, hfr x hx]
      simp only [if_true, qsum, List.map_cons, List.sum_cons, h4]
    simp only [h3] at e3
    rw [List.map_congr_left e3]
    simp only [List.filter_cons] at e2 hown
    rw [hown]
    omega

/-- Signed quantity of a fill. -/
def signed (side : Side) (q : Int) : Int :=
  match side with
  | .buy => q
  | .sell => -q

/-- A fill never raises the margin requirement if it enlarges the position, or if it fills the
best order of its side. -/
theorem marginReq_fill {c : Cfg} {b b' : List Limit} {o : Limit} {q pos : Int}
    (hi : 0 ≤ c.spec.initMarginReq) (h : BookFill b b' o q) (hg : GoodOrders b)
    (hd : distinctPrices b) (hn : IdsNodup b) (hq : 0 < q)
    (hc : opposing pos o.side = 0 ∨ Best b o) :
    marginReq c b' (pos + signed o.side q) ≤ marginReq c b pos := by
  have hg' := h.good hg
  rcases hc with hc | hc
  · cases hs : o.side with
    | buy =>
      simp only [hs, opposing, signed] at hc ⊢
      have : larger (-(pos + q)) 0 = 0 := by unfold larger at *; split <;> split at hc <;> omega
      refine marginReq_mono hg' hi ?_ ?_
      · rw [this, hc]; exact h.own hg hq
      · rw [h.other hd (by rw [hs]; simp)]
        exact sideValue_cover hg (larger_mono (by omega) (Int.le_refl _))
    | sell =>
      simp only [hs, opposing, signed] at hc ⊢
      have : larger (pos + -q) 0 = 0 := by unfold larger at *; split <;> split at hc <;> omega
      refine marginReq_mono hg' hi ?_ ?_
      · rw [h.other hd (by rw [hs]; simp)]
        exact sideValue_cover hg (larger_mono (by omega) (Int.le_refl _))
      · rw [this, hc]; exact h.own hg hq
  · cases hs : o.side with
    | buy =>
      simp only [signed]
      refine marginReq_mono hg' hi ?_ ?_
      · have := h.best (e := c.env) (k := larger (-pos) 0) (k' := larger (-(pos + q)) 0) hg hd hn hc hq
          (by unfold larger; split <;> split <;> omega)
        rw [hs] at this; exact this
      · rw [h.other hd (by rw [hs]; simp)]
        exact sideValue_cover hg (larger_mono (by omega) (Int.le_refl _))
    | sell =>
      simp only [signed]
      refine marginReq_mono hg' hi ?_ ?_
      · rw [h.other hd (by rw [hs]; simp)]
        exact sideValue_cover hg (larger_mono (by omega) (Int.le_refl _))
      · have := h.best (e := c.env) (k := larger pos 0) (k' := larger (pos + -q) 0) hg hd hn hc hq
          (by unfold larger; split <;> split <;> omega)
        rw [hs] at this; exact this


/-! ### The matching loop -/

theorem ledger_fill_qty (c : Cfg) (l : Ledger) (f : Fill) :
    (l.fill c f).qty = l.qty + f.signed := by
  unfold Ledger.fill
  by_cases h : l.qty = 0
  · simp only [h, if_true]; omega
  · simp only [h, if_false]; split <;> rfl

theorem changePosition_qty {c : Cfg} {a a' : Accounts} {pos pos' : Position} {m : Bool}
    {side : Side} {price q : Int} (hp : PosWF pos)
    (h : changePosition c.env c.spec.initMarginReq a pos q price side
      (Spec.Fill.fee c ⟨m, side, price, q⟩) = .ok (pos', a')) :
    0 < q ∧ PosWF pos' ∧ pos'.quantity = pos.quantity + signed side q ∧
      a'.balance .orderMargin = a.balance .orderMargin := by
  obtain ⟨h1, h2, h3, h4, _⟩ := changePosition_ledger (f := ⟨m, side, price, q⟩) (k := 0) hp h
  refine ⟨h1, h2, ?_, h4⟩
  have := congrArg Spec.Ledger.qty h3
  rw [ledger_fill_qty] at this
  simp only [ledgerOf] at this
  rw [this]
  cases side <;> rfl

/-- Market orders leave the order margin account alone. -/
theorem submitMarket_reserved {c : Cfg} {s s' : State} {o : NewMarket} {r} (hw : PosWF s.pos)
    (h : submitMarket c s o = .ok (s', r)) :
    s'.acct.balance .orderMargin = s.acct.balance .orderMargin := by
  simp only [submitMarket, bind_ok] at h
  obtain ⟨r1, _, h⟩ := h
  split at h
  · simp only [ok_inj, Prod.mk.injEq] at h; obtain ⟨rfl, _⟩ := h; rfl
  · simp only [bind_ok] at h
    obtain ⟨r2, _, h⟩ := h
    split at h
    · simp only [ok_inj, Prod.mk.injEq] at h; obtain ⟨rfl, _⟩ := h; rfl
    · simp only [bind_ok, ok_inj, Prod.mk.injEq] at h
      obtain ⟨s3, hs, rfl, _⟩ := h
      simp only [settleMarket, bind_ok, assertP_ok, ok_inj] at hs
      obtain ⟨_, _, _, hp, v, hv, ⟨p', a'⟩, hr, rfl⟩ := hs
      have := convert_ok hv; subst this
      exact (changePosition_qty (m := false) hw hr).2.2.2

/-- What holds in the matching loop while the order margin is in line. -/
structure LoopInv (c : Cfg) (l : Loop) : Prop where
  nodup : IdsNodup l.om
  good : GoodOrders l.om
  distinct : distinctPrices l.om
  wf : PosWF l.pos
  line : l.acct.balance .orderMargin = marginReq c l.om l.pos.quantity

theorem matchOrder_line {c : Cfg} {u : Update} {l l' : Loop} {o o' : Limit}
    (hi : 0 ≤ c.spec.initMarginReq) (hl : LoopInv c l) (ho : o ∈ l.om)
    (hc : ∀ q, u.filled c.env.debug o = .ok (some q) →
      opposing l.pos.quantity o.side = 0 ∨ Best l.om o)
    (h : matchOrder c u l o = .ok (l', o')) :
    LoopInv c l' ∧
    ((u.filled c.env.debug o = .ok none ∧ l'.om = l.om ∧ l'.pos = l.pos) ∨
     (∃ q, u.filled c.env.debug o = .ok (some q) ∧ 0 < q ∧ BookFill l.om l'.om o q ∧
       l'.pos.quantity = l.pos.quantity + signed o.side q)) := by
  simp only [matchOrder, bind_ok] at h
  obtain ⟨r, hr, h⟩ := h
  cases r with
  | none =>
    simp only [ok_inj, Prod.mk.injEq] at h; obtain ⟨rfl, rfl⟩ := h
    exact ⟨hl, .inl ⟨hr, rfl, rfl⟩⟩
  | some q =>
    simp only [bind_ok, debugP_ok, ok_inj, Prod.mk.injEq] at h
    obtain ⟨_, _, _, _, ⟨l1, o1⟩, h1, l2, h2, l3, h3, rfl, rfl⟩ := h
    obtain ⟨r, hf, ha, hpo, _, hm⟩ := applyFill_ok h1
    obtain ⟨hcp, ho2, _⟩ := settleLimit_ok h2
    obtain ⟨n, hn, hp3, ho3, _, _, _, _, h4⟩ := releaseMargin_ok h3
    obtain ⟨f1, f2, f3, _, _, f6, f7, f8⟩ := fill_fixed hf
    obtain ⟨_, hw, hq, hb⟩ := changePosition_qty (hpo ▸ hl.wf) hcp
    obtain ⟨xs, ys, hxy⟩ := List.append_of_mem ho
    have hnd : IdsNodup (xs ++ o :: ys) := hxy ▸ hl.nodup
    have hsplit := hnd.split.1
    have hBF : BookFill l.om l1.om o q := by
      refine ⟨xs, ys, hxy, ?_⟩
      cases r with
      | some f =>
        left
        refine ⟨?_, ?_⟩
        · have : o1.remaining = 0 := by
            simp only [Limit.fill, bind_ok, assertP_ok] at hf
            obtain ⟨_, _, _, _, hf⟩ := hf
            split at hf
            · split at hf <;> simp at hf
              obtain ⟨rfl, _⟩ := hf; simp_all
            · simp only [bind_ok] at hf
              obtain ⟨_, _, hf⟩ := hf
              split at hf <;> simp at hf
              obtain ⟨rfl, _⟩ := hf; assumption
          omega
        · obtain ⟨y, hy⟩ := omRemove_ok hm.1
          simp only [Book.removeCancel, f1] at hy
          have hp := (removeById_some hl.nodup hy).2.2.1
          refine hp.trans (List.Perm.of_eq ?_)
          rw [hxy]
          simp only [List.filter_append, List.filter_cons, ne_eq, not_true_eq_false, decide_false,
            Bool.false_eq_true, if_false]
          congr 1 <;> rw [List.filter_eq_self] <;> intro x hx <;>
            simp [hsplit x (by simp [hx])]
      | none =>
        right
        obtain ⟨hpos, h5⟩ := omUpdate_ok hm.1
        refine ⟨by omega, o1, ?_, f1, f2, f3, f6⟩
        rcases h5 with ⟨h5, _⟩ | ⟨old, h5, _, h6⟩
        · exact absurd f1.symm (getById_none.1 h5 o ho)
        · rw [h6, replaceFirst_eq_map hl.nodup, hxy]
          exact put_mid hnd f1
    have hnd1 : IdsNodup l1.om := by
      obtain ⟨xs', ys', e1, ⟨_, e2⟩ | ⟨_, o2, e2, e3, _⟩⟩ := hBF
      · exact (IdsNodup.split (e1 ▸ hl.nodup)).2.perm e2.symm
      · have := hl.nodup; rw [e1] at this
        rw [e2, ← put_mid this e3]; exact this.map_put _
    have hgd : GoodOrders l1.om := hBF.good hl.good
    have hdd : distinctPrices l1.om := hBF.distinct hl.distinct
    rw [f2] at hq
    rw [hpo] at hq
    have hreq := orderMargin_ok hw (by rw [ho2]; exact fun x hx => (hgd x hx).2) hn
    have hle := marginReq_fill (c := c) hi hBF hl.good hl.distinct hl.nodup f7 (hc q hr)
    rw [← hq, ← hl.line] at hle
    rw [ho2] at hreq
    simp only at hreq hle
    have hbal : l2.acct.balance .orderMargin = l.acct.balance .orderMargin := by rw [hb, ha]
    refine ⟨⟨by rw [ho3, ho2]; exact hnd1, by rw [ho3, ho2]; exact hgd, by rw [ho3, ho2]; exact hdd,
      by rw [hp3]; exact hw, ?_⟩, .inr ⟨q, hr, f7, by rw [ho3, ho2]; exact hBF, by rw [hp3]; exact hq⟩⟩
    rw [ho3, ho2, hp3, ← hreq]
    rcases h4 with ⟨_, h4⟩ | ⟨h4, h5⟩
    · rw [transfer_balance h4]; simp; omega
    · rw [h5]; omega

theorem opposing_signed {pos q : Int} {side : Side} (h : opposing pos side = 0) (hq : 0 < q) :
    opposing (pos + signed side q) side = 0 := by
  cases side <;> simp only [opposing, signed, larger] at * <;> split at h <;> omega

theorem matchLoop_line {c : Cfg} {u : Update} (hi : 0 ≤ c.spec.initMarginReq) {os : List Limit} :
    ∀ {l l' : Loop} {os'}, LoopInv c l → IdsNodup os → (∀ o ∈ os, o ∈ l.om) →
      ((∃ side, opposing l.pos.quantity side = 0 ∧
          ∀ o ∈ os, ∀ q, u.filled c.env.debug o = .ok (some q) → o.side = side) ∨
        (∀ o ∈ os, ∀ q, u.filled c.env.debug o = .ok (some q) → Best l.om o)) →
      matchLoop c u l os = .ok (l', os') → LoopInv c l' := by
  induction os with
  | nil =>
    intro l l' os' hl _ _ _ h
    simp only [matchLoop, ok_inj, Prod.mk.injEq] at h; obtain ⟨rfl, rfl⟩ := h
    exact hl
  | cons o os ih =>
    intro l l' os' hl hn hm hc h
    simp only [matchLoop, bind_ok, ok_inj, Prod.mk.injEq] at h
    obtain ⟨⟨l1, o1⟩, h1, ⟨l2, os2⟩, h2, rfl, rfl⟩ := h
    have hno := (IdsNodup.split (xs := []) hn).1
    have hn' := (IdsNodup.split (xs := []) hn).2
    simp only [List.nil_append] at hno hn'
    obtain ⟨hl1, hcase⟩ := matchOrder_line hi hl (hm o (by simp)) (fun q hq => by
      rcases hc with ⟨side, hs, ha⟩ | hb
      · exact .inl (by rw [ha o (by simp) q hq]; exact hs)
      · exact .inr (hb o (by simp) q hq)) h1
    rcases hcase with ⟨_, e1, e2⟩ | ⟨q, hq, hq0, hBF, hpq⟩
    · refine ih hl1 hn' (by rw [e1]; exact fun x hx => hm x (by simp [hx])) ?_ h2
      rw [e1, e2]
      rcases hc with ⟨side, hs, ha⟩ | hb
      · exact .inl ⟨side, hs, fun x hx => ha x (by simp [hx])⟩
      · exact .inr (fun x hx => hb x (by simp [hx]))
    · have hback : ∀ x ∈ l1.om, x.id ≠ o.id → x ∈ l.om := by
        intro x hx hxo
        obtain ⟨xs, ys, e1, ⟨_, hp⟩ | ⟨_, o2, e2, e3, _⟩⟩ := hBF
        · rw [hp.mem_iff] at hx; rw [e1]
          simp only [List.mem_append, List.mem_cons] at hx ⊢
          rcases hx with h | h <;> simp [h]
        · rw [e2] at hx; rw [e1]
          simp only [List.mem_append, List.mem_cons] at hx ⊢
          rcases hx with h | rfl | h
          · simp [h]
          · exact absurd e3 hxo
          · simp [h]
      have hfwd : ∀ x ∈ l.om, x.id ≠ o.id → x ∈ l1.om := by
        intro x hx hxo
        obtain ⟨xs, ys, e1, ⟨_, hp⟩ | ⟨_, o2, e2, e3, _⟩⟩ := hBF
        · rw [hp.mem_iff]; rw [e1] at hx
          simp only [List.mem_append, List.mem_cons] at hx ⊢
          rcases hx with h | rfl | h
          · simp [h]
          · exact absurd rfl hxo
          · simp [h]
        · rw [e2]; rw [e1] at hx
          simp only [List.mem_append, List.mem_cons] at hx ⊢
          rcases hx with h | rfl | h
          · simp [h]
          · exact absurd rfl hxo
          · simp [h]
      refine ih hl1 hn' (fun x hx => hfwd x (hm x (by simp [hx])) (hno x hx)) ?_ h2
      rcases hc with ⟨side, hs, ha⟩ | hb
      · left
        refine ⟨side, ?_, fun x hx => ha x (by simp [hx])⟩
        rw [hpq, ha o (by simp) q hq]
        exact opposing_signed hs hq0
      · right
        intro x hx q' hq'
        have hbx := hb x (by simp [hx]) q' hq'
        have hbo := hb o (by simp) q hq
        have hside : x.side ≠ o.side := by
          intro hxo
          have b1 := hbx o (hm o (by simp)) hxo.symm (fun hh => hno x hx hh.symm)
          have b2 := hbo x (hm x (by simp [hx])) hxo (hno x hx)
          rw [hxo] at b1
          rw [better_asymm b1] at b2
          simp at b2
        intro y hy hys hyi
        by_cases hyo : y.id = o.id
        · exfalso
          obtain ⟨xs, ys, e1, ⟨_, hp⟩ | ⟨_, o2, e2, e3, e4, _⟩⟩ := hBF
          · rw [hp.mem_iff] at hy
            have := hl.nodup; rw [e1] at this
            exact this.split.1 y hy hyo
          · have hn1 := hl1.nodup
            have ho2 : o2 ∈ l1.om := by rw [e2]; simp
            have g1 := getById_of_mem hn1 hy
            have g2 := getById_of_mem hn1 ho2
            rw [hyo, ← e3, g2] at g1
            simp only [Option.some.injEq] at g1
            rw [← g1, e4] at hys
            exact hside hys.symm
        · exact hbx y (hback y hy hyo) hys hyi

theorem checkActive_line {c : Cfg} {s s' : State} {u : Update}
    (hi : 0 ≤ c.spec.initMarginReq) (hI : Inv c s) (hw : PosWF s.pos) (hsync : s.om = s.active)
    (hd : distinctPrices s.active)
    (hline : s.acct.balance .orderMargin = marginReq c s.active s.pos.quantity)
    (hc : (∃ side, opposing s.pos.quantity side = 0 ∧
          ∀ o ∈ s.active, ∀ q, u.filled c.env.debug o = .ok (some q) → o.side = side) ∨
        (∀ o ∈ s.active, ∀ q, u.filled c.env.debug o = .ok (some q) → Best s.active o))
    (h : checkActive c s u = .ok s') :
    s'.acct.balance .orderMargin = marginReq c s'.active s'.pos.quantity := by
  cases hf : u.canFill with
  | false => rw [checkActive_bba h hf]; exact hline
  | true =>
    obtain ⟨_, _, _, _, _, _, _, _, _, hs', _⟩ := checkActive_out hI h hf
    obtain ⟨l, orders, active', h1, h2, _, _, rfl⟩ := checkActive_ok h hf
    have hs' := hs' hsync
    simp only at hs' ⊢
    rw [← hs']
    refine (matchLoop_line hi (os := s.active) ?_ hI.nodup ?_ ?_ h1).line
    · simp only [State.loop, hsync]
      exact ⟨hI.nodup, fun o ho => by
        have := hI.orders o ho; exact ⟨this.price, Int.le_of_lt this.rem⟩, hd, hw, hline⟩
    · intro o ho; simp only [State.loop]; rw [hsync]; exact ho
    · simp only [State.loop, hsync]; exact hc

/-- In a debug build the matching step always leaves the order margin in line. -/
theorem checkActive_line_debug {c : Cfg} {s s' : State} {u : Update} (hdb : c.env.debug = true)
    (hI : Inv c s) (hw' : PosWF s'.pos)
    (h : checkActive c s u = .ok s') (hf : u.canFill = true) :
    s'.acct.balance .orderMargin = marginReq c s'.active s'.pos.quantity := by
  have hI' := checkActive_inv hI h
  obtain ⟨l, orders, active', h1, h2, h3, _, rfl⟩ := checkActive_ok h hf
  obtain ⟨_, h4, _, _, h5⟩ := h3 hdb
  simp only at hw' hI' ⊢
  rw [← h4]
  refine orderMargin_ok hw' (fun o ho => ?_) h5
  rw [h4] at ho
  exact Int.le_of_lt (hI'.orders o ho).rem

/-! ### Submission and cancellation -/

theorem appendLimit_margin {c : Cfg} {s s' : State} {o : Limit}
    (h : appendLimit c s o = .ok (s', .ok ())) :
    ∃ m, orderMargin c.env c.spec.initMarginReq s'.om s.pos = .ok m ∧
      s'.acct.balance .orderMargin = s.acct.balance .orderMargin +
        Spec.abs (m - s.acct.balance .orderMargin) ∧
      s'.acct.balance .wallet = s.acct.balance .wallet -
        Spec.abs (m - s.acct.balance .orderMargin) ∧
      (m ≠ s.acct.balance .orderMargin → s'.om = s'.active ∧ 0 ≤ s'.acct.balance .wallet) := by
  simp only [appendLimit, bind_ok] at h
  obtain ⟨r1, hr1, h⟩ := h
  split at h
  · simp at h
  · next om' =>
    split at h
    · simp at h
    · simp only [bind_ok] at h
      obtain ⟨m, hm, h⟩ := h
      split at h
      · next hlt =>
        simp only [bind_ok, ok_inj, Prod.mk.injEq] at h
        obtain ⟨a, ha, s3, hs, rfl, _⟩ := h
        obtain ⟨rfl, hb, _, hwal⟩ := appendChecks_ok hs
        refine ⟨m, hm, ?_, ?_, fun _ => ⟨hb, hwal⟩⟩
        · simp only [transfer_balance ha]; simp [Spec.abs]; omega
        · simp only [transfer_balance ha]; simp [Spec.abs]; omega
      · split at h
        · next hlt =>
          simp only [bind_ok, ok_inj, Prod.mk.injEq] at h
          obtain ⟨a, ha, s3, hs, rfl, _⟩ := h
          obtain ⟨rfl, hb, _, hwal⟩ := appendChecks_ok hs
          refine ⟨m, hm, ?_, ?_, fun _ => ⟨hb, hwal⟩⟩
          · simp only [transfer_balance ha]; simp [Spec.abs]; omega
          · simp only [transfer_balance ha]; simp [Spec.abs]; omega
        · simp only [ok_inj, Prod.mk.injEq] at h
          obtain ⟨rfl, _⟩ := h
          refine ⟨m, hm, ?_, ?_, ?_⟩ <;> simp [Spec.abs] <;> omega

theorem submitLimit_margin {c : Cfg} {s s' : State} {o : NewLimit} {p : Limit}
    (hp : 0 < o.price) (hq : 0 < o.qty) (hI : Inv c s) (hw : PosWF s.pos)
    (hcap : c.maxOpen ≤ 10000) (h : submitLimit c s o = .ok (s', .ok p)) :
    p = o.intoPending s.nextId s.ms.ts ∧ s'.active = s.active ++ [p] ∧ s'.pos = s.pos ∧
    (let m := marginReq c s'.active s.pos.quantity
     s'.acct.balance .orderMargin = s.acct.balance .orderMargin +
        Spec.abs (m - s.acct.balance .orderMargin) ∧
     s'.acct.balance .wallet = s.acct.balance .wallet -
        Spec.abs (m - s.acct.balance .orderMargin)) := by
  have hI' := submitLimit_inv hp hq hI h
  obtain ⟨_, _, _, _, hpos, _, h5⟩ := submitLimit_arenas (fun x hx => (hI.orders x hx).fresh) h
  rcases h5 with ⟨err, he, _⟩ | ⟨he, _, _, ha, _⟩
  · simp at he
  simp only [Except.ok.injEq] at he; subst he
  refine ⟨rfl, ha, hpos, ?_⟩
  rcases submitLimit_cases h with ⟨err, _, _, he⟩ | ⟨_, h⟩
  · simp at he
  rcases h with ⟨err, _, _, he⟩ | ⟨_, h⟩
  · simp at he
  rcases h with ⟨err, _, _, he⟩ | ⟨_, h⟩
  · simp at he
  rcases h with ⟨_, _, he⟩ | ⟨_, ra, hap, hr⟩
  · simp at he
  rcases hr with ⟨err, _, he⟩ | ⟨rfl, _⟩
  · simp at he
  obtain ⟨m, hm, e1, e2, _⟩ := appendLimit_margin hap
  have : m = marginReq c s'.active s.pos.quantity := by
    rw [← hI'.sync hcap]
    refine orderMargin_ok hw (fun x hx => ?_) hm
    rw [hI'.sync hcap] at hx
    exact Int.le_of_lt (hI'.orders x hx).rem
  subst this
  exact ⟨e1, e2⟩

theorem cancelLimit_margin {c : Cfg} {s s' : State} {b : CancelBy} {r} (hI : Inv c s)
    (hw : PosWF s.pos) (h : cancelLimit c s b = .ok (s', r)) :
    (∃ err, r = .error err ∧ s' = s) ∨
    ∃ o, r = .ok o ∧ s'.acct.balance .orderMargin = marginReq c s'.active s'.pos.quantity := by
  have hI' := cancelLimit_inv hI h
  obtain ⟨_, ⟨_, rfl, hr⟩ | ⟨removed, active', a, m', h1, h2, h3, h4, h5, _, hs, hr⟩⟩ :=
    cancelLimit_ok h
  · exact .inl ⟨_, hr, rfl⟩
  · refine .inr ⟨removed, hr, ?_⟩
    subst hs
    have := orderMargin_ok hw (fun x hx => Int.le_of_lt (hI'.orders x hx).rem) h3
    simp only
    rw [← this]
    rcases refund_ok h5 with ⟨_, h5⟩ | ⟨h6, rfl⟩
    · rw [transfer_balance h5]; simp; omega
    · omega

/-! ### Fills only release order margin -/

theorem matchOrder_release {c : Cfg} {u : Update} {l l' : Loop} {o o' : Limit} (hw : PosWF l.pos)
    (h : matchOrder c u l o = .ok (l', o')) :
    l' = l ∨ (PosWF l'.pos ∧ ∃ n, orderMargin c.env c.spec.initMarginReq l'.om l'.pos = .ok n ∧
      l'.acct.balance .orderMargin ≤ n ∧
      l'.acct.balance .orderMargin ≤ l.acct.balance .orderMargin) := by
  simp only [matchOrder, bind_ok] at h
  obtain ⟨r, _, h⟩ := h
  cases r with
  | none => simp only [ok_inj, Prod.mk.injEq] at h; exact .inl h.1.symm
  | some q =>
    right
    simp only [bind_ok, debugP_ok, ok_inj, Prod.mk.injEq] at h
    obtain ⟨_, _, _, _, ⟨l1, o1⟩, h1, l2, h2, l3, h3, rfl, rfl⟩ := h
    obtain ⟨r, hr, ha, hpo, _⟩ := applyFill_ok h1
    obtain ⟨hc, _⟩ := settleLimit_ok h2
    obtain ⟨n, hn, e1, e2, _, _, _, _, h4⟩ := releaseMargin_ok h3
    obtain ⟨_, hw2, _, hm⟩ := changePosition_qty (m := true) (by rw [hpo]; exact hw) hc
    refine ⟨by rw [e1]; exact hw2, n, by rw [e1, e2]; exact hn, ?_⟩
    rw [ha] at hm
    rcases h4 with ⟨hlt, ht⟩ | ⟨hle, he⟩
    · have := transfer_balance ht .orderMargin
      simp at this
      omega
    · rw [he]; omega

theorem matchLoop_release {c : Cfg} {u : Update} {os : List Limit} : ∀ {l l' : Loop} {os'},
    PosWF l.pos → matchLoop c u l os = .ok (l', os') →
    l' = l ∨ ∃ n, orderMargin c.env c.spec.initMarginReq l'.om l'.pos = .ok n ∧
      l'.acct.balance .orderMargin ≤ n ∧
      l'.acct.balance .orderMargin ≤ l.acct.balance .orderMargin := by
  induction os with
  | nil =>
    intro l l' os' _ h
    simp only [matchLoop, ok_inj, Prod.mk.injEq] at h; exact .inl h.1.symm
  | cons o os ih =>
    intro l l' os' hw h
    simp only [matchLoop, bind_ok] at h
    obtain ⟨⟨l1, o1⟩, h1, ⟨l2, os2⟩, h2, h⟩ := h
    simp only [ok_inj, Prod.mk.injEq] at h
    obtain ⟨rfl, rfl⟩ := h
    rcases matchOrder_release hw h1 with rfl | ⟨hw1, n, a1, a2, a3⟩
    · exact ih hw h2
    · rcases ih hw1 h2 with rfl | ⟨m, b1, b2, b3⟩
      · exact .inr ⟨n, a1, a2, a3⟩
      · exact .inr ⟨m, b1, b2, by omega⟩

theorem checkActive_release {c : Cfg} {s s' : State} {u : Update} (hw : PosWF s.pos)
    (h : checkActive c s u = .ok s') :
    (s'.acct = s.acct ∧ s'.pos = s.pos) ∨
    ∃ n, orderMargin c.env c.spec.initMarginReq s'.om s'.pos = .ok n ∧
      s'.acct.balance .orderMargin ≤ n ∧
      s'.acct.balance .orderMargin ≤ s.acct.balance .orderMargin := by
  cases hf : u.canFill with
  | false => rw [checkActive_bba h hf]; exact .inl ⟨rfl, rfl⟩
  | true =>
    obtain ⟨l, orders, active', h1, _, _, _, rfl⟩ := checkActive_ok h hf
    rcases matchLoop_release (l := s.loop) hw h1 with rfl | h
    · exact .inl ⟨rfl, rfl⟩
    · exact .inr h

end Lfest
