import Verif.SpecAsleep
import Verif.Props.Cash
import Verif.Props.Audit
import Verif.Props.Parts
import Verif.Props.Risk
import Verif.Lemmas.Split

/-!
# C150: what can happen while the user is asleep
-/

namespace Lfest

open Spec Asleep

/-- Lower and upper end of what orders can add up to, if a unit counts `w`. -/
def lowEnd (w : Side → Int → Int) : List Limit → Int
  | [] => 0
  | o :: os => smaller 0 (o.remaining * w o.side o.price) + lowEnd w os

def highEnd (w : Side → Int → Int) : List Limit → Int
  | [] => 0
  | o :: os => larger 0 (o.remaining * w o.side o.price) + highEnd w os

def counted (w : Side → Int → Int) : List Fill → Int
  | [] => 0
  | f :: fs => f.qty * w f.side f.price + counted w fs

theorem ends_sum (w : Side → Int → Int) (l : List Limit) :
    lowEnd w l = (l.map (fun o => smaller 0 (o.remaining * w o.side o.price))).sum ∧
    highEnd w l = (l.map (fun o => larger 0 (o.remaining * w o.side o.price))).sum := by
  induction l with
  | nil => exact ⟨rfl, rfl⟩
  | cons o l ih => simp [lowEnd, highEnd, ih]

theorem ends_perm {w : Side → Int → Int} {l l' : List Limit} (h : l.Perm l') :
    lowEnd w l = lowEnd w l' ∧ highEnd w l = highEnd w l' := by
  rw [(ends_sum w l).1, (ends_sum w l').1, (ends_sum w l).2, (ends_sum w l').2]
  exact ⟨sum_perm (h.map _), sum_perm (h.map _)⟩

theorem smaller_le (x : Int) : smaller 0 x ≤ 0 ∧ 0 ≤ larger 0 x := by
  unfold smaller larger
  split <;> omega

theorem ends_zero (w : Side → Int → Int) (l : List Limit) : lowEnd w l ≤ 0 ∧ 0 ≤ highEnd w l := by
  induction l with
  | nil => exact ⟨Int.le_refl _, Int.le_refl _⟩
  | cons o l ih =>
    have := smaller_le (o.remaining * w o.side o.price)
    simp only [lowEnd, highEnd]
    omega

theorem ends_filter (w : Side → Int → Int) (p : Limit → Bool) (l : List Limit) :
    lowEnd w l ≤ lowEnd w (l.filter p) ∧ highEnd w (l.filter p) ≤ highEnd w l := by
  induction l with
  | nil => exact ⟨Int.le_refl _, Int.le_refl _⟩
  | cons o l ih =>
    have := smaller_le (o.remaining * w o.side o.price)
    rw [List.filter_cons]
    split <;> simp only [lowEnd, highEnd] <;> omega

theorem counted_append (w : Side → Int → Int) (a b : List Fill) :
    counted w (a ++ b) = counted w a + counted w b := by
  induction a with
  | nil => simp [counted]
  | cons f a ih => simp only [List.cons_append, counted, ih]; omega

theorem counted_reverse (w : Side → Int → Int) (a : List Fill) : counted w a.reverse = counted w a := by
  induction a with
  | nil => rfl
  | cons f a ih =>
    rw [List.reverse_cons, counted_append, ih]
    simp only [counted]
    omega

/-- One order, filled by `q`. -/
theorem ends_fill {r q w : Int} (h0 : 0 < q) (h1 : q ≤ r) :
    smaller 0 (r * w) ≤ q * w + smaller 0 ((r - q) * w) ∧
    q * w + larger 0 ((r - q) * w) ≤ larger 0 (r * w) := by
  rw [Int.sub_mul]
  unfold smaller larger
  rcases Int.le_total 0 w with h | h
  · have a1 : 0 ≤ q * w := Int.mul_nonneg (by omega) h
    have a2 : q * w ≤ r * w := Int.mul_le_mul_of_nonneg_right h1 h
    split <;> split <;> omega
  · have a1 : q * w ≤ 0 := Int.mul_nonpos_of_nonneg_of_nonpos (by omega) h
    have a2 : r * w ≤ q * w := Int.mul_le_mul_of_nonpos_right h1 h
    split <;> split <;> omega

theorem ends_update (w : Side → Int → Int) (e : Env) (u : UpdateArg) (l : List Limit)
    (h : ∀ o ∈ l, ∀ q, fillRule u o = some q → 0 < q ∧ q ≤ o.remaining) :
    lowEnd w l ≤ counted w (makerFills u l) + lowEnd w (l.filterMap (survivor e u)) ∧
    counted w (makerFills u l) + highEnd w (l.filterMap (survivor e u)) ≤ highEnd w l := by
  induction l with
  | nil => exact ⟨Int.le_refl _, Int.le_refl _⟩
  | cons o l ih =>
    have ih := ih (fun x hx => h x (List.mem_cons_of_mem _ hx))
    have h0 := h o (List.mem_cons_self ..)
    unfold makerFills at ih ⊢
    rw [List.filterMap_cons, List.filterMap_cons]
    cases hq : fillRule u o with
    | none =>
      have : survivor e u o = some o := by simp [survivor, hq]
      rw [this]
      simp only [Option.map_none, lowEnd, highEnd]
      omega
    | some q =>
      obtain ⟨g0, g1⟩ := h0 q hq
      have k := ends_fill (w := w o.side o.price) g0 g1
      by_cases hr : q = o.remaining
      · have : survivor e u o = none := by simp [survivor, hq, hr]
        rw [this]
        simp only [Option.map_some, lowEnd, highEnd, counted]
        rw [hr, Int.sub_self, Int.zero_mul] at k
        simp only [smaller, larger, Int.le_refl, if_true] at k
        rw [hr]
        simp only [smaller, larger]
        omega
      · have : survivor e u o = some (filledBy e o q) := by simp [survivor, hq, hr]
        rw [this]
        simp only [Option.map_some, lowEnd, highEnd, counted, filledBy]
        omega

/-- The fill is one of a resting order. -/
def ofOrders (l : List Limit) (f : Fill) : Prop :=
  f.maker = true ∧ 0 < f.qty ∧ ∃ o ∈ l, f.side = o.side ∧ f.price = o.price ∧ f.qty ≤ o.remaining

/-- `l'` is what may be left of the orders `l`. -/
def leftOf (l l' : List Limit) : Prop :=
  ∀ o' ∈ l', ∃ o ∈ l, o'.side = o.side ∧ o'.price = o.price ∧ o'.remaining ≤ o.remaining

theorem openFees_perm {c : Cfg} {l l' : List Limit} (h : l.Perm l') : openFees c l = openFees c l' := by
  have : ∀ l, openFees c l = (l.map (fun o => Fill.fee c ⟨true, o.side, o.price, o.remaining⟩)).sum := by
    intro l
    induction l with
    | nil => rfl
    | cons o l ih => simp [openFees, ih]
  rw [this, this]
  exact sum_perm (h.map _)

theorem maker_parts {c : Cfg} {side : Side} {p a b : Int} (ha : 0 ≤ a) (hb : 0 ≤ b) (hp : 0 ≤ p)
    (h0 : 0 ≤ c.spec.feeMaker) (h1 : c.spec.feeMaker ≤ c.env.scale) :
    0 ≤ Fill.fee c ⟨true, side, p, a⟩ ∧ 0 ≤ Fill.fee c ⟨true, side, p, b⟩ ∧
    Fill.fee c ⟨true, side, p, a⟩ + Fill.fee c ⟨true, side, p, b⟩ ≤ Fill.fee c ⟨true, side, p, a + b⟩ := by
  obtain ⟨k1, k2, k3, _⟩ := fee_parts (c := { c with spec := { c.spec with feeTaker := c.spec.feeMaker } })
    (side := side) ha hb hp h0 h1
  exact ⟨k1, k2, k3⟩

theorem fees_update {c : Cfg} (u : UpdateArg) (l : List Limit)
    (h : ∀ o ∈ l, ∀ q, fillRule u o = some q → 0 < q ∧ q ≤ o.remaining) (hp : ∀ o ∈ l, 0 < o.price)
    (h0 : 0 ≤ c.spec.feeMaker) (h1 : c.spec.feeMaker ≤ c.env.scale) :
    feeSum c (makerFills u l) + openFees c (l.filterMap (survivor c.env u)) ≤ openFees c l := by
  induction l with
  | nil => exact Int.le_refl _
  | cons o l ih =>
    have ih := ih (fun x hx => h x (List.mem_cons_of_mem _ hx)) (fun x hx => hp x (List.mem_cons_of_mem _ hx))
    have g0 := h o (List.mem_cons_self ..)
    have p0 := hp o (List.mem_cons_self ..)
    unfold makerFills at ih ⊢
    rw [List.filterMap_cons, List.filterMap_cons]
    cases hq : fillRule u o with
    | none =>
      have : survivor c.env u o = some o := by simp [survivor, hq]
      rw [this]
      simp only [Option.map_none, openFees]
      omega
    | some q =>
      obtain ⟨q0, q1⟩ := g0 q hq
      have k := maker_parts (c := c) (side := o.side) (p := o.price) (a := q) (b := o.remaining - q)
        (by omega) (by omega) (by omega) h0 h1
      rw [show q + (o.remaining - q) = o.remaining by omega] at k
      by_cases hr : q = o.remaining
      · have : survivor c.env u o = none := by simp [survivor, hq, hr]
        rw [this]
        simp only [Option.map_some, openFees, feeSum]
        omega
      · have : survivor c.env u o = some (filledBy c.env o q) := by simp [survivor, hq, hr]
        rw [this]
        simp only [Option.map_some, openFees, feeSum, filledBy]
        omega

theorem openFees_nonneg {c : Cfg} (l : List Limit) (hp : ∀ o ∈ l, 0 < o.price ∧ 0 < o.remaining)
    (h0 : 0 ≤ c.spec.feeMaker) (h1 : c.spec.feeMaker ≤ c.env.scale) (k : Limit → Bool) :
    0 ≤ openFees c l ∧ openFees c (l.filter k) ≤ openFees c l := by
  induction l with
  | nil => exact ⟨Int.le_refl _, Int.le_refl _⟩
  | cons o l ih =>
    have ih := ih (fun x hx => hp x (List.mem_cons_of_mem _ hx))
    have p0 := hp o (List.mem_cons_self ..)
    have := maker_parts (c := c) (side := o.side) (p := o.price) (a := o.remaining) (b := 0)
      (by omega) (by omega) (by omega) h0 h1
    rw [List.filter_cons]
    split <;> simp only [openFees] <;> omega

/-- The fills `g`, and what is left of the orders, are within what the orders allow. -/
def Bounded (c : Cfg) (l l' : List Limit) (g : List Fill) : Prop :=
  (∀ w, lowEnd w l ≤ counted w g + lowEnd w l' ∧ counted w g + highEnd w l' ≤ highEnd w l) ∧
  (0 ≤ c.spec.feeMaker → c.spec.feeMaker ≤ c.env.scale →
    feeSum c g + openFees c l' ≤ openFees c l)

theorem feeSum_reverse (c : Cfg) (g : List Fill) : feeSum c g.reverse = feeSum c g := by
  induction g with
  | nil => rfl
  | cons f g ih =>
    rw [List.reverse_cons, feeSum_append, ih]
    simp only [feeSum]
    omega

theorem idle_step {c : Cfg} {s s' : State} {op : Op} {r : Resp} (hr : Reachable c s)
    (hst : step c s op = .ok (s', r)) (hd : idle (op, r) = true) :
    ∃ g, fills s'.log = g ++ fills s.log ∧ (∀ f ∈ g, ofOrders s.active f) ∧
      leftOf s.active s'.active ∧ Bounded c s.active s'.active g := by
  have hi := hr.inv
  have upd : ∀ u, s'.active.Perm (s.active.filterMap (survivor c.env u)) →
      fills s'.log = (makerFills u s.active).reverse ++ fills s.log →
      (∀ o ∈ s.active, ∀ q, fillRule u o = some q → 0 < q ∧ q ≤ o.remaining) →
      ∃ g, fills s'.log = g ++ fills s.log ∧ (∀ f ∈ g, ofOrders s.active f) ∧
      leftOf s.active s'.active ∧ Bounded c s.active s'.active g := by
    intro u h1 h2 h3
    refine ⟨_, h2, fun f hf => ?_, fun o' ho' => ?_, fun w => ?_, fun m0 m1 => ?_⟩
    · rw [List.mem_reverse, makerFills, List.mem_filterMap] at hf
      obtain ⟨o, ho, hf⟩ := hf
      cases hq : fillRule u o with
      | none => rw [hq] at hf; cases hf
      | some q =>
        rw [hq] at hf
        cases hf
        exact ⟨rfl, (h3 o ho q hq).1, o, ho, rfl, rfl, (h3 o ho q hq).2⟩
    · obtain ⟨o, ho, hs⟩ := List.mem_filterMap.1 (h1.mem_iff.1 ho')
      refine ⟨o, ho, ?_⟩
      unfold survivor at hs
      split at hs
      · cases hs; exact ⟨rfl, rfl, Int.le_refl _⟩
      · next q hq =>
        split at hs
        · cases hs
        · cases hs
          have := h3 o ho q hq
          refine ⟨rfl, rfl, ?_⟩
          show o.remaining - q ≤ o.remaining
          omega
    · rw [counted_reverse, (ends_perm (w := w) h1).1, (ends_perm (w := w) h1).2]
      exact ends_update w c.env u s.active h3
    · rw [feeSum_reverse, openFees_perm h1]
      exact fees_update u s.active h3 (fun o ho => (hi.orders o ho).price) m0 m1
  have keep : s'.active = s.active → fills s'.log = fills s.log →
      ∃ g, fills s'.log = g ++ fills s.log ∧ (∀ f ∈ g, ofOrders s.active f) ∧
      leftOf s.active s'.active ∧ Bounded c s.active s'.active g := by
    intro h1 h2
    refine ⟨[], h2, fun f hf => (by cases hf), fun o ho => ⟨o, h1 ▸ ho, rfl, rfl, Int.le_refl _⟩, fun w => ?_, fun _ _ => ?_⟩
    · rw [h1]
      simp [counted]
    · rw [h1]
      simp [feeSum]
  rcases step_cases hst with ⟨u, u', x, rfl, hb, hu, rfl⟩ | ⟨u, u', rfl, hb, hu, rfl⟩ |
    ⟨err, rfl, rfl⟩ |
    ⟨side, q, uid, x, rfl, _, _, rfl⟩ | ⟨side, p, q, uid, x, rfl, _, _, _, rfl⟩ |
    ⟨id, side, p, q, uid, x, rfl, _, _, hamend, rfl⟩ | ⟨b, x, rfl, _, rfl⟩
  · cases x with
    | ok ups =>
      obtain ⟨h1, _, _, h4, h5, _⟩ := update_spec hi hst
      exact upd u h1 h4 h5
    | error err => simp [idle] at hd
  · obtain ⟨h1, _, h3, h4, _⟩ := checkActive_spec hb hi hu
    exact upd u h1 h3 h4
  · exact keep rfl rfl
  · simp [idle] at hd
  · simp [idle] at hd
  · simp [idle] at hd
  · cases x with
    | ok o =>
      obtain ⟨⟨a, b', e, _, _, hp⟩, _⟩ := C19_cancel_removes c s s' b o hst
      rw [← filter_out hi.nodup e] at hp
      refine ⟨[], C03_quiet_calls c s s' _ _ hst (by simp [quiet]), fun f hf => (by cases hf), ?_, fun w => ?_,
        fun m0 m1 => ?_⟩
      · intro o' ho'
        exact ⟨o', (List.mem_filter.1 (hp.mem_iff.1 ho')).1, rfl, rfl, Int.le_refl _⟩
      · rw [(ends_perm (w := w) hp).1, (ends_perm (w := w) hp).2]
        have := ends_filter w (fun x => decide (x.id ≠ o.id)) s.active
        simp only [counted]
        omega
      · rw [openFees_perm hp]
        have := openFees_nonneg (c := c) s.active (fun o ho => ⟨(hi.orders o ho).price, (hi.orders o ho).rem⟩)
          m0 m1 (fun x => decide (x.id ≠ o.id))
        simp only [feeSum]
        omega
    | error err =>
      obtain ⟨_, h2⟩ := C19_cancel_errors c s s' b _ hst
      obtain ⟨rfl, _⟩ := h2 err rfl
      exact keep rfl rfl

theorem idle_history {c : Cfg} : ∀ (ops : List Op) (s s' : State) (tr : List (Op × Resp)),
    Reachable c s → history c s ops = .ok (s', tr) → (∀ x ∈ tr, idle x = true) →
    ∃ g, fills s'.log = g ++ fills s.log ∧ (∀ f ∈ g, ofOrders s.active f) ∧
      leftOf s.active s'.active ∧ Bounded c s.active s'.active g ∧ Reachable c s'
  | [], s, s', tr, hr, h, hd => by
    simp only [history, ok_inj, Prod.mk.injEq] at h
    obtain ⟨rfl, rfl⟩ := h
    refine ⟨[], rfl, fun f hf => (by cases hf), fun o ho => ⟨o, ho, rfl, rfl, Int.le_refl _⟩,
      ⟨fun w => ?_, fun _ _ => ?_⟩, hr⟩
    · simp [counted]
    · simp [feeSum]
  | op :: ops, s, s', tr, hr, h, hd => by
    simp only [history, bind_ok, ok_inj, Prod.mk.injEq] at h
    obtain ⟨⟨t, r⟩, hst, ⟨v, tr1⟩, hh, rfl, rfl⟩ := h
    obtain ⟨g, a1, a2, a3, a4⟩ := idle_step hr hst (hd _ (List.mem_cons_self ..))
    obtain ⟨d, b1, b2, b3, b4, b5⟩ := idle_history ops t _ tr1 (hr.step hst) hh
      (fun x hx => hd x (List.mem_cons_of_mem _ hx))
    refine ⟨d ++ g, by rw [b1, a1, List.append_assoc], fun f hf => ?_, fun o2 ho2 => ?_,
      ⟨fun w => ?_, fun m0 m1 => ?_⟩, b5⟩
    · rcases List.mem_append.1 hf with hf | hf
      · obtain ⟨f1, f2, o1, ho1, f3, f4, f5⟩ := b2 f hf
        obtain ⟨o, ho, e1, e2, e3⟩ := a3 o1 ho1
        exact ⟨f1, f2, o, ho, f3.trans e1, f4.trans e2, Int.le_trans f5 e3⟩
      · exact a2 f hf
    · obtain ⟨o1, ho1, f3, f4, f5⟩ := b3 o2 ho2
      obtain ⟨o, ho, e1, e2, e3⟩ := a3 o1 ho1
      exact ⟨o, ho, f3.trans e1, f4.trans e2, Int.le_trans f5 e3⟩
    · have k1 := a4.1 w
      have k2 := b4.1 w
      rw [counted_append]
      show lowEnd w s.active ≤ counted w d + counted w g + lowEnd w v.active ∧
        counted w d + counted w g + highEnd w v.active ≤ highEnd w s.active
      omega
    · have k1 := a4.2 m0 m1
      have k2 := b4.2 m0 m1
      rw [feeSum_append]
      show feeSum c d + feeSum c g + openFees c v.active ≤ openFees c s.active
      omega

/-- The rounding of the fills `g` made on top of `fs`. -/
theorem cash_since {c : Cfg} (hk : c.env.kind = .linear) (fs : List Fill) : ∀ g : List Fill,
    (∀ f ∈ g ++ fs, 0 < f.price ∧ 0 < f.qty) →
    let D := fun l : List Fill => (ledger c l).realised * c.scale + spent l -
      (ledger c l).qty * (ledger c l).entry
    Spec.abs (D (g ++ fs) - D fs) ≤ profitRounding c (g ++ fs) - profitRounding c fs
  | [], _ => by simp [Spec.abs]
  | f :: g, hall => by
    obtain ⟨hp, hq⟩ := hall f (by simp)
    have hall' : ∀ x ∈ g ++ fs, 0 < x.price ∧ 0 < x.qty := fun x hx => hall x (by
      rw [List.cons_append]; exact List.mem_cons_of_mem _ hx)
    have i := cash_since hk fs g hall'
    have h := cash_step hk (ledger_entry c (g ++ fs) hall') hp hq
    dsimp only at i h ⊢
    rw [List.cons_append]
    simp only [profitRounding, spent]
    rw [← ledger_qty c (f :: (g ++ fs))]
    simp only [ledger] at h ⊢
    generalize ((ledger c (g ++ fs)).fill c f).realised * c.scale = x1 at *
    generalize ((ledger c (g ++ fs)).fill c f).qty * ((ledger c (g ++ fs)).fill c f).entry = x2 at *
    generalize (ledger c (g ++ fs)).realised * c.scale = x3 at *
    generalize (ledger c (g ++ fs)).qty * (ledger c (g ++ fs)).entry = x4 at *
    generalize (ledger c fs).realised * c.scale = x5 at *
    generalize (ledger c fs).qty * (ledger c fs).entry = x6 at *
    generalize f.signed * f.price = x7 at *
    generalize Spec.abs ((ledger c (g ++ fs)).fill c f).qty = x8 at *
    unfold Spec.abs at i ⊢
    split at i <;> split <;> omega

/-- The account in terms of its fills. -/
theorem worth_fills {c : Cfg} {s : State} (hr : Reachable c s) (p : Int) :
    worth c s p = c.start * c.scale + ((ledger c (fills s.log)).realised * c.scale + spent (fills s.log) -
      (ledger c (fills s.log)).qty * (ledger c (fills s.log)).entry) +
      ((fills s.log).map (fun f => f.signed * (p - f.price))).sum := by
  have hl := hr.linv.ledger
  have e1 : s.pos.quantity = (ledger c (fills s.log)).qty := by
    have := congrArg Ledger.qty hl; simpa [ledgerOf, State.core] using this
  have e2 : s.pos.entryPrice = (ledger c (fills s.log)).entry := by
    have := congrArg Ledger.entry hl; simpa [ledgerOf, State.core] using this
  obtain ⟨ops, h⟩ := hr
  have e3 : equity s + s.feesPaid = c.start + (ledger c (fills s.log)).realised := by
    have := (C02_equity c ops s h).1; omega
  rw [← spent_at, ← ledger_qty c, worth, e1, e2, e3]
  grind

theorem counted_value (p : Int) (g : List Fill) :
    counted (fun side price => match side with | .buy => p - price | .sell => price - p) g =
      (g.map (fun f => f.signed * (p - f.price))).sum := by
  induction g with
  | nil => rfl
  | cons f g ih =>
    simp only [counted, List.map_cons, List.sum_cons, ih, Fill.signed]
    cases f.side <;> grind

theorem counted_net (g : List Fill) :
    counted (fun side _ => match side with | .buy => 1 | .sell => -1) g = netBought g := by
  induction g with
  | nil => rfl
  | cons f g ih =>
    simp only [counted, netBought, ih, Fill.signed]
    cases f.side <;> grind

theorem ends_value (p : Int) (l : List Limit) :
    lowEnd (fun side price => match side with | .buy => p - price | .sell => price - p) l = worst p l ∧
    highEnd (fun side price => match side with | .buy => p - price | .sell => price - p) l = best p l := by
  induction l with
  | nil => exact ⟨rfl, rfl⟩
  | cons o l ih =>
    simp only [lowEnd, highEnd, worst, best, ih, gain]
    cases o.side <;> exact ⟨rfl, rfl⟩

theorem ends_open (l : List Limit) (h : ∀ o ∈ l, 0 ≤ o.remaining) :
    lowEnd (fun side _ => match side with | .buy => 1 | .sell => -1) l = -openOf .sell l ∧
    highEnd (fun side _ => match side with | .buy => 1 | .sell => -1) l = openOf .buy l := by
  induction l with
  | nil => exact ⟨rfl, rfl⟩
  | cons o l ih =>
    obtain ⟨i1, i2⟩ := ih (fun x hx => h x (List.mem_cons_of_mem _ hx))
    have h0 := h o (List.mem_cons_self ..)
    simp only [lowEnd, highEnd, openOf, i1, i2, smaller, larger]
    cases o.side <;> simp <;> (try split) <;> omega

/-- C150: the user stops trading, leaves orders resting, and does nothing from then on but cancel. As
long as the account is not liquidated, whatever the market does:
the position changes by no more than the open quantity of the buys and of the sells; every trade is the
fill of one of the orders, at its price and with the maker fee; no more fees are charged than for all of
the open quantity (if rates are between 0 and 1); and in linear contracts the balances
before fees plus the position, valued at any price, lie between what they were plus the losses of all
the orders that lose at that price and what they were plus the gains of all that gain, up to the rounding
of the fills made in the meantime. -/
theorem C150_left_alone (c : Cfg) (s s' : State) (ops : List Op) (tr : List (Op × Resp))
    (hr : Reachable c s) (h : history c s ops = .ok (s', tr)) (hd : ∀ x ∈ tr, idle x = true) :
    (s.pos.quantity - openOf .sell s.active ≤ s'.pos.quantity ∧
      s'.pos.quantity ≤ s.pos.quantity + openOf .buy s.active) ∧
    (∃ g, fills s'.log = g ++ fills s.log ∧ ∀ f ∈ g, f.maker = true ∧ 0 < f.qty ∧
      ∃ o ∈ s.active, f.side = o.side ∧ f.price = o.price ∧ f.qty ≤ o.remaining) ∧
    (0 ≤ c.spec.feeMaker → 0 ≤ c.spec.feeTaker → c.spec.feeMaker ≤ c.env.scale →
      charged s ≤ charged s' ∧ charged s' ≤ charged s + openFees c s.active) ∧
    (c.env.kind = .linear → ∀ p : Int,
      let rounding := profitRounding c (fills s'.log) - profitRounding c (fills s.log)
      worth c s p + worst p s.active - rounding ≤ worth c s' p ∧
      worth c s' p ≤ worth c s p + best p s.active + rounding) := by
  obtain ⟨g, a1, a2, _, a4, hr'⟩ := idle_history ops s s' tr hr h hd
  refine ⟨?_, ⟨g, a1, a2⟩, fun m0 t0 m1 => ?_, fun hk p => ?_⟩
  · have k := a4.1 (fun side _ => match side with | .buy => 1 | .sell => -1)
    have z := ends_zero (fun side _ => match side with | .buy => 1 | .sell => -1) s'.active
    obtain ⟨o1, o2⟩ := ends_open s.active (fun o ho => Int.le_of_lt (hr.inv.orders o ho).rem)
    rw [o1, o2, counted_net] at k
    obtain ⟨ops1, r1⟩ := hr
    obtain ⟨ops2, r2⟩ := hr'
    rw [(C06_position_quantity c ops1 s r1).1, (C06_position_quantity c ops2 s' r2).1, a1]
    have : netBought (g ++ fills s.log) = netBought g + netBought (fills s.log) := by
      rw [← counted_net, ← counted_net, ← counted_net, counted_append]
    omega
  · have k := a4.2 m0 m1
    have n := (openFees_nonneg (c := c) s'.active
      (fun o ho => ⟨(hr'.inv.orders o ho).price, (hr'.inv.orders o ho).rem⟩) m0 m1 (fun _ => true)).1
    have hg : 0 ≤ feeSum c g := by
      have hpos : ∀ f ∈ g, 0 ≤ f.fee c := fun f hf => by
        have := hr'.fill_price f (a1 ▸ List.mem_append_left _ hf)
        exact fee_nonneg m0 t0 this.2 this.1
      clear a1 a2 a4 k
      induction g with
      | nil => exact Int.le_refl _
      | cons f g ih =>
        have := hpos f (List.mem_cons_self ..)
        have := ih (fun x hx => hpos x (List.mem_cons_of_mem _ hx))
        simp only [feeSum]
        omega
    obtain ⟨ops1, r1⟩ := hr
    obtain ⟨ops2, r2⟩ := hr'
    unfold charged
    rw [C04_fee_schedule c ops1 s r1 m0 t0, C04_fee_schedule c ops2 s' r2 m0 t0, a1, feeSum_append]
    omega
  · have k := a4.1 (fun side price => match side with | .buy => p - price | .sell => price - p)
    have z := ends_zero (fun side price => match side with | .buy => p - price | .sell => price - p) s'.active
    rw [(ends_value p s.active).1, (ends_value p s.active).2, counted_value] at k
    have d := cash_since hk (fills s.log) g (a1 ▸ hr'.fill_price)
    dsimp only at d ⊢
    rw [worth_fills hr, worth_fills hr', a1, List.map_append, List.sum_append]
    generalize (ledger c (g ++ fills s.log)).realised * c.scale + spent (g ++ fills s.log) -
      (ledger c (g ++ fills s.log)).qty * (ledger c (g ++ fills s.log)).entry = x1 at *
    generalize (ledger c (fills s.log)).realised * c.scale + spent (fills s.log) -
      (ledger c (fills s.log)).qty * (ledger c (fills s.log)).entry = x2 at *
    unfold Spec.abs at d
    split at d <;> omega

theorem ends_sells (l : List Limit) (h : ∀ o ∈ l, 0 ≤ o.remaining) :
    (lowEnd (fun side _ => match side with | .buy => 0 | .sell => -1) l = -openOf .sell l ∧
    highEnd (fun side _ => match side with | .buy => 0 | .sell => -1) l = 0) ∧
    (lowEnd (fun side _ => match side with | .buy => 1 | .sell => 0) l = 0 ∧
    highEnd (fun side _ => match side with | .buy => 1 | .sell => 0) l = openOf .buy l) := by
  induction l with
  | nil => exact ⟨⟨rfl, rfl⟩, rfl, rfl⟩
  | cons o l ih =>
    obtain ⟨⟨i1, i2⟩, i3, i4⟩ := ih (fun x hx => h x (List.mem_cons_of_mem _ hx))
    have h0 := h o (List.mem_cons_self ..)
    simp only [lowEnd, highEnd, openOf, i1, i2, i3, i4, smaller, larger]
    cases o.side <;> simp <;> (try split) <;> omega

theorem passive_step {c : Cfg} {s s' : State} {op : Op} {r : Resp} (hr : Reachable c s)
    (hst : step c s op = .ok (s', r)) (hp : passive op = true) :
    smaller 0 s.pos.quantity - openOf .sell s.active ≤ smaller 0 s'.pos.quantity - openOf .sell s'.active ∧
    larger 0 s'.pos.quantity + openOf .buy s'.active ≤ larger 0 s.pos.quantity + openOf .buy s.active := by
  have hr' := hr.step hst
  by_cases hd : idle (op, r) = true
  · obtain ⟨g, a1, _, _, a4, _⟩ := idle_step hr hst hd
    have hs : ∀ o ∈ s.active, 0 ≤ o.remaining := fun o ho => Int.le_of_lt (hr.inv.orders o ho).rem
    have hs' : ∀ o ∈ s'.active, 0 ≤ o.remaining := fun o ho => Int.le_of_lt (hr'.inv.orders o ho).rem
    have k := a4 (fun side _ => match side with | .buy => 1 | .sell => -1)
    have k1 := a4 (fun side _ => match side with | .buy => 0 | .sell => -1)
    have k2 := a4 (fun side _ => match side with | .buy => 1 | .sell => 0)
    rw [(ends_open _ hs).1, (ends_open _ hs).2, (ends_open _ hs').1, (ends_open _ hs').2, counted_net] at k
    rw [(ends_sells _ hs).1.1, (ends_sells _ hs).1.2, (ends_sells _ hs').1.1, (ends_sells _ hs').1.2] at k1
    rw [(ends_sells _ hs).2.1, (ends_sells _ hs).2.2, (ends_sells _ hs').2.1, (ends_sells _ hs').2.2] at k2
    have q : s'.pos.quantity = netBought g + s.pos.quantity := by
      obtain ⟨ops1, r1⟩ := hr
      obtain ⟨ops2, r2⟩ := hr'
      rw [(C06_position_quantity c ops1 s r1).1, (C06_position_quantity c ops2 s' r2).1, a1, netBought_append]
    rw [q]
    unfold smaller larger
    repeat' split
    all_goals omega
  · rcases step_cases hst with ⟨u, u', x, rfl, hb, hu, rfl⟩ | ⟨u, u', rfl, hb, hu, rfl⟩ |
      ⟨err, rfl, rfl⟩ |
      ⟨side, q, uid, x, rfl, _, _, rfl⟩ | ⟨side, p, q, uid, x, rfl, _, _, _, rfl⟩ |
      ⟨id, side, p, q, uid, x, rfl, _, _, hamend, rfl⟩ | ⟨b, x, rfl, _, rfl⟩
    · cases x with
      | ok ups => exact absurd rfl hd
      | error err =>
        obtain ⟨h1, _, h3, _⟩ := C30_liquidation_flattens c s s' u err hr hst
        rw [h1, h3]
        simp only [Position.quantity]
        unfold smaller larger
        repeat' split
        all_goals omega
    · exact absurd rfl hd
    · exact ⟨Int.le_refl _, Int.le_refl _⟩
    · cases hp
    · cases hp
    · cases hp
    · exact absurd rfl hd

/-- C150 with liquidations: whatever the market does, and however often the account is liquidated (its
orders stay in the book), the position stays within what it was, or nothing, and the open quantities. -/
theorem C150_even_if_liquidated (c : Cfg) : ∀ (ops : List Op) (s s' : State) (tr : List (Op × Resp)),
    Reachable c s → history c s ops = .ok (s', tr) → (∀ op ∈ ops, passive op = true) →
    smaller 0 s.pos.quantity - openOf .sell s.active ≤ s'.pos.quantity ∧
    s'.pos.quantity ≤ larger 0 s.pos.quantity + openOf .buy s.active := by
  have key : ∀ (ops : List Op) (s s' : State) (tr : List (Op × Resp)),
      Reachable c s → history c s ops = .ok (s', tr) → (∀ op ∈ ops, passive op = true) →
      (smaller 0 s.pos.quantity - openOf .sell s.active ≤ smaller 0 s'.pos.quantity - openOf .sell s'.active ∧
      larger 0 s'.pos.quantity + openOf .buy s'.active ≤ larger 0 s.pos.quantity + openOf .buy s.active) ∧
      Reachable c s' := by
    intro ops
    induction ops with
    | nil =>
      intro s s' tr hr h _
      simp only [history, ok_inj, Prod.mk.injEq] at h
      obtain ⟨rfl, rfl⟩ := h
      exact ⟨⟨Int.le_refl _, Int.le_refl _⟩, hr⟩
    | cons op ops ih =>
      intro s s' tr hr h hp
      simp only [history, bind_ok, ok_inj, Prod.mk.injEq] at h
      obtain ⟨⟨t, r⟩, hst, ⟨v, tr1⟩, hh, rfl, rfl⟩ := h
      have k1 := passive_step hr hst (hp op (List.mem_cons_self ..))
      obtain ⟨k2, k3⟩ := ih t v tr1 (hr.step hst) hh (fun o ho => hp o (List.mem_cons_of_mem _ ho))
      refine ⟨?_, k3⟩
      show smaller 0 s.pos.quantity - openOf .sell s.active ≤ smaller 0 v.pos.quantity - openOf .sell v.active ∧
        larger 0 v.pos.quantity + openOf .buy v.active ≤ larger 0 s.pos.quantity + openOf .buy s.active
      omega
  intro ops s s' tr hr h hp
  obtain ⟨k, hr'⟩ := key ops s s' tr hr h hp
  have z := ends_zero (fun side _ => match side with | .buy => 1 | .sell => -1) s'.active
  rw [(ends_open _ (fun o ho => Int.le_of_lt (hr'.inv.orders o ho).rem)).1,
    (ends_open _ (fun o ho => Int.le_of_lt (hr'.inv.orders o ho).rem)).2] at z
  unfold smaller larger at k ⊢
  (repeat' split at k) <;> (repeat' split) <;> omega

namespace Ex

/-- Long 1 from 101, with a buy of 3 at 89, a buy of 1 at 80 and a sell of 1 at 110 resting. -/
def bed : List Op := [.update (.bba ⟨d 100, d 101, 1⟩), .market .buy (d 1) 0,
  .limit .buy (d 89) (d 3) 1, .limit .buy (d 80) (d 1) 2, .limit .sell (d 110) (d 1) 3]

/-- The market trades down to 88, the second buy is cancelled. -/
def night : List Op := [.update (.trade ⟨2, d 88, d 1, .sell⟩), .cancel (.userOrderId 2),
  .update (.trade ⟨3, d 88, d 5, .sell⟩), .update (.bba ⟨d 85, d 86, 4⟩)]

/-- A history and its continuation. -/
def goingOn (c : Cfg) (ops ops' : List Op) (p : State → State → List (Op × Resp) → Bool) : Bool :=
  match history c (State.init c) ops with
  | .ok (s, _) =>
    match history c s ops' with
    | .ok (s', tr) => p s s' tr
    | _ => false
  | _ => false

end Ex

/-- The hypotheses of C150_left_alone are met, and the lower bound is attained: valued at 85, the first
buy loses 12, the second would have gained 5 and the sell 25, and the account has lost 12. -/
example : Ex.goingOn Ex.lin Ex.bed Ex.night (fun s s' tr =>
    tr.all idle && decide (worst (Ex.d 85) s.active = -(Ex.d 12) * Ex.lin.scale ∧
      best (Ex.d 85) s.active = (Ex.d 30) * Ex.lin.scale ∧
      worth Ex.lin s' (Ex.d 85) = worth Ex.lin s (Ex.d 85) + worst (Ex.d 85) s.active ∧
      s'.pos.quantity = s.pos.quantity + Ex.d 3 ∧ openOf .buy s.active = Ex.d 4 ∧
      openOf .sell s.active = Ex.d 1 ∧ charged s < charged s' ∧
      charged s' < charged s + openFees Ex.lin s.active)) = true := by decide +kernel

/-- A night with a liquidation: the long of 1 is sold when the bid falls to 40, and then the buy of 3 at
89 and the buy of 1 at 80 are filled. -/
example : Ex.goingOn Ex.lin Ex.bed [.update (.bba ⟨Ex.d 40, Ex.d 41, 2⟩), .update (.trade ⟨3, Ex.d 60, Ex.d 9, .sell⟩)]
    (fun s s' tr => decide ((tr.map fun x => idle x) = [false, true] ∧ s.pos.quantity = Ex.d 1 ∧
      s'.pos.quantity = openOf .buy s.active)) = true := by decide +kernel

end Lfest
