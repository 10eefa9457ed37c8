import Verif.Lemmas.Split
import Verif.Lemmas.Solo
import Verif.Props.Returns
import Verif.Props.Risk
import Verif.Props.Orders

/-!
# Market orders in parts: C97
-/

namespace Lfest

open Spec

/-- The effect of an accepted market order, on the reference. -/
theorem market_view {c : Cfg} {s s' : State} {side : Side} {q : Int} {uid : Nat} {f : FilledMarket}
    (hc : soundConfig c) (hr : Reachable c s)
    (h : step c s (.market side q uid) = .ok (s', .market (.ok f))) :
    Ref.view c s' = ({ Ref.view c s with next := s.nextId + 1 } : Ref.Exchange).fill c
        ⟨false, side, touchPrice s.ms side, q⟩ ∧
      0 < q ∧ 0 < touchPrice s.ms side ∧
      (Ref.view c s).books c ⟨false, side, touchPrice s.ms side, q⟩ := by
  have hq : 0 < q := ((C60_market_order_decision c s s' side q uid _ hr h).1 ⟨f, rfl⟩).1
  have e := C65_every_call c s s' _ _ hc.2.2.2.2 hr h
  have hret := (C88_returns c s _ hc hr).1 ⟨s', _, h⟩
  simp only [Ref.Exchange.returns] at hret
  have hret := hret hq
  unfold Ref.Exchange.marketReturns at hret
  simp only [Ref.Exchange.call, if_neg (show ¬ q ≤ 0 by omega), Prod.mk.injEq,
    Ref.Exchange.marketOrder] at e
  split at e
  · obtain ⟨_, e⟩ := e; cases e
  · rename_i hqe
    split at e
    · rename_i haff
      obtain ⟨e, _⟩ := e
      rw [hqe] at hret
      simp only [ne_eq, not_true_eq_false, false_or, haff, if_true] at hret
      exact ⟨e.symm, hq, hret.1, hret.2⟩
    · obtain ⟨_, e⟩ := e; cases e

/-- C97: buying or selling `a` and then `b` contracts at market leaves the same position as one
order of `a + b` at the same quotes. The fees of the parts, paid and owed together, are never more
than those of the whole, and at most two units in the last place less; the profit realised differs
by at most one unit, so that equity less fees owed is at most one unit smaller and at most three
units larger; the position margin differs by at most two units. Entry prices differ by no more than
rounding. Market state, orders and order margin are the same. -/
theorem C97_two_parts (c : Cfg) (s s1 s2 s3 : State) (side : Side) (a b : Int) (u u1 u2 : Nat)
    (f f1 f2 : FilledMarket) (hc : soundConfig c) (hr : Reachable c s)
    (h0 : 0 ≤ c.spec.feeTaker) (h1 : c.spec.feeTaker ≤ c.env.scale)
    (ho : 0 ≤ s.pos.outstandingFees)
    (hone : step c s (.market side (a + b) u) = .ok (s1, .market (.ok f)))
    (hfst : step c s (.market side a u1) = .ok (s2, .market (.ok f1)))
    (hsnd : step c s2 (.market side b u2) = .ok (s3, .market (.ok f2))) :
    s3.pos.quantity = s1.pos.quantity ∧
    (s3.feesPaid + s3.pos.outstandingFees ≤ s1.feesPaid + s1.pos.outstandingFees ∧
      s1.feesPaid + s1.pos.outstandingFees ≤ s3.feesPaid + s3.pos.outstandingFees + 2) ∧
    (equity s1 - s1.pos.outstandingFees ≤ equity s3 - s3.pos.outstandingFees + 1 ∧
      equity s3 - s3.pos.outstandingFees ≤ equity s1 - s1.pos.outstandingFees + 3) ∧
    (s1.acct.balance .positionMargin ≤ s3.acct.balance .positionMargin + 2 ∧
      s3.acct.balance .positionMargin ≤ s1.acct.balance .positionMargin + 2) ∧
    Spec.abs (s1.pos.entryPrice - s3.pos.entryPrice) * Spec.abs s1.pos.quantity ≤
      4 * c.env.scale + 2 * Spec.abs s1.pos.quantity ∧
    s3.ms = s1.ms ∧ s3.active = s1.active ∧
    s3.acct.balance .orderMargin = s1.acct.balance .orderMargin := by
  have hr2 := hr.step hfst
  obtain ⟨v1, q1, p1, b1⟩ := market_view hc hr hone
  obtain ⟨v2, qa, _, _⟩ := market_view hc hr hfst
  obtain ⟨v3, qb, _, _⟩ := market_view hc hr2 hsnd
  have hms : s2.ms = s.ms := congrArg Ref.Exchange.market v2
  rw [hms] at v3
  have hen : 0 ≤ (Ref.view c s).book.entry := hr.entry_nonneg
  have hal := split_ledger (c := c) (l := (Ref.view c s).book) (side := side) (p := touchPrice s.ms side)
    h0 h1 qa qb p1 hen ho
  have hlo := split_locked (c := c) (l := (Ref.view c s).book) (side := side)
    (p := touchPrice s.ms side) (L := (Ref.view c s).locked) hc.2.2.1 hc.2.2.2.1 h0 ho qa qb p1 hen
    (fun h2 h3 => b1.2.2 h2 (.inl h3))
  have e1 : (Ref.view c s1).book = (Ref.view c s).book.fill c
      ⟨false, side, touchPrice s.ms side, a + b⟩ := congrArg Ref.Exchange.book v1
  have e2 : (Ref.view c s2).book = (Ref.view c s).book.fill c
      ⟨false, side, touchPrice s.ms side, a⟩ := congrArg Ref.Exchange.book v2
  have e3 : (Ref.view c s3).book = (Ref.view c s2).book.fill c
      ⟨false, side, touchPrice s.ms side, b⟩ := congrArg Ref.Exchange.book v3
  rw [e2] at e3
  have l1 : (Ref.view c s1).locked = _ := congrArg Ref.Exchange.locked v1
  have l2 : (Ref.view c s2).locked = _ := congrArg Ref.Exchange.locked v2
  have l3 : (Ref.view c s3).locked = _ := congrArg Ref.Exchange.locked v3
  simp only [Ref.Exchange.fill] at l1 l2 l3
  rw [e2, l2] at l3
  rw [← e1, ← e3] at hal
  rw [← l1, ← l3] at hlo
  obtain ⟨a1, a2, a3, a4⟩ := hal
  have eq1 := C65_wallet c s1 (hr.step hone)
  have eq3 := C65_wallet c s3 (hr2.step hsnd)
  have r1 : (Ref.view c s1).reserved = (Ref.view c s).reserved := by rw [v1]; rfl
  have r2 : (Ref.view c s2).reserved = (Ref.view c s).reserved := by rw [v2]; rfl
  have r3 : (Ref.view c s3).reserved = (Ref.view c s).reserved := by rw [v3, ← r2]; rfl
  simp only [Ref.Exchange.wallet] at eq1 eq3
  refine ⟨a1.symm, a2, ?_, hlo, ?_, ?_, ?_, ?_⟩
  · unfold equity
    rw [eq1, eq3]
    simp only [Ref.view] at a2 a3 ⊢
    omega
  · obtain ⟨x1, x2⟩ := a4
    simp only [Ref.view] at x1 x2
    have habs : Spec.abs (s1.pos.entryPrice - s3.pos.entryPrice) =
        s1.pos.entryPrice - s3.pos.entryPrice ∨
        Spec.abs (s1.pos.entryPrice - s3.pos.entryPrice) =
        s3.pos.entryPrice - s1.pos.entryPrice := by
      unfold Spec.abs; split <;> omega
    rcases habs with h | h <;> rw [h]
    · exact x1
    · exact x2
  · exact (congrArg Ref.Exchange.market v3).trans (hms.trans (congrArg Ref.Exchange.market v1).symm)
  · exact (congrArg Ref.Exchange.orders v3).trans ((congrArg Ref.Exchange.orders v2).trans
      (congrArg Ref.Exchange.orders v1).symm)
  · exact r3.trans r1.symm

/-- C97, acceptance: if the whole does not go beyond the position it reduces, or enlarges the
position, and is accepted, then so are two parts that the quantity filter allows. -/
theorem C97_parts_accepted (c : Cfg) (s s1 s2 s3 : State) (side : Side) (a b : Int) (u u1 u2 : Nat)
    (f : FilledMarket) (r1 r2 : Resp) (hc : soundConfig c) (hr : Reachable c s)
    (h0 : 0 ≤ c.spec.feeTaker) (h1 : c.spec.feeTaker ≤ c.env.scale)
    (ha : 0 < a) (hb : 0 < b)
    (hqa : quantityOk c.spec.quantityFilter a) (hqb : quantityOk c.spec.quantityFilter b)
    (hside : enlarges s.pos side ∨ a + b ≤ opposing s.pos.quantity side)
    (hone : step c s (.market side (a + b) u) = .ok (s1, .market (.ok f)))
    (hfst : step c s (.market side a u1) = .ok (s2, r1))
    (hsnd : step c s2 (.market side b u2) = .ok (s3, r2)) :
    (∃ f1, r1 = .market (.ok f1)) ∧ ∃ f2, r2 = .market (.ok f2) := by
  have hw := (C60_market_order_decision c s s1 side (a + b) u _ hr hone).1 ⟨f, rfl⟩
  obtain ⟨v1, _, p1, _⟩ := market_view hc hr hone
  have hfirst : ∃ f1, r1 = .market (.ok f1) := by
    refine (C60_market_order_decision c s s2 side a u1 r1 hr hfst).2 ⟨ha, hqa, ?_⟩
    have hall := hw.2.2
    unfold marketAllowed at hall ⊢
    rcases hside with hen | hle
    · unfold enlarges at hen
      simp only [hen, if_true] at hall ⊢
      unfold needed at hall ⊢
      have m1 := share_value_parts c.env (a := a) (b := b) (p := touchPrice s.ms side) (by omega)
        (by omega) (by omega) hc.2.2.1 hc.2.2.2.1
      have m2 := share_value_parts c.env (a := a) (b := b) (p := touchPrice s.ms side) (by omega)
        (by omega) (by omega) h0 h1
      have m3 := share_nonneg c.env (value_nonneg c.env (q := b) (p := touchPrice s.ms side)
        (by omega) (by omega)) hc.2.2.1
      have m4 := share_nonneg c.env (value_nonneg c.env (q := b) (p := touchPrice s.ms side)
        (by omega) (by omega)) h0
      omega
    · simp only
      rw [if_neg (by omega), if_pos (by omega)]
      trivial
  refine ⟨hfirst, ?_⟩
  obtain ⟨f1, rfl⟩ := hfirst
  have hr2 := hr.step hfst
  obtain ⟨v2, _, _, _⟩ := market_view hc hr hfst
  have hms : s2.ms = s.ms := congrArg Ref.Exchange.market v2
  have hq2 : s2.pos.quantity = s.pos.quantity + Fill.signed ⟨false, side, touchPrice s.ms side, a⟩ := by
    have := congrArg (fun x => x.book.qty) v2
    simp only [Ref.Exchange.fill, fill_qty] at this
    exact this
  refine (C60_market_order_decision c s2 s3 side b u2 r2 hr2 hsnd).2 ⟨hb, hqb, ?_⟩
  have hall := hw.2.2
  unfold marketAllowed at hall ⊢
  rcases hside with hen | hle
  · unfold enlarges at hen
    have hen2 : opposing s2.pos.quantity side = 0 := by
      rw [hq2]; exact opposing_grown ha hen
    have hwal : s2.acct.balance .wallet = s.acct.balance .wallet -
        Ref.initial c a (touchPrice s.ms side) := by
      rw [C65_wallet c s2 hr2, C65_wallet c s hr, v2]
      have hopp : opposing (Ref.view c s).book.qty side = 0 := hen
      have hb : ((Ref.view c s).book.fill c ⟨false, side, touchPrice s.ms side, a⟩).realised =
          (Ref.view c s).book.realised ∧
          ((Ref.view c s).book.fill c ⟨false, side, touchPrice s.ms side, a⟩).paid =
          (Ref.view c s).book.paid := by
        by_cases hz : (Ref.view c s).book.qty = 0
        · rw [fill_flat hz]; exact ⟨rfl, rfl⟩
        · rcases along_or_against (side := side) hz with h | h
          · rw [fill_along h]; exact ⟨rfl, rfl⟩
          · have := (opposing_against h).2; omega
      simp only [Ref.Exchange.wallet, Ref.Exchange.fill, hb.1, hb.2, Ref.lockedAfter, hopp, if_true]
      omega
    simp only [hen, hen2, if_true] at hall ⊢
    rw [hms, hwal]
    unfold needed Ref.initial at *
    have m1 := share_value_parts c.env (a := a) (b := b) (p := touchPrice s.ms side) (by omega)
      (by omega) (by omega) hc.2.2.1 hc.2.2.2.1
    have m2 := share_value_parts c.env (a := a) (b := b) (p := touchPrice s.ms side) (by omega)
      (by omega) (by omega) h0 h1
    have m4 := share_nonneg c.env (value_nonneg c.env (q := a) (p := touchPrice s.ms side)
      (by omega) (by omega)) h0
    omega
  · have hop2 : opposing s2.pos.quantity side = opposing s.pos.quantity side - a := by
      rw [hq2]; exact opposing_reduced ha (by omega)
    simp only
    rw [hop2, if_neg (by omega), if_pos (by omega)]
    trivial

/-- C97, any number of parts: the fees of an order cut into pieces add up to no more than the fee of
the whole, and the pieces save at most two units in the last place each. -/
theorem C97_fees_of_parts (c : Cfg) (side : Side) (p : Int) (qs : List Int) (hp : 0 < p)
    (h0 : 0 ≤ c.spec.feeTaker) (h1 : c.spec.feeTaker ≤ c.env.scale) (hq : ∀ q ∈ qs, 0 ≤ q) :
    (qs.map fun q => Fill.fee c ⟨false, side, p, q⟩).sum ≤ Fill.fee c ⟨false, side, p, qs.sum⟩ ∧
    Fill.fee c ⟨false, side, p, qs.sum⟩ ≤
      (qs.map fun q => Fill.fee c ⟨false, side, p, q⟩).sum + 2 * qs.length := by
  induction qs with
  | nil =>
    simp only [List.map_nil, List.sum_nil, List.length_nil, Fill.fee, value_zero, share_zero]
    omega
  | cons q qs ih =>
    have h2 := ih (fun x hx => hq x (by simp [hx]))
    have hsum : ∀ l : List Int, (∀ x ∈ l, 0 ≤ x) → 0 ≤ l.sum := by
      intro l
      induction l with
      | nil => intro _; simp
      | cons x l ih =>
        intro h
        have := ih (fun y hy => h y (by simp [hy]))
        have := h x (by simp)
        simp only [List.sum_cons]; omega
    have h3 := fee_parts (c := c) (side := side) (p := p) (a := q) (b := qs.sum) (hq q (by simp))
      (hsum qs (fun x hx => hq x (by simp [hx]))) (by omega) h0 h1
    simp only [List.map_cons, List.sum_cons, List.length_cons]
    omega

/-! Examples -/

/-- The hypotheses are met when a position is opened, enlarged, reduced and turned around. -/
def Ex.inParts (c : Cfg) (ops : List Op) (side : Side) (a b : Int) : Bool :=
  match run c (State.init c) ops with
  | .error _ => false
  | .ok s => decide (0 ≤ s.pos.outstandingFees) &&
    (match step c s (.market side (a + b) 0) with
      | .ok (_, .market (.ok _)) => true
      | _ => false) &&
    match step c s (.market side a 0) with
    | .ok (s2, .market (.ok _)) => (match step c s2 (.market side b 0) with
      | .ok (_, .market (.ok _)) => true
      | _ => false)
    | _ => false

example : Ex.inParts Ex.lin [.update (.bba ⟨Ex.d 100, Ex.d 101, 1⟩)] .buy (Ex.d 1) (Ex.d 2) = true ∧
    Ex.inParts Ex.lin Ex.ops1 .buy (Ex.d 1) (Ex.d 2) = true ∧
    Ex.inParts Ex.lin Ex.ops1 .sell (Ex.d 1) (Ex.d 2) = true ∧
    Ex.inParts Ex.lin Ex.ops1 .sell (Ex.d 3) (Ex.d 4) = true ∧
    Ex.inParts Ex.inv [.update (.bba ⟨Ex.d 100, Ex.d 101, 1⟩), .market .buy (Ex.d 700) 0] .sell
      (Ex.d 700) (Ex.d 60) = true := by decide +kernel

/-- Orders that are small enough are free: a position bought in ten pieces owes nothing, the same
position bought at once owes a fee. -/
theorem C97_small_orders_are_free : ∃ s s1 s2, Reachable Ex.fine s ∧
    run Ex.fine s [.market .buy 160 0] = .ok s1 ∧
    run Ex.fine s (List.replicate 10 (.market .buy 16 0)) = .ok s2 ∧
    s1.pos.quantity = 160 ∧ s2.pos.quantity = 160 ∧
    s1.pos.outstandingFees = 9 ∧ s2.pos.outstandingFees = 0 :=
  ⟨_, _, _, ⟨[.update (.bba ⟨Ex.d 100, Ex.d 101, 1⟩)], rfl⟩, rfl, rfl, by decide +kernel,
    by decide +kernel, by decide +kernel, by decide +kernel⟩

end Lfest
