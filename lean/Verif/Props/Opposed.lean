import Verif.SpecOpposed
import Verif.Props.Parts
import Verif.Props.Prices
import Verif.Lemmas.Safety
import Verif.Lemmas.Returns
import Verif.Props.Tracker
import Verif.Props.Orders

/-!
# C135: two accounts on opposite sides never gain together
-/

namespace Lfest
open Spec

theorem spec_pnl_neg (e : Env) (a b q : Int) : Spec.pnl e a b (-q) = -Spec.pnl e a b q := by
  unfold Spec.pnl
  cases e.kind <;> simp only [value_neg] <;> omega

/-- A long that was opened higher and is closed lower than a short of the same size. -/
theorem pnl_pair {e : Env} {E1 X1 E2 X2 q : Int} (hq : 0 ≤ q) (hE0 : 0 ≤ E2)
    (hE : e.kind = .inverse → 0 < E2) (hE' : E2 ≤ E1)
    (hX : 0 < X1) (hX' : X1 ≤ X2) : Spec.pnl e E1 X1 q + Spec.pnl e E2 X2 (-q) ≤ 0 := by
  have hs := scale_pos e
  rw [spec_pnl_neg]
  unfold Spec.pnl value
  cases hk : e.kind with
  | linear =>
    have h1 := tdiv_mono hs (Int.mul_nonneg hq (by omega)) (Int.mul_le_mul_of_nonneg_left hE' hq)
    have h2 := tdiv_mono hs (Int.mul_nonneg hq (by omega)) (Int.mul_le_mul_of_nonneg_left hX' hq)
    simp only; omega
  | inverse =>
    have h0 : 0 ≤ q * e.scale := Int.mul_nonneg hq (by omega)
    have h1 := tdiv_anti h0 (hE hk) hE'
    have h2 := tdiv_anti h0 hX hX'
    simp only; omega

theorem weighted_mono (e : Env) {p0 p0' w0 p1 p1' w1 : Int} (hp0 : 0 ≤ p0) (h0 : p0 ≤ p0')
    (hp1 : 0 ≤ p1) (h1 : p1 ≤ p1') (hw0 : 0 ≤ w0) (hw1 : 0 ≤ w1) (hw : 0 < w0 + w1) :
    weighted e p0 w0 p1 w1 ≤ weighted e p0' w0 p1' w1 := by
  have hs := scale_pos e
  unfold weighted
  have a1 := tdiv_mono hs (Int.mul_nonneg hp0 hw0) (Int.mul_le_mul_of_nonneg_right h0 hw0)
  have a2 := tdiv_mono hs (Int.mul_nonneg hp1 hw1) (Int.mul_le_mul_of_nonneg_right h1 hw1)
  have b1 : 0 ≤ (p0 * w0).tdiv e.scale := Int.tdiv_nonneg (Int.mul_nonneg hp0 hw0) (by omega)
  have b2 : 0 ≤ (p1 * w1).tdiv e.scale := Int.tdiv_nonneg (Int.mul_nonneg hp1 hw1) (by omega)
  exact tdiv_mono hw (Int.mul_nonneg (by omega) (by omega))
    (Int.mul_le_mul_of_nonneg_right (by omega) (by omega))

/-- A position that was reduced had a positive entry price: the code divides by it, or asserts that the
margin set free is positive. -/
def ReducedFrom (c : Cfg) : List Fill → Prop
  | [] => True
  | f :: fs => ReducedFrom c fs ∧ (0 < opposing (Spec.ledger c fs).qty f.side → 0 < (Spec.ledger c fs).entry)

theorem value_zero_price (e : Env) (q : Int) : value e q 0 = 0 := by
  unfold value
  cases e.kind <;> simp

theorem Spec.Reachable.sane {c : Cfg} {s : State} (h : Reachable c s) : ReducedFrom c (fills s.log) := by
  obtain ⟨ops, h⟩ := h
  have key : LInv c s.core ∧ ReducedFrom c (fills s.core.log) ∧ 0 ≤ (Spec.ledger c (fills s.core.log)).entry := by
    refine (run_core (st := true) h).inv (P := fun x => LInv c x ∧ ReducedFrom c (fills x.log) ∧
      0 ≤ (Spec.ledger c (fills x.log)).entry) ?_ ⟨LInv.init c, trivial, by simp [State.core, State.init, fills, Spec.ledger, Ledger.empty]⟩
    rintro x y ⟨hl, hx, he⟩ k
    have hl' := LInv.step hl k
    refine ⟨hl', ?_⟩
    rcases k.shift_or_fill with ⟨_, _, e⟩ | ⟨f, hf, hc, e⟩
    · rw [e]; exact ⟨hx, he⟩
    · rw [e]
      have hq : 0 < f.qty := hl'.pos f (by rw [e]; simp)
      refine ⟨⟨hx, fun ho => ?_⟩, fill_entry c he (hf rfl) hq⟩
      have e1 : x.pos.quantity = (Spec.ledger c (fills x.log)).qty := by
        have := congrArg Ledger.qty hl.ledger; simpa [ledgerOf] using this
      have e2 : x.pos.entryPrice = (Spec.ledger c (fills x.log)).entry := by
        have := congrArg Ledger.entry hl.ledger; simpa [ledgerOf] using this
      have hn := (changePosition_needs hl.wf hc).2.1 (by rw [e1]; exact ho)
      rw [e2] at hn
      rcases Int.lt_or_eq_of_le he with hlt | heq
      · exact hlt
      · rw [← heq, value_zero_price] at hn
        simp [share] at hn
  exact key.2.1

theorem opp_fill_flat {c : Cfg} {l : Ledger} {f : Fill} (h : l.qty = 0) :
    l.fill c f = { l with qty := f.signed, entry := f.price, owed := f.fee c } := by
  unfold Ledger.fill; exact if_pos h

theorem opp_fill_more {c : Cfg} {l : Ledger} {f : Fill} (h0 : l.qty ≠ 0)
    (h : 0 < l.qty ∧ f.side = .buy ∨ l.qty < 0 ∧ f.side = .sell) :
    l.fill c f = { l with qty := l.qty + f.signed
                          entry := weighted c.env l.entry (Spec.abs l.qty) f.price f.qty
                          owed := l.owed + f.fee c } := by
  unfold Ledger.fill; rw [if_neg h0, if_pos h]

theorem opp_fill_less {c : Cfg} {l : Ledger} {f : Fill}
    (h : 0 < l.qty ∧ f.side = .sell ∨ l.qty < 0 ∧ f.side = .buy) :
    (l.fill c f).qty = l.qty + f.signed ∧
    (l.fill c f).entry = (if f.qty < Spec.abs l.qty then l.entry else if f.qty = Spec.abs l.qty then 0
      else f.price) ∧
    (l.fill c f).realised = l.realised + Spec.pnl c.env l.entry f.price
      (if 0 < l.qty then (if f.qty ≤ Spec.abs l.qty then f.qty else Spec.abs l.qty)
        else -(if f.qty ≤ Spec.abs l.qty then f.qty else Spec.abs l.qty)) := by
  have h0 : l.qty ≠ 0 := by omega
  have h1 : ¬ (0 < l.qty ∧ f.side = .buy ∨ l.qty < 0 ∧ f.side = .sell) := by
    rcases h with ⟨a, b⟩ | ⟨a, b⟩ <;> rw [b] <;> simp <;> omega
  unfold Ledger.fill
  rw [if_neg h0, if_neg h1]
  exact ⟨rfl, rfl, rfl⟩

/-- The ledgers of two accounts on opposite sides. -/
structure Against (l m : Ledger) : Prop where
  qty : m.qty = -l.qty
  long : 0 < l.qty → m.entry ≤ l.entry
  short : l.qty < 0 → l.entry ≤ m.entry
  gain : l.realised + m.realised ≤ 0

theorem against_fill {c c' : Cfg} {l m : Ledger} {f g : Fill} (hc : SameContract c c') (h : Against l m)
    (hl : 0 ≤ l.entry) (hm : 0 ≤ m.entry) (ho : opposed f g) (hq : 0 < f.qty) (hp : 0 < f.price)
    (hp' : 0 < g.price) (s1 : 0 < opposing l.qty f.side → 0 < l.entry)
    (s2 : 0 < opposing m.qty g.side → 0 < m.entry) : Against (l.fill c f) (m.fill c' g) := by
  obtain ⟨h1, h2, h3, h4⟩ := h
  obtain ⟨o1, o2, o3, o4⟩ := ho
  have hpnl : ∀ a b q, Spec.pnl c'.env a b q = Spec.pnl c.env a b q := by
    intro a b q
    have hs : c'.env.scale = c.env.scale := hc.scale
    unfold Spec.pnl value
    rw [hc.kind, hs]
  have hwt : ∀ a b x y, weighted c'.env a b x y = weighted c.env a b x y := by
    intro a b x y
    have hs : c'.env.scale = c.env.scale := hc.scale
    unfold weighted
    rw [hs]
  have habs : Spec.abs m.qty = Spec.abs l.qty := by
    rw [h1]; unfold Spec.abs; split <;> split <;> omega
  have habs0 : 0 ≤ Spec.abs l.qty := by unfold Spec.abs; split <;> omega
  rcases Int.lt_trichotomy l.qty 0 with hneg | h0 | hpos
  · have ha : Spec.abs l.qty = -l.qty := by unfold Spec.abs; split <;> omega
    cases hf : f.side with
    | buy =>
      have og : g.side = .sell := by rw [o1, hf]; rfl
      have o3 := o3 hf
      have s1 := s1 (by rw [hf]; simp only [opposing, larger]; split <;> omega)
      have s2 := s2 (by rw [og]; simp only [opposing, larger]; split <;> omega)
      obtain ⟨a1, a2, a3⟩ := opp_fill_less (c := c) (l := l) (f := f) (.inr ⟨hneg, hf⟩)
      obtain ⟨b1, b2, b3⟩ := opp_fill_less (c := c') (l := m) (f := g) (.inl ⟨by omega, og⟩)
      rw [hpnl] at b3
      rw [habs, o2] at b2 b3
      rw [if_neg (show ¬ 0 < l.qty by omega)] at a3
      rw [if_pos (show 0 < m.qty by omega)] at b3
      have hcl : 0 ≤ (if f.qty ≤ Spec.abs l.qty then f.qty else Spec.abs l.qty) := by split <;> omega
      have hpp := pnl_pair (e := c.env) (E1 := m.entry) (E2 := l.entry) (X1 := g.price) (X2 := f.price)
        hcl (by omega) (fun _ => s1) (h3 hneg) hp' o3
      simp only [Fill.signed, hf] at a1
      simp only [Fill.signed, og, o2] at b1
      refine ⟨by omega, ?_, ?_, by omega⟩
      · intro hh
        rw [a2, b2]
        rw [if_neg (by omega), if_neg (by omega), if_neg (by omega), if_neg (by omega)]
        exact o3
      · intro hh
        rw [a2, b2]
        rw [if_pos (by omega), if_pos (by omega)]
        exact h3 hneg
    | sell =>
      have og : g.side = .buy := by rw [o1, hf]; rfl
      have o4 := o4 hf
      rw [opp_fill_more (by omega) (.inr ⟨hneg, hf⟩), opp_fill_more (by omega) (.inl ⟨by omega, og⟩)]
      simp only [hwt, habs, o2]
      refine ⟨?_, ?_, ?_, h4⟩
      · simp only [Fill.signed, hf, og, o2, h1]; omega
      · simp only [Fill.signed, hf]; omega
      · intro _
        exact weighted_mono c.env hl (h3 hneg) (by omega) o4 habs0 (by omega) (by omega)
  · rw [opp_fill_flat h0, opp_fill_flat (by omega)]
    refine ⟨?_, ?_, ?_, h4⟩
    · simp only [Fill.signed, o1, o2]
      cases f.side <;> simp [opposite]
    · simp only [Fill.signed]
      cases hf : f.side with
      | buy => intro _; exact o3 hf
      | sell => simp only; omega
    · simp only [Fill.signed]
      cases hf : f.side with
      | sell => intro _; exact o4 hf
      | buy => simp only; omega
  · have ha : Spec.abs l.qty = l.qty := by unfold Spec.abs; split <;> omega
    cases hf : f.side with
    | sell =>
      have og : g.side = .buy := by rw [o1, hf]; rfl
      have o4 := o4 hf
      have s1 := s1 (by rw [hf]; simp only [opposing, larger]; split <;> omega)
      have s2 := s2 (by rw [og]; simp only [opposing, larger]; split <;> omega)
      obtain ⟨a1, a2, a3⟩ := opp_fill_less (c := c) (l := l) (f := f) (.inl ⟨hpos, hf⟩)
      obtain ⟨b1, b2, b3⟩ := opp_fill_less (c := c') (l := m) (f := g) (.inr ⟨by omega, og⟩)
      rw [hpnl] at b3
      rw [habs, o2] at b2 b3
      rw [if_pos hpos] at a3
      rw [if_neg (show ¬ 0 < m.qty by omega)] at b3
      have hcl : 0 ≤ (if f.qty ≤ Spec.abs l.qty then f.qty else Spec.abs l.qty) := by split <;> omega
      have hpp := pnl_pair (e := c.env) (E1 := l.entry) (E2 := m.entry) (X1 := f.price) (X2 := g.price)
        hcl (by omega) (fun _ => s2) (h2 hpos) hp o4
      simp only [Fill.signed, hf] at a1
      simp only [Fill.signed, og, o2] at b1
      refine ⟨by omega, ?_, ?_, by omega⟩
      · intro hh
        rw [a2, b2]
        rw [if_pos (by omega), if_pos (by omega)]
        exact h2 hpos
      · intro hh
        rw [a2, b2]
        rw [if_neg (by omega), if_neg (by omega), if_neg (by omega), if_neg (by omega)]
        exact o4
    | buy =>
      have og : g.side = .sell := by rw [o1, hf]; rfl
      have o3 := o3 hf
      rw [opp_fill_more (by omega) (.inl ⟨hpos, hf⟩), opp_fill_more (by omega) (.inr ⟨by omega, og⟩)]
      simp only [hwt, habs, o2]
      refine ⟨?_, ?_, ?_, h4⟩
      · simp only [Fill.signed, hf, og, o2, h1]; omega
      · intro _
        exact weighted_mono c.env hm (h2 hpos) (by omega) o3 habs0 (by omega) (by omega)
      · simp only [Fill.signed, hf]; omega

theorem against_ledger {c c' : Cfg} (hc : SameContract c c') : ∀ {fs gs : List Fill},
    allOpposed fs gs → (∀ f ∈ fs, 0 < f.price ∧ 0 < f.qty) → (∀ g ∈ gs, 0 < g.price ∧ 0 < g.qty) →
    ReducedFrom c fs → ReducedFrom c' gs → Against (Spec.ledger c fs) (Spec.ledger c' gs)
  | [], [], _, _, _, _, _ => ⟨rfl, by simp [Spec.ledger, Ledger.empty],
      by simp [Spec.ledger, Ledger.empty], by simp [Spec.ledger, Ledger.empty]⟩
  | f :: fs, g :: gs, h, hf, hg, sf, sg => by
    have hf' : ∀ x ∈ fs, 0 < x.price ∧ 0 < x.qty := fun x hx => hf x (by simp [hx])
    have hg' : ∀ x ∈ gs, 0 < x.price ∧ 0 < x.qty := fun x hx => hg x (by simp [hx])
    exact against_fill hc (against_ledger hc h.2 hf' hg' sf.1 sg.1) (ledger_entry c _ hf')
      (ledger_entry c' _ hg') h.1 (hf f (by simp)).2 (hf f (by simp)).1 (hg g (by simp)).1 sf.2 sg.2
  | [], _ :: _, h, _, _, _, _ => h.elim
  | _ :: _, [], h, _, _, _, _ => h.elim

/-- At the same prices the two ledgers mirror each other. -/
structure MirrorBooks (l m : Ledger) : Prop where
  qty : m.qty = -l.qty
  entry : m.entry = l.entry
  gain : l.realised + m.realised = 0

theorem mirrored_ledger {c c' : Cfg} (hc : SameContract c c') : ∀ {fs gs : List Fill},
    allOpposed fs gs → samePrices fs gs → MirrorBooks (Spec.ledger c fs) (Spec.ledger c' gs)
  | [], [], _, _ => ⟨rfl, rfl, rfl⟩
  | f :: fs, g :: gs, h, hp => by
    obtain ⟨h1, h2, h3⟩ := mirrored_ledger hc h.2 hp.2
    obtain ⟨o1, o2, _, _⟩ := h.1
    have hpr := hp.1
    have hs : c'.env.scale = c.env.scale := hc.scale
    have habs : Spec.abs (Spec.ledger c' gs).qty = Spec.abs (Spec.ledger c fs).qty := by
      rw [h1]; unfold Spec.abs; split <;> split <;> omega
    rw [Spec.ledger, Spec.ledger]
    generalize Spec.ledger c fs = l at *
    generalize Spec.ledger c' gs = m at *
    have hpnl : ∀ a b q, Spec.pnl c'.env a b q = Spec.pnl c.env a b q := by
      intro a b q
      unfold Spec.pnl value
      rw [hc.kind, hs]
    have hwt : ∀ a b x y, weighted c'.env a b x y = weighted c.env a b x y := by
      intro a b x y
      unfold weighted
      rw [hs]
    have hsg : g.signed = -f.signed := by
      unfold Fill.signed
      rw [o1, o2]
      cases f.side <;> simp [opposite]
    show MirrorBooks (l.fill c f) (m.fill c' g)
    by_cases h0 : l.qty = 0
    · rw [opp_fill_flat h0, opp_fill_flat (by omega)]
      exact ⟨hsg, hpr, h3⟩
    by_cases hm : 0 < l.qty ∧ f.side = .buy ∨ l.qty < 0 ∧ f.side = .sell
    · have hm' : 0 < m.qty ∧ g.side = .buy ∨ m.qty < 0 ∧ g.side = .sell := by
        rcases hm with ⟨a, b⟩ | ⟨a, b⟩
        · exact .inr ⟨by omega, by rw [o1, b]; rfl⟩
        · exact .inl ⟨by omega, by rw [o1, b]; rfl⟩
      rw [opp_fill_more h0 hm, opp_fill_more (by omega) hm']
      refine ⟨by simp only; omega, ?_, h3⟩
      simp only [hwt, h2, habs, hpr, o2]
    · have hl : 0 < l.qty ∧ f.side = .sell ∨ l.qty < 0 ∧ f.side = .buy := by
        cases hf : f.side
        · exact .inr ⟨by simp [hf] at hm; omega, rfl⟩
        · exact .inl ⟨by simp [hf] at hm; omega, rfl⟩
      have hl' : 0 < m.qty ∧ g.side = .sell ∨ m.qty < 0 ∧ g.side = .buy := by
        rcases hl with ⟨a, b⟩ | ⟨a, b⟩
        · exact .inr ⟨by omega, by rw [o1, b]; rfl⟩
        · exact .inl ⟨by omega, by rw [o1, b]; rfl⟩
      obtain ⟨a1, a2, a3⟩ := opp_fill_less (c := c) hl
      obtain ⟨b1, b2, b3⟩ := opp_fill_less (c := c') hl'
      rw [hpnl] at b3
      rw [habs, o2, hpr, h2] at b2 b3
      refine ⟨by omega, by rw [a2, b2], ?_⟩
      rw [a3, b3]
      by_cases hq : 0 < l.qty
      · rw [if_pos hq, if_neg (show ¬ 0 < m.qty by omega), spec_pnl_neg]; omega
      · rw [if_neg hq, if_pos (show 0 < m.qty by omega), spec_pnl_neg]; omega
  | [], _ :: _, h, _ => h.elim
  | _ :: _, [], h, _ => h.elim

theorem gain_ledger {c : Cfg} {s : State} (hr : Reachable c s) :
    realisedGain c s = (Spec.ledger c (fills s.log)).realised := by
  obtain ⟨ops, h⟩ := hr
  have := (C02_equity c ops s h).1
  unfold realisedGain
  omega

/-- A price at which profit can be computed for an inverse contract is not zero. -/
theorem unrealized_entry {e : Env} {pos : Position} {bid ask u : Int} (hk : e.kind = .inverse)
    (hw : PosWF pos) (hn : pos.quantity ≠ 0) (h : pos.unrealizedPnl e bid ask = .ok u) :
    pos.entryPrice ≠ 0 := by
  intro he
  have key : ∀ (i : Inner) (x y : Int), 0 < i.qty → i.entry = 0 → i.unrealizedPnl e x = .ok y → False := by
    intro i x y hq hi h
    simp only [Inner.unrealizedPnl, pnl, hi, hk] at h
    rw [if_neg (by omega)] at h
    simp [convert, hk, ddiv] at h
    all_goals (first | cases h)
  cases pos with
  | neutral => exact hn rfl
  | long i => exact key i _ _ hw he h
  | short i =>
    simp only [Position.unrealizedPnl] at h
    obtain ⟨y, h1, _⟩ := bind_ok.1 h
    exact key i _ _ hw he h1

/-- C135: two accounts in the same contract that have always been on opposite sides, whose buys were
never cheaper than the sales they correspond to, have opposite positions and have together gained
nothing before fees: neither by what they have realised nor together with their open positions at any
quotes that are not crossed. Not even rounding can be exploited in this way. -/
theorem C135_never_gain_together (c c' : Cfg) (a b : State) (hc : SameContract c c')
    (ha : Reachable c a) (hb : Reachable c' b) (h : allOpposed (fills a.log) (fills b.log)) :
    b.pos.quantity = -a.pos.quantity ∧ realisedGain c a + realisedGain c' b ≤ 0 ∧
    ∀ bid ask u v, 0 < bid → bid ≤ ask → a.pos.unrealizedPnl c.env bid ask = .ok u →
      b.pos.unrealizedPnl c'.env bid ask = .ok v →
      (realisedGain c a + u) + (realisedGain c' b + v) ≤ 0 := by
  obtain ⟨k1, k2, k3, k4⟩ := against_ledger hc h ha.fill_price hb.fill_price ha.sane hb.sane
  have g1 := gain_ledger ha
  have g2 := gain_ledger hb
  have na := ha.entry_nonneg
  have nb := hb.entry_nonneg
  have wa := ha.linv.wf
  have wb := hb.linv.wf
  have ha' := ha
  have hb' := hb
  obtain ⟨opsa, hra⟩ := ha
  obtain ⟨opsb, hrb⟩ := hb
  obtain ⟨q1, e1, _⟩ := C07_position_is_ledger c opsa a hra
  obtain ⟨q2, e2, _⟩ := C07_position_is_ledger c' opsb b hrb
  rw [← q1, ← q2] at k1
  rw [← q1, ← e1, ← e2] at k2 k3
  refine ⟨k1, by omega, fun bid ask u v hbid hba hu hv => ?_⟩
  have f1 := (C48_unrealized c a bid ask bid ask u u ha' hbid hu hu).1
  have f2 := (C48_unrealized c' b bid ask bid ask v v hb' hbid hv hv).1
  have hpnl : ∀ x y q, Spec.pnl c'.env x y q = Spec.pnl c.env x y q := by
    intro x y q
    have hs : c'.env.scale = c.env.scale := hc.scale
    unfold Spec.pnl value
    rw [hc.kind, hs]
  rw [hpnl, hpnl] at f2
  suffices hs : u + v ≤ 0 by omega
  rcases Int.lt_trichotomy a.pos.quantity 0 with hneg | h0 | hpos
  · rw [if_neg (by omega)] at f1
    rw [if_pos (by omega)] at f2
    have := pnl_pair (e := c.env) (E1 := b.pos.entryPrice) (E2 := a.pos.entryPrice) (X1 := bid) (X2 := ask)
      (q := b.pos.quantity) (by omega) na (fun hk => by
        have := unrealized_entry hk wa (by show a.pos.quantity ≠ 0; omega) hu
        have : a.pos.entryPrice ≠ 0 := this
        omega) (k3 hneg) hbid hba
    have e : -b.pos.quantity = a.pos.quantity := by omega
    rw [e] at this
    omega
  · have : b.pos.quantity = 0 := by omega
    rw [h0] at f1
    rw [this] at f2
    simp [Spec.pnl, value] at f1 f2
    cases hk : c.env.kind <;> simp [hk] at f1 f2 <;> omega
  · rw [if_pos hpos] at f1
    rw [if_neg (by omega)] at f2
    have := pnl_pair (e := c.env) (E1 := a.pos.entryPrice) (E2 := b.pos.entryPrice) (X1 := bid) (X2 := ask)
      (q := a.pos.quantity) (by omega) nb (fun hk => by
        have := unrealized_entry (hc.kind.trans hk) wb (by show b.pos.quantity ≠ 0; omega) hv
        have : b.pos.entryPrice ≠ 0 := this
        omega) (k2 hpos) hbid hba
    rw [← k1] at this
    omega

/-- C135: if the prices are the same too, what one account gains before fees the other loses, to the
last unit, and their positions have the same entry price. -/
theorem C135_zero_sum (c c' : Cfg) (a b : State) (hc : SameContract c c') (ha : Reachable c a)
    (hb : Reachable c' b) (h : allOpposed (fills a.log) (fills b.log))
    (hp : samePrices (fills a.log) (fills b.log)) :
    b.pos.quantity = -a.pos.quantity ∧ b.pos.entryPrice = a.pos.entryPrice ∧
      realisedGain c a + realisedGain c' b = 0 := by
  obtain ⟨k1, k2, k3⟩ := mirrored_ledger hc h hp
  have g1 := gain_ledger ha
  have g2 := gain_ledger hb
  obtain ⟨opsa, hra⟩ := ha
  obtain ⟨opsb, hrb⟩ := hb
  obtain ⟨q1, e1, _⟩ := C07_position_is_ledger c opsa a hra
  obtain ⟨q2, e2, _⟩ := C07_position_is_ledger c' opsb b hrb
  exact ⟨by omega, by omega, by omega⟩

/-- Two accounts that see the same market and have no orders at rest. -/
structure Facing (a b : State) : Prop where
  ms : b.ms = a.ms
  bid : a.ms.bid ≤ a.ms.ask
  aRest : a.active = []
  bRest : b.active = []
  fills : allOpposed (fills a.log) (fills b.log)

theorem Facing.step {c c' : Cfg} {a b a' b' : State} {x y : Op} {r t : Resp} (h : Facing a b)
    (ha : Reachable c a) (hb : Reachable c' b) (hx : step c a x = .ok (a', r))
    (hy : step c' b y = .ok (b', t)) (ho : oppositeCalls (x, r) (y, t))
    (hk : ∀ u, x = .update u → keepsOrder u) : Facing a' b' := by
  unfold oppositeCalls at ho
  split at ho
  · rename_i u ups v ups' e1 e2
    simp only [Prod.mk.injEq] at e1 e2
    obtain ⟨rfl, rfl⟩ := e1
    obtain ⟨rfl, rfl⟩ := e2
    subst ho
    obtain ⟨f1, _, _, f2, _⟩ := update_spec ha.inv hx
    obtain ⟨g1, _, _, g2, _⟩ := update_spec hb.inv hy
    rw [h.aRest] at f1 f2
    rw [h.bRest] at g1 g2
    obtain ⟨m1, m2, m3⟩ := C43_update c a a' v _ ha hx
    obtain ⟨n1, n2, n3⟩ := C43_update c' b b' v _ hb hy
    rw [h.ms] at n2 n3
    have ko := hk v rfl a.ms h.bid
    rw [← m3] at n3
    rw [← m3] at ko
    simp only [Prod.mk.injEq] at n3
    have ets : b'.ms.ts = a'.ms.ts := by
      rw [n1] at m1; simpa using m1
    refine ⟨?_, ko, ?_, ?_, ?_⟩
    · have key : ∀ x y : MarketState, x.bid = y.bid → x.ask = y.ask → x.ts = y.ts → x.step = y.step →
          x = y := by
        intro x y h1 h2 h3 h4
        cases x; cases y; simp_all
      exact key _ _ n3.1 n3.2 ets (n2.trans m2.symm)
    · simpa using f1
    · simpa using g1
    · rw [f2, g2]; simpa [makerFills] using h.fills
  · rename_i side q i f side' q' j g e1 e2
    simp only [Prod.mk.injEq] at e1 e2
    obtain ⟨rfl, rfl⟩ := e1
    obtain ⟨rfl, rfl⟩ := e2
    obtain ⟨rfl, rfl⟩ := ho
    obtain ⟨_, f1, _, f2, _, f3, _⟩ := C21_market_order c a a' ha _ _ _ _ hx
    obtain ⟨_, g1, _, g2, _, g3, _⟩ := C21_market_order c' b b' hb _ _ _ _ hy
    refine ⟨by rw [g3, f3, h.ms], by rw [f3]; exact h.bid, f2.trans h.aRest, g2.trans h.bRest, ?_⟩
    rw [f1, g1, h.ms]
    refine ⟨⟨rfl, rfl, ?_, ?_⟩, h.fills⟩
    · rintro rfl; exact h.bid
    · rintro rfl; exact h.bid
  · exact ho.elim

theorem facing_run {c c' : Cfg} : ∀ {ops ops' : List Op} {a b a' b' : State} {xs ys : List (Op × Resp)},
    Facing a b → Reachable c a → Reachable c' b → history c a ops = .ok (a', xs) →
    history c' b ops' = .ok (b', ys) → oppositeStrategies xs ys →
    (∀ u, .update u ∈ ops → keepsOrder u) → Facing a' b'
  | [], [], a, b, a', b', xs, ys, hf, _, _, h1, h2, _, _ => by
    simp only [history, ok_inj, Prod.mk.injEq] at h1 h2
    rw [← h1.1, ← h2.1]; exact hf
  | x :: ops, y :: ops', a, b, a', b', xs, ys, hf, ha, hb, h1, h2, ho, hk => by
    simp only [history, bind_ok, ok_inj, Prod.mk.injEq] at h1 h2
    obtain ⟨⟨a1, r⟩, e1, ⟨a2, xs'⟩, e2, rfl, rfl⟩ := h1
    obtain ⟨⟨b1, t⟩, f1, ⟨b2, ys'⟩, f2, rfl, rfl⟩ := h2
    exact facing_run (hf.step ha hb e1 f1 ho.1 fun u e => hk u (by simp [e])) (ha.step e1) (hb.step f1) e2
      f2 ho.2 fun u hu => hk u (by simp [hu])
  | [], y :: ops', _, _, _, _, xs, ys, _, _, _, h1, h2, ho, _ => by
    simp only [history, bind_ok, ok_inj, Prod.mk.injEq] at h1 h2
    obtain ⟨⟨b1, t⟩, f1, ⟨b2, ys'⟩, f2, rfl, rfl⟩ := h2
    rw [← h1.2] at ho
    exact ho.elim
  | x :: ops, [], _, _, _, _, xs, ys, _, _, _, h1, h2, ho, _ => by
    simp only [history, bind_ok, ok_inj, Prod.mk.injEq] at h1 h2
    obtain ⟨⟨a1, r⟩, e1, ⟨a2, xs'⟩, e2, rfl, rfl⟩ := h1
    rw [← h2.2] at ho
    exact ho.elim

/-- C135 in terms of calls: two accounts that get the same market data and submit opposite market orders
never gain together before fees. -/
theorem C135_opposite_strategies (c c' : Cfg) (ops ops' : List Op) (a b : State)
    (xs ys : List (Op × Resp)) (hc : SameContract c c')
    (h1 : history c (State.init c) ops = .ok (a, xs))
    (h2 : history c' (State.init c') ops' = .ok (b, ys)) (ho : oppositeStrategies xs ys)
    (hk : ∀ u, .update u ∈ ops → keepsOrder u) :
    b.pos.quantity = -a.pos.quantity ∧ realisedGain c a + realisedGain c' b ≤ 0 ∧
    ∀ bid ask u v, 0 < bid → bid ≤ ask → a.pos.unrealizedPnl c.env bid ask = .ok u →
      b.pos.unrealizedPnl c'.env bid ask = .ok v →
      (realisedGain c a + u) + (realisedGain c' b + v) ≤ 0 := by
  have h0 : Facing (State.init c) (State.init c') :=
    ⟨rfl, Int.le_refl _, rfl, rfl, trivial⟩
  exact C135_never_gain_together c c' a b hc ⟨ops, history_run h1⟩ ⟨ops', history_run h2⟩
    (facing_run h0 ⟨[], rfl⟩ ⟨[], rfl⟩ h1 h2 ho hk).fills

theorem opposed_sum (p : Int) : ∀ {fs gs : List Fill}, allOpposed fs gs → (∀ f ∈ fs, 0 < f.qty) →
    ((fs ++ gs).map (fun f => f.signed * (p - f.price))).sum ≤ 0
  | [], [], _, _ => by simp
  | f :: fs, g :: gs, h, hq => by
    have ih := opposed_sum p h.2 fun x hx => hq x (by simp [hx])
    obtain ⟨o1, o2, o3, o4⟩ := h.1
    have hf := hq f (by simp)
    have key : f.signed * (p - f.price) + g.signed * (p - g.price) ≤ 0 := by
      unfold Fill.signed
      rw [o1, o2]
      cases hs : f.side with
      | buy =>
        have := Int.mul_le_mul_of_nonneg_left (o3 hs) (Int.le_of_lt hf)
        simp only [opposite]; grind
      | sell =>
        have := Int.mul_le_mul_of_nonneg_left (o4 hs) (Int.le_of_lt hf)
        simp only [opposite]; grind
    simp only [List.map_append, List.map_cons, List.sum_append, List.sum_cons] at ih ⊢
    omega
  | [], _ :: _, h, _ => h.elim
  | _ :: _, [], h, _ => h.elim

/-- C135 for any number of accounts in a linear contract: if every buy of one of them corresponds to an
equally large sale by one of them at no higher price, they have together gained nothing at any mark
price, up to an allowance for rounding. -/
theorem C135_group (c : Cfg) (parts : List SubAccount) (fs gs : List Fill) (p : Int)
    (hk : c.env.kind = .linear) (ha : Separate c parts) (hp : (allFills parts).Perm (fs ++ gs))
    (h : allOpposed fs gs) :
    (parts.map fun a => gainAt a.1 a.2 p).sum ≤ anyOrderRounding c (allFills parts) := by
  have e1 := gains_sum hk ha p
  have e2 := opposed_sum p h (fun f hf => by
    have hm : f ∈ allFills parts := hp.mem_iff.2 (by simp [hf])
    obtain ⟨a, ha', hfa⟩ := List.mem_flatMap.1 hm
    exact ((ha a ha').2.fill_price f hfa).2)
  rw [← sum_perm (hp.map fun f => f.signed * (p - f.price))] at e2
  unfold Spec.abs at e1
  split at e1 <;> omega

/-! ## The hypotheses are met -/

/-- Trades on `side` at about 100 and again at about 140, and closes both at about 120. -/
def Ex.twice (side : Side) (q : Int) : List Op :=
  [Ex.q 100 101 1, .market side (Ex.d q) 0, Ex.q 140 141 2, .market side (Ex.d q) 0,
   Ex.q 120 121 3, .market (opposite side) (Ex.d q) 0, .market (opposite side) (Ex.d q) 0]

/-- Only the first of the two. -/
def Ex.firstOnly (q : Int) : List Op :=
  [Ex.q 100 101 1, .market .buy (Ex.d q) 0, Ex.q 140 141 2, Ex.q 120 121 3, .market .sell (Ex.d q) 0]

/-- Only the second. -/
def Ex.secondOnly (q : Int) : List Op :=
  [Ex.q 100 101 1, Ex.q 140 141 2, .market .buy (Ex.d q) 0, Ex.q 120 121 3, .market .sell (Ex.d q) 0]

/-- Two accounts on opposite sides of a linear contract lose the spread of 1 on each of 4 trades. -/
example : ∃ a b, Reachable Ex.linR a ∧ Reachable Ex.linR b ∧ allOpposed (fills a.log) (fills b.log) ∧
    (fills a.log).length = 4 ∧ realisedGain Ex.linR a + realisedGain Ex.linR b = -4 * Ex.linR.scale := by
  have h : Ex.threeRuns Ex.linR (Ex.twice .buy 1) (Ex.twice .sell 1) [] (fun a b _ =>
      decide (allOpposed (fills a.log) (fills b.log) ∧ (fills a.log).length = 4 ∧
        realisedGain Ex.linR a + realisedGain Ex.linR b = -4 * Ex.linR.scale)) = true := by
    decide +kernel
  obtain ⟨a, b, _, e1, e2, _, h⟩ := Ex.three_runs h
  exact ⟨a, b, e1, e2, by simpa using h⟩

/-- The same in an inverse contract, with positions that are still open: one of the accounts has gained
what the other has lost, less the spread. -/
example : ∃ a b, Reachable Ex.invR a ∧ Reachable Ex.invR b ∧ allOpposed (fills a.log) (fills b.log) ∧
    0 < a.pos.quantity ∧ realisedGain Ex.invR a ≠ 0 ∧
    realisedGain Ex.invR a + realisedGain Ex.invR b < 0 := by
  have h : Ex.threeRuns Ex.invR ((Ex.twice .buy 1000).take 6) ((Ex.twice .sell 1000).take 6) [] (fun a b _ =>
      decide (allOpposed (fills a.log) (fills b.log) ∧ 0 < a.pos.quantity ∧
        realisedGain Ex.invR a ≠ 0 ∧
        realisedGain Ex.invR a + realisedGain Ex.invR b < 0)) = true := by
    decide +kernel
  obtain ⟨a, b, _, e1, e2, _, h⟩ := Ex.three_runs h
  exact ⟨a, b, e1, e2, by simpa using h⟩

/-- The histories of the first of these examples are those of opposite strategies. -/
example : ∃ a b xs ys, history Ex.linR (State.init Ex.linR) (Ex.twice .buy 1) = .ok (a, xs) ∧
    history Ex.linR (State.init Ex.linR) (Ex.twice .sell 1) = .ok (b, ys) ∧ oppositeStrategies xs ys ∧
    ∀ u, .update u ∈ Ex.twice .buy 1 → keepsOrder u := by
  have h : (match history Ex.linR (State.init Ex.linR) (Ex.twice .buy 1),
      history Ex.linR (State.init Ex.linR) (Ex.twice .sell 1) with
    | .ok (_, xs), .ok (_, ys) => decide (oppositeStrategies xs ys)
    | _, _ => false) = true := by
    decide +kernel
  split at h
  · rename_i a xs b ys e1 e2
    refine ⟨a, b, xs, ys, e1, e2, by simpa using h, ?_⟩
    intro u hu ms _
    simp only [Ex.twice, Ex.q, List.mem_cons, Op.update.injEq, reduceCtorEq, List.not_mem_nil, false_or,
      or_false] at hu
    rcases hu with rfl | rfl | rfl <;> (simp only [quotesAfter]; decide)
  · cases h

/-- An account that trades by limit orders with one that trades at the market: nothing is lost before
fees. -/
def Ex.makerSide : List Op :=
  [Ex.q 100 101 1, .limit .sell (Ex.d 101) (Ex.d 2) 0, .update (.trade ⟨2, Ex.d 102, Ex.d 2, .buy⟩),
   Ex.q 120 121 3, .limit .buy (Ex.d 120) (Ex.d 1) 0, .update (.trade ⟨4, Ex.d 119, Ex.d 1, .sell⟩)]

@[inherit_doc Ex.makerSide]
def Ex.takerSide : List Op :=
  [Ex.q 100 101 1, .market .buy (Ex.d 2) 0, Ex.q 120 121 3, .market .sell (Ex.d 1) 0]

example : ∃ a b, Reachable Ex.linR a ∧ Reachable Ex.linR b ∧ allOpposed (fills a.log) (fills b.log) ∧
    samePrices (fills a.log) (fills b.log) ∧ realisedGain Ex.linR a = 19 * Ex.linR.scale := by
  have h : Ex.threeRuns Ex.linR Ex.takerSide Ex.makerSide [] (fun a b _ =>
      decide (allOpposed (fills a.log) (fills b.log) ∧
        (fills a.log).map Fill.price = (fills b.log).map Fill.price ∧
        realisedGain Ex.linR a = 19 * Ex.linR.scale)) = true := by
    decide +kernel
  obtain ⟨a, b, _, e1, e2, _, h⟩ := Ex.three_runs h
  simp only [decide_eq_true_eq] at h
  refine ⟨a, b, e1, e2, h.1, ?_, h.2.2⟩
  have key : ∀ fs gs : List Fill, fs.map Fill.price = gs.map Fill.price → samePrices fs gs := by
    intro fs
    induction fs with
    | nil => intro gs h; cases gs with
      | nil => trivial
      | cons g gs => simp at h
    | cons f fs ih => intro gs h; cases gs with
      | nil => simp at h
      | cons g gs =>
        simp only [List.map_cons, List.cons.injEq] at h
        exact ⟨h.1.symm, ih gs h.2⟩
  exact key _ _ h.2.1

/-- Three accounts in a linear contract, the third against the other two. -/
example : ∃ a b d fs, Separate Ex.linR [(Ex.linR, a), (Ex.linR, b), (Ex.linR, d)] ∧
    (allFills [(Ex.linR, a), (Ex.linR, b), (Ex.linR, d)]).Perm (fs ++ fills d.log) ∧
    allOpposed fs (fills d.log) ∧ (fills d.log).length = 4 := by
  have h : Ex.threeRuns Ex.linR (Ex.firstOnly 1) (Ex.secondOnly 1) (Ex.twice .sell 1) (fun a b d =>
      decide (allOpposed (((fills b.log).take 1 ++ (fills a.log).take 1) ++
          ((fills b.log).drop 1 ++ (fills a.log).drop 1)) (fills d.log) ∧
        (((fills b.log).take 1 ++ (fills a.log).take 1) ++
          ((fills b.log).drop 1 ++ (fills a.log).drop 1)).Perm (fills a.log ++ fills b.log) ∧
        (fills d.log).length = 4)) = true := by
    decide +kernel
  obtain ⟨a, b, d, e1, e2, e3, h⟩ := Ex.three_runs h
  simp only [decide_eq_true_eq] at h
  refine ⟨a, b, d, _, ?_, ?_, h.1, h.2.2⟩
  · intro x hx
    simp only [List.mem_cons, List.not_mem_nil, or_false] at hx
    rcases hx with rfl | rfl | rfl
    · exact ⟨⟨rfl, rfl, rfl, rfl⟩, e1⟩
    · exact ⟨⟨rfl, rfl, rfl, rfl⟩, e2⟩
    · exact ⟨⟨rfl, rfl, rfl, rfl⟩, e3⟩
  · simp only [allFills, List.flatMap_cons, List.flatMap_nil, List.append_nil, ← List.append_assoc]
    rw [List.append_assoc _ _ ((fills a.log).drop 1)]
    exact (h.2.1.symm).append_right _

/-- C135 does not extend to three accounts in inverse contracts: `Ex.firstOnly` and
`Ex.secondOnly` on accounts of their own, and the opposite of both on a third account, gain 0.19
together, more than their fees, although each buy is matched by an equally large sale at a lower price.
The entry price of an inverse contract is averaged as if the contract were linear. -/
theorem C135_three_accounts : ∃ a b d fs, Reachable Ex.invR a ∧ Reachable Ex.invR b ∧
    Reachable Ex.invR d ∧ fs.Perm (fills a.log ++ fills b.log) ∧ allOpposed fs (fills d.log) ∧
    (∀ p ∈ fs.zip (fills d.log), p.1.price ≠ p.2.price) ∧
    a.pos = .neutral ∧ b.pos = .neutral ∧ d.pos = .neutral ∧
    realisedGain Ex.invR a + realisedGain Ex.invR b + realisedGain Ex.invR d = 18878 ∧
    3 * Ex.invR.start < equity a + equity b + equity d := by
  have h : Ex.threeRuns Ex.invR (Ex.firstOnly 1000) (Ex.secondOnly 1000) (Ex.twice .sell 1000) (fun a b d =>
      decide (allOpposed (((fills b.log).take 1 ++ (fills a.log).take 1) ++
          ((fills b.log).drop 1 ++ (fills a.log).drop 1)) (fills d.log) ∧
        (((fills b.log).take 1 ++ (fills a.log).take 1) ++
          ((fills b.log).drop 1 ++ (fills a.log).drop 1)).Perm (fills a.log ++ fills b.log) ∧
        (∀ p ∈ (((fills b.log).take 1 ++ (fills a.log).take 1) ++
          ((fills b.log).drop 1 ++ (fills a.log).drop 1)).zip (fills d.log), p.1.price ≠ p.2.price) ∧
        a.pos = .neutral ∧ b.pos = .neutral ∧ d.pos = .neutral ∧
        realisedGain Ex.invR a + realisedGain Ex.invR b + realisedGain Ex.invR d = 18878 ∧
        3 * Ex.invR.start < equity a + equity b + equity d)) = true := by
    decide +kernel
  obtain ⟨a, b, d, e1, e2, e3, h⟩ := Ex.three_runs h
  simp only [decide_eq_true_eq] at h
  exact ⟨a, b, d, _, e1, e2, e3, h.2.1, h.1, h.2.2⟩

end Lfest
