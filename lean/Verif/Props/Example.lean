import Verif.SpecExample
import Verif.Props.NoPanic
import Verif.Props.Orders
import Verif.Props.Panics
import Verif.Lemmas.Solo
import Verif.Props.Risk
import Verif.Props.Safety
import Verif.Props.Report
import Verif.Props.Tracker
import Verif.Lemmas.Returns

/-!
# The example program (C136)
-/

namespace Lfest

open Spec

/-- C136: the constructors accept the configuration of the example. -/
theorem C136_config (debug : Bool) : Program.config debug = .ok (.ok (exampleCfg debug)) := by
  cases debug <;> decide +kernel

theorem quiet_update {d : Bool} {s : State} {i : Nat} {p : Int} (hr : Reachable (exampleCfg d) s)
    (hp : quotable d p) (hb : ¬ breach (exampleCfg d) s.pos (p, p + 1000)) :
    ∃ s1, step (exampleCfg d) s (.update (.bba ⟨p, p + 1000, i⟩)) = .ok (s1, .update (.ok [])) ∧
      updateState (exampleCfg d) s (.bba ⟨p, p + 1000, i⟩) = .ok (s1, .ok []) ∧
      s1.acct = s.acct ∧ s1.pos = s.pos ∧ fills s1.log = fills s.log ∧ s1.ms.bid = p ∧
      s1.ms.ask = p + 1000 ∧ s1.ms.ts = i := by
  have ho : ∃ s1, observe (exampleCfg d) s (.bba ⟨p, p + 1000, i⟩) = .ok s1 := by
    have := (observe_returns (c := exampleCfg d) (s := s) (a := .bba ⟨p, p + 1000, i⟩)
      (show (1000 : Int) ≠ 0 by decide) rfl).2 (fun hd => by
        have h1 := hp.2 hd
        simp only [updateOk, updateQuotes, updatePrice, exampleCfg]
        refine ⟨⟨by simp, by simp, h1⟩, ⟨by simp, by simp, ?_⟩, by omega⟩
        omega)
    exact this
  obtain ⟨s1, h1⟩ := ho
  obtain ⟨e1, e2, e3, e4, e5, e6⟩ := observe_fields h1
  obtain ⟨q1, q2, _⟩ := observe_quotes (a := .bba ⟨p, p + 1000, i⟩) rfl h1
  simp only [quotesAfter, Prod.mk.injEq] at q1
  simp only [updateTime, Option.some.injEq] at q2
  have hm : checkMaintenanceMargin (exampleCfg d) s1.ms s1.pos = .ok () := by
    rcases checkMaintenance_ok (c := exampleCfg d) (ms := s1.ms) (pos := s1.pos)
      (by rw [e2]; exact hr.linv.wf) with ⟨h, _⟩ | ⟨_, h⟩
    · exact h
    · rw [e2, q1.1, q1.2] at h; exact absurd h hb
  have hu : updateState (exampleCfg d) s (.bba ⟨p, p + 1000, i⟩) =
      .ok ({ s1 with updates := [] }, .ok []) := by
    simp [updateState, h1, hm, checkActive, Update.canFill, bind, Except.bind]
  refine ⟨{ s1 with updates := [] }, ?_, hu, e1, e2, ?_, q1.1, q1.2, q2⟩
  · simp only [step, UpdateArg.build, hu, bind, Except.bind]
  · exact fills_observe (s' := s1) h1

theorem order_size (d : Bool) (s : State) :
    Program.orderSize (exampleCfg d) s = tenthOf (s.acct.balance .wallet) s.ms.bid := by
  have hs : (exampleCfg d).scale = 10000 := by cases d <;> decide
  have : (s.acct.balance .wallet * 1000).tdiv 10000 = (s.acct.balance .wallet).tdiv 10 := by
    have := Int.mul_tdiv_mul_of_pos_left (s.acct.balance .wallet) 10 (show (0:Int) < 1000 by decide)
    simpa using this
  unfold Program.orderSize tenthOf dmul userBalances
  rw [hs, this]

theorem example_quantity {d : Bool} {q : Int} (h0 : 0 < q) :
    quantityOk (exampleCfg d).spec.quantityFilter q ↔ 10000 ∣ q := by
  simp only [quantityOk, within, onGrid, exampleCfg]
  constructor
  · rintro ⟨_, _, h⟩; simpa using h
  · intro h; exact ⟨by omega, ⟨by simp, by simp⟩, by simpa using h⟩

/-- A tenth of the wallet is always affordable. -/
theorem tenth_affordable {d : Bool} {w p price q : Int} (hp : 0 < p) (hpr : p ≤ price)
    (hq : 0 < tenthOf w p) (hle : q ≤ tenthOf w p) (h0 : 0 ≤ q) : needed (exampleCfg d) q price ≤ w := by
  have hs : (exampleCfg d).env.scale = 10000 := by cases d <;> decide
  have hw : 0 < w.tdiv 10 := by
    rcases Int.lt_or_le 0 (w.tdiv 10) with h | h
    · exact h
    · exfalso
      have : (w.tdiv 10 * p) ≤ 0 := Int.mul_nonpos_of_nonpos_of_nonneg h (by omega)
      have : (w.tdiv 10 * p).tdiv 10000 ≤ 0 := by
        have e : w.tdiv 10 * p = -(-(w.tdiv 10 * p)) := by omega
        rw [e, Int.neg_tdiv]
        have := Int.tdiv_nonneg (a := -(w.tdiv 10 * p)) (b := 10000) (by omega) (by decide)
        omega
      unfold tenthOf at hq
      omega
  generalize hv : w.tdiv 10 = v at *
  have hw0 : 0 ≤ w := by
    rcases Int.lt_or_le w 0 with h | h
    · exfalso
      have e : w = -(-w) := by omega
      rw [e, Int.neg_tdiv] at hv
      have := Int.tdiv_nonneg (a := -w) (b := 10) (by omega) (by decide)
      omega
    · exact h
  have hwv : v * 10 ≤ w := by
    rw [Int.tdiv_eq_ediv_of_nonneg hw0] at hv
    omega
  have hvp : 0 ≤ v * p := Int.mul_nonneg (by omega) (by omega)
  have h1 : q * 10000 ≤ v * p := by
    unfold tenthOf at hle
    rw [hv, Int.tdiv_eq_ediv_of_nonneg hvp] at hle
    omega
  have h2 : v * p ≤ v * price := Int.mul_le_mul_of_nonneg_left hpr (by omega)
  have hval : value (exampleCfg d).env q price ≤ v ∧ 0 ≤ value (exampleCfg d).env q price := by
    have e : value (exampleCfg d).env q price = (q * 10000) / price := by
      show (q * (exampleCfg d).env.scale).tdiv price = _
      rw [hs, Int.tdiv_eq_ediv_of_nonneg (by omega)]
    rw [e]
    exact ⟨Int.ediv_le_of_le_mul (by omega) (by omega), Int.ediv_nonneg (by omega) (by omega)⟩
  unfold needed share
  generalize value (exampleCfg d).env q price = x at *
  rw [hs]
  show (x * 10000).tdiv 10000 + (x * 6).tdiv 10000 ≤ w
  rw [Int.tdiv_eq_ediv_of_nonneg (by omega), Int.tdiv_eq_ediv_of_nonneg (by omega)]
  omega

theorem new_order {side : Side} {q : Int} (h : 0 < q) : NewMarket.new side q 0 = .ok ⟨0, side, q⟩ := by
  unfold NewMarket.new
  rw [if_neg (by omega)]

theorem refused_same {c : Cfg} {s s' : State} {side : Side} {q : Int} {r : Resp}
    (h : step c s (.market side q 0) = .ok (s', r)) (hq : 0 < q) (hno : ¬ ∃ f, r = .market (.ok f)) :
    s'.acct = s.acct ∧ s'.pos = s.pos ∧ fills s'.log = fills s.log := by
  have h' := h
  simp only [step, new_order hq, bind_ok, ok_inj, Prod.mk.injEq] at h'
  obtain ⟨⟨s2, x⟩, _, rfl, rfl⟩ := h'
  cases x with
  | ok f => exact absurd ⟨f, rfl⟩ hno
  | error e =>
    have := (C17_rejected_market c s s2 side q 0 e h).1
    rw [this]
    exact ⟨rfl, rfl, rfl⟩

theorem coin_price (s : State) (sell : Bool) :
    touchPrice s.ms (coinSide sell) = if sell then s.ms.bid else s.ms.ask := by
  cases sell <;> rfl

/-- C136: the whole behaviour of the loop, price by price. -/
theorem C136_turn (d sell : Bool) (i : Nat) (p : Int) (s : State) (hr : Reachable (exampleCfg d) s)
    (hp : quotable d p) : Turn d sell i p s (Program.turn (exampleCfg d) sell i p s) := by
  by_cases hb : breach (exampleCfg d) s.pos (p, p + 1000)
  · unfold Program.turn
    split
    · exact .liquidated _ hb (by simp)
    · exact .liquidated _ hb (by simp)
    · rename_i s' ups he
      have hst : step (exampleCfg d) s (.update (.bba ⟨p, p + 1000, i⟩)) = .ok (s', .update (.ok ups)) := by
        simp only [step, UpdateArg.build, he, bind, Except.bind]
      have := (C29_liquidation_iff_breach _ _ _ _ _ hr hst).1.2 hb
      cases this
  · obtain ⟨s1, hst, hu, e1, e2, e3, e4, e5, _⟩ := quiet_update (i := i) hr hp hb
    have hr1 := hr.step hst
    have ht : Program.turn (exampleCfg d) sell i p s =
        if i % 100 = 0 then Program.order (exampleCfg d) sell s1 else .ok s1 := by
      unfold Program.turn; rw [hu]
    rw [ht]
    by_cases hi : i % 100 = 0
    · rw [if_pos hi]
      have hsz : Program.orderSize (exampleCfg d) s1 = tenthOf (s.acct.balance .wallet) p := by
        rw [order_size, e1, e4]
      by_cases hq : tenthOf (s.acct.balance .wallet) p ≤ 0
      · have : Program.order (exampleCfg d) sell s1 = .error .unwrap := by
          unfold Program.order NewMarket.new
          rw [hsz, if_pos hq]
        rw [this]
        exact .noSize hb hi hq
      · have hq' : 0 < tenthOf (s.acct.balance .wallet) p := by omega
        generalize hqq : tenthOf (s.acct.balance .wallet) p = q at *
        have hord : Program.order (exampleCfg d) sell s1 =
            match step (exampleCfg d) s1 (.market (coinSide sell) q 0) with
            | .error e => .error (.exchange e)
            | .ok (s', _) => .ok s' := by
          unfold Program.order coinSide
          rw [hsz]
          simp only [step, new_order hq', bind, Except.bind]
          cases submitMarket (exampleCfg d) s1 ⟨0, if sell = true then Side.sell else Side.buy, q⟩ <;> rfl
        have htouch : touchPrice s1.ms (coinSide sell) = if sell then p else p + 1000 := by
          rw [coin_price, e4, e5]
        have htp : p ≤ touchPrice s1.ms (coinSide sell) := by
          rw [htouch]; split <;> omega
        have hp0 := hp.1
        have hmw : marginsWorkOut (exampleCfg d) s1 (coinSide sell) q ↔
            marginsWorkOut (exampleCfg d) (quotedAt s p) (coinSide sell) q := by
          have hm : touchPrice (quotedAt s p).ms (coinSide sell) = touchPrice s1.ms (coinSide sell) := by
            rw [htouch]; cases sell <;> rfl
          unfold marginsWorkOut
          rw [hm, e1, e2]
          exact Iff.rfl
        have hall : 0 ≤ s.acct.balance .positionMargin ∨ opposing s.pos.quantity (coinSide sell) = 0 ∨
            q ≤ opposing s.pos.quantity (coinSide sell) → marketAllowed (exampleCfg d) s1 (coinSide sell) q := by
          intro h
          have ho : 0 ≤ opposing s.pos.quantity (coinSide sell) := by
            cases sell <;> simp [opposing, coinSide, larger] <;> split <;> omega
          unfold marketAllowed
          rw [e1, e2]
          dsimp only
          split
          · exact tenth_affordable hp0 htp (hqq ▸ hq') (by omega) (by omega)
          · split
            · trivial
            · have := tenth_affordable (d := d) (w := s.acct.balance .wallet)
                (q := q - opposing s.pos.quantity (coinSide sell)) hp0 htp (hqq ▸ hq') (by omega) (by omega)
              have : 0 ≤ s.acct.balance .positionMargin := by omega
              omega
        have hex := C58_exact (exampleCfg d) s1 (coinSide sell) q 0 hr1 (show (10000 : Int) ≠ 0 by decide)
          (by omega)
        rw [hord]
        cases hs2 : step (exampleCfg d) s1 (.market (coinSide sell) q 0) with
        | error e =>
          obtain ⟨_, h2, h3, h4⟩ := hex.1 ⟨e, hs2⟩
          rw [← hqq] at h4 h2 hq' hmw
          exact .crashes e hb hi hq' ((example_quantity hq').1 h2) (fun h => h4 (hmw.2 h))
        | ok x =>
          obtain ⟨s2, r⟩ := x
          have hdec := C60_market_order_decision (exampleCfg d) s1 s2 (coinSide sell) q 0 r hr1 hs2
          by_cases hw : (10000 : Int) ∣ q
          · by_cases ha : marketAllowed (exampleCfg d) s1 (coinSide sell) q
            · obtain ⟨f, rfl⟩ := hdec.2 ⟨hq', (example_quantity hq').2 hw, ha⟩
              obtain ⟨_, f1, _⟩ := C21_market_order _ _ _ hr1 _ _ _ _ hs2
              have hm : marginsWorkOut (exampleCfg d) s1 (coinSide sell) q := by
                by_cases hm : marginsWorkOut (exampleCfg d) s1 (coinSide sell) q
                · exact hm
                · obtain ⟨e, he⟩ := hex.2 ⟨hq', (example_quantity hq').2 hw, ha, hm⟩
                  rw [hs2] at he; cases he
              have hm' := hmw.1 hm
              rw [htouch, e3] at f1
              rw [← hqq] at hw hq' hm' f1
              exact .trades s2 hb hi hq' hw hm' f1
            · have hno : ¬ ∃ f, r = .market (.ok f) := fun h => ha (hdec.1 h).2.2
              have hsame := refused_same hs2 hq' hno
              have hop : ¬ (0 ≤ s.acct.balance .positionMargin ∨
                  opposing s.pos.quantity (coinSide sell) = 0 ∨
                  q ≤ opposing s.pos.quantity (coinSide sell)) := fun h => ha (hall h)
              have ho : 0 ≤ opposing s.pos.quantity (coinSide sell) := by
                cases sell <;> simp [opposing, coinSide, larger] <;> split <;> omega
              subst hqq
              exact .tooDear s2 hb hi (by omega) (by omega) (by omega) hw
                ⟨hsame.1.trans e1, hsame.2.1.trans e2, hsame.2.2.trans e3⟩
          · have hno : ¬ ∃ f, r = .market (.ok f) :=
              fun h => hw ((example_quantity hq').1 (hdec.1 h).2.1)
            have hsame := refused_same hs2 hq' hno
            subst hqq
            exact .notWhole s2 hb hi hq' hw
              ⟨hsame.1.trans e1, hsame.2.1.trans e2, hsame.2.2.trans e3⟩
    · rw [if_neg hi]
      exact .looks s1 hb hi ⟨e1, e2, e3⟩

theorem turn_calls {c : Cfg} {sell : Bool} {i : Nat} {p : Int} {s s' : State}
    (h : Program.turn c sell i p s = .ok s') : ∃ tail, run c s (.update (.bba ⟨p, p + 1000, i⟩) :: tail) = .ok s' ∧
      ∀ u, Op.update u ∉ tail := by
  unfold Program.turn at h
  split at h
  · cases h
  · cases h
  · rename_i s1 ups hu
    have hst : step c s (.update (.bba ⟨p, p + 1000, i⟩)) = .ok (s1, .update (.ok ups)) := by
      simp only [step, UpdateArg.build, hu, bind, Except.bind]
    split at h
    · unfold Program.order at h
      split at h
      · cases h
      · rename_i o ho
        split at h
        · cases h
        · rename_i s2 r hs2
          cases h
          refine ⟨[.market (if sell then .sell else .buy) (Program.orderSize c s1) 0], ?_, by simp⟩
          have : step c s1 (.market (if sell then .sell else .buy) (Program.orderSize c s1) 0) =
              .ok (s', .market r) := by
            simp only [step, ho, hs2, bind, Except.bind]
          simp only [run, hst, this, bind, Except.bind]
    · cases h
      exact ⟨[], by simp only [run, hst, bind, Except.bind], by simp⟩

theorem turn_reachable {c : Cfg} {sell : Bool} {i : Nat} {p : Int} {s s' : State} (hr : Reachable c s)
    (h : Program.turn c sell i p s = .ok s') : Reachable c s' := by
  obtain ⟨tail, h, _⟩ := turn_calls h
  obtain ⟨ops, ho⟩ := hr
  exact ⟨ops ++ _, (run_append ho).trans h⟩

theorem loop_split {c : Cfg} {coin : Nat → Bool} {e : Stop} : ∀ {ps : List Int} {s : State} {i : Nat},
    Reachable c s → Program.loop c coin s i ps = .error e → ∃ pre p post s', ps = pre ++ p :: post ∧
      Program.loop c coin s i pre = .ok s' ∧ Reachable c s' ∧
      Program.turn c (coin (i + pre.length)) (i + pre.length) p s' = .error e
  | [], _, _, _, h => by cases h
  | p :: ps, s, i, hr, h => by
    rw [Program.loop] at h
    split at h
    · rename_i e' he
      cases h
      exact ⟨[], p, ps, s, rfl, rfl, hr, he⟩
    · rename_i s1 he
      obtain ⟨pre, q, post, s', h1, h2, h3, h4⟩ := loop_split (turn_reachable hr he) h
      refine ⟨p :: pre, q, post, s', by rw [h1]; rfl, ?_, h3, ?_⟩
      · rw [Program.loop, he]; exact h2
      · have : i + (p :: pre).length = i + 1 + pre.length := by simp; omega
        rw [this]; exact h4

theorem init_reachable (c : Cfg) : Reachable c (State.init c) := ⟨[], rfl⟩

/-- C136: the program is stopped by a price at which its position is liquidated, by an order without a
size, or by an order for which the margins do not work out. -/
theorem C136_stops (d : Bool) (coin : Nat → Bool) (prices : List Int) (e : Stop)
    (hp : ∀ p ∈ prices, quotable d p) (h : Program.run (exampleCfg d) coin prices = .error e) :
    ∃ pre p post s, prices = pre ++ p :: post ∧ Program.run (exampleCfg d) coin pre = .ok s ∧
      ((breach (exampleCfg d) s.pos (p, p + 1000) ∧ e ≠ .unwrap) ∨
       (pre.length % 100 = 0 ∧ tenthOf (s.acct.balance .wallet) p ≤ 0 ∧ e = .unwrap) ∨
       (pre.length % 100 = 0 ∧ (∃ x, e = .exchange x) ∧ 0 < tenthOf (s.acct.balance .wallet) p ∧
        10000 ∣ tenthOf (s.acct.balance .wallet) p ∧
        ¬ marginsWorkOut (exampleCfg d) (quotedAt s p) (coinSide (coin pre.length))
          (tenthOf (s.acct.balance .wallet) p))) := by
  obtain ⟨pre, p, post, s, h1, h2, h3, h4⟩ := loop_split (init_reachable _) h
  refine ⟨pre, p, post, s, h1, h2, ?_⟩
  have ht := C136_turn d (coin (0 + pre.length)) (0 + pre.length) p s h3 (hp p (by rw [h1]; simp))
  rw [h4, Nat.zero_add] at ht
  cases ht with
  | liquidated _ a b => exact .inl ⟨a, b⟩
  | noSize a b c => exact .inr (.inl ⟨b, c, rfl⟩)
  | crashes x a b c f g => exact .inr (.inr ⟨b, ⟨x, rfl⟩, c, f, g⟩)

/-- C136: a program that only ever enlarges its position and has a wallet of at least 0.002 does not
crash, if prices are at least 1.1: the margins of such an order work out. -/
theorem C136_enlarging_works (d sell : Bool) (p : Int) (s : State) (hp : 11000 ≤ p)
    (hw : 20 ≤ s.acct.balance .wallet) (he : enlarges s.pos (coinSide sell))
    (hq : 10000 ∣ tenthOf (s.acct.balance .wallet) p) :
    marginsWorkOut (exampleCfg d) (quotedAt s p) (coinSide sell) (tenthOf (s.acct.balance .wallet) p) := by
  have hs : (exampleCfg d).env.scale = 10000 := by cases d <;> decide
  unfold enlarges at he
  unfold marginsWorkOut
  show (_ → _) ∧ _
  have he' : opposing (quotedAt s p).pos.quantity (coinSide sell) = 0 := he
  rw [he']
  refine ⟨fun h0 => ?_, fun h => absurd h (by decide), fun h => absurd h (by decide)⟩
  generalize hv : (s.acct.balance .wallet).tdiv 10 = v
  have hv2 : 2 ≤ v := by
    rw [Int.tdiv_eq_ediv_of_nonneg (by omega)] at hv; omega
  have hvp : v * 11000 ≤ v * p := Int.mul_le_mul_of_nonneg_left hp (by omega)
  have hvp2 : 2 * p ≤ v * p := Int.mul_le_mul_of_nonneg_right hv2 (by omega)
  have hq2 : p + 1000 ≤ tenthOf (s.acct.balance .wallet) p * 10000 := by
    unfold tenthOf
    rw [hv, Int.tdiv_eq_ediv_of_nonneg (by omega)]
    omega
  generalize tenthOf (s.acct.balance .wallet) p = q at *
  have htouch : touchPrice (quotedAt s p).ms (coinSide sell) ≤ p + 1000 ∧
      0 < touchPrice (quotedAt s p).ms (coinSide sell) := by
    cases sell
    · exact ⟨Int.le_refl _, by show 0 < p + 1000; omega⟩
    · exact ⟨by show p ≤ p + 1000; omega, by show 0 < p; omega⟩
  generalize touchPrice (quotedAt s p).ms (coinSide sell) = t at *
  have hval : 1 ≤ value (exampleCfg d).env (q - 0) t := by
    show 1 ≤ ((q - 0) * (exampleCfg d).env.scale).tdiv t
    rw [hs, Int.tdiv_eq_ediv_of_nonneg (by omega)]
    exact (Int.le_ediv_iff_mul_le htouch.2).2 (by omega)
  unfold share
  generalize value (exampleCfg d).env (q - 0) t = x at *
  rw [hs]
  show 0 < (x * 10000).tdiv 10000
  rw [Int.tdiv_eq_ediv_of_nonneg (by omega)]
  omega

/-- C136: if none of the prices at which it submits orders is a whole number, the program never trades
and never ends early. -/
theorem C136_never_trades (d : Bool) (coin : Nat → Bool) (prices : List Int)
    (hp : ∀ p ∈ prices, quotable d p)
    (hw : ∀ i p, prices[i]? = some p → i % 100 = 0 → ¬ 10000 ∣ p) :
    ∃ s, Program.run (exampleCfg d) coin prices = .ok s ∧ s.pos = .neutral ∧ fills s.log = [] ∧
      s.acct.balance .wallet = 100000 := by
  have key : ∀ (ps : List Int) (s : State) (i : Nat), Reachable (exampleCfg d) s → s.pos = .neutral →
      fills s.log = [] → s.acct.balance .wallet = 100000 → (∀ p ∈ ps, quotable d p) →
      (∀ j p, ps[j]? = some p → (i + j) % 100 = 0 → ¬ 10000 ∣ p) →
      ∃ s', Program.loop (exampleCfg d) coin s i ps = .ok s' ∧ s'.pos = .neutral ∧ fills s'.log = [] ∧
        s'.acct.balance .wallet = 100000 := by
    intro ps
    induction ps with
    | nil => intro s i _ h1 h2 h3 _ _; exact ⟨s, rfl, h1, h2, h3⟩
    | cons p ps ih =>
      intro s i hr h1 h2 h3 hq hn
      have hpq := hq p (by simp)
      have hten : tenthOf (s.acct.balance .wallet) p = p := by
        have h0 := hpq.1
        rw [h3]
        show ((100000 : Int).tdiv 10 * p).tdiv 10000 = p
        rw [show (100000 : Int).tdiv 10 = 10000 by decide, Int.tdiv_eq_ediv_of_nonneg (by omega)]
        omega
      have hnb : ¬ breach (exampleCfg d) s.pos (p, p + 1000) := by
        rw [h1]; simp [breach, Position.quantity]
      have hwhole : i % 100 = 0 → ¬ (10000 : Int) ∣ p := fun h => hn 0 p (by simp) (by simpa using h)
      have ht := C136_turn d (coin i) i p s hr hpq
      have next : ∀ s', Program.turn (exampleCfg d) (coin i) i p s = .ok s' → sameAccount s s' →
          ∃ s', Program.loop (exampleCfg d) coin s i (p :: ps) = .ok s' ∧ s'.pos = .neutral ∧
            fills s'.log = [] ∧ s'.acct.balance .wallet = 100000 := by
        intro s' hs' hsame
        rw [Program.loop, hs']
        refine ih s' (i + 1) (turn_reachable hr hs') (hsame.2.1.trans h1) (hsame.2.2.trans h2)
          (by rw [hsame.1]; exact h3) (fun x hx => hq x (by simp [hx])) fun j x hj hi => ?_
        exact hn (j + 1) x (by simpa using hj) (by rw [← hi]; congr 1; omega)
      cases hres : Program.turn (exampleCfg d) (coin i) i p s with
      | ok s' =>
        refine next s' hres ?_
        rw [hres] at ht
        cases ht with
        | looks _ _ _ h => exact h
        | notWhole _ _ _ _ _ h => exact h
        | tooDear _ _ _ _ _ _ _ h => exact h
        | trades _ _ hi _ h => rw [hten] at h; exact absurd h (hwhole hi)
      | error e =>
        rw [hres] at ht
        cases ht with
        | liquidated _ h => exact absurd h hnb
        | noSize _ _ h => rw [hten] at h; have := hpq.1; omega
        | crashes _ _ hi _ h => rw [hten] at h; exact absurd h (hwhole hi)
  exact key prices _ 0 (init_reachable _) rfl rfl rfl hp (fun j p h => by simpa using hw j p h)

theorem observed_skip (m : MarketState) (ops : List Op) : ∀ {tail : List Op}, (∀ u, Op.update u ∉ tail) →
    observed m (tail ++ ops) = observed m ops
  | [], _ => rfl
  | op :: tail, h => by
    have ih := observed_skip m ops (tail := tail) fun u hu => h u (by simp [hu])
    cases op with
    | update u => exact absurd (by simp) (h u)
    | _ => exact ih

theorem loop_observed {c : Cfg} {coin : Nat → Bool} {s' : State} : ∀ {ps : List Int} {s : State} {i : Nat},
    (∀ p ∈ ps, 0 < p) → Program.loop c coin s i ps = .ok s' → ∃ ops, run c s ops = .ok s' ∧
      ∀ m, (observed m ops).map (·.ts) = (List.range' i ps.length).map Int.ofNat ∧
        ∀ x ∈ observed m ops, 0 < mid x
  | [], s, i, _, h => by
    cases h
    exact ⟨[], rfl, fun m => ⟨rfl, by simp [observed]⟩⟩
  | p :: ps, s, i, hp, h => by
    rw [Program.loop] at h
    split at h
    · cases h
    · rename_i s1 ht
      obtain ⟨tail, h1, h2⟩ := turn_calls ht
      obtain ⟨ops, h3, h4⟩ := loop_observed (fun x hx => hp x (by simp [hx])) h
      refine ⟨(.update (.bba ⟨p, p + 1000, i⟩) :: tail) ++ ops, (run_append h1).trans h3, fun m => ?_⟩
      have hp0 := hp p (by simp)
      rw [List.cons_append, observed, observed_skip _ _ h2]
      obtain ⟨k1, k2⟩ := h4 (seen m [.update (.bba ⟨p, p + 1000, i⟩)])
      refine ⟨?_, ?_⟩
      · rw [List.map_cons, k1, List.length_cons, List.range'_succ]
        rfl
      · intro x hx
        rcases List.mem_cons.1 hx with rfl | hx
        · show 0 < (p + (p + 1000)).tdiv 2
          rw [Int.tdiv_eq_ediv_of_nonneg (by omega)]; omega
        · exact k2 x hx

theorem first_range (n : Nat) : firstNonZero ((List.range' 0 n).map Int.ofNat) ≤
    lastOne ((List.range' 0 n).map Int.ofNat) := by
  match n with
  | 0 => decide
  | 1 => decide
  | n + 2 =>
    have h1 : firstNonZero ((List.range' 0 (n + 2)).map Int.ofNat) = 1 := by
      simp [List.range'_succ, firstNonZero]
    have h2 : lastOne ((List.range' 0 (n + 2)).map Int.ofNat) = n + 1 := by
      unfold lastOne
      rw [List.getLast?_map, List.getLast?_range']
      simp
    rw [h1, h2]; omega

/-- C136: when the loop is through, the summary of the account is printed without a panic (apart from
the floating point figures, see C114). -/
theorem C136_summary (d : Bool) (coin : Nat → Bool) (prices : List Int) (s : State)
    (hp : ∀ p ∈ prices, quotable d p) (h : Program.run (exampleCfg d) coin prices = .ok s) :
    ∃ t r, FullTracker.replay (exampleCfg d).env 100000 s.log = .ok t ∧
      t.report (exampleCfg d).env = .ok r := by
  obtain ⟨ops, h1, h2⟩ := loop_observed (fun p hx => (hp p hx).1) h
  obtain ⟨k1, k2⟩ := h2 ⟨0, 0, 0, 0⟩
  obtain ⟨t, ht⟩ : ∃ t, FullTracker.replay (exampleCfg d).env 100000 s.log = .ok t :=
    C50_tracker_total _ s 100000 ⟨ops, h1⟩ (by decide)
  refine ⟨t, ?_⟩
  obtain ⟨r, hr⟩ := (C114_printing (exampleCfg d) ops s 100000 t h1 ht).2 (by
    refine ⟨by rw [k1]; exact first_range _, ?_⟩
    show contracts (exampleCfg d).env 100000 _ = 0 ∨ _
    rcases hl : (observed ⟨0, 0, 0, 0⟩ ops).getLast? with _ | x
    · left
      rw [List.getLast?_eq_none_iff.1 hl]
      cases d <;> decide
    · right
      unfold lastOne
      rw [List.getLast?_map, hl]
      have := k2 x (List.mem_of_getLast? hl)
      simp only [Option.map_some, Option.getD_some]
      omega)
  exact ⟨r, ht, hr⟩

/-- C136: the program can crash inside of the exchange on a market that does not move: with the price
at 40000 throughout, and the bits buy, buy, sell, sell, sell. -/
theorem C136_crashes : Program.run (exampleCfg false) (fun i => decide (200 ≤ i))
    (List.replicate 401 400000000) = .error (.exchange .flipMargin) := by
  decide +kernel

/-! ## The hypotheses are met -/

/-- The last result of a run, if it was not stopped. -/
def Ex.ended (r : Except Stop State) (f : State → Bool) : Bool :=
  match r with
  | .ok s => f s
  | .error _ => false

/-- The same prices with other bits: five trades, and the position is still long. -/
example : (∀ p ∈ List.replicate 401 (400000000 : Int), quotable true p) ∧
    Ex.ended (Program.run (exampleCfg true) (fun i => decide (i % 200 = 100)) (List.replicate 401 400000000))
      (fun s => decide ((fills s.log).length = 5 ∧ 0 < s.pos.quantity)) = true := by
  refine ⟨fun p h => ?_, by decide +kernel⟩
  rw [(List.mem_replicate.1 h).2]
  exact ⟨by decide, fun _ => by decide⟩

/-- The price halves while the program holds a long position. -/
example : Program.run (exampleCfg true) (fun _ => false) [400000000, 199999000] = .error .rekt := by
  decide +kernel

/-- A price of 40000.5. -/
example : Ex.ended (Program.run (exampleCfg true) (fun _ => false) (List.replicate 101 400005000))
    (fun s => decide (fills s.log = [])) = true := by
  decide +kernel

/-- C136: the program can also crash because the coin shows the same side too often: the 94th order locks a margin that rounds to zero. -/
theorem C136_runs_dry : Program.run (exampleCfg false) (fun _ => false) (List.replicate 9301 100000000) =
    .error (.exchange .txnAmount) := by
  decide +kernel

end Lfest
