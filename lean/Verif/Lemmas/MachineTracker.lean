import Verif.Model.MachineTracker
import Verif.Lemmas.NoOverflowStep
import Verif.Lemmas.Traded
import Verif.Props.Tracker

/-!
# The account statistics on bounded integers: helper lemmas for C101
-/

namespace Lfest.Mach

open Spec

/-! ## Agreement -/

theorem agree_balancesSum {w : Int} {b : UserBalances} : Agree (balancesSum w b) (.ok b.sum) :=
  agree_chk_bind agree_chk

theorem agree_handle {w : Int} {e : Env} {t : FullTracker} {ev : Event} :
    Agree (trackerHandle w e t ev) (t.handle e ev) := by
  unfold trackerHandle FullTracker.handle
  cases ev with
  | update ms => exact agree_ok_bind agree_mid (.refl _)
  | sample b m => exact agree_ok_bind agree_balancesSum (.refl _)
  | trade side p q =>
    refine (Agree.refl _).bind fun _ _ => agree_convert.bind fun v _ => ?_
    cases side <;> exact agree_chk_bind (.refl _)
  | _ => exact .refl _

theorem agree_replay {w : Int} {e : Env} {start : Int} : ∀ l : List Event,
    Agree (trackerReplay w e start l) (FullTracker.replay e start l)
  | [] => .refl _
  | _ :: l => (agree_replay l).bind fun _ _ => agree_handle

theorem agree_ratio {w : Int} {e : Env} {t : FullTracker} :
    Agree (buyVolumeRatio w e t) (t.buyVolumeRatio e) := by
  unfold buyVolumeRatio FullTracker.buyVolumeRatio
  refine (Agree.refl _).bind fun _ _ => (Agree.refl _).bind fun _ _ => agree_chk_bind ?_
  dsimp only
  split
  · exact .refl _
  · exact agree_ddiv.bind fun _ _ => .refl _

theorem agree_convertBack {w : Int} {e : Env} {v p : Int} :
    Agree (convertBack w e v p) (Lfest.convertBack e v p) := by
  unfold convertBack Lfest.convertBack
  cases e.kind
  · exact agree_ddiv
  · exact agree_dmul

theorem agree_buyAndHold {w : Int} {e : Env} {t : FullTracker} :
    Agree (buyAndHold w e t) (t.buyAndHold e) :=
  agree_convertBack.bind fun _ _ => agree_pnl

/-! ## The record -/

/-- A record extended by events with a property. -/
def Ext (Q : Event → Prop) (l l' : List Event) : Prop := ∃ new, l' = new ++ l ∧ ∀ ev ∈ new, Q ev

theorem Ext.refl {Q : Event → Prop} (l : List Event) : Ext Q l l := ⟨[], rfl, by simp⟩

theorem Ext.trans {Q : Event → Prop} {a b c : List Event} (h : Ext Q a b) (k : Ext Q b c) :
    Ext Q a c := by
  obtain ⟨x, rfl, hx⟩ := h
  obtain ⟨y, rfl, hy⟩ := k
  refine ⟨y ++ x, by simp, fun ev he => ?_⟩
  rcases List.mem_append.1 he with he | he
  · exact hy ev he
  · exact hx ev he

/-- What the events of one call show: the quotes after it, the balances before it, and the prices of
quotes and resting orders. -/
def Shows (ms : MarketState) (a : Accounts) (os : Book) : Event → Prop
  | .update m => m = ms
  | .sample b _ => b = Lfest.userBalances a
  | .trade _ p _ => (∃ o ∈ os, p = o.price) ∨ p = ms.bid ∨ p = ms.ask
  | _ => True

theorem outcomes_shows {c : Cfg} {u : Update} {ms : MarketState} {a : Accounts} {os : Book}
    {xs : List Out} (h : Outcomes c u os xs) : ∀ ev ∈ outEvents xs, Shows ms a os ev := by
  have : ∀ (big : Book), (∀ o ∈ os, o ∈ big) → ∀ ev ∈ outEvents xs, Shows ms a big ev := by
    intro big hb
    induction h with
    | nil => simp [outEvents]
    | @cons o os x xs ho _ ih =>
      intro ev he
      rw [outEvents, List.mem_append] at he
      rcases he with he | he
      · exact ih (fun o ho => hb o (List.mem_cons_of_mem _ ho)) ev he
      · have hf := ho.fixed
        unfold Out.events at he
        split at he
        · simp only [List.mem_cons, List.not_mem_nil, or_false] at he
          rcases he with rfl | rfl
          · exact .inl ⟨o, hb o List.mem_cons_self, hf.2.2.1⟩
          · trivial
        · cases he
  exact this os fun _ h => h

theorem checkActive_shows {c : Cfg} {s s' : State} {u : Update} (hi : Inv c s)
    (h : Lfest.checkActive c s u = .ok s') (a : Accounts) :
    Ext (Shows s'.ms a s.active) s.log s'.log := by
  cases hf : u.canFill with
  | false => rw [checkActive_bba h hf]; exact .refl _
  | true =>
    obtain ⟨xs, hx, _, _, hl, _⟩ := checkActive_out hi h hf
    exact ⟨_, hl, outcomes_shows hx⟩

theorem submitMarket_shows {c : Cfg} {s s' : State} {o : NewMarket} {r}
    (h : Lfest.submitMarket c s o = .ok (s', r)) (a : Accounts) (os : Book) :
    Ext (Shows s'.ms a os) s.log s'.log := by
  rcases submitMarket_cases h with ⟨err, _, rfl, rfl⟩ | ⟨_, ⟨err, _, rfl, rfl⟩ |
    ⟨_, _, _, pos', a', _, rfl, rfl⟩⟩
  · exact ⟨[_], rfl, by simp [Shows]⟩
  · exact ⟨[_], rfl, by simp [Shows]⟩
  · refine ⟨[_, _, _], rfl, ?_⟩
    intro ev he
    simp only [List.mem_cons, List.not_mem_nil, or_false] at he
    rcases he with rfl | rfl | rfl
    · cases hs : o.side <;> simp [Shows, touchPrice]
    · trivial
    · trivial

theorem liquidate_shows {c : Cfg} {s s' : State} (h : Lfest.liquidate c s = .ok s') (a : Accounts)
    (os : Book) : Ext (Shows s'.ms a os) s.log s'.log := by
  simp only [Lfest.liquidate, bind_ok] at h
  obtain ⟨o, ho, r, hr, h⟩ := h
  split at h
  · simp at h
  · simp only [ok_inj] at h; subst h
    exact submitMarket_shows hr a os

theorem cancelLimit_shows {c : Cfg} {s s' : State} {b : CancelBy} {r}
    (h : Lfest.cancelLimit c s b = .ok (s', r)) (ms : MarketState) (a : Accounts) (os : Book) :
    Ext (Shows ms a os) s.log s'.log := by
  obtain ⟨_, ⟨_, rfl, _⟩ | ⟨removed, active', a, m', h1, _, _, _, _, _, rfl, _⟩⟩ := cancelLimit_ok h
  · exact .refl _
  · exact ⟨[_], rfl, by simp [Shows]⟩

theorem submitLimit_shows {c : Cfg} {s s' : State} {o : NewLimit} {r}
    (hf : ∀ x ∈ s.active, x.id < s.nextId) (h : Lfest.submitLimit c s o = .ok (s', r))
    (ms : MarketState) (a : Accounts) (os : Book) : Ext (Shows ms a os) s.log s'.log := by
  obtain ⟨_, _, _, _, _, hl, _⟩ := submitLimit_arenas hf h
  exact ⟨[_], hl, by simp [Shows]⟩

/-- The events of one call. -/
theorem step_shows {c : Cfg} {s s' : State} {op : Op} {r} (hi : Inv c s)
    (hst : Lfest.step c s op = .ok (s', r)) :
    Ext (Shows s'.ms s.acct s.active) s.log s'.log := by
  rcases step_cases hst with ⟨a, u, x, rfl, hb, h, rfl⟩ | ⟨a, u, rfl, hb, h, rfl⟩ | ⟨err, rfl, rfl⟩ |
    ⟨_, _, _, _, rfl, _, h, rfl⟩ | ⟨_, _, _, _, x, rfl, hp, hq, h, rfl⟩ |
    ⟨_, _, _, _, _, _, rfl, _, _, h, rfl⟩ | ⟨_, _, rfl, h, rfl⟩
  · simp only [Lfest.updateState, bind_ok] at h
    obtain ⟨s1, h1, h⟩ := h
    obtain ⟨f1, _, f3, f4, f5, _⟩ := observe_fields h1
    have hi1 : Inv c s1 := hi.congr f3 f4 (by omega)
    have hn : s'.ms = s1.ms ∧ Ext (Shows s'.ms s.acct s.active) s1.log s'.log := by
      split at h
      · simp only [bind_ok, ok_inj, Prod.mk.injEq] at h
        obtain ⟨s2, h2, rfl, _⟩ := h
        exact ⟨(liquidate_fields h2).1, liquidate_shows h2 _ _⟩
      · simp only [bind_ok, ok_inj, Prod.mk.injEq] at h
        obtain ⟨s2, h2, rfl, _⟩ := h
        have := checkActive_shows hi1 h2 s.acct
        rw [f3] at this
        exact ⟨(checkActive_fields h2).1, this⟩
    refine Ext.trans ?_ hn.2
    rw [hn.1]
    simp only [Lfest.observe, bind_ok, ok_inj] at h1
    obtain ⟨ms', hm, rfl⟩ := h1
    dsimp only
    split
    · exact ⟨[_, _], rfl, by simp [Shows]⟩
    · exact ⟨[_], rfl, by simp [Shows]⟩
  · exact checkActive_shows hi h _
  · exact .refl _
  · exact submitMarket_shows h _ _
  · exact submitLimit_shows (fun x hx => (hi.orders x hx).fresh) h _ _ _
  · rcases amendLimit_cases h with ⟨_, rfl, rfl⟩ | ⟨old, total, _, _, ⟨_, rfl, x, hc⟩ | ⟨hq, h⟩⟩
    · exact .refl _
    · exact cancelLimit_shows hc _ _ _
    · rcases h with ⟨err, hc, rfl⟩ | ⟨s1, x, hc, hs⟩
      · exact cancelLimit_shows hc _ _ _
      · exact (cancelLimit_shows hc _ _ _).trans (submitLimit_shows
          (fun x hx => ((cancelLimit_inv hi hc).orders x hx).fresh) hs _ _ _)
  · exact cancelLimit_shows h _ _ _

/-- The contracts of the trades on record. -/
def tradeQty : List Event → Int
  | [] => 0
  | .trade _ _ q :: l => q + tradeQty l
  | _ :: l => tradeQty l

/-- Trades on record are fills, with positive price and quantity. -/
theorem trades_fills {c : Cfg} {ops : List Op} {s : State}
    (h : Lfest.run c (State.init c) ops = .ok s) :
    tradeQty s.log = fillSum (fills s.log) ∧
      ∀ side p q, Event.trade side p q ∈ s.log → 0 < p ∧ 0 < q := by
  refine ((run_core (st := true) h).inv (P := fun x => LInv c x ∧
    tradeQty x.log = fillSum (fills x.log) ∧
      ∀ side p q, Event.trade side p q ∈ x.log → 0 < p ∧ 0 < q) ?_ ⟨LInv.init c, ?_⟩).2
  · intro x y ⟨hl, h1, h2⟩ k
    refine ⟨hl.step k, ?_⟩
    cases k with
    | event ev hev =>
      dsimp only at h1 h2 ⊢
      rw [fills_plain hev]
      cases ev <;> simp only [plainEvent] at hev <;> simp only [tradeQty] <;>
        refine ⟨h1, fun sd p q hm => h2 sd p q ?_⟩ <;> simpa using hm
    | sample mid =>
      dsimp only at h1 h2 ⊢
      rw [fills_sample]
      simp only [tradeQty]
      refine ⟨h1, fun sd p q hm => h2 sd p q ?_⟩
      simpa using hm
    | reserve v ht => exact ⟨h1, h2⟩
    | release v ht => exact ⟨h1, h2⟩
    | fill f full hp hc =>
      have hp := hp rfl
      have hq := (changePosition_ledger (k := -c.start) hl.wf hc).1
      dsimp only at h1 h2 ⊢
      rw [fills_report]
      obtain ⟨m, sd, p, q⟩ := f
      cases m <;> simp only [fillReport, List.cons_append, List.nil_append, if_true,
        Bool.false_eq_true, if_false, tradeQty, fillSum, h1, true_and] <;>
        intro sd' p' q' hm <;> simp at hm <;> rcases hm with ⟨rfl, rfl, rfl⟩ | hm
      · exact ⟨hp, hq⟩
      · exact h2 _ _ _ hm
      · exact ⟨hp, hq⟩
      · exact h2 _ _ _ hm
  · simp [State.core, State.init, tradeQty, fills, fillSum]

/-! ## No overflow -/

/-- An event on which the statistics do not overflow. -/
def Harmless (v P : Int) : Event → Prop
  | .update m => 0 ≤ m.bid ∧ m.bid ≤ P ∧ 0 ≤ m.ask ∧ m.ask ≤ P
  | .sample b _ => In v (b.wallet + b.positionMargin) ∧
      In v (b.wallet + b.positionMargin + b.orderMargin)
  | .trade _ p q => 0 < p ∧ p ≤ P ∧ 0 < q
  | _ => True

theorem tradeQty_nonneg {v P : Int} : ∀ {l : List Event}, (∀ ev ∈ l, Harmless v P ev) →
    0 ≤ tradeQty l
  | [], _ => by simp [tradeQty]
  | ev :: l, h => by
    have i := tradeQty_nonneg (l := l) fun x hx => h x (List.mem_cons_of_mem _ hx)
    have h0 := h ev List.mem_cons_self
    cases ev <;> simp only [tradeQty] <;> first | exact i | skip
    simp only [Harmless] at h0
    omega

theorem In.mono {v w x : Int} (h : In v x) (hv : v ≤ w) : In w x := by
  obtain ⟨h1, h2⟩ := h
  exact ⟨by omega, by omega⟩

theorem lastSum_fit {v P : Int} (hv : 0 ≤ v) : ∀ {l : List Event}, (∀ ev ∈ l, Harmless v P ev) →
    In v (lastSum l)
  | [], _ => by simp only [lastSum]; exact ⟨by omega, hv⟩
  | ev :: l, h => by
    have i := lastSum_fit hv (l := l) fun x hx => h x (List.mem_cons_of_mem _ hx)
    have h0 := h ev List.mem_cons_self
    cases ev <;> simp only [lastSum] <;> first | exact i | skip
    exact h0.2

theorem replay_noov {v w P K start : Int} {e : Env} (hR : Rate e P K) (hP : 2 * P ≤ w)
    (hv : v ≤ w) : ∀ l : List Event, (∀ ev ∈ l, Harmless v P ev) → tradeQty l * K ≤ w * e.scale →
      NoOv (trackerReplay w e start l) ∧
      ∀ t, FullTracker.replay e start l = .ok t → 0 ≤ t.buyVolume ∧ 0 ≤ t.sellVolume ∧
        (t.buyVolume + t.sellVolume) * e.scale ≤ tradeQty l * K
  | [], _, _ => by
    refine ⟨noov_assert_bind (by simp) fun _ => noov_ok, fun t ht => ?_⟩
    obtain ⟨_, rfl⟩ := new_ok (replay_nil ht)
    simp [tradeQty]
  | ev :: l, h, hw => by
    have hs := scale_pos e
    have hK : 0 ≤ K := by have := hR.price; have := hR.pos; omega
    have hl := fun x hx => h x (List.mem_cons_of_mem _ hx)
    have h0 := h ev List.mem_cons_self
    have hn := tradeQty_nonneg hl
    have hq : tradeQty l ≤ tradeQty (ev :: l) := by
      cases ev <;> simp only [tradeQty] <;> first | exact Int.le_refl _ | skip
      simp only [Harmless] at h0
      omega
    have hm := Int.mul_le_mul_of_nonneg_right hq hK
    obtain ⟨i1, i2⟩ := replay_noov (start := start) hR hP hv l hl (Int.le_trans hm hw)
    cases ev with
    | trade side p q =>
      simp only [Harmless] at h0
      simp only [tradeQty] at hm hw
      rw [Int.add_mul] at hm hw
      have hqK := Int.mul_nonneg (Int.le_of_lt h0.2.2) hK
      have hnK := Int.mul_nonneg hn hK
      have hval : Lfest.convert e q p = .ok (value e q p) := convert_pos (by omega)
      have hb := convert_bound hR (by omega) h0.2.1 (Int.le_refl q) (by omega) hval
      have hv0 : 0 ≤ value e q p := value_nonneg e (by omega) (by omega)
      have hfit : ∀ x, 0 ≤ x → x * e.scale ≤ w * e.scale → In w x := by
        intro x h1 h2
        have := Int.le_of_mul_le_mul_right h2 hs
        exact ⟨by omega, this⟩
      constructor
      · refine noov_bind (agree_replay l) i1 fun t ht => ?_
        obtain ⟨j1, j2, j3⟩ := i2 t ht
        rw [Int.add_mul] at j3
        have m1 := Int.mul_nonneg j1 (Int.le_of_lt hs)
        have m2 := Int.mul_nonneg j2 (Int.le_of_lt hs)
        unfold trackerHandle
        refine noov_assert_bind (by simp) fun _ => ?_
        refine noov_bind agree_convert (noov_convert hR (by omega) h0.2.1 (Int.le_refl q) (by omega)
          (by omega)) fun v hv => ?_
        rw [hval] at hv; cases hv
        cases side
        · exact noov_chk_bind (hfit _ (by omega) (by rw [Int.add_mul]; omega)) noov_ok
        · exact noov_chk_bind (hfit _ (by omega) (by rw [Int.add_mul]; omega)) noov_ok
      · intro t ht
        obtain ⟨t0, ht0, h1⟩ := replay_cons ht
        obtain ⟨j1, j2, j3⟩ := i2 t0 ht0
        simp only [FullTracker.handle, bind_ok, assertP_ok] at h1
        obtain ⟨_, _, v, hv, h1⟩ := h1
        rw [hval] at hv; cases hv
        simp only [tradeQty, Int.add_mul] at j3 ⊢
        cases side <;> simp only [ok_inj] at h1 <;> subst h1 <;>
          simp only [Int.add_mul] <;> omega
    | update m =>
      simp only [Harmless] at h0
      simp only [tradeQty] at hw ⊢
      constructor
      · exact noov_bind (agree_replay l) i1 fun t ht =>
          noov_any (noov_mid hs h0.1 h0.2.1 h0.2.2.1 h0.2.2.2 hP) fun _ => noov_ok
      · intro t ht
        obtain ⟨t0, ht0, h1⟩ := replay_cons ht
        simp only [FullTracker.handle, ok_inj] at h1; subst h1
        exact i2 t0 ht0
    | sample b m =>
      simp only [Harmless] at h0
      simp only [tradeQty] at hw ⊢
      constructor
      · exact noov_bind (agree_replay l) i1 fun t ht =>
          noov_any (noov_chk_bind (h0.1.mono hv) (noov_chk (h0.2.mono hv))) fun _ => noov_ok
      · intro t ht
        obtain ⟨t0, ht0, h1⟩ := replay_cons ht
        simp only [FullTracker.handle, ok_inj] at h1; subst h1
        exact i2 t0 ht0
    | limitFill b q =>
      simp only [tradeQty] at hw ⊢
      refine ⟨noov_bind (agree_replay l) i1 fun t ht => noov_ok, fun t ht => ?_⟩
      obtain ⟨t0, ht0, h1⟩ := replay_cons ht
      have := handle_limitFill h1; subst this
      exact i2 t0 ht0
    | _ =>
      simp only [tradeQty] at hw ⊢
      refine ⟨noov_bind (agree_replay l) i1 fun t ht => noov_ok, fun t ht => ?_⟩
      obtain ⟨t0, ht0, h1⟩ := replay_cons ht
      simp only [FullTracker.handle, ok_inj] at h1; subst h1
      exact i2 t0 ht0

theorem balances_fit {a : Accounts} (hg : Gross a) :
    -a.debitSum ≤ a.balance .wallet + a.balance .positionMargin + a.balance .orderMargin ∧
      a.balance .wallet + a.balance .positionMargin + a.balance .orderMargin ≤ a.debitSum := by
  have h1 := hg.nonneg .wallet
  have h2 := hg.nonneg .orderMargin
  have h3 := hg.nonneg .positionMargin
  have h4 := hg.nonneg .exchangeFee
  have h5 := hg.nonneg .broker
  have h6 := hg.nonneg .treasury
  have h7 := hg.sums
  simp only [Accounts.debitSum, Accounts.creditSum, Accounts.get, Accounts.balance, TAccount.net]
    at *
  omega

/-- Every event of a history within the limits is harmless. -/
theorem Limits.harmless {c : Cfg} {w P K X QQ n : Int} (h : Limits c w P K X QQ n) :
    ∀ (ops : List Op) (s s' : State) (m Q : Int), Held c P K X s m Q →
      Q + (ops.map asked).sum ≤ QQ → m + (ops.map submissions).sum ≤ n →
      (∀ op ∈ ops, Within w P op) → Lfest.run c s ops = .ok s' →
      (∀ side p q, Event.trade side p q ∈ s'.log → 0 < p ∧ 0 < q) →
      (∀ ev ∈ s.log, Harmless (w - c.start) P ev) → ∀ ev ∈ s'.log, Harmless (w - c.start) P ev
  | [], s, s', m, Q, _, _, _, _, hr, _, hl => by
    simp only [Lfest.run, ok_inj] at hr
    subst hr
    exact hl
  | op :: ops, s, s', m, Q, hs, hQ, hm, hw, hr, hp, hl => by
    simp only [List.map_cons, List.sum_cons] at hQ hm
    have h1 := sum_map_nonneg asked_nonneg ops
    have h2 := sum_map_nonneg submissions_nonneg ops
    have h3 := asked_nonneg op
    have h4 := submissions_nonneg op
    simp only [Lfest.run, bind_ok] at hr
    obtain ⟨⟨s1, r⟩, hst, hr⟩ := hr
    have hs1 := h.heldRun [op] s s1 m Q hs (by simp; omega)
      (fun o ho => hw o (by simp at ho; simp [ho])) (by simp [Lfest.run, hst, bind, Except.bind])
    simp only [List.map_cons, List.map_nil, List.sum_cons, List.sum_nil, Int.add_zero] at hs1
    obtain ⟨T, hT⟩ := hs.exp
    obtain ⟨b0, _, _, b3, b4, _⟩ := h.basics
    have ht : s.acct.debitSum + c.start ≤ w := by
      have h5 := (h.total hT (by omega) (by omega)).2.1
      have h6 := h.amount
      refine Int.le_of_mul_le_mul_right ?_ b0
      rw [Int.add_mul]; omega
    have hb1 := funds_fit hT.cash.gross
    have hb2 := balances_fit hT.cash.gross
    have hext : ∀ (ops : List Op) (s s' : State), Inv c s → Lfest.run c s ops = .ok s' →
        ∀ ev ∈ s.log, ev ∈ s'.log := by
      intro ops
      induction ops with
      | nil => intro s s' _ hr ev he; simp only [Lfest.run, ok_inj] at hr; subst hr; exact he
      | cons op ops ih =>
        intro s s' hi hr ev he
        simp only [Lfest.run, bind_ok] at hr
        obtain ⟨⟨s1, r⟩, hst, hr⟩ := hr
        obtain ⟨new, e, _⟩ := step_shows hi hst
        exact ih s1 s' (step_inv hi hst) hr ev (by rw [e]; exact List.mem_append_right _ he)
    refine Limits.harmless h ops s1 s' _ _ hs1 (by omega) (by omega)
      (fun o ho => hw o (List.mem_cons_of_mem _ ho)) hr hp fun ev he => ?_
    obtain ⟨new, e, hnew⟩ := step_shows hs.inv hst
    have he0 := he
    rw [e, List.mem_append] at he
    rcases he with he | he
    · have hsh := hnew ev he
      cases ev with
      | update ms =>
        simp only [Shows] at hsh
        subst hsh
        exact ⟨hs1.bid0, hs1.bid, hs1.ask0, hs1.ask⟩
      | sample b m =>
        simp only [Shows] at hsh
        subst hsh
        simp only [Harmless, Lfest.userBalances]
        exact ⟨⟨by omega, by omega⟩, ⟨by omega, by omega⟩⟩
      | trade side p q =>
        have hpq := hp side p q (hext ops s1 s' hs1.inv hr _ he0)
        refine ⟨hpq.1, ?_, hpq.2⟩
        rcases hsh with ⟨o, ho, rfl⟩ | rfl | rfl
        · exact (hT.orders o (by rw [hs.inv.sync h.cap]; exact ho)).top
        · exact hs1.bid
        · exact hs1.ask
      | _ => trivial
    · exact hl ev he

end Lfest.Mach
