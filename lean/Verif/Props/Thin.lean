import Verif.Lemmas.Thin
import Verif.Lemmas.Tracker
import Verif.Examples

/-!
# Thinning market data: C115
-/

namespace Lfest

open Spec

/-- C115: take any history and leave out market updates that were answered with no fills and no
liquidation and were directly followed by another update that makes their quotes irrelevant. The
shorter history returns, every remaining call gets literally the same answer (order ids and
timestamps included), and quotes, time, position, all balances, active orders and the next order id
are the same in the end, as are all calls of the tracker that are about the account. -/
theorem C115_thin (c : Cfg) (ops : List Op) (s : State) (tr : List (Op × Resp))
    (h : history c (State.init c) ops = .ok (s, tr)) :
    ∃ s', history c (State.init c) ((thin tr).map Prod.fst) = .ok (s', thin tr) ∧
      s'.ms.bid = s.ms.bid ∧ s'.ms.ask = s.ms.ask ∧ s'.ms.ts = s.ms.ts ∧ s'.pos = s.pos ∧
      s'.acct = s.acct ∧ s'.active = s.active ∧ s'.nextId = s.nextId ∧
      s'.log.filter ofAccount = s.log.filter ofAccount := by
  obtain ⟨s', h1, L, T, n, us, rfl, h2⟩ := thin_sim c ops h ((Unseen.rfl' _).ready ops)
  exact ⟨_, h1, rfl, rfl, rfl, rfl, rfl, rfl, rfl, h2⟩

/-- Quotes, sideways trades and candles that fill nothing, then a trade that fills the resting
order, then quotes again. -/
def Ex.busy : List Op :=
  [.update (.bba ⟨Ex.d 100, Ex.d 101, 1⟩), .update (.bba ⟨Ex.d 99, Ex.d 100, 2⟩),
   .market .buy (Ex.d 2) 1, .limit .buy (Ex.d 95) (Ex.d 1) 2,
   .update (.trade ⟨3, Ex.d 99, Ex.d 4, .sell⟩), .update (.candle ⟨Ex.d 97, Ex.d 98, Ex.d 96, Ex.d 98, 4⟩),
   .update (.bba ⟨Ex.d 96, Ex.d 97, 5⟩), .update (.trade ⟨6, Ex.d 94, Ex.d 4, .sell⟩),
   .update (.bba ⟨Ex.d 95, Ex.d 96, 7⟩), .cancel (.orderId 2)]

/-- Four of the seven updates go; the one that fills the order stays. -/
example : (match history Ex.lin (State.init Ex.lin) Ex.busy with
    | .ok (s, tr) => decide (tr.length = 10 ∧ s.pos.quantity = Ex.d 3 ∧
        (thin tr).map Prod.fst =
          [.update (.bba ⟨Ex.d 99, Ex.d 100, 2⟩), .market .buy (Ex.d 2) 1,
           .limit .buy (Ex.d 95) (Ex.d 1) 2, .update (.bba ⟨Ex.d 96, Ex.d 97, 5⟩),
           .update (.trade ⟨6, Ex.d 94, Ex.d 4, .sell⟩), .update (.bba ⟨Ex.d 95, Ex.d 96, 7⟩),
           .cancel (.orderId 2)])
    | .error _ => false) = true := by decide +kernel

theorem replay_filter {e : Env} {start : Int} : ∀ {l : List Event} {t : FullTracker},
    FullTracker.replay e start l = .ok t →
    FullTracker.replay e start (l.filter ofAccount) =
      .ok { t with priceFirst := 0, priceLast := 0, tsFirst := 0, tsLast := 0, lastBalanceSum := 0 }
  | [], t, h => by
    simp only [FullTracker.replay, FullTracker.new, bind_ok, ok_inj] at h
    obtain ⟨u, hu, rfl⟩ := h
    simp only [List.filter_nil, FullTracker.replay, FullTracker.new, hu]; rfl
  | ev :: l, t, h => by
    simp only [FullTracker.replay, bind_ok] at h
    obtain ⟨t0, h0, h1⟩ := h
    have ih := replay_filter h0
    cases ev with
    | update ms =>
      simp only [FullTracker.handle, ok_inj] at h1; subst h1; simpa [ofAccount] using ih
    | sample b m =>
      simp only [FullTracker.handle, ok_inj] at h1; subst h1; simpa [ofAccount] using ih
    | trade side p q =>
      simp only [FullTracker.handle, bind_ok] at h1
      obtain ⟨u, hu, v, hv, h1⟩ := h1
      simp only [List.filter_cons, ofAccount, if_true, FullTracker.replay, bind_ok]
      refine ⟨_, ih, ?_⟩
      simp only [FullTracker.handle, bind_ok]
      refine ⟨u, hu, v, hv, ?_⟩
      cases side <;> simp only [ok_inj] at h1 ⊢ <;> subst h1 <;> rfl
    | _ =>
      simp only [FullTracker.handle, ok_inj] at h1
      subst h1
      simp only [List.filter_cons, ofAccount, if_true, FullTracker.replay, bind_ok]
      exact ⟨_, ih, rfl⟩

/-- C115: so `FullAccountTracker` counts the same orders, fills and volumes. -/
theorem C115_statistics (c : Cfg) (ops : List Op) (s s' : State) (tr : List (Op × Resp))
    (start : Int) (t t' : FullTracker) (h : history c (State.init c) ops = .ok (s, tr))
    (h' : run c (State.init c) ((thin tr).map Prod.fst) = .ok s')
    (ht : FullTracker.replay c.env start s.log = .ok t)
    (ht' : FullTracker.replay c.env start s'.log = .ok t') :
    t'.turnover = t.turnover ∧ t'.buyVolume = t.buyVolume ∧ t'.sellVolume = t.sellVolume ∧
    t'.submittedLimit = t.submittedLimit ∧ t'.cancelledLimit = t.cancelledLimit ∧
    t'.fullyFilledLimit = t.fullyFilledLimit ∧ t'.filledLimitEvents = t.filledLimitEvents ∧
    t'.submittedMarket = t.submittedMarket ∧ t'.filledMarket = t.filledMarket ∧
    t'.fillRatio = t.fillRatio ∧ t'.cancelRatio = t.cancelRatio := by
  obtain ⟨s2, h1, -, -, -, -, -, -, -, hl⟩ := C115_thin c ops s tr h
  have h2 := history_run h1
  rw [h'] at h2
  cases h2
  have e := replay_filter ht
  have e' := replay_filter ht'
  rw [hl, e] at e'
  simp only [ok_inj, FullTracker.mk.injEq] at e'
  obtain ⟨_, h1, h2, h3, h4, h5, h6, h7, h8, _⟩ := e'
  unfold FullTracker.turnover FullTracker.fillRatio FullTracker.cancelRatio
  simp [h1, h2, h3, h4, h5, h6, h7, h8]

/-- Hourly samples; quotes after 1, 2 and 3 hours, a purchase and a sale, and quotes half an hour
later. -/
def Ex.hourly : List Op :=
  let h := 1800000000000
  [.update (.bba ⟨Ex.d 100, Ex.d 101, 2 * h⟩), .limit .buy (Ex.d 90) (Ex.d 1) 7,
   .update (.bba ⟨Ex.d 100, Ex.d 101, 4 * h⟩), .update (.bba ⟨Ex.d 100, Ex.d 101, 6 * h⟩),
   .market .buy (Ex.d 2) 1, .market .sell (Ex.d 2) 1, .update (.bba ⟨Ex.d 100, Ex.d 101, 7 * h⟩)]

/-- C115: what is sampled is not the same. Here the update that is left out, after two hours, would
have advanced the sampling clock: the full history has no sample after the trades, so `rpnl` is zero;
the thinned one has, and shows the loss. -/
theorem C115_samples_differ : ∃ s s' tr t t',
    history Ex.lin (State.init Ex.lin) Ex.hourly = .ok (s, tr) ∧
    run Ex.lin (State.init Ex.lin) ((thin tr).map Prod.fst) = .ok s' ∧
    (thin tr).length + 1 = tr.length ∧
    FullTracker.replay Ex.lin.env Ex.lin.start s.log = .ok t ∧
    FullTracker.replay Ex.lin.env Ex.lin.start s'.log = .ok t' ∧
    t.rpnl = 0 ∧ t'.rpnl = -224120 := by
  have h : (match history Ex.lin (State.init Ex.lin) Ex.hourly with
    | .ok (s, tr) => match run Ex.lin (State.init Ex.lin) ((thin tr).map Prod.fst) with
      | .ok s' => match FullTracker.replay Ex.lin.env Ex.lin.start s.log,
          FullTracker.replay Ex.lin.env Ex.lin.start s'.log with
        | .ok t, .ok t' => decide ((thin tr).length + 1 = tr.length ∧ t.rpnl = 0 ∧
            t'.rpnl = -224120)
        | _, _ => false
      | .error _ => false
    | .error _ => false) = true := by decide +kernel
  split at h
  · next s tr e1 =>
    split at h
    · next s' e2 =>
      split at h
      · next t t' e3 e4 =>
        obtain ⟨a, b, d⟩ := of_decide_eq_true h
        exact ⟨s, s', tr, t, t', e1, e2, a, e3, e4, b, d⟩
      · cases h
    · cases h
  · cases h

end Lfest
