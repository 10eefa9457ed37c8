import Verif.SpecSolvent
import Verif.Props.Solo
import Verif.Props.Reference

/-!
# Strategies that trade with their own money: C95
-/

namespace Lfest

open Spec

/-- The fees owed are in the wallet. -/
def Funded (s : State) : Prop :=
  0 ≤ s.pos.outstandingFees ∧ s.pos.outstandingFees ≤ s.acct.balance .wallet

theorem share_one (e : Env) (x : Int) : share e x e.scale = x :=
  Int.mul_tdiv_cancel _ (by have := scale_pos e; omega)

theorem share_le {e : Env} {x r : Int} (hx : 0 ≤ x) (h : r ≤ e.scale) : share e x r ≤ x := by
  have : share e x r ≤ share e x e.scale :=
    Int.tdiv_le_tdiv (scale_pos e) (Int.mul_le_mul_of_nonneg_left h hx)
  rwa [share_one] at this

/-- Closing the whole position at a positive price leaves a wallet that is not negative. -/
theorem close_funded {c : Cfg} {x : Ref.Exchange} {f : Fill} (hi : c.spec.initMarginReq = c.env.scale)
    (h0 : 0 ≤ c.spec.feeTaker) (h1 : c.spec.feeTaker ≤ c.env.scale)
    (hb : boundedLoss c.env x.book.qty) (hq : f.qty = opposing x.book.qty f.side)
    (hp : 0 < f.price) (hm : f.maker = false) (hpos : 0 < f.qty)
    (hl : x.locked = Ref.initial c (Spec.abs x.book.qty) x.book.entry)
    (ho : 0 ≤ x.book.owed) (hw : x.book.owed ≤ x.wallet c) :
    0 ≤ (x.fill c f).book.owed ∧ (x.fill c f).book.owed ≤ (x.fill c f).wallet c := by
  have hz : x.book.qty ≠ 0 := by
    intro h; rw [h] at hq; cases hs : f.side <;> simp [hs, opposing, larger] at hq <;> omega
  have hdir : ¬ ((0 < x.book.qty ∧ f.side = .buy) ∨ (x.book.qty < 0 ∧ f.side = .sell)) := by
    rintro (⟨h, hs⟩ | ⟨h, hs⟩) <;> simp only [hs, opposing, larger] at hq <;> split at hq <;> omega
  have habs : Spec.abs x.book.qty = f.qty := by
    rw [hq]
    cases hs : f.side <;> simp only [hs, not_or, not_and, opposing, larger, Spec.abs] at hdir ⊢ <;>
      split <;> split <;> grind
  have hv : 0 ≤ value c.env f.qty f.price := value_nonneg _ (by omega) (by omega)
  have hfee : f.fee c = share c.env (value c.env f.qty f.price) c.spec.feeTaker := by
    simp [Fill.fee, hm]
  have f0 : 0 ≤ f.fee c := by rw [hfee]; exact share_nonneg _ hv h0
  have f1 : f.fee c ≤ value c.env f.qty f.price := by rw [hfee]; exact share_le hv h1
  have hin : ∀ a b, Ref.initial c a b = value c.env a b := fun a b => by
    unfold Ref.initial; rw [hi, share_one]
  have hlock : (x.fill c f).locked = 0 := by
    simp only [Ref.Exchange.fill, Ref.lockedAfter]
    rw [← hq, if_neg (by omega), if_pos (by omega), hl, habs]; omega
  have hbook : (x.fill c f).book.owed = 0 ∧
      (x.fill c f).book.paid = x.book.paid + (x.book.owed + f.fee c) ∧
      (x.fill c f).book.realised = x.book.realised +
        (value c.env f.qty f.price - value c.env f.qty x.book.entry) := by
    simp only [Ref.Exchange.fill, Ledger.fill]
    rw [if_neg hz, if_neg hdir]
    simp only [habs, Int.le_refl, if_true]
    refine ⟨if_neg (by omega), ?_, ?_⟩
    · split <;> omega
    · congr 1
      unfold boundedLoss at hb
      unfold Spec.pnl
      cases hk : c.env.kind <;> simp only [hk] at hb ⊢
      · rw [if_pos (by omega)]
      · rw [if_neg (by omega), value_neg, value_neg]; omega
  have hres : (x.fill c f).reserved = x.reserved := rfl
  obtain ⟨b1, b2, b3⟩ := hbook
  rw [hin, habs] at hl
  unfold Ref.Exchange.wallet at hw ⊢
  rw [b1, b2, b3, hlock, hres]
  omega

theorem PosWF.flat_iff {p : Position} (h : PosWF p) : p = .neutral ↔ p.quantity = 0 := by
  cases p with
  | neutral => simp [Position.quantity]
  | long i => simp only [Position.quantity, reduceCtorEq, false_iff]; have : 0 < i.qty := h; omega
  | short i => simp only [Position.quantity, reduceCtorEq, false_iff]; have : 0 < i.qty := h; omega

theorem Funded.step {c : Cfg} {s s' : State} {op : Op} {r : Resp} (hc : soundConfig c)
    (hi : c.spec.initMarginReq = c.env.scale) (h0 : 0 ≤ c.spec.feeTaker)
    (h1 : c.spec.feeTaker ≤ c.env.scale) (hr : Reachable c s) (hs : Solo c s) (hf : Funded s)
    (hb : boundedLoss c.env s.pos.quantity) (hb' : boundedLoss c.env s'.pos.quantity)
    (k : oneAtATime c s op) (hst : Lfest.step c s op = .ok (s', r)) : Funded s' := by
  have e := C65_every_call c s s' op r hc.2.2.2.2 hr hst
  have hw := C65_wallet c s hr
  have hw' := C65_wallet c s' (hr.step hst)
  have hwf : PosWF s.pos := hr.linv.wf
  unfold Funded at hf ⊢
  rw [hw] at hf
  rw [hw']
  have eo : (Ref.view c s).orders = [] := hs.active
  have el : (Ref.view c s).locked = Ref.initial c (Spec.abs (Ref.view c s).book.qty)
    (Ref.view c s).book.entry := hs.exact
  change 0 ≤ (Ref.view c s').book.owed ∧ (Ref.view c s').book.owed ≤ _
  change 0 ≤ (Ref.view c s).book.owed ∧ (Ref.view c s).book.owed ≤ _ at hf
  change boundedLoss c.env (Ref.view c s).book.qty at hb
  change boundedLoss c.env (Ref.view c s').book.qty at hb'
  cases op with
  | update a =>
    obtain ⟨_, _, hqp⟩ := k
    have hpos : s.pos ≠ .neutral → 0 < (quotesAfter s.ms a).1 ∧ 0 < (quotesAfter s.ms a).2 := by
      intro hn
      rcases quotes_positive (ms := s.ms) hqp with h | h
      · rw [h]; exact ⟨(hs.held hn).2.1, (hs.held hn).2.2.1⟩
      · exact h
    simp only [Ref.Exchange.call, Ref.Exchange.update, Prod.mk.injEq] at e
    split at e
    · rename_i hu
      obtain ⟨e, _⟩ := e
      rw [← e]
      have hne : (Ref.view c s).book.qty ≠ 0 := by
        intro h
        simp only [Ref.Exchange.underwater, h, decide_eq_true_eq] at hu
        omega
      obtain ⟨p1, p2⟩ := hpos (fun h => hne (hwf.flat_iff.1 h))
      refine close_funded (x := { Ref.view c s with market := seen (Ref.view c s).market [.update a] })
        hi h0 h1 hb ?_ ?_ ?_ ?_ el hf.1 hf.2
      · split <;> simp only [opposing, larger] <;> split <;> omega
      · split
        · exact p1
        · exact p2
      · split <;> rfl
      · split <;> dsimp only <;> omega
    · obtain ⟨e, _⟩ := e
      rw [← e]
      simp only [Ref.Exchange.matchAll, eo, List.foldl_nil]
      exact hf
  | market side q uid =>
    obtain ⟨k1, k2, k3, _, _⟩ := k
    simp only [Ref.Exchange.call] at e
    split at e
    · simp only [Prod.mk.injEq] at e; rw [← e.1]; exact hf
    · rename_i hq
      simp only [Prod.mk.injEq, Ref.Exchange.marketOrder] at e
      obtain ⟨e, _⟩ := e
      split at e
      · rw [← e]; exact hf
      · split at e
        · rename_i haff
          simp only at e
          rw [← e]
          by_cases hn : s.pos = .neutral
          · have hz : (Ref.view c s).book.qty = 0 := hwf.flat_iff.1 hn
            have hopp : opposing 0 side = 0 := by cases side <;> rfl
            simp only [Ref.affordable, hz, hopp, if_true] at haff
            replace haff := of_decide_eq_true haff
            unfold needed at haff
            have hv : 0 ≤ value c.env q (touchPrice s.ms side) := value_nonneg _ (by omega) (by omega)
            have hfee := share_nonneg c.env hv h0
            have hm : (Ref.view c s).market = s.ms := rfl
            rw [hm] at haff ⊢
            simp only [Ref.Exchange.fill, Ledger.fill, hz, if_true, Ref.lockedAfter, hopp, Fill.fee,
              Ref.Exchange.wallet, Ref.initial, Bool.false_eq_true, if_false] at haff ⊢
            omega
          · have hopp : 0 < opposing s.pos.quantity side := by
              rcases k2 with h | h
              · exact absurd h hn
              · exact h
            have hqe : q = opposing s.pos.quantity side := by
              rw [← e] at hb'
              have hq0 : (Ref.view c s).book.qty = s.pos.quantity := rfl
              have hne : s.pos.quantity ≠ 0 := fun h => hn (hwf.flat_iff.2 h)
              simp only [boundedLoss, Ref.Exchange.fill, Ledger.fill, hq0, Fill.signed] at hb hb'
              cases hk : c.env.kind <;> cases side <;>
                simp only [hk, opposing, larger] at hb hb' k3 hopp ⊢ <;>
                grind
            refine close_funded (x := { Ref.view c s with next := (Ref.view c s).next + 1 })
              hi h0 h1 hb hqe k1 rfl ?_ el hf.1 hf.2
            dsimp only; omega
        · rw [← e]; exact hf
  | _ => exact absurd k (by simp [oneAtATime])

/-- C95: a strategy that trades with market orders, holds one position at a time, does so without
leverage (initial margin rate 1, taker fee between 0 and 1) and only on the side on which it cannot
lose more than it paid, never panics and never owes money, whatever the market does. -/
theorem C95_own_money (c : Cfg) (ops : List Op) (hc : soundConfig c) (hstart : 0 ≤ c.start)
    (hi : c.spec.initMarginReq = c.env.scale) (h0 : 0 ≤ c.spec.feeTaker)
    (h1 : c.spec.feeTaker ≤ c.env.scale) (hf : followed c (State.init c) ops)
    (hb : ∀ pre suf s, ops = pre ++ suf → run c (State.init c) pre = .ok s →
      boundedLoss c.env s.pos.quantity) :
    ∃ s, run c (State.init c) ops = .ok s ∧ 0 ≤ s.acct.balance .wallet ∧
      s.pos.outstandingFees ≤ s.acct.balance .wallet := by
  suffices h : ∀ (ops : List Op) (s : State), Reachable c s → Solo c s → Funded s →
      followed c s ops →
      (∀ pre suf s', ops = pre ++ suf → run c s pre = .ok s' → boundedLoss c.env s'.pos.quantity) →
      ∃ s', run c s ops = .ok s' ∧ Funded s' by
    obtain ⟨s, h1, h2, h3⟩ := h ops _ ⟨[], rfl⟩ (Solo.init c) (by
      simp [Funded, State.init, Position.outstandingFees, Accounts.new, Accounts.balance,
        Accounts.get, TAccount.net, hstart]) hf hb
    exact ⟨s, h1, by omega, h3⟩
  intro ops
  induction ops with
  | nil => intro s _ _ hfu _ _; exact ⟨s, rfl, hfu⟩
  | cons op ops ih =>
    intro s hr hs hfu hf hb
    rcases hs.step hc hr hf.1 with ⟨s1, r, e1, hs1⟩ | ⟨_, _, _, _, _, hn⟩
    · have hb1 := hb [op] ops s1 rfl (by simp only [run, e1, bind, Except.bind])
      have hf1 := hfu.step hc hi h0 h1 hr hs (hb [] (op :: ops) s rfl rfl) hb1 hf.1 e1
      obtain ⟨s', h', hf'⟩ := ih s1 (hr.step e1) hs1 hf1 (hf.2 s1 r e1) (fun pre suf s' e h =>
        hb (op :: pre) suf s' (by simp [e]) (by simp only [run, e1, bind, Except.bind, h]))
      exact ⟨s', by simp only [run, e1, bind, Except.bind, h'], hf'⟩
    · obtain ⟨a, b⟩ := hfu
      omega

/-! Examples: a property of the states a history passes through can be evaluated. -/

/-- A property of the states after every prefix of a history, evaluated. -/
def Ex.stays (c : Cfg) (ops : List Op) (p : State → Bool) : Bool :=
  (List.range (ops.length + 1)).all fun n =>
    match run c (State.init c) (ops.take n) with
    | .ok s => p s
    | .error _ => true

theorem Ex.stays_sound {c : Cfg} {ops : List Op} {p : State → Bool} (h : Ex.stays c ops p = true) :
    ∀ pre suf s, ops = pre ++ suf → run c (State.init c) pre = .ok s → p s = true := by
  intro pre suf s e hr
  have := List.all_eq_true.1 h pre.length (by simp [e]; omega)
  rw [e, List.take_left' rfl, hr] at this
  exact this

/-- Everything is spent on contracts twice. The first position loses half its value and is sold,
the second loses nine tenths and is liquidated. What is left buys some more. -/
def Ex.allIn : List Op :=
  [.update (.bba ⟨Ex.d 99, Ex.d 100, 1⟩), .market .buy 999000 0,
   .update (.trade ⟨2, Ex.d 90, Ex.d 1, .sell⟩), .update (.bba ⟨Ex.d 51, Ex.d 52, 3⟩),
   .market .sell 999000 0, .market .buy 979000 0, .update (.bba ⟨Ex.d 5, Ex.d 6, 4⟩),
   .update (.trade ⟨5, Ex.d 5, Ex.d 1, .sell⟩), .market .buy (Ex.d 7) 0]

example : soundConfig Ex.lin ∧ Ex.lin.spec.initMarginReq = Ex.lin.env.scale ∧
    followed Ex.lin (State.init Ex.lin) Ex.allIn ∧
    (∀ pre suf s, Ex.allIn = pre ++ suf → run Ex.lin (State.init Ex.lin) pre = .ok s →
      boundedLoss Ex.lin.env s.pos.quantity) ∧
    Ex.after Ex.lin Ex.allIn (fun s => decide (s.acct.balance .wallet < Ex.d 20 ∧
      (fills s.log).length = 5 ∧ s.pos.quantity = Ex.d 7)) = true :=
  ⟨by unfold soundConfig; decide, by decide +kernel, Ex.follows_sound (by decide +kernel),
    fun pre suf s e h => of_decide_eq_true (Ex.stays_sound
      (p := fun s => decide (boundedLoss Ex.lin.env s.pos.quantity)) (by decide +kernel) pre suf s e h),
    by decide +kernel⟩

/-- Inverse contracts sold and bought back. -/
example : soundConfig Ex.inv ∧ Ex.inv.spec.initMarginReq = Ex.inv.env.scale ∧
    followed Ex.inv (State.init Ex.inv) [.update (.bba ⟨Ex.d 100, Ex.d 101, 1⟩),
      .market .sell (Ex.d 90000) 0, .update (.bba ⟨Ex.d 140, Ex.d 141, 2⟩),
      .market .buy (Ex.d 90000) 0, .update (.trade ⟨3, Ex.d 140, Ex.d 1, .buy⟩)] ∧
    Ex.stays Ex.inv [.update (.bba ⟨Ex.d 100, Ex.d 101, 1⟩),
      .market .sell (Ex.d 90000) 0, .update (.bba ⟨Ex.d 140, Ex.d 141, 2⟩),
      .market .buy (Ex.d 90000) 0, .update (.trade ⟨3, Ex.d 140, Ex.d 1, .buy⟩)]
      (fun s => decide (boundedLoss Ex.inv.env s.pos.quantity)) = true ∧
    Ex.after Ex.inv [.update (.bba ⟨Ex.d 100, Ex.d 101, 1⟩),
      .market .sell (Ex.d 90000) 0, .update (.bba ⟨Ex.d 140, Ex.d 141, 2⟩),
      .market .buy (Ex.d 90000) 0, .update (.trade ⟨3, Ex.d 140, Ex.d 1, .buy⟩)]
      (fun s => decide ((fills s.log).length = 2)) = true :=
  ⟨by unfold soundConfig; decide, by decide +kernel, Ex.follows_sound (by decide +kernel),
    by decide +kernel, by decide +kernel⟩

/-- C95 is false for leveraged positions: with an initial margin rate of a half a long position is
liquidated at a loss of more than the money there was, and the next trade panics. -/
theorem C95_leverage_can_panic : ∃ (c : Cfg) (ops : List Op), soundConfig c ∧ 0 ≤ c.start ∧
    2 * c.spec.initMarginReq = c.env.scale ∧ 0 ≤ c.spec.feeTaker ∧ c.spec.feeTaker ≤ c.env.scale ∧
    followed c (State.init c) ops ∧
    (∀ pre suf s, ops = pre ++ suf → run c (State.init c) pre = .ok s →
      boundedLoss c.env s.pos.quantity) ∧
    run c (State.init c) ops = .error .walletNegative :=
  ⟨{ Ex.lin with spec := { Ex.lin.spec with initMarginReq := 50000 } },
    [.update (.bba ⟨Ex.d 99, Ex.d 100, 1⟩), .market .buy (Ex.d 19) 0,
      .update (.bba ⟨Ex.d 10, Ex.d 11, 2⟩), .update (.trade ⟨3, Ex.d 10, Ex.d 1, .buy⟩)],
    by unfold soundConfig; decide, by decide, by decide +kernel, by decide, by decide +kernel,
    Ex.follows_sound (by decide +kernel),
    fun pre suf s e h => of_decide_eq_true (Ex.stays_sound
      (p := fun s => decide (boundedLoss Ex.lin.env s.pos.quantity)) (by decide +kernel) pre suf s e h),
    by rfl⟩

/-- C95 is false on the other side: a short position in linear contracts without leverage is
liquidated at a loss of more than the money there was, and the next trade panics. -/
theorem C95_short_can_panic : ∃ (c : Cfg) (ops : List Op), soundConfig c ∧ 0 ≤ c.start ∧
    c.env.kind = .linear ∧ c.spec.initMarginReq = c.env.scale ∧ 0 ≤ c.spec.feeTaker ∧
    c.spec.feeTaker ≤ c.env.scale ∧ followed c (State.init c) ops ∧
    (∀ pre suf s, ops = pre ++ suf → run c (State.init c) pre = .ok s → s.pos.quantity ≤ 0) ∧
    run c (State.init c) ops = .error .walletNegative :=
  ⟨Ex.lin, [.update (.bba ⟨Ex.d 100, Ex.d 101, 1⟩), .market .sell (Ex.d 9) 0,
      .update (.bba ⟨Ex.d 299, Ex.d 300, 2⟩), .update (.trade ⟨3, Ex.d 300, Ex.d 1, .buy⟩)],
    by unfold soundConfig; decide, by decide, rfl, by decide +kernel, by decide, by decide +kernel,
    Ex.follows_sound (by decide +kernel),
    fun pre suf s e h => of_decide_eq_true (Ex.stays_sound
      (p := fun s => decide (s.pos.quantity ≤ 0)) (by decide +kernel) pre suf s e h),
    by rfl⟩

end Lfest
