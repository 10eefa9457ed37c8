import Verif.SpecAlone
import Verif.Props.Life
import Verif.Examples

/-!
# C146: every order lives by itself
-/

namespace Lfest

open Spec Life Alone

theorem spares_filled {e : Env} {o : Limit} {q : Int} {op : Op} (h : spares o op) :
    spares (filledBy e o q) op := by
  cases op with
  | cancel b => cases b <;> exact h
  | _ => exact h

/-- What one call does to an order it does not name: what its market data make of it. -/
theorem alone_step {c : Cfg} {s s' : State} {op : Op} {r : Resp} (hr : Reachable c s)
    (hst : step c s op = .ok (s', r)) {o : Limit} (ho : o ∈ s.active) (hsp : spares o op) :
    (∃ loud u, shows (op, r) = [(loud, u)] ∧
      (∀ o', survivor c.env u o = some o' → o' ∈ s'.active) ∧
      (survivor c.env u o = none → ∀ x ∈ s'.active, x.id ≠ o.id) ∧
      events o.id (op, r) = if loud = true then
        ((fillRule u o).map (report c.env ((updateTime u).getD 0) o)).toList.filterMap (heard o.id)
        else []) ∨
    (shows (op, r) = [] ∧ events o.id (op, r) = [] ∧ o ∈ s'.active) := by
  have hi := hr.inv
  have hfresh := (hi.orders o ho).fresh
  rcases step_cases hst with ⟨u, u', x, rfl, hb, hu, rfl⟩ | ⟨u, u', rfl, hb, hu, rfl⟩ |
    ⟨err, rfl, rfl⟩ |
    ⟨side, q, uid, x, rfl, _, _, rfl⟩ | ⟨side, p, q, uid, x, rfl, _, _, _, rfl⟩ |
    ⟨id, side, p, q, uid, x, rfl, _, _, hamend, rfl⟩ | ⟨b, x, rfl, _, rfl⟩
  · obtain ⟨ht, _, _⟩ := C43_update c s s' u _ hr hst
    cases x with
    | ok ups =>
      obtain ⟨h1, h2, _, _, h5, _⟩ := update_spec hi hst
      refine .inl ⟨true, u, rfl, fun o' h => h1.mem_iff.2 (List.mem_filterMap.2 ⟨o, ho, h⟩),
        fun h => gone_filled hi ho h1 h, ?_⟩
      rw [if_pos rfl, ht, h2]
      exact heard_one ht _ hi.nodup ho
    | error err =>
      obtain ⟨_, _, h3, _⟩ := C30_liquidation_flattens c s s' u err hr hst
      exact .inr ⟨rfl, rfl, by rw [h3]; exact ho⟩
  · obtain ⟨h1, _, _, h5, _⟩ := checkActive_spec hb hi hu
    exact .inl ⟨false, u, rfl, fun o' h => h1.mem_iff.2 (List.mem_filterMap.2 ⟨o, ho, h⟩),
        fun h => gone_filled hi ho h1 h, rfl⟩
  · refine .inr ⟨?_, by cases op <;> rfl, ho⟩
    cases op with
    | checkActive u =>
      simp only [step, bind_ok] at hst
      obtain ⟨_, _, _, _, h⟩ := hst
      cases h
    | _ => rfl
  · cases x with
    | ok f =>
      obtain ⟨_, _, _, h3, _⟩ := C21_market_order c s s' hr side q uid f hst
      exact .inr ⟨rfl, rfl, by rw [h3]; exact ho⟩
    | error err =>
      obtain ⟨h1, _⟩ := C17_rejected_market c s s' side q uid err hst
      exact .inr ⟨rfl, rfl, by rw [h1]; exact ho⟩
  · cases x with
    | ok n =>
      obtain ⟨h0, h1, _⟩ := C18_accepted_limit c s s' hr side p q uid n hst
      have hne : n.id ≠ o.id := by rw [h0]; show s.nextId ≠ o.id; omega
      exact .inr ⟨rfl, if_neg hne, by rw [h1]; exact List.mem_append_left _ ho⟩
    | error err =>
      obtain ⟨h1, _⟩ := C17_rejected_limit c s s' hr side p q uid err hst
      exact .inr ⟨rfl, rfl, by rw [h1]; exact ho⟩
  · have hid : id ≠ o.id := hsp
    by_cases hex : ∃ old ∈ s.active, old.id = id
    · obtain ⟨old, hold, rfl⟩ := hex
      obtain ⟨_, h3, h4, _⟩ := C20_amend c s s' hr old hold side p q uid x hst
      have hkeep : o ∈ s.active.filter (fun x => decide (x.id ≠ old.id)) :=
        List.mem_filter.2 ⟨ho, by simpa using fun e => hid e.symm⟩
      cases x with
      | ok n =>
        obtain ⟨_, h5, _, h6⟩ := h3 n rfl
        have hne : n.id ≠ o.id := by rw [h5]; show s.nextId ≠ o.id; omega
        exact .inr ⟨rfl, by simp [events, hne, hid], h6.mem_iff.2 (List.mem_cons_of_mem _ hkeep)⟩
      | error err =>
        refine .inr ⟨rfl, ?_, (h4 err rfl).mem_iff.2 hkeep⟩
        cases err <;> first | rfl | exact if_neg hid
    · obtain ⟨rfl, h3, h4⟩ := C20_amend_unknown c s s' id
        (fun o ho e => hex ⟨o, ho, e⟩) side p q uid x hst
      refine .inr ⟨rfl, ?_, ho⟩
      by_cases hl : id < s'.nextId
      · rw [h3 hl]; rfl
      · rw [h4 (by omega)]; rfl
  · cases x with
    | ok y =>
      obtain ⟨⟨a, z, h1, hnm, _, h3⟩, _⟩ := C19_cancel_removes c s s' b y hst
      have hf := filter_out hi.nodup h1
      have hy : y ∈ s.active := by rw [h1]; simp
      have hid : y.id ≠ o.id := by
        intro e
        have h2 := find_by_id hi.nodup hy
        rw [e, find_by_id hi.nodup ho] at h2
        cases h2
        cases b with
        | orderId i => exact hsp hnm.symm
        | userOrderId i => exact hsp hnm.symm
      refine .inr ⟨rfl, if_neg hid, ?_⟩
      rw [h3.mem_iff, ← hf]
      exact List.mem_filter.2 ⟨ho, by simpa using fun e => hid e.symm⟩
    | error err =>
      have := ((C19_cancel_errors c s s' b _ hst).2 err rfl).1
      exact .inr ⟨rfl, rfl, by rw [this]; exact ho⟩

/-- C146: what is heard of an order the user leaves alone, and what is left of it, follows from the
order and the market data alone: position, balances and other orders, whether they are submitted,
cancelled, amended, filled or turned down, make no difference to it. -/
theorem C146_alone (c : Cfg) : ∀ (ops : List Op) (s s' : State) (tr : List (Op × Resp)) (o : Limit),
    Reachable c s → o ∈ s.active → (∀ op ∈ ops, spares o op) → history c s ops = .ok (s', tr) →
    (life o.id tr, now s' o.id) = alone c.env o (market tr)
  | [], s, s', tr, o, hr, ho, _, h => by
    simp only [history, ok_inj, Prod.mk.injEq] at h
    obtain ⟨rfl, rfl⟩ := h
    rw [now_mem hr.inv ho]; rfl
  | op :: ops, s, s', tr, o, hr, ho, ha, h => by
    simp only [history, bind_ok, ok_inj, Prod.mk.injEq] at h
    obtain ⟨⟨s1, r⟩, h1, ⟨s2, tr2⟩, h2, rfl, rfl⟩ := h
    have ha' : ∀ x ∈ ops, spares o x := fun x hx => ha x (List.mem_cons_of_mem _ hx)
    show (events o.id (op, r) ++ life o.id tr2, now s2 o.id) = alone c.env o (shows (op, r) ++ market tr2)
    rcases alone_step hr h1 ho (ha op List.mem_cons_self) with ⟨loud, u, e, hin, hout, hev⟩ | ⟨e, hev, h3⟩
    · rw [e, hev]
      simp only [List.cons_append, List.nil_append, alone]
      cases hf : fillRule u o with
      | none =>
        have hs : survivor c.env u o = some o := by simp only [survivor, hf]
        have := C146_alone c ops s1 s2 tr2 o (hr.step h1) (hin o hs) ha' h2
        simp [← this]
      | some q =>
        by_cases hq : q = o.remaining
        · have hs : survivor c.env u o = none := by simp only [survivor, hf, if_pos hq]
          have hn := (step_nextId hr.inv h1).1
          have hfr := (hr.inv.orders o ho).fresh
          obtain ⟨e2, hg⟩ := life_over ops s1 s2 tr2 o.id (hr.step h1) (hout hs) (by omega) h2
          rw [e2, now_gone hg]
          simp [hq, report, heard]
        · have hs : survivor c.env u o = some (filledBy c.env o q) := by
            simp only [survivor, hf, if_neg hq]
          have := C146_alone c ops s1 s2 tr2 _ (hr.step h1) (hin _ hs)
            (fun x hx => spares_filled (ha' x hx)) h2
          simp only [if_neg hq]
          rw [← this]
          simp [hq, report, heard, filledBy]
    · rw [e, hev]
      exact C146_alone c ops s1 s2 tr2 o (hr.step h1) h3 ha' h2

theorem alone_terms {e : Env} : ∀ (us : List (Bool × UpdateArg)) (o : Limit),
    (∀ v ∈ us, impersonal v.2) →
    alone e (terms o) us = ((alone e o us).1.map plain, (alone e o us).2.map terms)
  | [], _, _ => rfl
  | (loud, u) :: us, o, hu => by
    have hf : fillRule u (terms o) = fillRule u o := by
      have := hu _ List.mem_cons_self
      cases u <;> first | rfl | (simp [impersonal, isCustom, mayFill] at this; simp [fillRule, this])
    have ih := fun o => alone_terms (e := e) us o (fun v hv => hu v (List.mem_cons_of_mem _ hv))
    simp only [alone, hf]
    cases fillRule u o with
    | none => exact ih o
    | some q =>
      have hr : (terms o).remaining = o.remaining := rfl
      have hb : filledBy e (terms o) q = terms (filledBy e o q) := rfl
      simp only [hr, hb, ih]
      split
      · cases loud <;> rfl
      · cases loud <;> simp [plain]

theorem alone_scale {e e' : Env} (h : e.scale = e'.scale) : ∀ (us : List (Bool × UpdateArg)) (o : Limit),
    alone e o us = alone e' o us
  | [], _ => rfl
  | (loud, u) :: us, o => by
    have hb : ∀ q, filledBy e o q = filledBy e' o q := by
      intro q
      simp only [filledBy, avgAfter, weighted, h]
    simp only [alone, hb, alone_scale h us]

/-- C146: two orders with the same terms, in two accounts that may differ in everything but the number
of decimals (contract, leverage, fees, filters, position, balances, other orders and all other calls),
live the same life as long as they are left alone and see the same market: the same fills are
reported, and the same is left of them. -/
theorem C146_same_market (c c' : Cfg) (ops ops' : List Op) (s s' t t' : State)
    (tr tr' : List (Op × Resp)) (o o' : Limit) (hr : Reachable c s) (hr' : Reachable c' t)
    (ho : o ∈ s.active) (ho' : o' ∈ t.active) (ha : ∀ op ∈ ops, spares o op)
    (ha' : ∀ op ∈ ops', spares o' op) (h : history c s ops = .ok (s', tr))
    (h' : history c' t ops' = .ok (t', tr')) (hd : c.scale = c'.scale) (ht : terms o = terms o')
    (hm : market tr = market tr') (hu : ∀ v ∈ market tr, impersonal v.2) :
    (life o.id tr).map plain = (life o'.id tr').map plain ∧
    (now s' o.id).map terms = (now t' o'.id).map terms := by
  have h1 := C146_alone c ops s s' tr o hr ho ha h
  have h2 := C146_alone c' ops' t t' tr' o' hr' ho' ha' h'
  have h3 := alone_terms (e := c.env) (market tr) o hu
  have h4 := alone_terms (e := c'.env) (market tr') o' (hm ▸ hu)
  rw [← h1] at h3
  rw [← h2, ← ht, ← hm, ← alone_scale (e := c.env) hd, h3] at h4
  exact ⟨congrArg Prod.fst h4, congrArg Prod.snd h4⟩

/-! ### The account does not live by itself -/

namespace Ex

/-- Quotes 100 / 101, buy 1 at market; `extra`; rest a buy of 1 at 90 and a sell of 1 at 110; `later`;
and a candle that fills both. -/
def around (extra later : List Op) : List Op :=
  [.update (.bba ⟨d 100, d 101, 1⟩), .market .buy (d 1) 0] ++ extra ++
    [.limit .buy (d 90) (d 1) 1, .limit .sell (d 110) (d 1) 2] ++ later ++
    [.update (.candle ⟨d 100, d 101, d 80, d 120, 2⟩)]

/-- A buy of 1 at 60, far from the market, and its cancellation before anything is filled. -/
def far : Op := .limit .buy (d 60) (d 1) 9
def back : Op := .cancel (.userOrderId 9)

/-- Two histories side by side. -/
def beside (c : Cfg) (ops ops' : List Op)
    (p : State → List (Op × Resp) → State → List (Op × Resp) → Bool) : Bool :=
  match history c (State.init c) ops, history c (State.init c) ops' with
  | .ok (s, tr), .ok (s', tr') => p s tr s' tr'
  | _, _ => false

theorem beside_reach {c : Cfg} {ops ops' : List Op}
    {p : State → List (Op × Resp) → State → List (Op × Resp) → Bool}
    (h : beside c ops ops' p = true) : ∃ s tr s' tr',
      history c (State.init c) ops = .ok (s, tr) ∧
      history c (State.init c) ops' = .ok (s', tr') ∧ p s tr s' tr' = true := by
  unfold beside at h
  split at h
  · next s tr s' tr' h1 h2 => exact ⟨s, tr, s', tr', h1, h2, h⟩
  · simp at h

end Ex

/-- C146 does not extend to the account as a whole: an order that is never filled, and cancelled before
anything else happens, changes what the account earns. All other orders are reported filled just the
same, but cancelling an order puts the last active order in its place, so that the orders are filled
in another sequence, which changes the entry price and the profit realised. -/
theorem C146_bystanders_matter : ∃ (c : Cfg) (pre mid : List Op) (far back u : Op) (s s' : State)
    (tr tr' : List (Op × Resp)), soundConfig c ∧
    history c (State.init c) (pre ++ mid ++ [u]) = .ok (s, tr) ∧
    history c (State.init c) (pre ++ [far] ++ mid ++ [back] ++ [u]) = .ok (s', tr') ∧
    (∃ o, life 1 tr' = [.opened o, .cancelled o]) ∧
    (life 1 tr).map plain = (life 2 tr').map plain ∧
    (life 2 tr).map plain = (life 3 tr').map plain ∧
    s.pos.quantity = s'.pos.quantity ∧ s.pos.entryPrice ≠ s'.pos.entryPrice ∧
    s.acct.balance .treasury ≠ s'.acct.balance .treasury ∧
    s.acct.balance .wallet ≠ s'.acct.balance .wallet := by
  have h : Ex.beside Ex.lin (Ex.around [] []) (Ex.around [Ex.far] [Ex.back]) (fun s tr s' tr' =>
      (match life 1 tr' with
        | [.opened o, .cancelled o'] => decide (o = o')
        | _ => false) &&
      decide ((life 1 tr).map plain = (life 2 tr').map plain ∧
        (life 2 tr).map plain = (life 3 tr').map plain ∧
        s.pos.quantity = s'.pos.quantity ∧ s.pos.entryPrice ≠ s'.pos.entryPrice ∧
        s.acct.balance .treasury ≠ s'.acct.balance .treasury ∧
        s.acct.balance .wallet ≠ s'.acct.balance .wallet)) = true := by decide +kernel
  obtain ⟨s, tr, s', tr', h1, h2, h3⟩ := Ex.beside_reach h
  rw [Bool.and_eq_true] at h3
  obtain ⟨h3, h4⟩ := h3
  refine ⟨Ex.lin, [.update (.bba ⟨Ex.d 100, Ex.d 101, 1⟩), .market .buy (Ex.d 1) 0],
    [.limit .buy (Ex.d 90) (Ex.d 1) 1, .limit .sell (Ex.d 110) (Ex.d 1) 2], Ex.far, Ex.back,
    .update (.candle ⟨Ex.d 100, Ex.d 101, Ex.d 80, Ex.d 120, 2⟩), s, s', tr, tr',
    by unfold soundConfig; decide, h1, h2, ?_, of_decide_eq_true h4⟩
  split at h3
  · next o o' e =>
    rw [of_decide_eq_true h3] at e
    exact ⟨_, e⟩
  · cases h3

/-- The hypotheses of C146_same_market are met by two accounts: in one the sell is all there is, in the
other there are a position and another order, which is amended. -/
example :
    (let rest := Op.limit .sell (Ex.d 110) (Ex.d 3) 1
    let trade := Op.update (.trade ⟨2, Ex.d 111, Ex.d 2, .buy⟩)
    let quote := Op.update (.bba ⟨Ex.d 100, Ex.d 101, 1⟩)
    match history Ex.lin (State.init Ex.lin) [quote, rest],
      history Ex.linR (State.init Ex.linR) [quote, .market .buy (Ex.d 2) 0, .limit .buy (Ex.d 90) (Ex.d 1) 5, rest] with
    | .ok (s, _), .ok (t, _) =>
      match history Ex.lin s [trade], history Ex.linR t [.amend 1 .buy (Ex.d 91) (Ex.d 2) 5, trade] with
      | .ok (s', tr), .ok (t', tr') =>
        decide (market tr = market tr' ∧ (life 0 tr).map plain = (life 2 tr').map plain ∧
        (life 0 tr).length = 1 ∧ (now s' 0).map terms = (now t' 2).map terms ∧
        ((now s' 0).map Limit.remaining) = some (Ex.d 1) ∧ s'.active.length = 1 ∧ t'.active.length = 2)
      | _, _ => false
    | _, _ => false) = true := by decide +kernel

end Lfest
