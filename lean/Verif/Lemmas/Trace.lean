import Verif.Lemmas.Ledger

/-! Histories with responses. -/

namespace Lfest

open Spec

theorem history_run {c : Cfg} {ops : List Op} : ∀ {s s' : State} {tr},
    history c s ops = .ok (s', tr) → run c s ops = .ok s' := by
  induction ops with
  | nil =>
    intro s s' tr h
    simp only [history, ok_inj, Prod.mk.injEq] at h
    simp [run, h.1]
  | cons op ops ih =>
    intro s s' tr h
    simp only [history, bind_ok, ok_inj, Prod.mk.injEq] at h
    obtain ⟨r, h1, ⟨s2, tr2⟩, h2, rfl, rfl⟩ := h
    simp only [run, bind_ok]
    exact ⟨r, h1, ih h2⟩

theorem run_history {c : Cfg} {ops : List Op} : ∀ {s s' : State},
    run c s ops = .ok s' → ∃ tr, history c s ops = .ok (s', tr) := by
  induction ops with
  | nil =>
    intro s s' h
    simp only [run, ok_inj] at h
    exact ⟨[], by simp [history, h]⟩
  | cons op ops ih =>
    intro s s' h
    simp only [run, bind_ok] at h
    obtain ⟨r, h1, h2⟩ := h
    obtain ⟨tr, h3⟩ := ih h2
    refine ⟨(op, r.2) :: tr, ?_⟩
    simp only [history, bind_ok, ok_inj]
    exact ⟨r, h1, _, h3, rfl⟩

/-- Induction over histories with responses, newest call last. -/
theorem history_induct {c : Cfg} {P : State → List (Op × Resp) → Prop}
    (hs : ∀ s s' op r tr, P s tr → step c s op = .ok (s', r) → P s' (tr ++ [(op, r)])) :
    ∀ (ops : List Op) (s s' : State) (tr0 tr : List (Op × Resp)), P s tr0 →
      history c s ops = .ok (s', tr) → P s' (tr0 ++ tr) := by
  intro ops
  induction ops with
  | nil =>
    intro s s' tr0 tr hp h
    simp only [history, ok_inj, Prod.mk.injEq] at h
    obtain ⟨rfl, rfl⟩ := h
    simpa using hp
  | cons op ops ih =>
    intro s s' tr0 tr hp h
    simp only [history, bind_ok, ok_inj, Prod.mk.injEq] at h
    obtain ⟨⟨s1, r⟩, h1, ⟨s2, tr2⟩, h2, rfl, rfl⟩ := h
    have := ih s1 s2 (tr0 ++ [(op, r)]) tr2 (hs _ _ _ _ _ hp h1) h2
    simpa using this

/-- The outcomes of a market order submission. -/
theorem submitMarket_cases {c : Cfg} {s s' : State} {o : NewMarket} {r}
    (h : submitMarket c s o = .ok (s', r)) :
    let price := touchPrice s.ms o.side
    let s1 := { s with log := .marketSubmit o :: s.log }
    let s2 := { s1 with nextId := s.nextId + 1 }
    (∃ err, c.spec.quantityFilter.validate o.qty = .ok (.error err) ∧ s' = s1 ∧
        r = .error (.order err)) ∨
    (c.spec.quantityFilter.validate o.qty = .ok (.ok ()) ∧
     ((∃ err, checkMarketOrder c s.pos (s.acct.balance .positionMargin) o.side o.qty price
          (s.acct.balance .wallet) = .ok (.error err) ∧ s' = s2 ∧ r = .error (.risk err)) ∨
      (checkMarketOrder c s.pos (s.acct.balance .positionMargin) o.side o.qty price
          (s.acct.balance .wallet) = .ok (.ok ()) ∧ 0 < o.qty ∧ 0 < price ∧
        ∃ pos' a', changePosition c.env c.spec.initMarginReq s.acct s.pos o.qty price o.side
            (Fill.fee c ⟨false, o.side, price, o.qty⟩) = .ok (pos', a') ∧
          s' = { s2 with pos := pos', acct := a',
                         log := .trade o.side price o.qty :: .marketFill :: s1.log } ∧
          r = .ok (o.intoFilled s.nextId s.ms.ts price s.ms.ts)))) := by
  intro price s1 s2
  have hpr : touch s.ms o.side = price := by cases hs : o.side <;> simp [touch, price, touchPrice, hs]
  simp only [submitMarket, bind_ok] at h
  obtain ⟨r1, h1, h⟩ := h
  split at h
  · simp only [ok_inj, Prod.mk.injEq] at h; obtain ⟨rfl, rfl⟩ := h
    exact .inl ⟨_, h1, rfl, rfl⟩
  · refine .inr ⟨h1, ?_⟩
    simp only [bind_ok, hpr] at h
    obtain ⟨r2, h2, h⟩ := h
    split at h
    · simp only [ok_inj, Prod.mk.injEq] at h; obtain ⟨rfl, rfl⟩ := h
      exact .inl ⟨_, h2, rfl, rfl⟩
    · simp only [bind_ok, ok_inj, Prod.mk.injEq] at h
      obtain ⟨s3, hs, rfl, rfl⟩ := h
      simp only [settleMarket, bind_ok, ok_inj, NewMarket.intoFilled] at hs
      obtain ⟨_, hq, _, hp, v, hv, ⟨p', a'⟩, hr, rfl⟩ := hs
      have := convert_ok hv; subst this
      exact .inr ⟨h2, assertP_ok.1 hq, assertP_ok.1 hp, p', a', hr, rfl, rfl⟩

/-- `nextId` never decreases, and an id handed out lies between the old and the new value. -/
theorem step_nextId {c : Cfg} {s s' : State} {op : Op} {r} (hi : Inv c s)
    (hst : step c s op = .ok (s', r)) :
    s.nextId ≤ s'.nextId ∧ ∀ i, handedOut (op, r) = some i → s.nextId ≤ i ∧ i < s'.nextId := by
  rcases step_cases hst with ⟨a, u, x, rfl, hb, h, rfl⟩ | ⟨a, u, rfl, hb, h, rfl⟩ |
    ⟨err, rfl, rfl⟩ | ⟨side, qty, uid, x, rfl, _, h, rfl⟩ | ⟨_, _, _, _, x, rfl, _, _, h, rfl⟩ |
    ⟨_, _, _, _, _, x, rfl, _, _, h, rfl⟩ | ⟨_, x, rfl, h, rfl⟩
  · refine ⟨?_, by simp [handedOut, accepted]⟩
    simp only [updateState, bind_ok] at h
    obtain ⟨s1, h1, h⟩ := h
    have e := (observe_fields h1).2.2.2.2.1
    split at h
    · simp only [bind_ok, ok_inj, Prod.mk.injEq] at h
      obtain ⟨s2, h2, rfl, hh⟩ := h
      have := (liquidate_fields h2).2.1; omega
    · simp only [bind_ok, ok_inj, Prod.mk.injEq] at h
      obtain ⟨s2, h2, rfl, _⟩ := h
      cases hf : u.canFill with
      | false => rw [checkActive_bba h2 hf]; simp; omega
      | true =>
        obtain ⟨_, _, _, _, _, _, _, _, rfl⟩ := checkActive_ok h2 hf
        simp; omega
  · refine ⟨?_, by simp [handedOut, accepted]⟩
    cases hf : u.canFill with
    | false => rw [checkActive_bba h hf]; simp
    | true =>
      obtain ⟨_, _, _, _, _, _, _, _, rfl⟩ := checkActive_ok h hf
      simp
  · refine ⟨by simp, ?_⟩
    cases op <;> simp [handedOut, accepted]
  · rcases submitMarket_cases h with ⟨err, _, rfl, rfl⟩ | ⟨_, ⟨err, _, rfl, rfl⟩ |
      ⟨_, _, _, p', a', _, rfl, rfl⟩⟩
    · simp [handedOut, accepted]
    · simp [handedOut, accepted]
    · simp [handedOut, NewMarket.intoFilled]
  · obtain ⟨h1, _, _, _, _, _, h2⟩ := submitLimit_arenas (fun x hx => (hi.orders x hx).fresh) h
    refine ⟨h1, ?_⟩
    rcases h2 with ⟨err, rfl, _⟩ | ⟨rfl, h3, _⟩
    · simp [handedOut, accepted]
    · simp [handedOut, accepted, NewLimit.intoPending]; omega
  · rcases amendLimit_cases h with ⟨_, rfl, rfl⟩ | ⟨old, total, _, _, ⟨_, rfl, x, hc⟩ | ⟨hq, h⟩⟩
    · simp [handedOut, accepted]
    · rw [(cancelLimit_fields hc).2.1]; simp [handedOut, accepted]
    · rcases h with ⟨err, hc, rfl⟩ | ⟨s1, y, hc, hs⟩
      · rw [(cancelLimit_fields hc).2.1]; simp [handedOut, accepted]
      · have hi1 := cancelLimit_inv hi hc
        rw [← (cancelLimit_fields hc).2.1]
        obtain ⟨h1, _, _, _, _, _, h2⟩ := submitLimit_arenas (fun x hx => (hi1.orders x hx).fresh) hs
        refine ⟨h1, ?_⟩
        rcases h2 with ⟨err, rfl, _⟩ | ⟨rfl, h3, _⟩
        · simp [handedOut, accepted]
        · simp [handedOut, accepted, NewLimit.intoPending]; omega
  · refine ⟨by rw [(cancelLimit_fields h).2.1]; exact Nat.le_refl _, by simp [handedOut, accepted]⟩

theorem Spec.LaterState.refl (o : Limit) : LaterState o o := by simp [LaterState]

theorem Spec.LaterState.trans {a b d : Limit} (h : LaterState a b) (k : LaterState b d) :
    LaterState a d := by
  simp only [LaterState] at *; obtain ⟨h1, h2, h3, h4, h5, h6⟩ := h
  obtain ⟨k1, k2, k3, k4, k5, k6⟩ := k
  exact ⟨k1.trans h1, k2.trans h2, k3.trans h3, k4.trans h4, k5.trans h5, k6.trans h6⟩

theorem Outcome.later {c : Cfg} {u : Update} {n : Nat} {o : Limit} {x : Out} (hw : OrderWF n o)
    (h : Outcome c u o x) : LaterState o x.after := by
  obtain ⟨f1, f2, f3, f4, f5⟩ := h.fixed
  refine ⟨f1, f4, f2, f3, f5, ?_⟩
  rcases h with ⟨_, rfl⟩ | ⟨q, o', r, _, hf, rfl⟩
  · rfl
  · exact (fill_wf hw hf).2.2

theorem checkActive_later {c : Cfg} {s s' : State} {u : Update} (hi : Inv c s)
    (h : checkActive c s u = .ok s') {o : Limit} (ho : o ∈ s'.active) :
    ∃ p ∈ s.active, LaterState p o := by
  cases hf : u.canFill with
  | false => rw [checkActive_bba h hf] at ho; exact ⟨o, ho, .refl o⟩
  | true =>
    obtain ⟨xs, hxs, hp, _⟩ := checkActive_out hi h hf
    rw [hp.mem_iff] at ho
    simp only [List.mem_map, List.mem_filter] at ho
    obtain ⟨x, ⟨hx, _⟩, rfl⟩ := ho
    obtain ⟨o, ho, hh⟩ := hxs.mem hx
    exact ⟨o, ho, hh.later (hi.orders o ho)⟩

/-- Where the active orders come from. -/
theorem step_active {c : Cfg} {s s' : State} {op : Op} {r} (hi : Inv c s)
    (hst : step c s op = .ok (s', r)) {o : Limit} (ho : o ∈ s'.active) :
    (∃ p ∈ s.active, LaterState p o) ∨ (accepted (op, r) = some o) := by
  have hsub : ∀ {s s' : State} {n : NewLimit} {x}, Inv c s → submitLimit c s n = .ok (s', x) →
      o ∈ s'.active → o ∈ s.active ∨ x = .ok o := by
    intro s s' n x hi h ho
    obtain ⟨_, _, _, _, _, _, h2⟩ := submitLimit_arenas (fun x hx => (hi.orders x hx).fresh) h
    rcases h2 with ⟨err, rfl, h3, _⟩ | ⟨rfl, _, _, h3, _⟩
    · rw [h3] at ho; exact .inl ho
    · rw [h3] at ho; simp at ho
      rcases ho with ho | rfl
      · exact .inl ho
      · exact .inr rfl
  have hcan : ∀ {s s' : State} {b} {x}, cancelLimit c s b = .ok (s', x) →
      o ∈ s'.active → o ∈ s.active := by
    intro s s' b x h ho
    obtain ⟨_, ⟨_, rfl, _⟩ | ⟨removed, active', a, m', h1, _, _, _, _, _, rfl, _⟩⟩ := cancelLimit_ok h
    · exact ho
    · obtain ⟨xs, ys, he, hp⟩ := removeCancel_some h1
      simp only at ho
      rw [hp.mem_iff] at ho
      rw [he]; simp at ho ⊢; rcases ho with ho | ho <;> simp [ho]
  rcases step_cases hst with ⟨a, u, x, rfl, hb, h, rfl⟩ | ⟨a, u, rfl, hb, h, rfl⟩ |
    ⟨err, rfl, rfl⟩ | ⟨side, qty, uid, x, rfl, _, h, rfl⟩ | ⟨_, _, _, _, x, rfl, _, _, h, rfl⟩ |
    ⟨_, _, _, _, _, x, rfl, _, _, h, rfl⟩ | ⟨_, x, rfl, h, rfl⟩
  · left
    simp only [updateState, bind_ok] at h
    obtain ⟨s1, h1, h⟩ := h
    obtain ⟨_, _, e3, e4, e5, _⟩ := observe_fields h1
    have hi1 : Inv c s1 := hi.congr e3 e4 (by omega)
    split at h
    · simp only [bind_ok, ok_inj, Prod.mk.injEq] at h
      obtain ⟨s2, h2, rfl, hh⟩ := h
      rw [(liquidate_fields h2).2.2.1, e3] at ho
      exact ⟨o, ho, .refl o⟩
    · simp only [bind_ok, ok_inj, Prod.mk.injEq] at h
      obtain ⟨s2, h2, rfl, _⟩ := h
      rw [← e3]; exact checkActive_later hi1 h2 ho
  · exact .inl (checkActive_later hi h ho)
  · exact .inl ⟨o, ho, .refl o⟩
  · rw [(submitMarket_fields h).2.2.1] at ho
    exact .inl ⟨o, ho, .refl o⟩
  · rcases hsub hi h ho with ho | rfl
    · exact .inl ⟨o, ho, .refl o⟩
    · exact .inr rfl
  · rcases amendLimit_cases h with ⟨_, rfl, rfl⟩ | ⟨old, total, _, _, ⟨_, rfl, x, hc⟩ | ⟨hq, h⟩⟩
    · exact .inl ⟨o, ho, .refl o⟩
    · exact .inl ⟨o, hcan hc ho, .refl o⟩
    · rcases h with ⟨err, hc, rfl⟩ | ⟨s1, y, hc, hs⟩
      · exact .inl ⟨o, hcan hc ho, .refl o⟩
      · rcases hsub (cancelLimit_inv hi hc) hs ho with ho | rfl
        · exact .inl ⟨o, hcan hc ho, .refl o⟩
        · exact .inr rfl
  · exact .inl ⟨o, hcan h ho, .refl o⟩

end Lfest

namespace Lfest

open Spec

/-- Accepted orders are returned unfilled. -/
theorem accepted_unfilled {c : Cfg} {s s' : State} {op : Op} {r} {o : Limit} (hi : Inv c s)
    (hst : step c s op = .ok (s', r)) (ha : accepted (op, r) = some o) : o.fq = .unfilled := by
  have hsub : ∀ {s s' : State} {n : NewLimit}, Inv c s → submitLimit c s n = .ok (s', .ok o) →
      o.fq = .unfilled := by
    intro s s' n hi h
    obtain ⟨_, _, _, _, _, _, h2⟩ := submitLimit_arenas (fun x hx => (hi.orders x hx).fresh) h
    rcases h2 with ⟨err, hh, _⟩ | ⟨hh, _⟩
    · simp at hh
    · simp at hh; subst hh; rfl
  rcases step_cases hst with ⟨a, u, x, rfl, hb, h, rfl⟩ | ⟨a, u, rfl, hb, h, rfl⟩ |
    ⟨err, rfl, rfl⟩ | ⟨side, qty, uid, x, rfl, _, h, rfl⟩ | ⟨_, _, _, _, x, rfl, _, _, h, rfl⟩ |
    ⟨_, _, _, _, _, x, rfl, _, _, h, rfl⟩ | ⟨_, x, rfl, h, rfl⟩
  · simp [accepted] at ha
  · simp [accepted] at ha
  · cases op <;> simp [accepted] at ha
  · simp [accepted] at ha
  · cases x with
    | error err => simp [accepted] at ha
    | ok p => simp [accepted] at ha; subst ha; exact hsub hi h
  · cases x with
    | error err => simp [accepted] at ha
    | ok p =>
      simp [accepted] at ha; subst ha
      rcases amendLimit_cases h with ⟨_, _, hr⟩ | ⟨old, total, _, _, ⟨_, hr, x, hc⟩ | ⟨hq, h⟩⟩
      · simp at hr
      · simp at hr
      · rcases h with ⟨err, hc, hr⟩ | ⟨s1, y, hc, hs⟩
        · simp at hr
        · exact hsub (cancelLimit_inv hi hc) hs
  · simp [accepted] at ha

theorem appendLimit_no_gtc (c : Cfg) (s s' : State) (o : Limit) (a b : Int) :
    appendLimit c s o ≠ .ok (s', .error (.order (.goodTillCrossingRejected a b))) := by
  intro h
  simp only [appendLimit, bind_ok] at h
  obtain ⟨r1, hr1, h⟩ := h
  split at h
  · simp only [ok_inj, Prod.mk.injEq] at h
    obtain ⟨rfl, hh⟩ := h
    obtain ⟨rfl, _⟩ := omUpdate_err hr1
    simp at hh
  · split at h
    · next hi =>
      simp only [ok_inj, Prod.mk.injEq] at h
      obtain ⟨rfl, hh⟩ := h
      obtain ⟨rfl, _⟩ := insert_err hi
      simp at hh
    · simp only [bind_ok] at h
      obtain ⟨m, _, h⟩ := h
      split at h
      · simp only [bind_ok, ok_inj, Prod.mk.injEq] at h
        obtain ⟨a, ha, s3, hs, rfl, hh⟩ := h
        simp at hh
      · split at h
        · simp only [bind_ok, ok_inj, Prod.mk.injEq] at h
          obtain ⟨a, ha, s3, hs, rfl, hh⟩ := h
          simp at hh
        · simp only [ok_inj, Prod.mk.injEq] at h
          obtain ⟨rfl, hh⟩ := h
          simp at hh

end Lfest

namespace Lfest

theorem quantityFilter_no_gtc (f : QuantityFilter) (q a b : Int) :
    f.validate q ≠ .ok (.error (.goodTillCrossingRejected a b)) := by
  intro h
  unfold QuantityFilter.validate at h
  split at h
  · simp at h
  · split at h
    · simp at h
    · split at h
      · simp at h
      · simp only [bind_ok] at h
        obtain ⟨r, _, h⟩ := h
        split at h <;> simp at h

theorem priceFilter_no_gtc (s : Int) (f : PriceFilter) (p m a b : Int) :
    f.validate s p m ≠ .ok (.error (.goodTillCrossingRejected a b)) := by
  intro h
  unfold PriceFilter.validate at h
  split at h
  · simp at h
  · split at h
    · simp at h
    · split at h
      · simp at h
      · simp only [bind_ok] at h
        obtain ⟨r, _, h⟩ := h
        split at h
        · simp at h
        · split at h
          · simp at h
          · split at h <;> simp at h

/-- What a cancellation by id leaves, when ids are distinct. -/
theorem cancel_id_filter {c : Cfg} {s s' : State} {id : Nat} {o : Limit} (hn : IdsNodup s.active)
    (h : cancelLimit c s (.orderId id) = .ok (s', .ok o)) :
    s'.active.Perm (s.active.filter (fun x => decide (x.id ≠ id))) := by
  obtain ⟨_, ⟨_, _, hh⟩ | ⟨removed, active', a, m', h1, _, h2, h3, h4, _, rfl, hh⟩⟩ := cancelLimit_ok h
  · simp at hh
  obtain ⟨xs, ys, f1, f2, f3, _, f5⟩ := removeBy_some (h1 : Book.removeBy _ s.active = _)
  have hid : removed.id = id := by simpa using f2
  rw [f1] at hn ⊢
  have hs := hn.split.1
  refine f5.trans ?_
  have e1 : xs.filter (fun x => decide (x.id ≠ id)) = xs :=
    List.filter_eq_self.2 (fun x hx => by simpa using f3 x hx)
  have e2 : ys.filter (fun x => decide (x.id ≠ id)) = ys :=
    List.filter_eq_self.2 (fun x hx => by
      have := hs x (by simp [hx])
      simpa [hid] using this)
  simp only [List.filter_append, List.filter_cons, e1, e2, hid]
  simp

end Lfest
