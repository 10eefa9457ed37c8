import Verif.Lemmas.Match

/-! The invariant of the order book over all histories. -/

namespace Lfest

/-- A well-formed order. -/
structure OrderWF (n : Nat) (o : Limit) : Prop where
  fresh : o.id < n
  price : 0 < o.price
  rem : 0 < o.remaining
  cum : 0 ≤ o.filledQuantity
  fq : ∀ x a, o.fq = .filled x a → 0 < x

/-- Well-formed arenas. -/
structure Inv (c : Cfg) (s : State) : Prop where
  nodup : IdsNodup s.active
  orders : ∀ o ∈ s.active, OrderWF s.nextId o
  cap : s.active.length ≤ 10000
  len : s.active.length ≤ c.maxOpen
  sync : c.maxOpen ≤ 10000 → s.om = s.active

theorem OrderWF.mono {n m : Nat} {o : Limit} (h : OrderWF n o) (hm : n ≤ m) : OrderWF m o :=
  ⟨by have := h.fresh; omega, h.price, h.rem, h.cum, h.fq⟩

theorem Inv.init (c : Cfg) : Inv c (State.init c) :=
  ⟨by simp [IdsNodup, State.init], by simp [State.init], by simp [State.init],
    by simp [State.init], by simp [State.init]⟩

/-- The invariant only concerns the arenas and the id counter. -/
theorem Inv.congr {c : Cfg} {s s' : State} (h : Inv c s) (h1 : s'.active = s.active)
    (h2 : s'.om = s.om) (h3 : s.nextId ≤ s'.nextId) : Inv c s' :=
  ⟨by rw [h1]; exact h.nodup, by rw [h1]; exact fun o ho => (h.orders o ho).mono h3,
    by rw [h1]; exact h.cap, by rw [h1]; exact h.len, by rw [h1, h2]; exact h.sync⟩

theorem insert_ok {cap : Nat} {b b' : Book} {o : Limit} {r}
    (hf : ∀ x ∈ b, x.id ≠ o.id) (h : Book.insert cap b o = .ok (b', r)) :
    b.length < cap ∧ b' = b ++ [o] := by
  unfold Book.insert at h
  rw [getById_none.2 hf] at h
  simp only at h
  split at h
  · simp at h
  · simp at h; exact ⟨by omega, h.1.symm⟩

theorem insert_err {cap : Nat} {b : Book} {o : Limit} {err}
    (h : Book.insert cap b o = .error err) :
    err = .maxNumberOfActiveOrders ∧ cap ≤ b.length ∧ ∀ x ∈ b, x.id ≠ o.id := by
  unfold Book.insert at h
  split at h
  · simp at h
  · next hg =>
    split at h
    · simp at h; exact ⟨h.symm, by omega, getById_none.1 hg⟩
    · simp at h

theorem omUpdate_err {cap : Nat} {b : Book} {o : Limit} {err}
    (h : omUpdate cap b o = .ok (.error err)) :
    err = .maxNumberOfActiveOrders ∧ cap ≤ b.length ∧ ∀ x ∈ b, x.id ≠ o.id := by
  simp only [omUpdate, bind_ok, assertP_ok] at h
  obtain ⟨_, _, h⟩ := h
  split at h
  · next hh => simp only [ok_inj, Except.error.injEq] at h; subst h; exact insert_err hh
  · simp at h
  · simp only [bind_ok, assertP_ok] at h
    obtain ⟨_, _, _, _, h⟩ := h
    simp at h

/-- What `append_limit_order` does to the arenas. -/
theorem appendLimit_arenas {c : Cfg} {s s' : State} {o : Limit} {r}
    (hf : ∀ x ∈ s.active, x.id ≠ o.id) (h : appendLimit c s o = .ok (s', r)) :
    (∃ a, s' = { s with active := s'.active, om := s'.om, acct := a }) ∧
    ((r = .error .maxNumberOfActiveOrders ∧ s' = s ∧ c.maxOpen ≤ s.om.length ∧
        ∀ x ∈ s.om, x.id ≠ o.id) ∨
     (∃ om', omUpdate c.maxOpen s.om o = .ok (.ok om') ∧ s'.om = om' ∧
      ((r = .error .maxNumberOfActiveOrders ∧ s' = { s with om := om' } ∧
          activeCap ≤ s.active.length) ∨
       (r = .ok () ∧ s.active.length < activeCap ∧ s'.active = s.active ++ [o])))) := by
  simp only [appendLimit, bind_ok] at h
  obtain ⟨r1, hr1, h⟩ := h
  split at h
  · simp only [ok_inj, Prod.mk.injEq] at h
    obtain ⟨rfl, rfl⟩ := h
    obtain ⟨rfl, h2, h3⟩ := omUpdate_err hr1
    exact ⟨⟨_, rfl⟩, .inl ⟨rfl, rfl, h2, h3⟩⟩
  · next om' =>
    split at h
    · next hi =>
      simp only [ok_inj, Prod.mk.injEq] at h
      obtain ⟨rfl, rfl⟩ := h
      obtain ⟨rfl, h2, h3⟩ := insert_err hi
      exact ⟨⟨_, rfl⟩, .inr ⟨om', hr1, rfl, .inl ⟨rfl, rfl, h2⟩⟩⟩
    · next active' _ hi =>
      obtain ⟨h2, h3⟩ := insert_ok hf hi
      simp only [bind_ok] at h
      obtain ⟨m, _, h⟩ := h
      split at h
      · simp only [bind_ok, ok_inj, Prod.mk.injEq] at h
        obtain ⟨a, ha, s3, hs, rfl, rfl⟩ := h
        obtain ⟨rfl, _⟩ := appendChecks_ok hs
        exact ⟨⟨_, rfl⟩, .inr ⟨om', hr1, rfl, .inr ⟨rfl, h2, h3⟩⟩⟩
      · split at h
        · simp only [bind_ok, ok_inj, Prod.mk.injEq] at h
          obtain ⟨a, ha, s3, hs, rfl, rfl⟩ := h
          obtain ⟨rfl, _⟩ := appendChecks_ok hs
          exact ⟨⟨_, rfl⟩, .inr ⟨om', hr1, rfl, .inr ⟨rfl, h2, h3⟩⟩⟩
        · simp only [ok_inj, Prod.mk.injEq] at h
          obtain ⟨rfl, rfl⟩ := h
          exact ⟨⟨_, rfl⟩, .inr ⟨om', hr1, rfl, .inr ⟨rfl, h2, h3⟩⟩⟩

/-- The outcomes of a limit order submission. -/
theorem submitLimit_cases {c : Cfg} {s s' : State} {o : NewLimit} {r}
    (h : submitLimit c s o = .ok (s', r)) :
    let p := o.intoPending s.nextId s.ms.ts
    let s1 := { s with log := .limitSubmit o :: s.log }
    let s2 := { s1 with nextId := s.nextId + 1 }
    (∃ err, c.spec.quantityFilter.validate o.qty = .ok (.error err) ∧ s' = s1 ∧
        r = .error (.order err)) ∨
    (c.spec.quantityFilter.validate o.qty = .ok (.ok ()) ∧
     ((∃ err, c.spec.priceFilter.validate c.scale o.price (s.ms.mid c.scale) = .ok (.error err) ∧
        s' = s1 ∧ r = .error (.order err)) ∨
      (c.spec.priceFilter.validate c.scale o.price (s.ms.mid c.scale) = .ok (.ok ()) ∧
       ((∃ err, checkLimitOrder c s.pos p (s.acct.balance .wallet) s.om = .ok (.error err) ∧
          s' = s2 ∧ r = .error (.risk err)) ∨
        (checkLimitOrder c s.pos p (s.acct.balance .wallet) s.om = .ok (.ok ()) ∧
         ((marketable s.ms o.side o.price = true ∧ s' = s2 ∧
            r = .error (.order (.goodTillCrossingRejected o.price (touch s.ms o.side)))) ∨
          (marketable s.ms o.side o.price = false ∧
           ∃ ra, appendLimit c s2 p = .ok (s', ra) ∧
            ((∃ err, ra = .error err ∧ r = .error err) ∨ (ra = .ok () ∧ r = .ok p))))))))) := by
  intro p s1 s2
  simp only [submitLimit, bind_ok] at h
  obtain ⟨r1, h1, h⟩ := h
  split at h
  · simp only [ok_inj, Prod.mk.injEq] at h; obtain ⟨rfl, rfl⟩ := h
    exact .inl ⟨_, h1, rfl, rfl⟩
  · refine .inr ⟨h1, ?_⟩
    simp only [bind_ok] at h
    obtain ⟨r2, h2, h⟩ := h
    split at h
    · simp only [ok_inj, Prod.mk.injEq] at h; obtain ⟨rfl, rfl⟩ := h
      exact .inl ⟨_, h2, rfl, rfl⟩
    · refine .inr ⟨h2, ?_⟩
      simp only [bind_ok] at h
      obtain ⟨r3, h3, h⟩ := h
      split at h
      · simp only [ok_inj, Prod.mk.injEq] at h; obtain ⟨rfl, rfl⟩ := h
        exact .inl ⟨_, h3, rfl, rfl⟩
      · refine .inr ⟨h3, ?_⟩
        split at h
        · next hm =>
          simp only [ok_inj, Prod.mk.injEq] at h; obtain ⟨rfl, rfl⟩ := h
          exact .inl ⟨hm, rfl, rfl⟩
        · next hm =>
          refine .inr ⟨by simpa [NewLimit.intoPending] using hm, ?_⟩
          simp only [bind_ok] at h
          obtain ⟨r4, hr4, h⟩ := h
          split at h
          · simp only [ok_inj, Prod.mk.injEq] at h; obtain ⟨rfl, rfl⟩ := h
            exact ⟨_, hr4, .inl ⟨_, rfl, rfl⟩⟩
          · simp only [ok_inj, Prod.mk.injEq] at h; obtain ⟨rfl, rfl⟩ := h
            exact ⟨_, hr4, .inr ⟨rfl, rfl⟩⟩

/-- Effect of `submit_limit_order` on the arenas and the id counter. -/
theorem submitLimit_arenas {c : Cfg} {s s' : State} {o : NewLimit} {r}
    (hf : ∀ x ∈ s.active, x.id < s.nextId)
    (h : submitLimit c s o = .ok (s', r)) :
    s.nextId ≤ s'.nextId ∧ s'.ms = s.ms ∧ s'.updates = s.updates ∧
      s'.trigger = s.trigger ∧ s'.pos = s.pos ∧ s'.log = .limitSubmit o :: s.log ∧
    ((∃ err, r = .error err ∧ s'.active = s.active ∧ s'.acct = s.acct ∧
        (s'.om = s.om ∨ (activeCap ≤ s.active.length ∧ err = .maxNumberOfActiveOrders ∧
          omUpdate c.maxOpen s.om (o.intoPending s.nextId s.ms.ts) = .ok (.ok s'.om)))) ∨
     (r = .ok (o.intoPending s.nextId s.ms.ts) ∧ s'.nextId = s.nextId + 1 ∧
        s.active.length < activeCap ∧
        s'.active = s.active ++ [o.intoPending s.nextId s.ms.ts] ∧
        omUpdate c.maxOpen s.om (o.intoPending s.nextId s.ms.ts) = .ok (.ok s'.om))) := by
  rcases submitLimit_cases h with ⟨err, _, rfl, rfl⟩ | ⟨_, h⟩
  · simp
  rcases h with ⟨err, _, rfl, rfl⟩ | ⟨_, h⟩
  · simp
  rcases h with ⟨err, _, rfl, rfl⟩ | ⟨_, h⟩
  · simp
  rcases h with ⟨_, rfl, rfl⟩ | ⟨_, ra, ha, hr⟩
  · simp
  obtain ⟨⟨a, he⟩, h⟩ := appendLimit_arenas (fun x hx => by
    have := hf x hx; simp [NewLimit.intoPending]; omega) ha
  have e1 : s'.nextId = s.nextId + 1 := by rw [he]
  have e2 : s'.ms = s.ms := by rw [he]
  have e3 : s'.updates = s.updates := by rw [he]
  have e4 : s'.trigger = s.trigger := by rw [he]
  have e5 : s'.pos = s.pos := by rw [he]
  have e6 : s'.log = .limitSubmit o :: s.log := by rw [he]
  refine ⟨by omega, e2, e3, e4, e5, e6, ?_⟩
  rcases h with ⟨rfl, rfl, h1, h2⟩ | ⟨om', h1, rfl, ⟨rfl, hs, h2⟩ | ⟨rfl, h2, h3⟩⟩
  · left
    rcases hr with ⟨err, hr1, hr2⟩ | ⟨hr1, hr2⟩
    · exact ⟨err, hr2, rfl, rfl, .inl rfl⟩
    · simp at hr1
  · left
    rcases hr with ⟨err, hr1, hr2⟩ | ⟨hr1, hr2⟩
    · simp at hr1; subst hr1
      have e7 : s'.active = s.active := by rw [hs]
      have e8 : s'.acct = s.acct := by rw [hs]
      exact ⟨_, hr2, e7, e8, .inr ⟨h2, rfl, h1⟩⟩
    · simp at hr1
  · right
    rcases hr with ⟨err, hr1, hr2⟩ | ⟨hr1, hr2⟩
    · simp at hr1
    · exact ⟨hr2, e1, h2, h3, h1⟩

theorem submitLimit_inv {c : Cfg} {s s' : State} {o : NewLimit} {r}
    (hp : 0 < o.price) (hq : 0 < o.qty) (hi : Inv c s)
    (h : submitLimit c s o = .ok (s', r)) : Inv c s' := by
  obtain ⟨hn, _, _, _, _, _, h⟩ := submitLimit_arenas (fun x hx => (hi.orders x hx).fresh) h
  rcases h with ⟨err, _, ha, _, ho⟩ | ⟨_, hn', hl, ha, ho⟩
  · refine ⟨ha ▸ hi.nodup, ha ▸ fun x hx => (hi.orders x hx).mono hn, ha ▸ hi.cap, ha ▸ hi.len,
      fun hc => ?_⟩
    rcases ho with ho | ⟨hcap, _, ho⟩
    · rw [ho, ha]; exact hi.sync hc
    · have hs := hi.sync hc
      obtain ⟨_, h2⟩ := omUpdate_ok ho
      have := hi.cap
      rcases h2 with ⟨_, h3, _⟩ | ⟨old, h3, _⟩
      · rw [hs] at h3; unfold activeCap at hcap; omega
      · obtain ⟨h4, h5⟩ := getById_some h3
        rw [hs] at h4
        have := (hi.orders _ h4).fresh
        simp [NewLimit.intoPending] at h5; omega
  · have hfr : ∀ x ∈ s.active, x.id ≠ (o.intoPending s.nextId s.ms.ts).id := fun x hx => by
      have := (hi.orders x hx).fresh; simp [NewLimit.intoPending]; omega
    have hsync : c.maxOpen ≤ 10000 → s'.om = s'.active ∧ s.active.length < c.maxOpen := fun hc => by
      have hs := hi.sync hc
      obtain ⟨_, h2⟩ := omUpdate_ok ho
      rcases h2 with ⟨_, h3, h4⟩ | ⟨old, h3, _⟩
      · rw [h4, ha, hs]; exact ⟨rfl, hs ▸ h3⟩
      · obtain ⟨h4, h5⟩ := getById_some h3
        rw [hs] at h4
        exact absurd h5 (hfr _ h4)
    refine ⟨?_, ?_, ?_, ?_, fun hc => (hsync hc).1⟩
    · rw [ha]
      unfold IdsNodup
      rw [List.map_append, List.nodup_append]
      refine ⟨hi.nodup, by simp, ?_⟩
      intro i hi1 j hj
      simp only [List.mem_map] at hi1
      obtain ⟨x, hx, rfl⟩ := hi1
      simp only [List.map_cons, List.map_nil, List.mem_singleton] at hj
      subst hj; exact hfr x hx
    · rw [ha]
      intro x hx
      simp only [List.mem_append, List.mem_singleton] at hx
      rcases hx with hx | rfl
      · exact (hi.orders x hx).mono hn
      · refine ⟨by simp [NewLimit.intoPending]; omega, by simpa [NewLimit.intoPending] using hp,
          by simpa [NewLimit.intoPending] using hq, by simp [NewLimit.intoPending, Limit.filledQuantity],
          by simp [NewLimit.intoPending]⟩
    · rw [ha]; unfold activeCap at hl; simp; omega
    · rw [ha]
      by_cases hc : c.maxOpen ≤ 10000
      · have := (hsync hc).2; simp; omega
      · unfold activeCap at hl; simp; omega

/-! ### Market orders -/

theorem submitMarket_fields {c : Cfg} {s s' : State} {o : NewMarket} {r}
    (h : submitMarket c s o = .ok (s', r)) :
    s'.ms = s.ms ∧ s.nextId ≤ s'.nextId ∧ s'.active = s.active ∧ s'.om = s.om ∧
      s'.trigger = s.trigger ∧ s'.updates = s.updates := by
  simp only [submitMarket, bind_ok] at h
  obtain ⟨r1, _, h⟩ := h
  split at h
  · simp only [ok_inj, Prod.mk.injEq] at h; obtain ⟨rfl, _⟩ := h
    simp
  · simp only [bind_ok] at h
    obtain ⟨r2, _, h⟩ := h
    split at h
    · simp only [ok_inj, Prod.mk.injEq] at h; obtain ⟨rfl, _⟩ := h
      simp
    · simp only [bind_ok, ok_inj, Prod.mk.injEq] at h
      obtain ⟨s3, hs, rfl, _⟩ := h
      obtain ⟨h1, h2, h3, h4, h5, h6⟩ := settleMarket_fields hs
      simp [h1, h2, h3, h4, h5, h6]

theorem liquidate_fields {c : Cfg} {s s' : State} (h : liquidate c s = .ok s') :
    s'.ms = s.ms ∧ s.nextId ≤ s'.nextId ∧ s'.active = s.active ∧ s'.om = s.om ∧
      s'.trigger = s.trigger ∧ s'.updates = s.updates := by
  simp only [liquidate, bind_ok] at h
  obtain ⟨o, _, r, hr, h⟩ := h
  split at h
  · simp at h
  · simp only [ok_inj] at h; subst h; exact submitMarket_fields hr

/-! ### Cancellation -/

theorem cancelLimit_ok {c : Cfg} {s s' : State} {b : CancelBy} {r}
    (h : cancelLimit c s b = .ok (s', r)) :
    (∃ m, orderMargin c.env c.spec.initMarginReq s.om s.pos = .ok m ∧
      m = s.acct.balance .orderMargin) ∧
    ((s.active.removeCancel b = none ∧ s' = s ∧ r = .error (cancelError s b)) ∨
     (∃ removed active' a m', s.active.removeCancel b = some (removed, active') ∧
        omRemove s.om b = .ok active' ∧
        orderMargin c.env c.spec.initMarginReq active' s.pos = .ok m' ∧
        m' ≤ s.acct.balance .orderMargin ∧
        refund c.env s.acct (s.acct.balance .orderMargin) m' = .ok a ∧
        (active' = [] → a.balance .orderMargin = 0) ∧
        s' = { s with active := active', om := active', acct := a,
                      log := .limitCancel :: s.log } ∧ r = .ok removed)) := by
  simp only [cancelLimit, bind_ok, assertP_ok] at h
  obtain ⟨m, hm, _, hmm, h⟩ := h
  refine ⟨⟨m, hm, hmm.symm⟩, ?_⟩
  split at h
  · next hn =>
    simp only [ok_inj, Prod.mk.injEq] at h; obtain ⟨rfl, rfl⟩ := h
    exact .inl ⟨hn, rfl, rfl⟩
  · next removed active' hs =>
    simp only [bind_ok, assertP_ok, ok_inj, Prod.mk.injEq] at h
    obtain ⟨om', hom, m', hm', _, hle, a, ha, _, rfl, _, he, rfl, rfl⟩ := h
    exact .inr ⟨removed, om', a, m', hs, hom, hm', hle, ha, he, rfl, rfl⟩

theorem removeCancel_some {b b' : Book} {x : CancelBy} {o : Limit}
    (h : b.removeCancel x = some (o, b')) : ∃ xs ys, b = xs ++ o :: ys ∧ b'.Perm (xs ++ ys) := by
  cases x with
  | orderId id =>
    obtain ⟨xs, ys, h1, _, _, _, h5⟩ := removeBy_some (h : Book.removeBy _ b = _)
    exact ⟨xs, ys, h1, h5⟩
  | userOrderId uid =>
    obtain ⟨xs, ys, h1, _, _, _, h5⟩ := removeBy_some (h : Book.removeBy _ b = _)
    exact ⟨xs, ys, h1, h5⟩

theorem cancelLimit_inv {c : Cfg} {s s' : State} {b : CancelBy} {r} (hi : Inv c s)
    (h : cancelLimit c s b = .ok (s', r)) : Inv c s' := by
  obtain ⟨_, ⟨_, rfl, _⟩ | ⟨removed, active', a, m', h1, _, _, _, _, _, rfl, _⟩⟩ := cancelLimit_ok h
  · exact hi
  · obtain ⟨xs, ys, he, hp⟩ := removeCancel_some h1
    have hn := hi.nodup
    rw [he] at hn
    have hl : active'.length + 1 = s.active.length := by
      rw [hp.length_eq, he]; simp; omega
    refine ⟨hn.split.2.perm hp.symm, fun o ho => ?_, ?_, ?_, fun _ => rfl⟩
    · refine hi.orders o ?_
      rw [hp.mem_iff] at ho
      rw [he]; simp at ho ⊢; rcases ho with ho | ho <;> simp [ho]
    · have := hi.cap; simp; omega
    · have := hi.len; simp; omega

theorem cancelLimit_fields {c : Cfg} {s s' : State} {b : CancelBy} {r}
    (h : cancelLimit c s b = .ok (s', r)) :
    s'.ms = s.ms ∧ s'.nextId = s.nextId ∧ s'.pos = s.pos ∧ s'.trigger = s.trigger ∧
      s'.updates = s.updates := by
  obtain ⟨_, ⟨_, rfl, _⟩ | ⟨removed, active', a, m', h1, _, _, _, _, _, rfl, _⟩⟩ := cancelLimit_ok h
  · simp
  · simp

/-! ### Amendment -/

theorem amendLimit_cases {c : Cfg} {s s' : State} {id : Nat} {o : NewLimit} {r}
    (h : amendLimit c s id o = .ok (s', r)) :
    (s.active.getById id = none ∧ s' = s ∧ r = .error (missingOrder s id)) ∨
    ∃ old total, s.active.getById id = some old ∧ old.totalQuantity = .ok total ∧
      ((old.remaining + (o.qty - total) ≤ 0 ∧ r = .error .amendQtyAlreadyFilled ∧
          ∃ x, cancelLimit c s (.orderId id) = .ok (s', .ok x)) ∨
       (0 < old.remaining + (o.qty - total) ∧
          ((∃ err, cancelLimit c s (.orderId id) = .ok (s', .error err) ∧ r = .error err) ∨
           (∃ s1 x, cancelLimit c s (.orderId id) = .ok (s1, .ok x) ∧
              submitLimit c s1 { o with qty := old.remaining + (o.qty - total) } =
                .ok (s', r))))) := by
  simp only [amendLimit] at h
  split at h
  · next hg =>
    simp only [ok_inj, Prod.mk.injEq] at h; obtain ⟨rfl, rfl⟩ := h
    exact .inl ⟨hg, rfl, rfl⟩
  · next old hg =>
    simp only [bind_ok] at h
    obtain ⟨t, ht, h⟩ := h
    refine .inr ⟨old, t, hg, ht, ?_⟩
    unfold NewLimit.totalQuantity at h
    by_cases hle : old.remaining + (o.qty - t) ≤ 0
    · rw [if_pos hle] at h
      simp only [bind_ok] at h
      obtain ⟨r1, hr1, h⟩ := h
      split at h
      · simp at h
      · simp only [ok_inj, Prod.mk.injEq] at h; obtain ⟨rfl, rfl⟩ := h
        exact .inl ⟨hle, rfl, _, hr1⟩
    · rw [if_neg hle] at h
      simp only [bind_ok, NewLimit.setRemaining, assertP_ok] at h
      obtain ⟨n, ⟨_, hpos, hn⟩, r1, hr1, h⟩ := h
      simp only [ok_inj] at hn; subst hn
      refine .inr ⟨by omega, ?_⟩
      split at h
      · simp only [ok_inj, Prod.mk.injEq] at h; obtain ⟨rfl, rfl⟩ := h
        exact .inl ⟨_, hr1, rfl⟩
      · exact .inr ⟨_, _, hr1, h⟩

theorem amendLimit_inv {c : Cfg} {s s' : State} {id : Nat} {o : NewLimit} {r}
    (hp : 0 < o.price) (hi : Inv c s)
    (h : amendLimit c s id o = .ok (s', r)) : Inv c s' := by
  rcases amendLimit_cases h with ⟨_, rfl, _⟩ | ⟨old, total, _, _, ⟨_, _, x, hc⟩ | ⟨hq, h⟩⟩
  · exact hi
  · exact cancelLimit_inv hi hc
  · rcases h with ⟨err, hc, _⟩ | ⟨s1, x, hc, hs⟩
    · exact cancelLimit_inv hi hc
    · exact submitLimit_inv (o := { o with qty := old.remaining + (o.qty - total) }) hp hq (cancelLimit_inv hi hc) hs

/-! ### Matching -/

theorem fill_wf {n : Nat} {s : Int} {o o' : Limit} {q ts : Int} {r}
    (hw : OrderWF n o) (h : o.fill s q ts = .ok (o', r)) :
    (r = none → OrderWF n o') ∧ (r.isSome = true ↔ o'.remaining = 0) ∧
      o'.filledQuantity + o'.remaining = o.filledQuantity + o.remaining := by
  have hfx := fill_fixed h
  have hw2 := hw.fq
  have hw1 := hw.cum
  have hw3 := hw.fresh
  have hw4 := hw.price
  simp only [Limit.fill, bind_ok, assertP_ok] at h
  obtain ⟨_, h1, _, h2, h⟩ := h
  cases hfq : o.fq with
  | unfilled =>
    simp only [hfq] at h
    split at h
    · simp only [ok_inj, Prod.mk.injEq] at h; obtain ⟨rfl, rfl⟩ := h
      refine ⟨by simp, by simp; omega, ?_⟩
      simp [Limit.filledQuantity, hfq]; omega
    · simp only [ok_inj, Prod.mk.injEq] at h; obtain ⟨rfl, rfl⟩ := h
      refine ⟨fun _ => ⟨hw3, hw4, by simp; omega, by simp [Limit.filledQuantity]; omega,
        by simp; omega⟩, by simp; omega, ?_⟩
      simp [Limit.filledQuantity, hfq]; omega
  | filled x a =>
    have := hw2 x a hfq
    simp only [hfq, bind_ok] at h
    obtain ⟨w, _, h⟩ := h
    split at h
    · next hz =>
      simp only [ok_inj, Prod.mk.injEq] at h; obtain ⟨rfl, rfl⟩ := h
      refine ⟨by simp, by simpa using hz, ?_⟩
      simp [Limit.filledQuantity, hfq]; omega
    · next hz =>
      simp only [ok_inj, Prod.mk.injEq] at h; obtain ⟨rfl, rfl⟩ := h
      refine ⟨fun _ => ⟨hw3, hw4, by simp; omega, by simp [Limit.filledQuantity]; omega,
        by simp; omega⟩, by simpa using hz, ?_⟩
      simp [Limit.filledQuantity, hfq]; omega

theorem Outcome.wf {c : Cfg} {u : Update} {n : Nat} {o : Limit} {x : Out} (hw : OrderWF n o)
    (h : Outcome c u o x) :
    (x.full = false → OrderWF n x.after) ∧ (x.full = true ↔ x.after.remaining = 0) := by
  rcases h with ⟨_, rfl⟩ | ⟨q, o', r, _, hf, rfl⟩
  · have := hw.rem
    exact ⟨fun _ => hw, by simp [Out.full]; omega⟩
  · obtain ⟨h1, h2, _⟩ := fill_wf hw hf
    cases r with
    | none => simp at h1 h2; simp [Out.full, reportOf, LimitUpdate.isFull, h1, h2]
    | some f => simp at h2; simp [Out.full, reportOf, LimitUpdate.isFull, h2]

theorem Outcomes.ids {c : Cfg} {u : Update} {os : List Limit} {xs : List Out}
    (h : Outcomes c u os xs) : (xs.map Out.after).map Limit.id = os.map Limit.id := by
  induction h with
  | nil => rfl
  | cons h _ ih => simp only [List.map_cons, ih, h.fixed.1]

theorem Outcomes.mem {c : Cfg} {u : Update} {os : List Limit} {xs : List Out}
    (h : Outcomes c u os xs) {x : Out} (hx : x ∈ xs) : ∃ o ∈ os, Outcome c u o x := by
  induction h with
  | nil => simp at hx
  | cons h _ ih =>
    simp only [List.mem_cons] at hx
    rcases hx with rfl | hx
    · exact ⟨_, by simp, h⟩
    · obtain ⟨o, ho, hh⟩ := ih hx
      exact ⟨o, by simp [ho], hh⟩

theorem Outcomes.length {c : Cfg} {u : Update} {os : List Limit} {xs : List Out}
    (h : Outcomes c u os xs) : xs.length = os.length := by
  induction h with
  | nil => rfl
  | cons _ _ ih => simp [ih]

/-- ids of the executed orders among distinct ids -/
theorem filter_ids (xs : List Out) (hn : IdsNodup (xs.map Out.after)) :
    (xs.map Out.after).filter
      (fun o => decide (o.id ∉ (xs.filter Out.full).map (fun x => x.after.id))) =
    (xs.filter (fun x => !x.full)).map Out.after := by
  rw [List.filter_map]
  congr 1
  refine List.filter_congr ?_
  intro x hx
  simp only [Function.comp, List.mem_map, List.mem_filter]
  cases hf : x.full with
  | true => simp; exact ⟨x, hx, hf, rfl⟩
  | false =>
    simp
    intro y hy hyf he
    -- distinct ids
    unfold IdsNodup at hn
    rw [List.map_map] at hn
    have : x = y ∨ x ≠ y := Classical.em _
    rcases this with rfl | hne
    · rw [hf] at hyf; simp at hyf
    · obtain ⟨l1, l2, rfl⟩ := List.append_of_mem hx
      simp only [List.mem_append, List.mem_cons] at hy
      have hn' := List.perm_middle.map (Limit.id ∘ Out.after) |>.nodup_iff.1 hn
      simp only [List.map_cons, List.nodup_cons, List.mem_map, not_exists, not_and] at hn'
      rcases hy with hy | rfl | hy
      · exact hn'.1 y (by simp [hy]) (by simp [he])
      · exact hne rfl
      · exact hn'.1 y (by simp [hy]) (by simp [he])

/-- Effect of a successful `check_active_orders` with a filling update. -/
theorem checkActive_out {c : Cfg} {s s' : State} {u : Update} (hi : Inv c s)
    (h : checkActive c s u = .ok s') (hf : u.canFill = true) :
    ∃ xs, Outcomes c u s.active xs ∧
      s'.active.Perm ((xs.filter (fun x => !x.full)).map Out.after) ∧
      s'.updates = xs.filterMap Out.report ∧ s'.log = outEvents xs ++ s.log ∧
      s'.ms = s.ms ∧ s'.nextId = s.nextId ∧ s'.trigger = s.trigger ∧
      IdsNodup s'.active ∧ (s.om = s.active → s'.om = s'.active) ∧
      0 ≤ s'.acct.balance .wallet := by
  obtain ⟨l, orders, active', h1, h2, _, hw, rfl⟩ := checkActive_ok h hf
  obtain ⟨xs, hxs, rfl, e1, e2, e3⟩ := matchLoop_out h1
  have hn : IdsNodup (xs.map Out.after) := by
    unfold IdsNodup; rw [hxs.ids]; exact hi.nodup
  have e3' : l.ids = (xs.filter Out.full).map (fun x => x.after.id) := by
    simpa [State.loop] using e3
  obtain ⟨hp, hn'⟩ := removeExecuted_perm _ hn h2
  rw [e3', filter_ids xs hn] at hp
  refine ⟨xs, hxs, hp, by simpa [State.loop] using e2, by simpa [State.loop] using e1, rfl, rfl,
    rfl, hn', fun hs => ?_, hw⟩
  have := matchLoop_om (done := []) (l := s.loop) hi.nodup (by simp [State.loop, removeExecuted, hs])
    (by simp [State.loop]) h1
  simp only [List.nil_append] at this
  rw [h2] at this
  simp only [ok_inj] at this
  exact this.symm

theorem checkActive_inv {c : Cfg} {s s' : State} {u : Update} (hi : Inv c s)
    (h : checkActive c s u = .ok s') : Inv c s' := by
  cases hf : u.canFill with
  | false => rw [checkActive_bba h hf]; exact hi.congr rfl rfl (by simp)
  | true =>
    obtain ⟨xs, hxs, hp, _, _, _, hnx, _, hn, hs, _⟩ := checkActive_out hi h hf
    have hl : s'.active.length ≤ s.active.length := by
      rw [hp.length_eq, ← hxs.length, List.length_map]
      exact List.length_filter_le _ _
    refine ⟨hn, fun o ho => ?_, ?_, ?_, fun hc => hs (hi.sync hc)⟩
    · rw [hp.mem_iff] at ho
      simp only [List.mem_map, List.mem_filter] at ho
      obtain ⟨x, ⟨hx, hxf⟩, rfl⟩ := ho
      obtain ⟨o, ho, hh⟩ := hxs.mem hx
      rw [hnx]
      exact (hh.wf (hi.orders o ho)).1 (by simpa using hxf)
    · have := hi.cap; omega
    · have := hi.len; omega

theorem updateState_inv {c : Cfg} {s s' : State} {u : Update} {r} (hi : Inv c s)
    (h : updateState c s u = .ok (s', r)) : Inv c s' := by
  simp only [updateState, bind_ok] at h
  obtain ⟨s1, h1, h⟩ := h
  obtain ⟨_, _, e3, e4, e5, _⟩ := observe_fields h1
  have hi1 : Inv c s1 := hi.congr e3 e4 (by omega)
  split at h
  · simp only [bind_ok, ok_inj, Prod.mk.injEq] at h
    obtain ⟨s2, h2, rfl, _⟩ := h
    obtain ⟨_, f2, f3, f4, _⟩ := liquidate_fields h2
    exact hi1.congr f3 f4 f2
  · simp only [bind_ok, ok_inj, Prod.mk.injEq] at h
    obtain ⟨s2, h2, rfl, _⟩ := h
    exact checkActive_inv hi1 h2

theorem newLimit_ok {side : Side} {price qty : Int} {uid : Nat} {o : NewLimit}
    (h : NewLimit.new side price qty uid = .ok o) :
    0 < price ∧ 0 < qty ∧ o = ⟨uid, side, price, qty⟩ := by
  unfold NewLimit.new at h
  split at h
  · simp at h
  · split at h
    · simp at h
    · simp at h; exact ⟨by omega, by omega, h.symm⟩

theorem newMarket_ok {side : Side} {qty : Int} {uid : Nat} {o : NewMarket}
    (h : NewMarket.new side qty uid = .ok o) : 0 < qty ∧ o = ⟨uid, side, qty⟩ := by
  unfold NewMarket.new at h
  split at h
  · simp at h
  · simp at h; exact ⟨by omega, h.symm⟩

/-- Cases of `step`. -/
theorem step_cases {c : Cfg} {s s' : State} {op : Op} {r} (h : step c s op = .ok (s', r)) :
    (∃ a u x, op = .update a ∧ a.build c.env.debug = .ok u ∧ updateState c s u = .ok (s', x) ∧
        r = .update x) ∨
    (∃ a u, op = .checkActive a ∧ a.build c.env.debug = .ok u ∧ checkActive c s u = .ok s' ∧
        r = .unit) ∨
    (∃ err, s' = s ∧ r = .invalidOrder err) ∨
    (∃ side qty uid x, op = .market side qty uid ∧ 0 < qty ∧
        submitMarket c s ⟨uid, side, qty⟩ = .ok (s', x) ∧ r = .market x) ∨
    (∃ side price qty uid x, op = .limit side price qty uid ∧ 0 < price ∧ 0 < qty ∧
        submitLimit c s ⟨uid, side, price, qty⟩ = .ok (s', x) ∧ r = .limit x) ∨
    (∃ id side price qty uid x, op = .amend id side price qty uid ∧ 0 < price ∧ 0 < qty ∧
        amendLimit c s id ⟨uid, side, price, qty⟩ = .ok (s', x) ∧ r = .limit x) ∨
    (∃ b x, op = .cancel b ∧ cancelLimit c s b = .ok (s', x) ∧ r = .limit x) := by
  cases op with
  | update a =>
    simp only [step, bind_ok, ok_inj, Prod.mk.injEq] at h
    obtain ⟨u, hu, ⟨s1, r1⟩, h1, rfl, rfl⟩ := h
    exact .inl ⟨a, u, r1, rfl, hu, h1, rfl⟩
  | checkActive a =>
    simp only [step, bind_ok, ok_inj, Prod.mk.injEq] at h
    obtain ⟨u, hu, s1, h1, rfl, rfl⟩ := h
    exact .inr (.inl ⟨a, u, rfl, hu, h1, rfl⟩)
  | market side qty uid =>
    simp only [step] at h
    split at h
    · simp only [ok_inj, Prod.mk.injEq] at h; obtain ⟨rfl, rfl⟩ := h
      exact .inr (.inr (.inl ⟨_, rfl, rfl⟩))
    · next hn =>
      simp only [bind_ok, ok_inj, Prod.mk.injEq] at h
      obtain ⟨⟨s1, r1⟩, h1, rfl, rfl⟩ := h
      obtain ⟨hq, rfl⟩ := newMarket_ok hn
      exact .inr (.inr (.inr (.inl ⟨_, _, _, _, rfl, hq, h1, rfl⟩)))
  | limit side price qty uid =>
    simp only [step] at h
    split at h
    · simp only [ok_inj, Prod.mk.injEq] at h; obtain ⟨rfl, rfl⟩ := h
      exact .inr (.inr (.inl ⟨_, rfl, rfl⟩))
    · next hn =>
      simp only [bind_ok, ok_inj, Prod.mk.injEq] at h
      obtain ⟨⟨s1, r1⟩, h1, rfl, rfl⟩ := h
      obtain ⟨hp, hq, rfl⟩ := newLimit_ok hn
      exact .inr (.inr (.inr (.inr (.inl ⟨_, _, _, _, _, rfl, hp, hq, h1, rfl⟩))))
  | amend id side price qty uid =>
    simp only [step] at h
    split at h
    · simp only [ok_inj, Prod.mk.injEq] at h; obtain ⟨rfl, rfl⟩ := h
      exact .inr (.inr (.inl ⟨_, rfl, rfl⟩))
    · next hn =>
      simp only [bind_ok, ok_inj, Prod.mk.injEq] at h
      obtain ⟨⟨s1, r1⟩, h1, rfl, rfl⟩ := h
      obtain ⟨hp, hq, rfl⟩ := newLimit_ok hn
      exact .inr (.inr (.inr (.inr (.inr (.inl ⟨_, _, _, _, _, _, rfl, hp, hq, h1, rfl⟩)))))
  | cancel b =>
    simp only [step, bind_ok, ok_inj, Prod.mk.injEq] at h
    obtain ⟨⟨s1, r1⟩, h1, rfl, rfl⟩ := h
    exact .inr (.inr (.inr (.inr (.inr (.inr ⟨_, _, rfl, h1, rfl⟩)))))

theorem step_inv {c : Cfg} {s s' : State} {op : Op} {r} (hi : Inv c s)
    (h : step c s op = .ok (s', r)) : Inv c s' := by
  rcases step_cases h with ⟨a, u, x, _, _, h, _⟩ | ⟨a, u, _, _, h, _⟩ | ⟨err, rfl, _⟩ |
    ⟨_, _, _, _, _, _, h, _⟩ | ⟨_, _, _, _, _, _, hp, hq, h, _⟩ |
    ⟨_, _, _, _, _, _, _, hp, hq, h, _⟩ | ⟨_, _, _, h, _⟩
  · exact updateState_inv hi h
  · exact checkActive_inv hi h
  · exact hi
  · obtain ⟨_, f2, f3, f4, _⟩ := submitMarket_fields h
    exact hi.congr f3 f4 f2
  · exact submitLimit_inv hp hq hi h
  · exact amendLimit_inv hp hi h
  · exact cancelLimit_inv hi h

/-- An invariant of single calls holds along histories. -/
theorem run_induct {c : Cfg} {P : State → Prop}
    (hs : ∀ s s' op r, P s → step c s op = .ok (s', r) → P s') :
    ∀ (ops : List Op) (s s' : State), P s → run c s ops = .ok s' → P s' := by
  intro ops
  induction ops with
  | nil => intro s s' hp h; simp only [run, ok_inj] at h; exact h ▸ hp
  | cons op ops ih =>
    intro s s' hp h
    simp only [run, bind_ok] at h
    obtain ⟨⟨s1, r⟩, h1, h2⟩ := h
    exact ih s1 s' (hs _ _ _ _ hp h1) h2

theorem run_inv {c : Cfg} {ops : List Op} {s : State}
    (h : run c (State.init c) ops = .ok s) : Inv c s :=
  run_induct (P := Inv c) (fun _ _ _ _ hp h => step_inv hp h) ops _ _ (Inv.init c) h

/-- Histories from the initial state are chains of elementary actions with positive fill
prices. -/
theorem run_core {c : Cfg} {ops : List Op} {s : State} {st : Bool}
    (h : run c (State.init c) ops = .ok s) : CoreStar c st (State.init c).core s.core := by
  have := run_induct (c := c)
    (P := fun s => Inv c s ∧ CoreStar c st (State.init c).core s.core)
    (fun s s' op r hp h => ⟨step_inv hp.1 h,
      hp.2.trans (step_core (fun _ o ho => (hp.1.orders o ho).price) h)⟩)
    ops _ _ ⟨Inv.init c, .refl _⟩ h
  exact this.2

end Lfest
