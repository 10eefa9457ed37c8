import Verif.Model.Clone
import Verif.Lemmas.Inv
import Verif.Spec

/-! Copies of an exchange: the calls of a copy against the calls of the original. -/

namespace Lfest

theorem insert_same {n m : Nat} (hnm : n ≤ m) (b : Book) (o : Limit) :
    Book.insert n b o = Book.insert m b o ∨
      Book.insert n b o = .error .maxNumberOfActiveOrders := by
  unfold Book.insert
  split
  · exact .inl rfl
  · by_cases h : b.length ≥ n
    · right; rw [if_pos h]
    · left; rw [if_neg h, if_neg (by omega)]

theorem omUpdate_same {n m : Nat} (hnm : n ≤ m) (b : Book) (o : Limit) :
    omUpdate n b o = omUpdate m b o ∨ omUpdate n b o = .ok (.error .maxNumberOfActiveOrders) := by
  unfold omUpdate assertP
  by_cases h : o.remaining > 0
  · rcases insert_same hnm b o with h1 | h1
    · left; rw [h1]
    · right; rw [h1, if_pos h]; rfl
  · left; rw [if_neg h]; rfl

theorem omUpdate_known {n m : Nat} {b : Book} {o : Limit} (h : ∃ y ∈ b, y.id = o.id) :
    omUpdate n b o = omUpdate m b o := by
  unfold omUpdate Book.insert
  cases hg : b.getById o.id with
  | some x => rfl
  | none =>
    obtain ⟨y, hy, hyo⟩ := h
    exact absurd hyo (getById_none.1 hg y hy)

theorem applyFill_cap {c : Cfg} (n : Nat) (ts : Int) {l : Loop} {o : Limit} (q : Int)
    (h : ∃ y ∈ l.om, y.id = o.id) :
    applyFill { c with maxOpen := n } ts l o q = applyFill c ts l o q := by
  unfold applyFill
  change (o.fill c.scale q ts >>= _) = (o.fill c.scale q ts >>= _)
  cases hf : o.fill c.scale q ts with
  | error e => rfl
  | ok r =>
    obtain ⟨o', f⟩ := r
    have hid : o'.id = o.id := (fill_fixed hf).1
    cases f with
    | some f => rfl
    | none =>
      simp only [bind, Except.bind]
      rw [omUpdate_known (n := n) (m := c.maxOpen) (by rw [hid]; exact h)]

theorem matchOrder_cap {c : Cfg} (n : Nat) (u : Update) {l : Loop} {o : Limit}
    (h : ∃ y ∈ l.om, y.id = o.id) :
    matchOrder { c with maxOpen := n } u l o = matchOrder c u l o := by
  unfold matchOrder
  simp only [applyFill_cap n u.ts _ h]
  rfl

theorem mem_replaceFirst {b : Book} {o y : Limit} (hy : y ∈ b) :
    ∃ z ∈ replaceFirst (fun x => x.id == o.id) o b, z.id = y.id := by
  induction b with
  | nil => simp at hy
  | cons x xs ih =>
    simp only [replaceFirst]
    rcases List.mem_cons.1 hy with rfl | hy
    · split
      · next hx => exact ⟨o, by simp, (by simpa using hx : y.id = o.id).symm⟩
      · exact ⟨y, by simp, rfl⟩
    · split
      · exact ⟨y, by simp [hy], rfl⟩
      · obtain ⟨z, hz, h⟩ := ih hy
        exact ⟨z, by simp [hz], h⟩

/-- The loop leaves the other orders in the arena of margined orders. -/
theorem matchOrder_keeps {c : Cfg} {u : Update} {l l' : Loop} {o o' y : Limit}
    (h : matchOrder c u l o = .ok (l', o')) (hy : y ∈ l.om) (hne : y.id ≠ o.id) :
    ∃ z ∈ l'.om, z.id = y.id := by
  obtain ⟨x, hx, rfl, _, _, _, h⟩ := matchOrder_out h
  have hid := hx.fixed.1
  rcases h with ⟨_, h⟩ | ⟨_, h⟩ | ⟨_, h⟩
  · exact ⟨y, by rw [h]; exact hy, rfl⟩
  · obtain ⟨r, hr⟩ := omRemove_ok h
    obtain ⟨xs, ys, hb, hp, _, _, hperm⟩ := removeBy_some hr
    refine ⟨y, ?_, rfl⟩
    rw [hperm.mem_iff]
    rw [hb] at hy
    have hr : r.id = x.after.id := by simpa using hp
    simp only [List.mem_append, List.mem_cons] at hy ⊢
    rcases hy with hy | rfl | hy
    · exact .inl hy
    · exact absurd (hr.trans hid) hne
    · exact .inr hy
  · rcases (omUpdate_ok h).2 with ⟨_, _, h⟩ | ⟨_, _, _, h⟩
    · exact ⟨y, by rw [h]; simp [hy], rfl⟩
    · rw [h]; exact mem_replaceFirst hy

theorem matchLoop_cap {c : Cfg} (n : Nat) (u : Update) {os : List Limit} :
    ∀ {l : Loop}, IdsNodup os → (∀ o ∈ os, ∃ y ∈ l.om, y.id = o.id) →
      matchLoop { c with maxOpen := n } u l os = matchLoop c u l os := by
  induction os with
  | nil => intro l _ _; rfl
  | cons o os ih =>
    intro l hn hm
    simp only [matchLoop]
    rw [matchOrder_cap n u (hm o (by simp))]
    cases h : matchOrder c u l o with
    | error e => rfl
    | ok r =>
      obtain ⟨l1, o'⟩ := r
      simp only [bind, Except.bind]
      have hn' : o.id ∉ os.map Limit.id ∧ IdsNodup os := by
        simpa [IdsNodup] using hn
      rw [ih hn'.2]
      intro z hz
      obtain ⟨y, hy, hyz⟩ := hm z (by simp [hz])
      obtain ⟨w, hw, hwy⟩ := matchOrder_keeps h hy (by
        rw [hyz]; intro he; exact hn'.1 (he ▸ List.mem_map_of_mem hz))
      exact ⟨w, hw, hwy.trans hyz⟩

/-! ## The capacity of the vector of executed orders -/

theorem le_idsCap (cap n : Nat) : n ≤ idsCap cap n ∧ cap ≤ idsCap cap n := by
  induction n with
  | zero => simp [idsCap]
  | succ n ih =>
    simp only [idsCap, pushCap]
    split <;> omega

theorem idsCap_fits {cap n : Nat} (h : n ≤ cap) : idsCap cap n = cap := by
  induction n with
  | zero => rfl
  | succ n ih => simp only [idsCap, ih (by omega), pushCap]; rw [if_pos (by omega)]

theorem idsCap_self {cap n : Nat} : idsCap cap n = cap ↔ n ≤ cap :=
  ⟨fun h => by have := (le_idsCap cap n).1; omega, idsCap_fits⟩

/-- A vector that starts empty has the capacities four, eight, sixteen, ... -/
theorem idsCap_zero (n : Nat) : ∃ k, idsCap 0 (n + 1) = 4 * 2 ^ k := by
  induction n with
  | zero => exact ⟨0, by simp [idsCap, pushCap]⟩
  | succ n ih =>
    obtain ⟨k, hk⟩ := ih
    have h1 := (le_idsCap 0 (n + 1)).1
    rw [idsCap, hk, pushCap]
    rw [hk] at h1
    split
    · exact ⟨k, rfl⟩
    · refine ⟨k + 1, ?_⟩
      have : 0 < 2 ^ k := Nat.pow_pos (by decide)
      rw [Nat.pow_succ]
      omega

/-! ## Agreement of single calls -/

theorem appendLimitC_same {k : Caps} {c : Cfg} (s : State) (o : Limit) (h1 : k.om ≤ c.maxOpen)
    (h2 : k.active ≤ activeCap) :
    appendLimitC k c s o = appendLimit c s o ∨
      ∃ s', appendLimitC k c s o = .ok (s', .error .maxNumberOfActiveOrders) := by
  unfold appendLimitC appendLimit
  rcases omUpdate_same h1 s.om o with h | h
  · rw [h]
    cases omUpdate c.maxOpen s.om o with
    | error e => exact .inl rfl
    | ok r =>
      cases r with
      | error e => exact .inl rfl
      | ok om' =>
        simp only [bind, Except.bind]
        rcases insert_same h2 s.active o with h | h
        · rw [h]; exact .inl rfl
        · rw [h]; exact .inr ⟨_, rfl⟩
  · rw [h]; exact .inr ⟨_, rfl⟩

theorem submitLimitC_same {k : Caps} {c : Cfg} (s : State) (o : NewLimit) (h1 : k.om ≤ c.maxOpen)
    (h2 : k.active ≤ activeCap) :
    submitLimitC k c s o = submitLimit c s o ∨
      ∃ s', submitLimitC k c s o = .ok (s', .error .maxNumberOfActiveOrders) := by
  unfold submitLimitC submitLimit
  dsimp only
  cases c.spec.quantityFilter.validate o.qty with
  | error e => exact .inl rfl
  | ok r =>
  cases r with
  | error e => exact .inl rfl
  | ok _ =>
  simp only [bind, Except.bind]
  cases c.spec.priceFilter.validate c.scale o.price (s.ms.mid c.scale) with
  | error e => exact .inl rfl
  | ok r =>
  cases r with
  | error e => exact .inl rfl
  | ok _ =>
  dsimp only
  split
  · exact .inl rfl
  · split
    · exact .inl rfl
    · split
      · exact .inl rfl
      · rcases appendLimitC_same (k := k) (c := c)
          { s with log := .limitSubmit o :: s.log, nextId := s.nextId + 1 }
          (o.intoPending s.nextId s.ms.ts) h1 h2 with h | ⟨s', h⟩
        · rw [h]; exact .inl rfl
        · rw [h]; exact .inr ⟨s', rfl⟩

theorem amendLimitC_same {k : Caps} {c : Cfg} (s : State) (id : Nat) (o : NewLimit)
    (h1 : k.om ≤ c.maxOpen) (h2 : k.active ≤ activeCap) :
    amendLimitC k c s id o = amendLimit c s id o ∨
      ∃ s', amendLimitC k c s id o = .ok (s', .error .maxNumberOfActiveOrders) := by
  unfold amendLimitC amendLimit
  cases s.active.getById id with
  | none => exact .inl rfl
  | some old =>
  dsimp only
  cases old.totalQuantity with
  | error e => exact .inl rfl
  | ok total =>
  simp only [bind, Except.bind]
  split
  · exact .inl rfl
  · cases o.setRemaining (old.remaining + (o.totalQuantity - total)) with
    | error e => exact .inl rfl
    | ok new' =>
      dsimp only
      split
      · exact .inl rfl
      · split
        · exact .inl rfl
        · exact submitLimitC_same _ _ h1 h2

/-- The fresh capacities -/
def Caps.fresh (c : Cfg) (k : Caps) : Prop := k.om = c.maxOpen ∧ k.active = activeCap

theorem appendLimitC_fresh {k : Caps} {c : Cfg} (h : k.fresh c) :
    appendLimitC k c = appendLimit c := by
  funext s o; unfold appendLimitC appendLimit; rw [h.1, h.2]; rfl

theorem submitLimitC_fresh {k : Caps} {c : Cfg} (h : k.fresh c) :
    submitLimitC k c = submitLimit c := by
  funext s o; unfold submitLimitC submitLimit; rw [appendLimitC_fresh h]; rfl

theorem amendLimitC_fresh {k : Caps} {c : Cfg} (h : k.fresh c) :
    amendLimitC k c = amendLimit c := by
  funext s id o; unfold amendLimitC amendLimit; rw [submitLimitC_fresh h]; rfl

/-- What is needed for the loop over the orders to agree with the original. -/
structure Fits (c : Cfg) (x : Exch) : Prop where
  inv : Inv c x.s
  ids : c.env.debug = true → x.caps.ids = c.maxOpen
  om : x.caps.om = c.maxOpen ∨ c.maxOpen ≤ 10000

theorem matchLoop_fits {c : Cfg} {x : Exch} (hx : Fits c x) (u : Update) {s : State}
    (ha : s.active = x.s.active) (hm : s.om = x.s.om) :
    matchLoop { c with maxOpen := x.caps.om } u
        { acct := s.acct, pos := s.pos, om := s.om, log := s.log, updates := [], ids := [] }
        s.active =
      matchLoop c u
        { acct := s.acct, pos := s.pos, om := s.om, log := s.log, updates := [], ids := [] }
        s.active := by
  rcases hx.om with h | h
  · rw [h]
  · rw [matchLoop_cap]
    · rw [ha]; exact hx.inv.nodup
    · intro o ho
      refine ⟨o, ?_, rfl⟩
      rw [hm, hx.inv.sync h, ← ha]; exact ho

theorem checkActiveC_fits {c : Cfg} {x : Exch} (hx : Fits c x) (u : Update) {s : State}
    (ha : s.active = x.s.active) (hm : s.om = x.s.om) :
    (checkActiveC x.caps c s u).map Prod.fst = checkActive c s u ∧
      ∀ r, checkActiveC x.caps c s u = .ok r → c.env.debug = true → r.2 = c.maxOpen := by
  unfold checkActiveC checkActive
  split
  · refine ⟨rfl, fun r h hd => ?_⟩
    cases h; exact hx.ids hd
  · rw [matchLoop_fits hx u ha hm]
    constructor
    · unfold debugP
      cases hd : c.env.debug with
      | false =>
        simp only [Bool.false_eq_true, if_false, bind, Except.bind]
        cases matchLoop c u _ s.active with
        | error e => rfl
        | ok r =>
          dsimp only
          cases removeExecuted r.2 r.1.ids with
          | error e => rfl
          | ok a =>
            dsimp only
            cases debugMarginEq c r.1.acct r.1.om r.1.pos .finalMarginMismatch with
            | error e => rfl
            | ok _ =>
              dsimp only
              unfold assertP; split <;> rfl
      | true =>
        have hi := hx.ids hd
        simp only [if_true, bind, Except.bind, hi]
        by_cases h0 : s.om = s.active
        · cases matchLoop c u _ s.active with
          | error e => simp [assertP, h0, Except.map]
          | ok r =>
            dsimp only
            cases removeExecuted r.2 r.1.ids with
            | error e => simp [assertP, h0, Except.map]
            | ok a =>
              by_cases h1 : r.1.ids.length ≤ c.maxOpen
              · simp only [idsCap_fits h1, h1, assertP, h0, if_true]
                split
                · rfl
                · split
                  · rfl
                  · split
                    · rfl
                    · split <;> rfl
              · have h2 : ¬ idsCap c.maxOpen r.1.ids.length = c.maxOpen :=
                  fun h => h1 (idsCap_self.1 h)
                simp [h2, h1, assertP, h0, Except.map]
        · simp [assertP, h0, Except.map]
    · intro r h hd
      simp only [bind_ok, debugP_ok, ok_inj] at h
      obtain ⟨_, _, _, _, _, _, _, hcap, _, _, _, _, _, _, _, _, rfl⟩ := h
      exact hcap hd

theorem observe_arenas {c : Cfg} {s s1 : State} {u : Update} (h : observe c s u = .ok s1) :
    s1.active = s.active ∧ s1.om = s.om := by
  simp only [observe, bind_ok, ok_inj] at h
  obtain ⟨_, _, rfl⟩ := h
  exact ⟨rfl, rfl⟩

theorem updateStateC_fits {c : Cfg} {x : Exch} (hx : Fits c x) (u : Update) :
    (updateStateC x.caps c x.s u).map (fun r => (r.1.1, r.2)) = updateState c x.s u ∧
      ∀ r, updateStateC x.caps c x.s u = .ok r → c.env.debug = true → r.1.2 = c.maxOpen := by
  unfold updateStateC updateState
  cases ho : observe c x.s u with
  | error e => exact ⟨rfl, fun r h => by cases h⟩
  | ok s1 =>
    obtain ⟨ha, hm⟩ := observe_arenas ho
    simp only [bind, Except.bind]
    cases checkMaintenanceMargin c s1.ms s1.pos with
    | error err =>
      dsimp only
      cases liquidate c s1 with
      | error e => exact ⟨rfl, fun r h => by cases h⟩
      | ok s2 => exact ⟨rfl, fun r h hd => by cases h; exact hx.ids hd⟩
    | ok _ =>
      dsimp only
      obtain ⟨h1, h2⟩ := checkActiveC_fits hx u ha hm
      rw [← h1]
      cases h : checkActiveC x.caps c s1 u with
      | error e => exact ⟨rfl, fun r h => by cases h⟩
      | ok s2 => exact ⟨rfl, fun r hr hd => by cases hr; exact h2 _ h hd⟩

/-- The state and the response of a call. -/
def Exch.seen (x : Exch × Resp) : State × Resp := (x.1.s, x.2)

/-- What every call leaves alone: the capacities of the arenas, and in a debug build, if it was
right, that of the vector of executed orders. -/
theorem Exch.step_caps {c : Cfg} {x x' : Exch} {op : Op} {r : Resp} (hx : Fits c x)
    (h : x.step c op = .ok (x', r)) :
    x'.caps.om = x.caps.om ∧ x'.caps.active = x.caps.active ∧
      (c.env.debug = true → x'.caps.ids = c.maxOpen) := by
  cases op with
  | update a =>
    simp only [Exch.step, bind_ok, ok_inj, Prod.mk.injEq] at h
    obtain ⟨u, _, ⟨⟨s', i⟩, w⟩, hu, rfl, rfl⟩ := h
    exact ⟨rfl, rfl, (updateStateC_fits hx u).2 _ hu⟩
  | checkActive a =>
    simp only [Exch.step, bind_ok, ok_inj, Prod.mk.injEq] at h
    obtain ⟨u, _, ⟨s', i⟩, hu, rfl, rfl⟩ := h
    exact ⟨rfl, rfl, (checkActiveC_fits hx u rfl rfl).2 _ hu⟩
  | market side qty uid =>
    simp only [Exch.step] at h
    cases hn : NewMarket.new side qty uid with
    | error e =>
      rw [hn] at h; simp only [ok_inj, Prod.mk.injEq] at h
      obtain ⟨rfl, rfl⟩ := h; exact ⟨rfl, rfl, hx.ids⟩
    | ok o =>
      rw [hn] at h; simp only [bind_ok, ok_inj, Prod.mk.injEq] at h
      obtain ⟨_, _, rfl, rfl⟩ := h; exact ⟨rfl, rfl, hx.ids⟩
  | limit side price qty uid =>
    simp only [Exch.step] at h
    cases hn : NewLimit.new side price qty uid with
    | error e =>
      rw [hn] at h; simp only [ok_inj, Prod.mk.injEq] at h
      obtain ⟨rfl, rfl⟩ := h; exact ⟨rfl, rfl, hx.ids⟩
    | ok o =>
      rw [hn] at h; simp only [bind_ok, ok_inj, Prod.mk.injEq] at h
      obtain ⟨_, _, rfl, rfl⟩ := h; exact ⟨rfl, rfl, hx.ids⟩
  | amend id side price qty uid =>
    simp only [Exch.step] at h
    cases hn : NewLimit.new side price qty uid with
    | error e =>
      rw [hn] at h; simp only [ok_inj, Prod.mk.injEq] at h
      obtain ⟨rfl, rfl⟩ := h; exact ⟨rfl, rfl, hx.ids⟩
    | ok o =>
      rw [hn] at h; simp only [bind_ok, ok_inj, Prod.mk.injEq] at h
      obtain ⟨_, _, rfl, rfl⟩ := h; exact ⟨rfl, rfl, hx.ids⟩
  | cancel by_ =>
    simp only [Exch.step, bind_ok, ok_inj, Prod.mk.injEq] at h
    obtain ⟨_, _, rfl, rfl⟩ := h; exact ⟨rfl, rfl, hx.ids⟩

/-- A call of a copy does what the call of the original does, unless it is refused for want of
space. -/
theorem Exch.step_same {c : Cfg} {x : Exch} {op : Op} (hx : Fits c x)
    (h1 : x.caps.om ≤ c.maxOpen) (h2 : x.caps.active ≤ activeCap) :
    (x.step c op).map Exch.seen = Lfest.step c x.s op ∨
      (¬ x.caps.fresh c ∧
        ∃ x', x.step c op = .ok (x', .limit (.error .maxNumberOfActiveOrders))) := by
  cases op with
  | update a =>
    left
    simp only [Exch.step, Lfest.step]
    cases a.build c.env.debug with
    | error e => rfl
    | ok u =>
      simp only [bind, Except.bind]
      rw [← (updateStateC_fits hx u).1]
      cases updateStateC x.caps c x.s u <;> rfl
  | checkActive a =>
    left
    simp only [Exch.step, Lfest.step]
    cases a.build c.env.debug with
    | error e => rfl
    | ok u =>
      simp only [bind, Except.bind]
      rw [← (checkActiveC_fits hx u rfl rfl).1]
      cases checkActiveC x.caps c x.s u <;> rfl
  | market side qty uid =>
    left
    simp only [Exch.step, Lfest.step]
    cases NewMarket.new side qty uid with
    | error e => rfl
    | ok o =>
      simp only [bind, Except.bind]
      cases submitMarket c x.s o <;> rfl
  | limit side price qty uid =>
    simp only [Exch.step, Lfest.step]
    cases NewLimit.new side price qty uid with
    | error e => left; rfl
    | ok o =>
      simp only [bind, Except.bind]
      by_cases hf : x.caps.fresh c
      · left; rw [submitLimitC_fresh hf]
        cases submitLimit c x.s o <;> rfl
      · rcases submitLimitC_same (k := x.caps) x.s o h1 h2 with h | ⟨s', h⟩
        · left; rw [h]
          cases submitLimit c x.s o <;> rfl
        · right; rw [h]; exact ⟨hf, _, rfl⟩
  | amend id side price qty uid =>
    simp only [Exch.step, Lfest.step]
    cases NewLimit.new side price qty uid with
    | error e => left; rfl
    | ok o =>
      simp only [bind, Except.bind]
      by_cases hf : x.caps.fresh c
      · left; rw [amendLimitC_fresh hf]
        cases amendLimit c x.s id o <;> rfl
      · rcases amendLimitC_same (k := x.caps) x.s id o h1 h2 with h | ⟨s', h⟩
        · left; rw [h]
          cases amendLimit c x.s id o <;> rfl
        · right; rw [h]; exact ⟨hf, _, rfl⟩
  | cancel by_ =>
    left
    simp only [Exch.step, Lfest.step, bind, Except.bind]
    cases cancelLimit c x.s by_ <;> rfl

theorem seen_ok {y : Res (Exch × Resp)} {s : State} {r : Resp}
    (h : y.map Exch.seen = .ok (s, r)) : ∃ x, y = .ok (x, r) ∧ x.s = s := by
  cases y with
  | error e => cases h
  | ok y => simp only [Except.map, Exch.seen, Except.ok.injEq, Prod.mk.injEq] at h
            exact ⟨y.1, by rw [← h.2], h.1⟩

theorem Fits.step {c : Cfg} {x x' : Exch} {op : Op} {r : Resp} (hx : Fits c x)
    (h : x.step c op = .ok (x', r)) (hs : (x.step c op).map Exch.seen = Lfest.step c x.s op) :
    Fits c x' := by
  obtain ⟨k1, _, k3⟩ := Exch.step_caps hx h
  rw [h] at hs
  exact ⟨step_inv hx.inv hs.symm, k3, by rw [k1]; exact hx.om⟩

/-! ## The number of orders -/

theorem replaceFirst_length {α} (p : α → Bool) (y : α) (l : List α) :
    (replaceFirst p y l).length = l.length := by
  induction l with
  | nil => rfl
  | cons x xs ih => simp only [replaceFirst]; split <;> simp [ih]

theorem insert_length {cap : Nat} {b : Book} {o : Limit} {r}
    (h : Book.insert cap b o = .ok r) (hb : b.length ≤ cap) : r.1.length ≤ cap := by
  unfold Book.insert at h
  split at h
  · cases h; rw [replaceFirst_length]; exact hb
  · split at h
    · cases h
    · cases h; simp only [List.length_append, List.length_cons, List.length_nil]; omega

theorem removeBy_length {p : Limit → Bool} {b b' : Book} {o : Limit}
    (h : Book.removeBy p b = some (o, b')) : b'.length ≤ b.length := by
  obtain ⟨xs, ys, rfl, _, _, _, hp⟩ := removeBy_some h
  rw [hp.length_eq]; simp

theorem removeExecuted_length {ids : List Nat} :
    ∀ {b b' : Book}, removeExecuted b ids = .ok b' → b'.length ≤ b.length := by
  induction ids with
  | nil => intro b b' h; simp only [removeExecuted, ok_inj] at h; rw [h]; exact Nat.le_refl _
  | cons i ids ih =>
    intro b b' h
    simp only [removeExecuted, bind_ok, expectSome_ok] at h
    obtain ⟨r, hr, h⟩ := h
    exact Nat.le_trans (ih h) (removeBy_length hr)

theorem matchLoop_length {c : Cfg} {u : Update} {os : List Limit} :
    ∀ {l l' os'}, matchLoop c u l os = .ok (l', os') → os'.length = os.length := by
  induction os with
  | nil =>
    intro l l' os' h
    simp only [matchLoop, ok_inj, Prod.mk.injEq] at h
    rw [← h.2]
  | cons o os ih =>
    intro l l' os' h
    simp only [matchLoop, bind_ok, ok_inj, Prod.mk.injEq] at h
    obtain ⟨⟨l1, o1⟩, h1, ⟨l2, os2⟩, h2, rfl, rfl⟩ := h
    simp only [List.length_cons, ih h2]

theorem checkActiveC_length {k : Caps} {c : Cfg} {s : State} {u : Update} {r}
    (h : checkActiveC k c s u = .ok r) : r.1.active.length ≤ s.active.length := by
  unfold checkActiveC at h
  split at h
  · cases h; exact Nat.le_refl _
  · simp only [bind_ok, ok_inj] at h
    obtain ⟨_, _, ⟨l, os⟩, hm, a, ha, _, _, _, _, _, _, _, _, _, _, rfl⟩ := h
    have := removeExecuted_length ha
    rw [matchLoop_length hm] at this
    exact this

theorem cancelLimit_length {c : Cfg} {s s' : State} {by_ : CancelBy} {r}
    (h : cancelLimit c s by_ = .ok (s', r)) :
    s'.active.length ≤ s.active.length ∧ (s.active = [] → ∀ o, r ≠ .ok o) := by
  simp only [cancelLimit, bind_ok] at h
  obtain ⟨_, _, _, _, h⟩ := h
  cases hr : s.active.removeCancel by_ with
  | none =>
    rw [hr] at h; simp only [ok_inj, Prod.mk.injEq] at h
    obtain ⟨rfl, rfl⟩ := h
    exact ⟨Nat.le_refl _, fun _ o h => by cases h⟩
  | some x =>
    rw [hr] at h; simp only [bind_ok, ok_inj, Prod.mk.injEq] at h
    obtain ⟨_, _, _, _, _, _, _, _, _, _, _, _, rfl, _⟩ := h
    have hl : x.2.length < s.active.length := by
      cases by_ <;>
      · obtain ⟨xs, ys, hb, _, _, _, hp⟩ := removeBy_some hr
        rw [hb, hp.length_eq]; simp
    refine ⟨Nat.le_of_lt hl, fun he => ?_⟩
    rw [he] at hl; simp at hl

theorem appendLimitC_length {k : Caps} {c : Cfg} {s s' : State} {o : Limit} {r}
    (h : appendLimitC k c s o = .ok (s', r)) (hs : s.active.length ≤ k.active) :
    s'.active.length ≤ k.active ∧ (k.active = 0 → r ≠ .ok ()) := by
  simp only [appendLimitC, bind_ok] at h
  obtain ⟨om', _, h⟩ := h
  cases om' with
  | error e =>
    simp only [ok_inj, Prod.mk.injEq] at h; obtain ⟨rfl, rfl⟩ := h
    exact ⟨hs, fun _ h => by cases h⟩
  | ok om' =>
    dsimp only at h
    cases hi : Book.insert k.active s.active o with
    | error e =>
      rw [hi] at h; simp only [ok_inj, Prod.mk.injEq] at h; obtain ⟨rfl, rfl⟩ := h
      exact ⟨hs, fun _ h => by cases h⟩
    | ok x =>
      have hl := insert_length hi hs
      have hne : k.active ≠ 0 := by
        intro h0
        unfold Book.insert at hi
        have : s.active = [] := List.length_eq_zero_iff.1 (by omega)
        rw [this] at hi
        simp [Book.getById, h0] at hi
      rw [hi] at h
      simp only [bind_ok] at h
      obtain ⟨m, _, h⟩ := h
      have key : s'.active = x.1 := by
        split at h
        · simp only [bind_ok, appendChecks, ok_inj, Prod.mk.injEq] at h
          obtain ⟨_, _, _, ⟨_, _, _, _, _, _, rfl⟩, rfl, _⟩ := h; rfl
        · split at h
          · simp only [bind_ok, appendChecks, ok_inj, Prod.mk.injEq] at h
            obtain ⟨_, _, _, ⟨_, _, _, _, _, _, rfl⟩, rfl, _⟩ := h; rfl
          · simp only [ok_inj, Prod.mk.injEq] at h; rw [← h.1]
      exact ⟨by rw [key]; exact hl, fun h0 => absurd h0 hne⟩

theorem submitLimitC_length {k : Caps} {c : Cfg} {s s' : State} {o : NewLimit} {r}
    (h : submitLimitC k c s o = .ok (s', r)) (hs : s.active.length ≤ k.active) :
    s'.active.length ≤ k.active ∧ (k.active = 0 → ∀ p, r ≠ .ok p) := by
  simp only [submitLimitC, bind_ok] at h
  obtain ⟨v, _, h⟩ := h
  cases v with
  | error e =>
    simp only [ok_inj, Prod.mk.injEq] at h; obtain ⟨rfl, rfl⟩ := h
    exact ⟨hs, fun _ _ h => by cases h⟩
  | ok _ =>
  simp only [bind_ok] at h
  obtain ⟨v, _, h⟩ := h
  cases v with
  | error e =>
    simp only [ok_inj, Prod.mk.injEq] at h; obtain ⟨rfl, rfl⟩ := h
    exact ⟨hs, fun _ _ h => by cases h⟩
  | ok _ =>
  simp only [bind_ok] at h
  obtain ⟨v, _, h⟩ := h
  cases v with
  | error e =>
    simp only [ok_inj, Prod.mk.injEq] at h; obtain ⟨rfl, rfl⟩ := h
    exact ⟨hs, fun _ _ h => by cases h⟩
  | ok _ =>
  dsimp only at h
  split at h
  · simp only [ok_inj, Prod.mk.injEq] at h; obtain ⟨rfl, rfl⟩ := h
    exact ⟨hs, fun _ _ h => by cases h⟩
  · simp only [bind_ok] at h
    obtain ⟨⟨s3, r3⟩, ha, h⟩ := h
    obtain ⟨h1, h2⟩ := appendLimitC_length ha hs
    cases r3 with
    | error e =>
      simp only [ok_inj, Prod.mk.injEq] at h; obtain ⟨rfl, rfl⟩ := h
      exact ⟨h1, fun _ _ h => by cases h⟩
    | ok v =>
      simp only [ok_inj, Prod.mk.injEq] at h; obtain ⟨rfl, rfl⟩ := h
      exact ⟨h1, fun h0 => absurd rfl (h2 h0)⟩

theorem amendLimitC_length {k : Caps} {c : Cfg} {s s' : State} {id : Nat} {o : NewLimit} {r}
    (h : amendLimitC k c s id o = .ok (s', r)) (hs : s.active.length ≤ k.active) :
    s'.active.length ≤ k.active ∧ (k.active = 0 → ∀ p, r ≠ .ok p) := by
  unfold amendLimitC at h
  cases hg : s.active.getById id with
  | none =>
    rw [hg] at h; simp only [ok_inj, Prod.mk.injEq] at h; obtain ⟨rfl, rfl⟩ := h
    exact ⟨hs, fun _ _ h => by cases h⟩
  | some old =>
  rw [hg] at h
  simp only [bind_ok] at h
  obtain ⟨total, _, h⟩ := h
  split at h
  · simp only [bind_ok] at h
    obtain ⟨⟨s1, r1⟩, hc, h⟩ := h
    cases r1 with
    | error e => cases h
    | ok v =>
      simp only [ok_inj, Prod.mk.injEq] at h; obtain ⟨rfl, rfl⟩ := h
      exact ⟨Nat.le_trans (cancelLimit_length hc).1 hs, fun _ _ h => by cases h⟩
  · simp only [bind_ok] at h
    obtain ⟨new', _, ⟨s1, r1⟩, hc, h⟩ := h
    have hl := Nat.le_trans (cancelLimit_length hc).1 hs
    cases r1 with
    | error e =>
      simp only [ok_inj, Prod.mk.injEq] at h; obtain ⟨rfl, rfl⟩ := h
      exact ⟨hl, fun _ _ h => by cases h⟩
    | ok v => exact submitLimitC_length h hl

/-- The arena of a copy never outgrows its capacity. -/
theorem Exch.step_length {c : Cfg} {x x' : Exch} {op : Op} {r : Resp}
    (h : x.step c op = .ok (x', r)) (hx : x.s.active.length ≤ x.caps.active) :
    x'.caps.active = x.caps.active ∧ x'.s.active.length ≤ x'.caps.active ∧
      (x.caps.active = 0 → ∀ o, r ≠ .limit (.ok o)) := by
  cases op with
  | update a =>
    simp only [Exch.step, bind_ok, ok_inj, Prod.mk.injEq] at h
    obtain ⟨u, _, ⟨⟨s', i⟩, w⟩, hu, rfl, rfl⟩ := h
    refine ⟨rfl, ?_, fun _ _ h => by cases h⟩
    simp only [updateStateC, bind_ok] at hu
    obtain ⟨s1, ho, hu⟩ := hu
    have ha := (observe_arenas ho).1
    split at hu
    · simp only [bind_ok, ok_inj, Prod.mk.injEq] at hu
      obtain ⟨s2, hl, ⟨rfl, rfl⟩, rfl⟩ := hu
      simp only [liquidate, bind_ok] at hl
      obtain ⟨o, _, ⟨s3, r3⟩, hm, hl⟩ := hl
      cases r3 with
      | error e => cases hl
      | ok v =>
        simp only [ok_inj] at hl; subst hl
        show s3.active.length ≤ x.caps.active
        rw [(submitMarket_fields hm).2.2.1, ha]; exact hx
    · simp only [bind_ok, ok_inj, Prod.mk.injEq] at hu
      obtain ⟨s2, hl, rfl, rfl⟩ := hu
      have := checkActiveC_length hl
      rw [ha] at this
      exact Nat.le_trans this hx
  | checkActive a =>
    simp only [Exch.step, bind_ok, ok_inj, Prod.mk.injEq] at h
    obtain ⟨u, _, ⟨s', i⟩, hu, rfl, rfl⟩ := h
    exact ⟨rfl, Nat.le_trans (checkActiveC_length hu) hx, fun _ _ h => by cases h⟩
  | market side qty uid =>
    simp only [Exch.step] at h
    cases hn : NewMarket.new side qty uid with
    | error e =>
      rw [hn] at h; simp only [ok_inj, Prod.mk.injEq] at h
      obtain ⟨rfl, rfl⟩ := h; exact ⟨rfl, hx, fun _ _ h => by cases h⟩
    | ok o =>
      rw [hn] at h; simp only [bind_ok, ok_inj, Prod.mk.injEq] at h
      obtain ⟨⟨s', r'⟩, hm, rfl, rfl⟩ := h
      refine ⟨rfl, ?_, fun _ _ h => by cases h⟩
      show s'.active.length ≤ x.caps.active
      rw [(submitMarket_fields hm).2.2.1]; exact hx
  | limit side price qty uid =>
    simp only [Exch.step] at h
    cases hn : NewLimit.new side price qty uid with
    | error e =>
      rw [hn] at h; simp only [ok_inj, Prod.mk.injEq] at h
      obtain ⟨rfl, rfl⟩ := h; exact ⟨rfl, hx, fun _ _ h => by cases h⟩
    | ok o =>
      rw [hn] at h; simp only [bind_ok, ok_inj, Prod.mk.injEq] at h
      obtain ⟨⟨s', r'⟩, hm, rfl, rfl⟩ := h
      obtain ⟨h1, h2⟩ := submitLimitC_length hm hx
      exact ⟨rfl, h1, fun h0 p hp => h2 h0 p (by simpa using hp)⟩
  | amend id side price qty uid =>
    simp only [Exch.step] at h
    cases hn : NewLimit.new side price qty uid with
    | error e =>
      rw [hn] at h; simp only [ok_inj, Prod.mk.injEq] at h
      obtain ⟨rfl, rfl⟩ := h; exact ⟨rfl, hx, fun _ _ h => by cases h⟩
    | ok o =>
      rw [hn] at h; simp only [bind_ok, ok_inj, Prod.mk.injEq] at h
      obtain ⟨⟨s', r'⟩, hm, rfl, rfl⟩ := h
      obtain ⟨h1, h2⟩ := amendLimitC_length hm hx
      exact ⟨rfl, h1, fun h0 p hp => h2 h0 p (by simpa using hp)⟩
  | cancel by_ =>
    simp only [Exch.step, bind_ok, ok_inj, Prod.mk.injEq] at h
    obtain ⟨⟨s', r'⟩, hm, rfl, rfl⟩ := h
    obtain ⟨h1, h2⟩ := cancelLimit_length hm
    refine ⟨rfl, Nat.le_trans h1 hx, fun h0 p hp => ?_⟩
    exact h2 (List.length_eq_zero_iff.1 (by omega)) p (by simpa using hp)

end Lfest
