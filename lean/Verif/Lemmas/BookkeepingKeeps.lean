import Verif.Lemmas.BookkeepingMemory
import Verif.Lemmas.Accounting

/-!
# Accountings that keep the books, and what an exchange does to any accounting
-/

namespace Lfest.Acct

open Spec

variable {T : Type}

theorem inMemory_transfer {e : Env} {a : Accounts} {d c : AccountId} {x : Int}
    (hs : a.debitSum = a.creditSum) (hx : 0 < x) (hdc : d ≠ c) :
    ∃ a', (inMemory e).transfer a d c x = .ok (.ok a') ∧ transfer e a d c x = .ok a' := by
  obtain ⟨a', ha⟩ := transfer_total (e := e) hs hx hdc
  refine ⟨a', ?_, ha⟩
  rw [← move_mem] at ha
  unfold move at ha
  simp only [bind_ok] at ha
  obtain ⟨_, _, _, _, r, hr, hm⟩ := ha
  rw [hr]
  cases r with
  | error _ => cases hm
  | ok y =>
    cases hm
    rfl

/-- The accounting is good, says what the in-memory accounts hold, and these are balanced. -/
def Match (B : Bookkeeping T) (good : T → Prop) (t : T) (a : Accounts) : Prop :=
  good t ∧ (∀ i, Says B t i (a.balance i)) ∧ a.debitSum = a.creditSum

theorem keeps_lockstep {B : Bookkeeping T} {good : T → Prop} (hk : KeepsBooks B good) (e : Env) :
    Lockstep B (inMemory e) (Match B good) where
  balance t a i h := h.2.1 i
  transfer t a d c x h hx hdc := by
    obtain ⟨hg, hb, hs⟩ := h
    obtain ⟨t', ht, hg', hd, hc, ho⟩ := hk.carries_out t d c x hg hx hdc
    obtain ⟨a', ha, hm⟩ := inMemory_transfer (e := e) hs hx hdc
    rw [ht, ha]
    refine ⟨hg', fun i => ?_, ?_⟩
    · rw [transfer_balance hm i]
      by_cases h1 : i = d
      · subst h1
        rw [if_pos rfl, if_neg hdc]
        simpa using hd _ (hb i)
      · rw [if_neg h1]
        by_cases h2 : i = c
        · subst h2
          rw [if_pos rfl]
          simpa using hc _ (hb i)
        · rw [if_neg h2]
          simpa using ho i _ h1 h2 (hb i)
    · have := transfer_sums hm
      omega

theorem keeps_start {B : Bookkeeping T} {good : T → Prop} (hk : KeepsBooks B good) (x : Int) :
    Match B good (B.new x) (Accounts.new x) := by
  refine ⟨hk.start x, fun i => ?_, ?_⟩
  · cases i
    · simpa [Accounts.new, Accounts.balance, Accounts.get, TAccount.net] using hk.start_wallet x
    all_goals first
      | simpa [Accounts.new, Accounts.balance, Accounts.get, TAccount.net] using
          hk.start_treasury x
      | simpa [Accounts.new, Accounts.balance, Accounts.get, TAccount.net] using
          hk.start_others x _ (by decide) (by decide)
  · simp [Accounts.new, Accounts.debitSum, Accounts.creditSum]

/-- A state over an accounting that keeps the books, and the state of Model/Exchange -/
def Twin (B : Bookkeeping T) (good : T → Prop) (s : State T) (s' : Lfest.State) : Prop :=
  SimS (Match B good) s (ofState s')

theorem twin_init {B : Bookkeeping T} {good : T → Prop} (hk : KeepsBooks B good) (c : Cfg) :
    Twin B good (State.init B c) (Lfest.State.init c) :=
  SimS.mk (keeps_start hk c.start)

theorem twin_step {B : Bookkeeping T} {good : T → Prop} (hk : KeepsBooks B good) {c : Cfg}
    {s : State T} {s' : Lfest.State} (h : Twin B good s s') (op : Op) :
    Sim (fun x y => Twin B good x.1 y.1 ∧ x.2 = y.2) (step B c s op) (Lfest.step c s' op) := by
  have h1 := step_sim (keeps_lockstep hk c.env) (c := c) op h
  have h2 := step_mem c s' op
  revert h1 h2
  cases step B c s op <;> cases step (inMemory c.env) c (ofState s') op <;>
    cases Lfest.step c s' op <;> intro h1 h2
  all_goals first
    | exact h1.elim
    | exact h2.elim
    | exact Eq.trans h1 h2
    | exact ⟨by
        have h3 := h1.1
        rw [show _ = ofState _ from h2.1] at h3
        exact h3, h1.2.trans h2.2⟩

theorem twin_looks {B : Bookkeeping T} {good : T → Prop} {s : State T} {s' : Lfest.State}
    (h : Twin B good s s') : LooksLike B s s' := by
  obtain ⟨ms, log, n, t, t', pos, a, om, tr, up, h, rfl, hs⟩ := h
  cases s'
  simp only [ofState, State.mk.injEq] at hs
  obtain ⟨rfl, rfl, rfl, rfl, rfl, rfl, rfl, rfl, rfl⟩ := hs
  exact ⟨rfl, rfl, rfl, rfl, rfl, rfl, rfl, rfl, h.2.1⟩

theorem twin_transcript {B : Bookkeeping T} {good : T → Prop} (hk : KeepsBooks B good) {c : Cfg}
    (ops : List Op) : ∀ {s : State T} {s' : Lfest.State}, Twin B good s s' →
    (transcript (step B c) s ops).1 = (transcript (Lfest.step c) s' ops).1 ∧
    Sim (Twin B good) (transcript (step B c) s ops).2 (transcript (Lfest.step c) s' ops).2 := by
  induction ops with
  | nil => exact fun h => ⟨rfl, h⟩
  | cons op ops ih =>
    intro s s' h
    have h1 := twin_step hk (c := c) h op
    unfold transcript
    revert h1
    rcases step B c s op with p | ⟨s1, r1⟩ <;> rcases Lfest.step c s' op with q | ⟨s2, r2⟩ <;>
      intro h1
    · exact ⟨rfl, h1⟩
    · exact h1.elim
    · exact h1.elim
    · obtain ⟨h2, h3⟩ := h1
      dsimp only at h2 h3 ⊢
      exact ⟨by rw [h3, (ih h2).1], (ih h2).2⟩

/-! ## Recording the transfers -/

/-- An accounting together with the transfers it was told to carry out, newest last -/
def recording (B : Bookkeeping T) : Bookkeeping (T × List Posting) :=
  { new := fun x => (B.new x, [])
    transfer := fun t d c x => do
      match ← B.transfer t.1 d c x with
      | .error err => .ok (.error err)
      | .ok t' => .ok (.ok (t', t.2 ++ [⟨d, c, x⟩]))
    balance := fun t i => B.balance t.1 i }

theorem posts_append {B : Bookkeeping T} {t' t'' : T} {p : Posting}
    (h : B.transfer t' p.debit p.credit p.amount = .ok (.ok t'')) (ps : List Posting) :
    ∀ {t : T}, Posts B t ps t' → Posts B t (ps ++ [p]) t'' := by
  induction ps with
  | nil =>
    intro t ht
    cases ht
    exact ⟨t'', h, rfl⟩
  | cons q ps ih =>
    rintro t ⟨t1, h1, h2⟩
    exact ⟨t1, h1, ih h2⟩

/-- What the recording accounting has recorded -/
def Recorded (B : Bookkeeping T) (t0 t : T) (x : T × List Posting) : Prop :=
  x.1 = t ∧ (∀ p ∈ x.2, 0 < p.amount ∧ p.debit ≠ p.credit) ∧ Posts B t0 x.2 t

theorem recording_lockstep (B : Bookkeeping T) (t0 : T) :
    Lockstep B (recording B) (Recorded B t0) where
  balance t x i h := by
    obtain ⟨rfl, _⟩ := h
    rfl
  transfer t x d c a h ha hdc := by
    obtain ⟨rfl, hv, hp⟩ := h
    unfold recording
    dsimp only
    rcases ht : B.transfer x.1 d c a with p | (err | t')
    · exact rfl
    · exact rfl
    · refine ⟨rfl, ?_, posts_append (p := ⟨d, c, a⟩) ht _ hp⟩
      intro q hq
      rcases List.mem_append.1 hq with hq | hq
      · exact hv q hq
      · cases List.mem_singleton.1 hq
        exact ⟨ha, hdc⟩

theorem step_posts (B : Bookkeeping T) {c : Cfg} {s s' : State T} {op : Op} {r : Resp}
    (h : step B c s op = .ok (s', r)) :
    ∃ ps : List Posting, (∀ p ∈ ps, 0 < p.amount ∧ p.debit ≠ p.credit) ∧
      Posts B s.acct ps s'.acct := by
  have hs := step_sim (recording_lockstep B s.acct) (c := c) (s := s)
    (s' := ⟨s.ms, s.log, s.nextId, (s.acct, []), s.pos, s.active, s.om, s.trigger, s.updates⟩) op
    (SimS.mk ⟨rfl, fun p hp => (List.not_mem_nil hp).elim, rfl⟩)
  rw [h] at hs
  revert hs
  cases step (recording B) c
      ⟨s.ms, s.log, s.nextId, (s.acct, []), s.pos, s.active, s.om, s.trigger, s.updates⟩ op with
  | error p => exact fun hs => hs.elim
  | ok x =>
    rintro ⟨⟨ms, log, n, t, t', pos, a, om, tr, up, hx, h1, h2⟩, _⟩
    dsimp only at h1
    subst h1
    exact ⟨t'.2, hx.2.1, hx.2.2⟩

/-! ## An accounting that refuses transfers -/

theorem move_refused {B : Bookkeeping T} {t t' : T} {d c : AccountId} {x : Int}
    (hr : ∀ t d c x, ∃ err, B.transfer t d c x = .ok (.error err)) :
    move B t d c x ≠ .ok t' := by
  intro h
  unfold move at h
  simp only [bind_ok] at h
  obtain ⟨_, _, _, _, r, h1, h2⟩ := h
  obtain ⟨err, he⟩ := hr t d c x
  rw [he, ok_inj] at h1
  subst h1
  cases h2

theorem changePosition_refused {B : Bookkeeping T} {e : Env} {imr : Int} {t : T} {pos : Position}
    {q p : Int} {side : Side} {f : Int} {r : Position × T}
    (hr : ∀ t d c x, ∃ err, B.transfer t d c x = .ok (.error err)) :
    changePosition B e imr t pos q p side f ≠ .ok r := by
  have hn : ∀ q f r, innerNew B e imr t q p f ≠ .ok r := by
    intro q f r h
    unfold innerNew at h
    simp only [bind_ok] at h
    obtain ⟨_, _, _, _, _, _, _, h, _⟩ := h
    exact move_refused hr h
  have hi : ∀ i q f r, increase B e imr t i q p f ≠ .ok r := by
    intro i q f r h
    unfold increase at h
    simp only [bind_ok] at h
    obtain ⟨_, _, _, _, _, _, _, _, _, h, _⟩ := h
    exact move_refused hr h
  have hd : ∀ i q d f r, decrease B e imr t i q p d f ≠ .ok r := by
    intro i q d f r h
    unfold decrease at h
    simp only [bind_ok] at h
    obtain ⟨_, _, _, _, _, _, _, _, _, _, _, _, _, _, _, h, _⟩ := h
    exact move_refused hr h
  have ha : ∀ i d same other r, against B e imr t i q p d f same other ≠ .ok r := by
    intro i d same other r h
    unfold against flip at h
    split at h
    · simp only [bind_ok] at h
      obtain ⟨_, h, _⟩ := h
      exact hd _ _ _ _ _ h
    · split at h
      · simp only [bind_ok] at h
        obtain ⟨_, h, _⟩ := h
        exact hd _ _ _ _ _ h
      · simp only [bind_ok] at h
        obtain ⟨_, ⟨_, h, _⟩, _⟩ := h
        exact hd _ _ _ _ _ h
  intro h
  unfold changePosition at h
  simp only [bind_ok] at h
  obtain ⟨_, _, h⟩ := h
  cases pos with
  | neutral =>
    simp only [bind_ok] at h
    obtain ⟨_, _, _, h, _⟩ := h
    exact hn _ _ _ h
  | long i =>
    cases side
    · simp only [bind_ok] at h
      obtain ⟨_, h, _⟩ := h
      exact hi _ _ _ _ h
    · exact ha _ _ _ _ _ h
  | short i =>
    cases side
    · exact ha _ _ _ _ _ h
    · simp only [bind_ok] at h
      obtain ⟨_, h, _⟩ := h
      exact hi _ _ _ _ h

end Lfest.Acct
