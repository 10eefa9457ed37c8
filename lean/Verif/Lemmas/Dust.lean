import Verif.Lemmas.Reference
import Verif.Lemmas.Safety

/-! The position margin as a function of the fills, and its distance from the exact margin. -/

namespace Lfest

open Spec

structure Locked (c : Cfg) (x : Core) : Prop where
  linv : LInv c x
  eq : x.acct.balance .positionMargin = Ref.locked c (fills x.log)

theorem Locked.step {c : Cfg} {st : Bool} {x y : Core} (h : Locked c x) (k : CoreStep c st x y) :
    Locked c y := by
  refine ⟨h.linv.step k, ?_⟩
  have he := h.eq
  cases k with
  | event ev hev => simpa [fills_plain hev] using he
  | sample mid => simpa [fills_sample] using he
  | reserve v ht =>
    have := transfer_balance ht .positionMargin
    simp at this
    simpa [this] using he
  | release v ht =>
    have := transfer_balance ht .positionMargin
    simp at this
    simpa [this] using he
  | @fill a p l a' p' f full hp hc =>
    simp only [fills_report, Ref.locked]
    rw [changePosition_locked (f := f) h.linv.wf (a.balance .exchangeFee)
      (-c.start - a.balance .treasury) hc]
    have := h.linv.ledger
    simp only at this he
    rw [this, he]

theorem Spec.Reachable.locked {c : Cfg} {s : State} (h : Reachable c s) :
    s.acct.balance .positionMargin = Ref.locked c (fills s.log) := by
  obtain ⟨ops, h⟩ := h
  have : Locked c s.core := (run_core (st := false) h).inv (fun _ _ h k => h.step k) ⟨LInv.init c, by
    simp [State.core, State.init, Accounts.new, Accounts.balance, Accounts.get, TAccount.net, fills,
      Ref.locked]⟩
  exact this.eq

/-- Margin of a quantity at a price against the exact product. -/
theorem initial_bounds {c : Cfg} (hk : c.env.kind = .linear) (hi : 0 ≤ c.spec.initMarginReq)
    {q p : Int} (hq : 0 ≤ q) (hp : 0 ≤ p) :
    Ref.initial c q p * c.scale * c.scale ≤ q * p * c.spec.initMarginReq ∧
    q * p * c.spec.initMarginReq ≤ Ref.initial c q p * c.scale * c.scale + c.scale * c.scale +
      c.scale * c.spec.initMarginReq := by
  have hs := scale_pos c.env
  simp only [Ref.initial, share, value, hk, Cfg.scale]
  obtain ⟨a1, a2, a3⟩ := tdiv_bounds (Int.mul_nonneg hq hp) hs
  generalize (q * p).tdiv c.env.scale = v at *
  obtain ⟨b1, b2, b3⟩ := tdiv_bounds (Int.mul_nonneg a3 hi) hs
  generalize (v * c.spec.initMarginReq).tdiv c.env.scale = m at *
  generalize c.env.scale = S at *
  generalize c.spec.initMarginReq = r at *
  have c1 := Int.mul_le_mul_of_nonneg_right a1 hi
  have c2 := Int.mul_le_mul_of_nonneg_right (Int.le_of_lt a2) hi
  have c3 := Int.mul_le_mul_of_nonneg_right b1 (Int.le_of_lt hs)
  have c4 := Int.mul_le_mul_of_nonneg_right (Int.le_of_lt b2) (Int.le_of_lt hs)
  have e1 : v * r * S = v * S * r := Int.mul_right_comm ..
  rw [Int.add_mul] at c2 c4
  omega

theorem locked_bounds {c : Cfg} (hk : c.env.kind = .linear) (hi : 0 ≤ c.spec.initMarginReq) :
    ∀ fs : List Fill, (∀ f ∈ fs, 0 < f.price ∧ 0 < f.qty) →
    0 ≤ Ref.rounding c fs ∧
    Ref.locked c fs * c.scale * c.scale -
      Spec.abs (ledger c fs).qty * (ledger c fs).entry * c.spec.initMarginReq ≤ Ref.rounding c fs ∧
    Spec.abs (ledger c fs).qty * (ledger c fs).entry * c.spec.initMarginReq -
      Ref.locked c fs * c.scale * c.scale ≤ Ref.rounding c fs := by
  intro fs
  induction fs with
  | nil => intro _; simp [Ref.locked, Ref.rounding, ledger, Ledger.empty, Spec.abs]
  | cons f fs ih =>
    intro hall
    obtain ⟨hp, hq⟩ := hall f (by simp)
    have hall' : ∀ g ∈ fs, 0 < g.price ∧ 0 < g.qty := fun g hg => hall g (by simp [hg])
    obtain ⟨i0, i1, i2⟩ := ih hall'
    have he := ledger_entry c fs hall'
    have hs : 0 < c.scale := scale_pos c.env
    have hss := Int.mul_pos hs hs
    have hsr := Int.mul_nonneg (Int.le_of_lt hs) hi
    simp only [Ref.locked, Ref.rounding, Ref.lockedAfter]
    have habs : 0 ≤ Spec.abs (ledger c (f :: fs)).qty := by unfold Spec.abs; split <;> omega
    have har := Int.mul_nonneg habs hi
    have hexp : (Spec.abs (ledger c (f :: fs)).qty + 3 * c.scale) * c.spec.initMarginReq =
        Spec.abs (ledger c (f :: fs)).qty * c.spec.initMarginReq + 3 * (c.scale * c.spec.initMarginReq) := by
      rw [Int.add_mul, Int.mul_assoc]
    rw [hexp]
    refine ⟨by omega, ?_⟩
    simp only [ledger] at habs har ⊢
    generalize hl : ledger c fs = l at *
    generalize Ref.locked c fs = M at *
    generalize Ref.rounding c fs = R at *
    by_cases h0 : l.qty = 0
    · -- the fill opens a position
      have ho : opposing l.qty f.side = 0 := by rw [h0]; cases f.side <;> simp [opposing, larger]
      rw [if_pos ho]
      rw [fill_open c f h0] at har ⊢
      have ha : Spec.abs f.signed = f.qty := by
        unfold Spec.abs Fill.signed; cases f.side <;> simp only <;> split <;> omega
      simp only [ha] at har ⊢
      rw [h0] at i1 i2
      simp only [show Spec.abs 0 = 0 from rfl, Int.zero_mul] at i1 i2
      obtain ⟨b1, b2⟩ := initial_bounds hk hi (Int.le_of_lt hq) (Int.le_of_lt hp)
      rw [Int.add_mul, Int.add_mul]
      omega
    · by_cases hd : (0 < l.qty ∧ f.side = .buy) ∨ (l.qty < 0 ∧ f.side = .sell)
      · -- the fill enlarges it
        have ho : opposing l.qty f.side = 0 := by
          rcases hd with ⟨h, hd⟩ | ⟨h, hd⟩ <;> rw [hd] <;> simp only [opposing, larger] <;> split <;> omega
        rw [if_pos ho]
        rw [fill_enlarge c h0 hd] at har ⊢
        have ha : Spec.abs (l.qty + f.signed) = Spec.abs l.qty + f.qty := by
          unfold Spec.abs Fill.signed
          rcases hd with ⟨h, hd⟩ | ⟨h, hd⟩ <;> simp only [hd] <;> split <;> split <;> omega
        have hq0 : 0 < Spec.abs l.qty := by unfold Spec.abs; split <;> omega
        simp only [ha] at har ⊢
        obtain ⟨w1, w2, w3⟩ := weighted_bounds c.env he (Int.le_of_lt hp) (Int.le_of_lt hq0)
          (Int.le_of_lt hq) (by omega)
        generalize weighted c.env l.entry (Spec.abs l.qty) f.price f.qty = E at *
        obtain ⟨b1, b2⟩ := initial_bounds hk hi (Int.le_of_lt hq) (Int.le_of_lt hp)
        have m1 := Int.mul_le_mul_of_nonneg_right w2 hi
        have m2 := Int.mul_le_mul_of_nonneg_right (Int.le_of_lt w3) hi
        rw [show c.env.scale = c.scale from rfl] at m2
        rw [Int.add_mul, Int.add_mul]
        rw [Int.mul_comm (Spec.abs l.qty) l.entry] at i1 i2
        rw [Int.mul_comm (Spec.abs l.qty + f.qty) E]
        rw [Int.mul_comm f.qty f.price] at b1 b2
        rw [Int.add_mul] at m1
        simp only [Int.add_mul, Int.mul_assoc 2] at m2
        rw [Int.add_mul] at har
        generalize l.entry * Spec.abs l.qty * c.spec.initMarginReq = x1 at *
        generalize f.price * f.qty * c.spec.initMarginReq = x2 at *
        generalize E * (Spec.abs l.qty + f.qty) * c.spec.initMarginReq = x3 at *
        rw [Int.add_mul (Spec.abs l.qty)]
        omega
      · -- the fill reduces it
        have hq0 : 0 < Spec.abs l.qty := by unfold Spec.abs; split <;> omega
        have ho : opposing l.qty f.side = Spec.abs l.qty := by
          cases hsd : f.side <;> simp only [hsd] at hd <;>
            simp only [opposing, larger, Spec.abs] <;> simp at hd <;> (repeat' split) <;> omega
        rw [if_neg (by omega), ho]
        have hsg : f.signed = f.qty ∧ l.qty < 0 ∨ f.signed = -f.qty ∧ 0 < l.qty := by
          unfold Fill.signed
          cases hsd : f.side <;> simp [hsd] at hd ⊢ <;> omega
        by_cases hle : f.qty ≤ Spec.abs l.qty
        · rw [if_pos hle]
          obtain ⟨b1, b2⟩ := initial_bounds hk hi (Int.le_of_lt hq) he
          have ha : Spec.abs (l.qty + f.signed) = Spec.abs l.qty - f.qty := by
            unfold Spec.abs at hle ⊢
            rcases hsg with ⟨h1, h2⟩ | ⟨h1, h2⟩ <;> rw [h1] <;> split at hle <;> split <;> omega
          have hqty : (l.fill c f).qty = l.qty + f.signed := by
            simp only [Ledger.fill]; rw [if_neg h0, if_neg hd]
          have hent : (Spec.abs l.qty - f.qty) * (l.fill c f).entry =
              (Spec.abs l.qty - f.qty) * l.entry := by
            simp only [Ledger.fill]; rw [if_neg h0, if_neg hd]
            simp only
            split
            · rfl
            · have : Spec.abs l.qty - f.qty = 0 := by omega
              rw [this]; simp
          rw [hqty, ha] at har ⊢
          rw [hent]
          rw [Int.sub_mul M, Int.sub_mul (M * c.scale), Int.sub_mul _ _ l.entry,
            Int.sub_mul (Spec.abs l.qty * l.entry)]
          omega
        · rw [if_neg hle]
          have hq1 : 0 < f.qty - Spec.abs l.qty := by omega
          obtain ⟨b1, b2⟩ := initial_bounds hk hi (Int.le_of_lt hq1) (Int.le_of_lt hp)
          have ha : Spec.abs (l.qty + f.signed) = f.qty - Spec.abs l.qty := by
            unfold Spec.abs at hle ⊢
            rcases hsg with ⟨h1, h2⟩ | ⟨h1, h2⟩ <;> rw [h1] <;> split at hle <;> split <;> omega
          have hqty : (l.fill c f).qty = l.qty + f.signed := by
            simp only [Ledger.fill]; rw [if_neg h0, if_neg hd]
          have hent : (l.fill c f).entry = f.price := by
            simp only [Ledger.fill]; rw [if_neg h0, if_neg hd]
            simp only
            rw [if_neg (by omega), if_neg (by omega)]
          rw [hqty, ha] at har ⊢
          rw [hent]
          omega

end Lfest
