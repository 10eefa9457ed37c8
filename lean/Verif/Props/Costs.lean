import Verif.Props.Tracker
import Verif.Props.Ledger
import Verif.Lemmas.Arith
import Verif.Examples

/-!
# Fees and turnover: C116
-/

namespace Lfest

open Spec

theorem feeSum_bounds {c : Cfg} {lo hi : Int} (h0 : 0 ≤ lo) (hm : lo ≤ c.spec.feeMaker)
    (hm' : c.spec.feeMaker ≤ hi) (ht : lo ≤ c.spec.feeTaker) (ht' : c.spec.feeTaker ≤ hi) :
    ∀ fs : List Fill, (∀ f ∈ fs, 0 < f.price ∧ 0 < f.qty) →
    feeSum c fs * c.scale ≤ hi * (fs.map (fun f => value c.env f.qty f.price)).sum ∧
    lo * (fs.map (fun f => value c.env f.qty f.price)).sum ≤
      feeSum c fs * c.scale + fs.length * (c.scale - 1)
  | [], _ => by simp [feeSum]
  | f :: fs, h => by
    obtain ⟨h1, h2⟩ := feeSum_bounds h0 hm hm' ht ht' fs (fun x hx => h x (by simp [hx]))
    obtain ⟨hp, hq⟩ := h f (by simp)
    have hv : 0 ≤ value c.env f.qty f.price := value_nonneg _ (by omega) (by omega)
    have hs := cscale_pos c
    have hr : lo ≤ (if f.maker = true then c.spec.feeMaker else c.spec.feeTaker) ∧
        (if f.maker = true then c.spec.feeMaker else c.spec.feeTaker) ≤ hi := by
      split <;> constructor <;> assumption
    generalize hrr : (if f.maker = true then c.spec.feeMaker else c.spec.feeTaker) = r at hr
    have hfee : f.fee c = (value c.env f.qty f.price * r).tdiv c.scale := by
      simp only [Fill.fee, share, hrr]; rfl
    simp only [feeSum, List.map_cons, List.sum_cons, List.length_cons, hfee]
    generalize value c.env f.qty f.price = v at *
    obtain ⟨b1, b2, _⟩ := tdiv_bounds (Int.mul_nonneg hv (by omega : 0 ≤ r)) hs
    have c1 := Int.mul_le_mul_of_nonneg_left hr.1 hv
    have c2 := Int.mul_le_mul_of_nonneg_left hr.2 hv
    have e1 : lo * v = v * lo := Int.mul_comm _ _
    have e2 : hi * v = v * hi := Int.mul_comm _ _
    rw [Int.mul_add, Int.mul_add, Int.add_mul]
    push_cast
    rw [Int.add_mul]
    omega

/-- C116: the fees follow from what the account tracker shows. With fee rates between `lo` and `hi`,
not negative, all fees charged so far are at most the share `hi` of the turnover, and at least its
share `lo` less one unit in the last place per fill (`fees * scale` is compared, so nothing is
rounded). With a single fee rate this fixes them up to one unit per fill. -/
theorem C116_fees_of_turnover (c : Cfg) (ops : List Op) (s : State) (start lo hi : Int)
    (t : FullTracker) (h : run c (State.init c) ops = .ok s)
    (ht : FullTracker.replay c.env start s.log = .ok t) (h0 : 0 ≤ lo)
    (hm : lo ≤ c.spec.feeMaker ∧ c.spec.feeMaker ≤ hi)
    (hk : lo ≤ c.spec.feeTaker ∧ c.spec.feeTaker ≤ hi) :
    let fees := s.feesPaid + s.pos.outstandingFees
    let count : Int := t.filledLimitEvents + t.filledMarket
    fees * c.scale ≤ hi * t.turnover ∧
    lo * t.turnover ≤ fees * c.scale + count * (c.scale - 1) := by
  have hr : Reachable c s := ⟨ops, h⟩
  have h1 := C04_fee_schedule c ops s h (by omega) (by omega)
  have hstart : 0 < start := by
    have : ∀ (l : List Event) (t : FullTracker),
        FullTracker.replay c.env start l = .ok t → 0 < start := by
      intro l
      induction l with
      | nil => intro t h; exact (new_ok (replay_nil h)).1
      | cons ev l ih => intro t h; obtain ⟨t0, h0, _⟩ := replay_cons h; exact ih t0 h0
    exact this _ _ ht
  obtain ⟨-, -, h2⟩ := C51_volumes c s start t hr hstart ht
  obtain ⟨-, h3⟩ := C50_fill_counters c s start t hr ht
  obtain ⟨h4, h5⟩ := feeSum_bounds h0 hm.1 hm.2 hk.1 hk.2 (fills s.log) hr.fill_price
  simp only
  rw [h1, h2]
  refine ⟨h4, ?_⟩
  have : ((t.filledLimitEvents : Int) + t.filledMarket) = (fills s.log).length := by
    rw [← h3]; push_cast; rfl
  rw [this]
  exact h5

/-- Two fills worth 505 and 220: the fees are 0.303 + 0.044, between 0.02% and 0.06% of the
turnover of 725. -/
example : Ex.tracked Ex.lin Ex.ops2 (fun s _ t => decide
    (t.turnover = Ex.d 725 ∧ s.feesPaid + s.pos.outstandingFees = 34700 ∧
      t.filledLimitEvents + t.filledMarket = 2 ∧ Ex.lin.spec.feeMaker = 20 ∧
      Ex.lin.spec.feeTaker = 60 ∧ 34700 * Ex.lin.scale ≤ 60 * Ex.d 725 ∧
      20 * Ex.d 725 ≤ 34700 * Ex.lin.scale)) = true := by decide +kernel

/-- C116: the allowance per fill is needed: fills of which the rate takes less than one unit pay
nothing, however many there are. -/
theorem C116_small_fills_are_free (c : Cfg) (ops : List Op) (s : State)
    (h : run c (State.init c) ops = .ok s) (hm : 0 ≤ c.spec.feeMaker) (ht : 0 ≤ c.spec.feeTaker)
    (hs : ∀ f ∈ fills s.log, value c.env f.qty f.price * c.spec.feeMaker < c.scale ∧
      value c.env f.qty f.price * c.spec.feeTaker < c.scale) :
    s.feesPaid + s.pos.outstandingFees = 0 := by
  have hr : Reachable c s := ⟨ops, h⟩
  rw [C04_fee_schedule c ops s h hm ht]
  have hp := hr.fill_price
  generalize fills s.log = fs at hs hp
  induction fs with
  | nil => rfl
  | cons f fs ih =>
    obtain ⟨h1, h2⟩ := hp f (by simp)
    obtain ⟨h3, h4⟩ := hs f (by simp)
    have hv : 0 ≤ value c.env f.qty f.price := value_nonneg _ (by omega) (by omega)
    have : f.fee c = 0 := by
      unfold Fill.fee share
      split
      · exact Int.tdiv_eq_zero_of_lt (Int.mul_nonneg hv hm) h3
      · exact Int.tdiv_eq_zero_of_lt (Int.mul_nonneg hv ht) h4
    simp only [feeSum, this]
    rw [ih (fun x hx => hs x (by simp [hx])) (fun x hx => hp x (by simp [hx]))]
    rfl

/-- Ten purchases of a hundred-thousandth at 101, without fees. -/
example : Ex.tracked Ex.fine
    (.update (.bba ⟨Ex.d 100, Ex.d 101, 1⟩) :: List.replicate 10 (.market .buy 1 1))
    (fun s _ t => decide (s.pos.quantity = 10 ∧ t.turnover = 1010 ∧ s.feesPaid = 0 ∧
      s.pos.outstandingFees = 0)) = true := by decide +kernel

end Lfest
