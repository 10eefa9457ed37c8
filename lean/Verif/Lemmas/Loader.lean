import Verif.Model.Loader
import Verif.Lemmas.Monad

/-! Loaded trades. -/

namespace Lfest

theorem loadRow_ok {r : CsvRow} {t : Trade} (h : loadRow r = .ok t) :
    r.size ≠ 0 ∧ t = ⟨r.tsMs * 1000000, r.price, r.size, if r.size < 0 then .sell else .buy⟩ := by
  simp only [loadRow, bind_ok, assertP_ok, ok_inj] at h
  obtain ⟨_, h, rfl⟩ := h
  exact ⟨h, rfl⟩

theorem loadRows_ok {rs : List CsvRow} {ts : List Trade} (h : loadRows rs = .ok ts) :
    ts = rs.map (fun r => ⟨r.tsMs * 1000000, r.price, r.size, if r.size < 0 then .sell else .buy⟩) ∧
    ∀ r ∈ rs, r.size ≠ 0 := by
  induction rs generalizing ts with
  | nil => simp only [loadRows, ok_inj] at h; subst h; simp
  | cons r rs ih =>
    simp only [loadRows, bind_ok, ok_inj] at h
    obtain ⟨t, ht, ts', hts, rfl⟩ := h
    obtain ⟨e1, e2⟩ := ih hts
    obtain ⟨h1, h2⟩ := loadRow_ok ht
    subst e1 h2
    refine ⟨rfl, ?_⟩
    intro x hx
    rcases List.mem_cons.1 hx with rfl | hx
    · exact h1
    · exact e2 x hx

end Lfest
