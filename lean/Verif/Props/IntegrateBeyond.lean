import Verif.Model.Grid

/-!
# C68: limits beyond the last line
-/

namespace Acoular

/-- **C68 fails for an upper limit beyond the last line.** The frequency data take such a limit as "up to the last line"
(acoular/spectra.py 336-346: the indices are a slice); `integrate` raises IndexError as soon as it reaches the first line that does not exist. -/
theorem C68_beyond_violated {K : Type} [Zero K] (s : IntegrateState) (lo hi : ℕ) (hlo : lo < hi) (hhi : s.lines < hi) (val : ℕ → K) :
    integrateSpectrum s.readResult (some lo) (some hi) val = .error .indexError := by
  have e : integrateRange s.readResult (some lo) (some hi) = ((lo : ℤ), (hi : ℤ)) := by
    unfold integrateRange
    simp only
    rw [if_neg (by omega), if_neg (by omega)]
  have hn : s.readResult.numfreq = s.lines := rfl
  unfold integrateSpectrum
  simp only [e, hn]
  rw [if_neg (by omega), if_pos (Or.inr (by omega))]

/-- The hypotheses of `C68_beyond_violated` are met. -/
example (s : IntegrateState) (h : s.lines = 8) := C68_beyond_violated s 2 9 (by decide) (by omega) (fun k => (k : ℚ))

end Acoular
