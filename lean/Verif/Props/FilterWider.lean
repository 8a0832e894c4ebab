import Verif.Props.FilterDesign
import Mathlib.Tactic.IntervalCases

/-!
# C90: the bands of `FiltFiltOctave`
-/

namespace Acoular

private theorem correction_le (order : ℕ) : 1 ≤ filtfiltCorrection order := by
  unfold filtfiltCorrection
  split <;> norm_num

private theorem correction_lt (order : ℕ) (h0 : 0 < order) (h6 : order ≤ 6) : 1 < filtfiltCorrection order ∧ filtfiltCorrection order ≤ 1.083 := by
  interval_cases order <;> norm_num [filtfiltCorrection]

private theorem correction_high (order : ℕ) (h : 6 < order) : filtfiltCorrection order = 1 := by
  unfold filtfiltCorrection
  split <;> first | omega | rfl

/-- **C90 for zero phase filters.** The band of `FiltFiltOctave` has the same centre as the one of `FiltOctave` with these settings. Up to
order 6 it is wider on both sides, by a factor of at most `1.083 ^ 3` (octaves) or `1.083` (third octaves); from order 7 on there is no
correction and the bands are the same. (That the upper edge stays below half the sampling frequency is missing, `C90_filtfilt_violated`.) -/
theorem C90_filtfilt_partial (fs band : ℝ) (hfs : 0 < fs) (hb : 0 < band) (order : ℕ) (ho : 0 < order) (f : Fraction)
    (d : BandDesign) (h : filtOctaveDesign fs band order f = .ok d) :
    ∃ d', filtfiltOctaveDesign fs band order f = .ok d' ∧ d'.order = d.order ∧ 0 < d'.lower ∧ d'.lower * d'.upper = (2 * band / fs) ^ 2 ∧
      (order ≤ 6 → d'.lower < d.lower ∧ d.upper < d'.upper ∧
        d'.upper ≤ d.upper * 1.083 ^ (match f with | .octave => 3 | .third => 1)) ∧
      (6 < order → d' = d) := by
  have hfr : 0 < 2 * band / fs := by positivity
  obtain ⟨ha, _⟩ := octaveAlpha_bounds order ho f
  have ha0 : 0 < octaveAlpha order f := by linarith
  have hc1 := correction_le order
  unfold filtOctaveDesign at h
  unfold filtfiltOctaveDesign
  dsimp only at h ⊢
  split at h
  · cases h
  rename_i hlim
  cases h
  rw [if_neg hlim]
  generalize hfr' : 2 * band / fs = fr at *
  set c := filtfiltCorrection order ^ (3 / f.val) with hc
  have hcl : 1 ≤ c := one_le_pow₀ hc1
  have hc0 : 0 < c := by linarith
  refine ⟨_, rfl, rfl, by positivity, by field_simp, fun h6 => ?_, fun h6 => ?_⟩
  · obtain ⟨h1, h2⟩ := correction_lt order ho h6
    have hcs : 1 < c := one_lt_pow₀ h1 (by cases f <;> simp [Fraction.val])
    have hup : c ≤ 1.083 ^ (match f with | .octave => 3 | .third => 1) := by
      rw [hc]
      cases f
      · exact pow_le_pow_left₀ (by linarith) h2 3
      · exact pow_le_pow_left₀ (by linarith) h2 1
    refine ⟨?_, ?_, ?_⟩
    · exact div_lt_div_of_pos_left hfr ha0 (by nlinarith)
    · exact mul_lt_mul_of_pos_left (by nlinarith) hfr
    · rw [← mul_assoc]
      exact mul_le_mul_of_nonneg_left hup (by positivity)
  · have : c = 1 := by rw [hc, correction_high order h6, one_pow]
    rw [this, mul_one]

/-- The hypotheses of `C90_filtfilt_partial` are met: 1000 Hz, 48 kHz. -/
example : ∃ d, filtOctaveDesign 48000 1000 3 .third = .ok d := by
  refine ⟨_, if_neg ?_⟩
  have : √2 ≤ 2 := by
    rw [Real.sqrt_le_left (by norm_num)]; norm_num
  rw [gt_iff_lt, not_lt, div_le_div_iff₀ (by norm_num) (by positivity)]
  linarith

end Acoular
