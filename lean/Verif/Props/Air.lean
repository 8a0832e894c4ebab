import Verif.Model.Air
import Mathlib.Tactic.Linarith
import Mathlib.Tactic.NormNum
import Mathlib.Tactic.Positivity
import Mathlib.Tactic.LinearCombination
import Mathlib.Tactic.FieldSimp

/-!
# Property theorems: speed of sound in air (C103)
-/

namespace Acoular

section Lemmas

private theorem psv_mono {s t : ℝ} (hs : 273 < s) (ht : t < 304) (hst : s < t) :
    1.2378847 * (10 : ℝ) ^ (-5 : ℤ) * s ^ 2 + -1.9121316 * (10 : ℝ) ^ (-2 : ℤ) * s + 33.93711047 +
      -6.3431645 * (10 : ℝ) ^ (3 : ℕ) / s <
    1.2378847 * (10 : ℝ) ^ (-5 : ℤ) * t ^ 2 + -1.9121316 * (10 : ℝ) ^ (-2 : ℤ) * t + 33.93711047 +
      -6.3431645 * (10 : ℝ) ^ (3 : ℕ) / t := by
  have hs0 : 0 < s := by linarith
  have ht0 : 0 < t := by linarith
  have hinv : (t - s) / 92416 ≤ 1 / s - 1 / t := by
    rw [div_sub_div _ _ hs0.ne' ht0.ne', div_le_div_iff₀ (by norm_num) (by positivity)]
    have : s * t ≤ 92416 := by nlinarith
    nlinarith
  have hd : 0 < t - s := by linarith
  have e : ∀ x : ℝ, -6.3431645 * (10 : ℝ) ^ (3 : ℕ) / x = -6343.1645 * (1 / x) := by intro x; ring
  rw [e, e]
  norm_num
  have h1 : 0 < (t - s) * (s + t) := by positivity
  have hinv' : (t - s) / 92416 ≤ s⁻¹ - t⁻¹ := by simpa using hinv
  nlinarith

private theorem mole_mono_t {h p s t : ℝ} (hh : 0 ≤ h) (hp : 0 < p) (hs : 273 < s) (ht : t < 304) (hst : s < t) :
    moleFraction h s p ≤ moleFraction h t p := by
  unfold moleFraction
  simp only
  have hE := Real.exp_le_exp.2 (psv_mono hs ht hst).le
  apply div_le_div_of_nonneg_right _ hp.le
  have hsq : s ^ 2 ≤ t ^ 2 := by nlinarith
  apply mul_le_mul _ hE (Real.exp_pos _).le (by positivity)
  apply mul_le_mul_of_nonneg_left _ hh
  have : 5.6 * (10 : ℝ) ^ (-7 : ℤ) * s ^ 2 ≤ 5.6 * (10 : ℝ) ^ (-7 : ℤ) * t ^ 2 :=
    mul_le_mul_of_nonneg_left hsq (by positivity)
  linarith

private theorem mole_linear (h t p : ℝ) : moleFraction h t p = h * moleFraction 1 t p := by
  unfold moleFraction
  simp only
  ring

private theorem mole_one_pos {t p : ℝ} (hp : 0 < p) : 0 < moleFraction 1 t p := by
  unfold moleFraction
  simp only
  positivity

private theorem poly_mono_t {s t x p c : ℝ} (hs : 0 ≤ s) (ht : t ≤ 30) (hst : s < t) (hx : 0 ≤ x) (hp : 0 ≤ p)
    (hc0 : 0 ≤ c) (hc1 : c ≤ 0.01) : airPoly s x p c < airPoly t x p c := by
  have hd : 0 < t - s := by linarith
  have key : airPoly t x p c - airPoly s x p c = (t - s) * (0.603055 - 0.000528 * (s + t) +
      (0.1495874 - 0.000782 * (s + t)) * x + (3.73e-8 - 2.93e-10 * (s + t)) * p +
      (-0.228525 + 5.91e-5 * (s + t)) * c) := by
    unfold airPoly; norm_num; ring
  have hsum : s + t ≤ 60 := by linarith
  have h1 : 0 ≤ (0.1495874 - 0.000782 * (s + t)) * x := mul_nonneg (by linarith) hx
  have h2 : 0 ≤ (3.73e-8 - 2.93e-10 * (s + t)) * p := mul_nonneg (by linarith) hp
  have h3 : -0.01 ≤ (-0.228525 + 5.91e-5 * (s + t)) * c := by
    have : 0 ≤ 5.91e-5 * (s + t) * c := by
      apply mul_nonneg _ hc0; linarith
    linarith
  have : 0 < 0.603055 - 0.000528 * (s + t) + (0.1495874 - 0.000782 * (s + t)) * x +
      (3.73e-8 - 2.93e-10 * (s + t)) * p + (-0.228525 + 5.91e-5 * (s + t)) * c := by linarith
  have := mul_pos hd this
  linarith

private theorem poly_mono_x {t x y p c : ℝ} (ht0 : 0 ≤ t) (ht : t ≤ 30) (hxy : x < y) (hy : y ≤ 0.06)
    (hp : 0 ≤ p) (hc0 : 0 ≤ c) : airPoly t x p c < airPoly t y p c := by
  have hd : 0 < y - x := by linarith
  have key : airPoly t y p c - airPoly t x p c = (y - x) * (51.471935 + 0.1495874 * t - 0.000782 * t ^ 2 -
      2.835149 * (x + y) + 0.000486 * p * c) := by
    unfold airPoly; norm_num; ring
  have h1 : 0 ≤ p * c := mul_nonneg hp hc0
  have h2 : t ^ 2 ≤ 900 := by nlinarith
  have : 0 < 51.471935 + 0.1495874 * t - 0.000782 * t ^ 2 - 2.835149 * (x + y) + 0.000486 * p * c := by
    have : 0 ≤ 0.000486 * p * c := by rw [mul_assoc]; positivity
    linarith
  have := mul_pos hd this
  linarith

private theorem poly_anti_c {t x p c d : ℝ} (ht0 : 0 ≤ t) (ht : t ≤ 30) (hx : x ≤ 0.06)
    (hp0 : 0 ≤ p) (hp : p ≤ 110000) (hcd : c < d) (hd1 : d ≤ 0.01) : airPoly t x p d < airPoly t x p c := by
  have hd : 0 < d - c := by linarith
  have key : airPoly t x p c - airPoly t x p d = (d - c) * (85.20931 + 0.228525 * t - 5.91e-5 * t ^ 2 -
      29.179762 * (c + d) - 0.000486 * x * p) := by
    unfold airPoly; norm_num; ring
  have h1 : x * p ≤ 0.06 * 110000 := mul_le_mul hx hp hp0 (by norm_num)
  have h2 : t ^ 2 ≤ 900 := by nlinarith
  have : 0 < 85.20931 + 0.228525 * t - 5.91e-5 * t ^ 2 - 29.179762 * (c + d) - 0.000486 * x * p := by
    have : 0.000486 * x * p ≤ 0.000486 * (0.06 * 110000) := by
      rw [mul_assoc]; exact mul_le_mul_of_nonneg_left h1 (by norm_num)
    linarith
  have := mul_pos hd this
  linarith

private theorem ok_inv {t h p co2 c : ℝ} (hc : cAir t h p co2 = .ok c) :
    (0 ≤ t ∧ t ≤ 30) ∧ (60000 ≤ p ∧ p ≤ 110000) ∧ moleFraction (h / 100) (t + 273.15) p ≤ 0.06 ∧ co2 ≤ 1 ∧
      c = airPoly t (moleFraction (h / 100) (t + 273.15) p) p (co2 / 100) := by
  unfold cAir at hc
  split at hc
  · cases hc
  rename_i h1
  split at hc
  · cases hc
  rename_i h2
  simp only at hc
  split at hc
  · cases hc
  rename_i h3
  split at hc
  · cases hc
  rename_i h4
  push Not at h1 h2 h3 h4
  injection hc with hc
  exact ⟨h1, h2, h3, h4, hc.symm⟩

private theorem ok_intro {t h p co2 : ℝ} (ht : 0 ≤ t ∧ t ≤ 30) (hp : 60000 ≤ p ∧ p ≤ 110000)
    (hx : moleFraction (h / 100) (t + 273.15) p ≤ 0.06) (hc : co2 ≤ 1) :
    cAir t h p co2 = .ok (airPoly t (moleFraction (h / 100) (t + 273.15) p) p (co2 / 100)) := by
  unfold cAir
  rw [if_neg (by push Not; exact ht), if_neg (by push Not; exact hp)]
  simp only
  rw [if_neg (not_lt.2 hx), if_neg (not_lt.2 hc)]

private theorem mole_nonneg {h t p : ℝ} (hh : 0 ≤ h) (hp : 0 < p) : 0 ≤ moleFraction h t p := by
  rw [mole_linear]
  exact mul_nonneg hh (mole_one_pos hp).le

end Lemmas

/-- **C103.** For humidities and concentrations that are not negative, every value that `c_air` returns lies between 330
and 353 m/s. -/
theorem C103_range (t h p co2 c : ℝ) (hh : 0 ≤ h) (hco2 : 0 ≤ co2) (hc : cAir t h p co2 = .ok c) : 330 < c ∧ c < 353 := by
  obtain ⟨⟨t0, t1⟩, ⟨p0, p1⟩, hx, hco, rfl⟩ := ok_inv hc
  have hx0 : 0 ≤ moleFraction (h / 100) (t + 273.15) p := mole_nonneg (by positivity) (by linarith)
  generalize moleFraction (h / 100) (t + 273.15) p = x at hx hx0
  have hxc0 : 0 ≤ co2 / 100 := by positivity
  have hxc1 : co2 / 100 ≤ 0.01 := by linarith
  generalize co2 / 100 = y at hxc0 hxc1
  have hp2 : p ^ 2 ≤ 110000 ^ 2 := pow_le_pow_left₀ (by linarith) p1 2
  have hb : ∀ q : ℝ, 60000 ≤ q → q ≤ 110000 → q ^ 2 ≤ 110000 ^ 2 → 330 < airPoly 0 0 q 0.01 ∧ airPoly 30 0.06 q 0 < 353 := by
    intro q q0 q1 q2
    unfold airPoly
    norm_num at q2 ⊢
    have q3 : 0 ≤ q ^ 2 := sq_nonneg q
    constructor <;> linarith
  have mt : ∀ {s u x c : ℝ}, 0 ≤ s → u ≤ 30 → s ≤ u → 0 ≤ x → 0 ≤ c → c ≤ 0.01 → airPoly s x p c ≤ airPoly u x p c := by
    intro s u x c h1 h2 h3 h4 h5 h6
    rcases h3.lt_or_eq with h | rfl
    · exact (poly_mono_t h1 h2 h h4 (by linarith) h5 h6).le
    · exact le_refl _
  have mx : ∀ {s x z c : ℝ}, 0 ≤ s → s ≤ 30 → x ≤ z → z ≤ 0.06 → 0 ≤ c → airPoly s x p c ≤ airPoly s z p c := by
    intro s x z c h1 h2 h3 h4 h5
    rcases h3.lt_or_eq with h | rfl
    · exact (poly_mono_x h1 h2 h h4 (by linarith) h5).le
    · exact le_refl _
  have mc : ∀ {s x c d : ℝ}, 0 ≤ s → s ≤ 30 → x ≤ 0.06 → c ≤ d → d ≤ 0.01 → airPoly s x p d ≤ airPoly s x p c := by
    intro s x c d h1 h2 h4 h5 h6
    rcases h5.lt_or_eq with h | rfl
    · exact (poly_anti_c h1 h2 h4 (by linarith) p1 h h6).le
    · exact le_refl _
  obtain ⟨b1, b2⟩ := hb p p0 p1 hp2
  constructor
  · have s1 := mc (s := 0) (x := 0) (c := y) (d := 0.01) (le_refl _) (by norm_num) (by norm_num) hxc1 (le_refl _)
    have s2 := mx (s := 0) (x := 0) (z := x) (c := y) (le_refl _) (by norm_num) hx0 hx hxc0
    have s3 := mt (s := 0) (u := t) (x := x) (c := y) (le_refl _) t1 t0 hx0 hxc0 hxc1
    linarith
  · have s1 := mt (s := t) (u := 30) (x := x) (c := y) t0 (le_refl _) t1 hx0 hxc0 hxc1
    have s2 := mx (s := 30) (x := x) (z := 0.06) (c := y) (by norm_num) (le_refl _) hx (le_refl _) hxc0
    have s3 := mc (s := 30) (x := 0.06) (c := 0) (d := y) (by norm_num) (le_refl _) (le_refl _) hxc0 hxc1
    linarith

/-- **C103.** At fixed humidity, pressure and concentration the speed of sound grows with the temperature; if a value is
returned for the higher temperature, one is returned for the lower one. -/
theorem C103_temperature (s t h p co2 c : ℝ) (hs : 0 ≤ s) (hst : s < t) (hh : 0 ≤ h) (hco2 : 0 ≤ co2)
    (hc : cAir t h p co2 = .ok c) : ∃ d, cAir s h p co2 = .ok d ∧ d < c := by
  obtain ⟨⟨t0, t1⟩, ⟨p0, p1⟩, hx, hco, rfl⟩ := ok_inv hc
  have hm := mole_mono_t (h := h / 100) (p := p) (s := s + 273.15) (t := t + 273.15) (by positivity) (by linarith)
    (by linarith) (by linarith) (by linarith)
  refine ⟨_, ok_intro ⟨hs, by linarith⟩ ⟨p0, p1⟩ (hm.trans hx) hco, ?_⟩
  have hx0 : 0 ≤ moleFraction (h / 100) (s + 273.15) p := mole_nonneg (by positivity) (by linarith)
  have h1 := poly_mono_t (s := s) (t := t) (x := moleFraction (h / 100) (s + 273.15) p) (p := p) (c := co2 / 100) hs t1 hst
    hx0 (by linarith) (by positivity) (by linarith)
  rcases hm.lt_or_eq with h2 | h2
  · have := poly_mono_x (t := t) (p := p) (c := co2 / 100) t0 t1 h2 hx (by linarith) (by positivity)
    linarith
  · rw [← h2]; exact h1

/-- **C103.** The speed of sound grows with the humidity. -/
theorem C103_humidity (t g h p co2 c : ℝ) (hgh : g < h) (hco2 : 0 ≤ co2) (hc : cAir t h p co2 = .ok c) :
    ∃ d, cAir t g p co2 = .ok d ∧ d < c := by
  obtain ⟨⟨t0, t1⟩, ⟨p0, p1⟩, hx, hco, rfl⟩ := ok_inv hc
  have hp : 0 < p := by linarith
  have hm : moleFraction (g / 100) (t + 273.15) p < moleFraction (h / 100) (t + 273.15) p := by
    rw [mole_linear, mole_linear (h / 100)]
    exact mul_lt_mul_of_pos_right (by linarith) (mole_one_pos hp)
  exact ⟨_, ok_intro ⟨t0, t1⟩ ⟨p0, p1⟩ (hm.le.trans hx) hco, poly_mono_x t0 t1 hm hx hp.le (by positivity)⟩

/-- **C103.** The speed of sound falls with the concentration of carbon dioxide. -/
theorem C103_co2 (t h p co2 co2' c : ℝ) (hlt : co2 < co2') (hc : cAir t h p co2' = .ok c) :
    ∃ d, cAir t h p co2 = .ok d ∧ c < d := by
  obtain ⟨⟨t0, t1⟩, ⟨p0, p1⟩, hx, hco, rfl⟩ := ok_inv hc
  have hp : 0 < p := by linarith
  exact ⟨_, ok_intro ⟨t0, t1⟩ ⟨p0, p1⟩ hx (by linarith),
    poly_anti_c t0 t1 hx hp.le p1 (by linarith) (by linarith)⟩

/-- **C103.** `ValueError` is raised if the temperature or the pressure is out of range, or the concentration is above
one percent. -/
theorem C103_error (t h p co2 : ℝ) (hout : t < 0 ∨ 30 < t ∨ p < 60000 ∨ 110000 < p ∨ 1 < co2) :
    cAir t h p co2 = .error .valueError := by
  cases hc : cAir t h p co2 with
  | error e =>
    unfold cAir at hc
    split at hc
    · exact hc.symm
    split at hc
    · exact hc.symm
    simp only at hc
    split at hc
    · exact hc.symm
    split at hc
    · exact hc.symm
    · cases hc
  | ok c =>
    obtain ⟨⟨t0, t1⟩, ⟨p0, p1⟩, _, hco, _⟩ := ok_inv hc
    rcases hout with h | h | h | h | h <;> linarith

/-- Negative humidities are not refused, whatever the temperature and pressure in range: a (negative) humidity can be
found for which the returned speed of sound is negative. -/
theorem C103_negative_violated (t p : ℝ) (ht : 0 ≤ t ∧ t ≤ 30) (hp : 60000 ≤ p ∧ p ≤ 110000) :
    ∃ h c, cAir t h p 0 = .ok c ∧ c < 0 := by
  have hp0 : 0 < p := by linarith
  have hm := mole_one_pos (t := t + 273.15) hp0
  refine ⟨-100 * (100 / moleFraction 1 (t + 273.15) p), airPoly t (-100) p 0, ?_, ?_⟩
  · have hx : moleFraction (-100 * (100 / moleFraction 1 (t + 273.15) p) / 100) (t + 273.15) p = -100 := by
      rw [mole_linear]
      field_simp
    have := ok_intro (t := t) (h := -100 * (100 / moleFraction 1 (t + 273.15) p)) (p := p) (co2 := 0) ht hp
      (by rw [hx]; norm_num) (by norm_num)
    rw [hx] at this
    simpa using this
  · obtain ⟨t0, t1⟩ := ht
    have h2 : t ^ 2 ≤ 900 := by nlinarith
    have h3 : 0 ≤ t ^ 2 := sq_nonneg t
    have h4 : 0 ≤ p ^ 2 := sq_nonneg p
    have h5 : t * p ≤ 30 * p := mul_le_mul_of_nonneg_right t1 hp0.le
    have h6 : 0 ≤ t ^ 2 * p := by positivity
    unfold airPoly
    norm_num
    nlinarith

/-- The hypotheses of the theorems are met by humid air: there is a positive humidity for which the mole fraction is one
percent, at 20 degrees, normal pressure and 0.04 percent. -/
example : ∃ h c, 0 < h ∧ cAir 20 h 101325 0.04 = .ok c := by
  have hm := mole_one_pos (t := 20 + 273.15) (p := 101325) (by norm_num)
  refine ⟨1 / moleFraction 1 (20 + 273.15) 101325, _, by positivity,
    ok_intro (by norm_num) (by norm_num) ?_ (by norm_num)⟩
  rw [mole_linear]
  have : 1 / moleFraction 1 (20 + 273.15) 101325 / 100 * moleFraction 1 (20 + 273.15) 101325 = 0.01 := by
    field_simp; norm_num
  rw [this]; norm_num

/-- And by dry air at 20 degrees, normal pressure, 0.04 percent. -/
example : ∃ c, cAir 20 0 101325 0.04 = .ok c := by
  refine ⟨_, ok_intro (by norm_num) (by norm_num) ?_ (by norm_num)⟩
  rw [mole_linear]
  norm_num

private theorem dry (t co2 : ℝ) (ht : 0 ≤ t) (ht' : t ≤ 30) (hc : co2 ≤ 1) : ∃ c, cAir t 0 101325 co2 = .ok c := by
  refine ⟨_, ok_intro ⟨ht, ht'⟩ (by norm_num) ?_ hc⟩
  rw [mole_linear]
  norm_num

/-- The hypotheses of `C103_range`, `C103_temperature`, `C103_humidity`, `C103_co2` are met by dry air (humidity is then compared with
a negative value, see the example above for humid air). -/
example : ∃ c, (330 < c ∧ c < 353) ∧ (∃ d, cAir 10 0 101325 (1 / 25) = .ok d ∧ d < c) ∧
    (∃ d, cAir 20 (-1) 101325 (1 / 25) = .ok d ∧ d < c) ∧ ∃ d, cAir 20 0 101325 0 = .ok d ∧ c < d := by
  obtain ⟨c, h⟩ := dry 20 (1 / 25) (by norm_num) (by norm_num) (by norm_num)
  exact ⟨c, C103_range _ _ _ _ c (by norm_num) (by norm_num) h, C103_temperature 10 20 _ _ _ c (by norm_num) (by norm_num) (by norm_num) (by norm_num) h,
    C103_humidity _ (-1) 0 _ _ c (by norm_num) (by norm_num) h, C103_co2 _ _ _ 0 _ c (by norm_num) h⟩

/-- The hypotheses of `C103_error` are met: -/
example := C103_error (-5) 0 101325 0 (.inl (by norm_num))

end Acoular
