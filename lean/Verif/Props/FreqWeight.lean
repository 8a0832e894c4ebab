import Verif.Model.FreqWeight
import Mathlib.Analysis.SpecialFunctions.Complex.Log
import Mathlib.Tactic.FieldSimp
import Mathlib.Tactic.LinearCombination
import Mathlib.Tactic.ComputeDegree

/-!
# C113: frequency weighting filters
-/

namespace Acoular

open Real Polynomial

/-- Transfer function of a pair of numerator and denominator. -/
noncomputable def Spec.transferFn (p : ℝ[X] × ℝ[X]) (z : ℂ) : ℂ := aeval z p.1 / aeval z p.2

/-- Squared gain of the weighting curves of IEC 61672 at the frequency `f`, with the frequencies of the poles and the
gains `10^(1.9997/20)` and `10^(0.0619/20)` of the standard. -/
noncomputable def Spec.weightCurveSq : FreqWeight → ℝ → ℝ
  | .A, f => (10 : ℝ) ^ (1.9997 / 10 : ℝ) * (12194.217 ^ 2 * f ^ 4) ^ 2 /
      ((f ^ 2 + 20.598997 ^ 2) ^ 2 * (f ^ 2 + 107.65265 ^ 2) * (f ^ 2 + 737.86223 ^ 2) * (f ^ 2 + 12194.217 ^ 2) ^ 2)
  | .C, f => (10 : ℝ) ^ (0.0619 / 10 : ℝ) * (12194.217 ^ 2 * f ^ 2) ^ 2 /
      ((f ^ 2 + 20.598997 ^ 2) ^ 2 * (f ^ 2 + 12194.217 ^ 2) ^ 2)
  | .Z, _ => 1

open Spec

/-! ## The bilinear transform -/

private theorem bilinear_eval (M : ℕ) (fs : ℝ) (p : ℝ[X]) (hp : p.natDegree ≤ M) (z : ℂ) (hz : z + 1 ≠ 0) :
    aeval z (bilinearPoly M fs p) = (z + 1) ^ M * aeval (2 * fs * ((z - 1) / (z + 1))) p := by
  rw [aeval_eq_sum_range' (p := p) (n := M + 1) (by omega), Finset.mul_sum]
  unfold bilinearPoly
  rw [map_sum]
  refine Finset.sum_congr rfl fun i hi => ?_
  have hi' : i ≤ M := by simpa [Nat.lt_succ_iff] using hi
  simp only [map_mul, map_pow, map_sub, map_add, aeval_X, map_one, aeval_C, Algebra.smul_def, mul_pow, div_pow]
  rw [← Nat.sub_add_cancel hi', pow_add, Nat.sub_add_cancel hi']
  simp only [Complex.coe_algebraMap]
  push_cast
  field_simp

private theorem bilinear_eval_neg_one (M : ℕ) (fs : ℝ) (p : ℝ[X]) :
    aeval (-1 : ℂ) (bilinearPoly M fs p) = p.coeff M * (2 * fs) ^ M * (-2) ^ M := by
  unfold bilinearPoly
  rw [map_sum, Finset.sum_range_succ, Finset.sum_eq_zero]
  · simp only [map_mul, map_pow, map_sub, aeval_X, map_one, aeval_C, zero_add, Nat.sub_self, pow_zero, mul_one,
      Complex.coe_algebraMap]
    push_cast
    norm_num
  · intro i hi
    have : i < M := by simpa using hi
    simp only [map_mul, map_pow, map_sub, map_add, aeval_X, map_one, aeval_C]
    rw [show (-1 + 1 : ℂ) = 0 by ring, zero_pow (by omega), mul_zero]

/-- The map of the bilinear transform takes the outside of the unit circle to the right half plane. -/
private theorem re_nonneg {fs : ℝ} (hfs : 0 < fs) {z : ℂ} (hz : 1 ≤ ‖z‖) (h1 : z + 1 ≠ 0) :
    0 ≤ (2 * fs * ((z - 1) / (z + 1)) : ℂ).re := by
  have e : (2 * fs * ((z - 1) / (z + 1)) : ℂ) = ((2 * fs : ℝ) : ℂ) * ((z - 1) / (z + 1)) := by push_cast; ring
  rw [e, Complex.re_ofReal_mul, Complex.div_re]
  have hn : 1 ≤ Complex.normSq z := by
    rw [Complex.normSq_eq_norm_sq]; nlinarith
  rw [Complex.normSq_apply] at hn
  have hp : 0 < Complex.normSq (z + 1) := Complex.normSq_pos.2 h1
  rw [← add_div]
  apply mul_nonneg (by positivity)
  apply div_nonneg _ hp.le
  simp only [Complex.sub_re, Complex.add_re, Complex.one_re, Complex.sub_im, Complex.add_im, Complex.one_im]
  nlinarith

/-- On the unit circle the transfer function is that of the analog filter at a warped frequency. -/
private theorem unit_circle (t : ℝ) (h0 : cos (t / 2) ≠ 0) :
    Complex.exp (t * Complex.I) + 1 ≠ 0 ∧
      (Complex.exp (t * Complex.I) - 1) / (Complex.exp (t * Complex.I) + 1) = tan (t / 2) * Complex.I := by
  set u : ℂ := Complex.exp ((t / 2 : ℝ) * Complex.I) with hu
  have hu0 : u ≠ 0 := Complex.exp_ne_zero _
  have he : Complex.exp (t * Complex.I) = u * u := by
    rw [hu, ← Complex.exp_add]; congr 1; push_cast; ring
  have huc : u = Complex.cos ((t / 2 : ℝ) : ℂ) + Complex.sin ((t / 2 : ℝ) : ℂ) * Complex.I := by
    rw [hu, Complex.exp_mul_I]
  have hcs := Complex.sin_sq_add_cos_sq ((t / 2 : ℝ) : ℂ)
  have hc : Complex.cos ((t / 2 : ℝ) : ℂ) ≠ 0 := by
    rw [← Complex.ofReal_cos]; exact Complex.ofReal_ne_zero.2 h0
  set c := Complex.cos ((t / 2 : ℝ) : ℂ)
  set s := Complex.sin ((t / 2 : ℝ) : ℂ)
  have h1 : u * u + 1 = 2 * c * u := by
    rw [huc]; linear_combination (s ^ 2) * Complex.I_sq - hcs
  have h2 : u * u - 1 = 2 * s * Complex.I * u := by
    rw [huc]; linear_combination (-(s ^ 2)) * Complex.I_sq + hcs
  rw [he, h1]
  refine ⟨mul_ne_zero (mul_ne_zero two_ne_zero hc) hu0, ?_⟩
  rw [h2, Complex.ofReal_tan, Complex.tan_eq_sin_div_cos]
  show 2 * s * Complex.I * u / (2 * c * u) = s / c * Complex.I
  field_simp

/-! ## The analog filters -/

private theorem quad (f : ℝ) : (X ^ 2 + C (4 * π * f) * X + C ((2 * π * f) ^ 2) : ℝ[X]) = (X + C (2 * π * f)) ^ 2 := by
  rw [add_sq, ← C_pow]
  congr 2
  rw [show (4 * π * f) = 2 * (2 * π * f) by ring, C_mul]
  simp only [map_ofNat]
  ring

private theorem normSq_pole (f g : ℝ) :
    Complex.normSq ((2 * π * f : ℝ) * Complex.I + (2 * π * g : ℝ)) = (2 * π) ^ 2 * (f ^ 2 + g ^ 2) := by
  rw [Complex.normSq_apply]
  simp
  ring

private theorem aeval_pole (f g : ℝ) : Complex.normSq (aeval ((2 * π * f : ℝ) * Complex.I : ℂ) (X + C (2 * π * g) : ℝ[X])) =
    (2 * π) ^ 2 * (f ^ 2 + g ^ 2) := by
  rw [← normSq_pole, map_add, aeval_X, aeval_C, Complex.coe_algebraMap]

private theorem rpow_half (x : ℝ) : ((10 : ℝ) ^ (x / 20)) ^ 2 = (10 : ℝ) ^ (x / 10) := by
  rw [← Real.rpow_natCast, ← Real.rpow_mul (by norm_num)]
  congr 1
  push_cast
  ring

/-- **C113** The analog filters have the gain of the standard. -/
theorem C113_analog (w : FreqWeight) (f : ℝ) :
    Complex.normSq (transferFn (weightAnalog w) ((2 * π * f : ℝ) * Complex.I)) = weightCurveSq w f := by
  have hp : (0 : ℝ) < π := Real.pi_pos
  cases w
  · unfold transferFn weightAnalog weightCurveSq weightDen
    rw [quad, quad]
    simp only [map_mul (aeval _), map_pow (aeval _), map_mul Complex.normSq, map_pow Complex.normSq, aeval_pole, map_div₀,
      aeval_X, aeval_C, Complex.coe_algebraMap, Complex.normSq_ofReal, Complex.normSq_I]
    rw [← rpow_half]
    have e1 : (0 : ℝ) < f ^ 2 + fw1 ^ 2 := by unfold fw1; positivity
    have e2 : (0 : ℝ) < f ^ 2 + fw2 ^ 2 := by unfold fw2; positivity
    have e3 : (0 : ℝ) < f ^ 2 + fw3 ^ 2 := by unfold fw3; positivity
    have e4 : (0 : ℝ) < f ^ 2 + fw4 ^ 2 := by unfold fw4; positivity
    rw [show (20.598997 : ℝ) = fw1 from rfl, show (107.65265 : ℝ) = fw2 from rfl, show (737.86223 : ℝ) = fw3 from rfl,
      show (12194.217 : ℝ) = fw4 from rfl]
    field_simp
  · unfold transferFn weightAnalog weightCurveSq weightDen
    rw [quad, quad]
    simp only [map_mul (aeval _), map_pow (aeval _), map_mul Complex.normSq, map_pow Complex.normSq, aeval_pole, map_div₀,
      aeval_X, aeval_C, Complex.coe_algebraMap, Complex.normSq_ofReal, Complex.normSq_I]
    rw [← rpow_half]
    have e1 : (0 : ℝ) < f ^ 2 + fw1 ^ 2 := by unfold fw1; positivity
    have e4 : (0 : ℝ) < f ^ 2 + fw4 ^ 2 := by unfold fw4; positivity
    rw [show (20.598997 : ℝ) = fw1 from rfl, show (12194.217 : ℝ) = fw4 from rfl]
    field_simp
  · simp [transferFn, weightAnalog, weightCurveSq]

/-! ## The digital filters -/

private theorem den_eq : weightDen = (X + C (2 * π * fw4)) ^ 2 * (X + C (2 * π * fw1)) ^ 2 := by
  unfold weightDen
  rw [quad, quad]

private theorem den_monic : weightDen.Monic ∧ weightDen.natDegree = 4 := by
  have h : ∀ r : ℝ, ((X + C r : ℝ[X]) ^ 2).Monic := fun r => (monic_X_add_C r).pow 2
  rw [den_eq]
  refine ⟨(h _).mul (h _), ?_⟩
  rw [(h _).natDegree_mul (h _), (monic_X_add_C _).natDegree_pow, (monic_X_add_C _).natDegree_pow,
    natDegree_X_add_C, natDegree_X_add_C]

private theorem denA_monic : (weightAnalog .A).2.Monic ∧ (weightAnalog .A).2.natDegree = 6 := by
  obtain ⟨h, hd⟩ := den_monic
  have h1 := h.mul (monic_X_add_C (2 * π * fw3))
  refine ⟨h1.mul (monic_X_add_C _), ?_⟩
  show (weightDen * (X + C (2 * π * fw3)) * (X + C (2 * π * fw2))).natDegree = 6
  rw [h1.natDegree_mul (monic_X_add_C _), h.natDegree_mul (monic_X_add_C _), hd, natDegree_X_add_C, natDegree_X_add_C]

private theorem num_degree : (weightAnalog .A).1.natDegree ≤ 4 ∧ (weightAnalog .C).1.natDegree ≤ 2 :=
  ⟨natDegree_C_mul_X_pow_le _ _, natDegree_C_mul_X_pow_le _ _⟩

/-- The transfer function of the digital filter is that of the analog filter at `2 fs (z - 1) / (z + 1)`. -/
private theorem digital_eq (w : FreqWeight) (fs : ℝ) (z : ℂ) (hz : z + 1 ≠ 0) (h0 : z ≠ 0) :
    transferFn (weightDigital w fs) z = transferFn (weightAnalog w) (2 * fs * ((z - 1) / (z + 1))) := by
  obtain ⟨n1, n2⟩ := num_degree
  cases w
  · show aeval z (bilinearPoly 6 fs _) / aeval z (bilinearPoly 6 fs _) = _
    rw [bilinear_eval 6 fs _ (by omega) z hz, bilinear_eval 6 fs _ denA_monic.2.le z hz,
      mul_div_mul_left _ _ (pow_ne_zero _ hz)]
    rfl
  · show aeval z (bilinearPoly 4 fs _ * X ^ 2) / aeval z (bilinearPoly 4 fs _ * X ^ 2) = _
    rw [map_mul, map_mul, mul_div_mul_right _ _ (by simpa using h0),
      bilinear_eval 4 fs _ (by omega) z hz, bilinear_eval 4 fs (weightAnalog .C).2 den_monic.2.le z hz,
      mul_div_mul_left _ _ (pow_ne_zero _ hz)]
    rfl
  · simp [transferFn, weightDigital, weightAnalog, h0]

/-- **C113** (part) The gain of the filter at the frequency `f` below half the sampling frequency is that of the
standard at the frequency `(fs / π) tan(π f / fs)`. -/
theorem C113_response_partial (w : FreqWeight) (fs f : ℝ) (hfs : 0 < fs) (hf : |f| < fs / 2) :
    Complex.normSq (transferFn (weightDigital w fs) (Complex.exp ((2 * π * f / fs : ℝ) * Complex.I))) =
      weightCurveSq w (fs / π * tan (π * f / fs)) := by
  have hp := Real.pi_pos
  obtain ⟨f1, f2⟩ := abs_lt.1 hf
  have ht : 2 * π * f / fs / 2 = π * f / fs := by ring
  have hc : cos (2 * π * f / fs / 2) ≠ 0 := by
    rw [ht]
    apply (Real.cos_pos_of_mem_Ioo ⟨?_, ?_⟩).ne'
    · rw [lt_div_iff₀ hfs]; nlinarith
    · rw [div_lt_iff₀ hfs]; nlinarith
  obtain ⟨h1, h2⟩ := unit_circle _ hc
  rw [digital_eq w fs _ h1 (Complex.exp_ne_zero _), h2, ← C113_analog, ht]
  congr 2
  push_cast
  have : (π : ℂ) ≠ 0 := by exact_mod_cast hp.ne'
  field_simp

/-- The hypotheses of `C113_response_partial` are met: -/
example := C113_response_partial .A 51200 1000 (by norm_num) (by norm_num)

/-- **C113** The filters are stable at every sampling frequency: all poles are inside the unit circle. -/
theorem C113_stable (w : FreqWeight) (fs : ℝ) (hfs : 0 < fs) (z : ℂ) (hz : aeval z (weightDigital w fs).2 = 0) : ‖z‖ < 1 := by
  by_contra hc
  have hz1 : 1 ≤ ‖z‖ := not_lt.1 hc
  have h0 : z ≠ 0 := by rintro rfl; norm_num at hz1
  have hp := Real.pi_pos
  have h2fs : (2 * fs : ℂ) ≠ 0 := by exact_mod_cast (by positivity : (2 * fs : ℝ) ≠ 0)
  have pole : ∀ (s : ℂ) (g : ℝ), 0 ≤ s.re → 0 < g → aeval s (X + C (2 * π * g) : ℝ[X]) ≠ 0 := by
    intro s g hs hg h
    rw [map_add, aeval_X, aeval_C, Complex.coe_algebraMap] at h
    have := congrArg Complex.re h
    rw [Complex.add_re, Complex.ofReal_re, Complex.zero_re] at this
    have : 0 < 2 * π * g := by positivity
    linarith
  have p1 : 0 < fw1 := by unfold fw1; norm_num
  have p2 : 0 < fw2 := by unfold fw2; norm_num
  have p3 : 0 < fw3 := by unfold fw3; norm_num
  have p4 : 0 < fw4 := by unfold fw4; norm_num
  have hden : ∀ s : ℂ, 0 ≤ s.re → aeval s weightDen ≠ 0 := by
    intro s hs
    rw [den_eq, map_mul, map_pow, map_pow]
    exact mul_ne_zero (pow_ne_zero _ (pole s _ hs p4)) (pow_ne_zero _ (pole s _ hs p1))
  have hnyq : ∀ (M : ℕ) (p : ℝ[X]), p.Monic → p.natDegree = M → aeval (-1 : ℂ) (bilinearPoly M fs p) ≠ 0 := by
    intro M p h h'
    rw [bilinear_eval_neg_one, ← h', h.coeff_natDegree]
    push_cast
    exact mul_ne_zero (mul_ne_zero one_ne_zero (pow_ne_zero _ h2fs)) (pow_ne_zero _ (by norm_num))
  cases w
  · change aeval z (bilinearPoly 6 fs (weightAnalog .A).2) = 0 at hz
    by_cases h1 : z + 1 = 0
    · rw [eq_neg_of_add_eq_zero_left h1] at hz
      exact hnyq 6 _ denA_monic.1 denA_monic.2 hz
    · rw [bilinear_eval 6 fs _ denA_monic.2.le z h1] at hz
      have hs := re_nonneg hfs hz1 h1
      refine mul_ne_zero (pow_ne_zero _ h1) ?_ hz
      show aeval _ (weightDen * (X + C (2 * π * fw3)) * (X + C (2 * π * fw2))) ≠ 0
      rw [map_mul, map_mul]
      exact mul_ne_zero (mul_ne_zero (hden _ hs) (pole _ _ hs p3)) (pole _ _ hs p2)
  · change aeval z (bilinearPoly 4 fs (weightAnalog .C).2 * X ^ 2) = 0 at hz
    rw [map_mul] at hz
    rcases mul_eq_zero.1 hz with hz | hz
    · by_cases h1 : z + 1 = 0
      · rw [eq_neg_of_add_eq_zero_left h1] at hz
        exact hnyq 4 _ den_monic.1 den_monic.2 hz
      · rw [bilinear_eval 4 fs (weightAnalog .C).2 den_monic.2.le z h1] at hz
        exact mul_ne_zero (pow_ne_zero _ h1) (hden _ (re_nonneg hfs hz1 h1)) hz
    · simp [h0] at hz
  · simp [weightDigital, h0] at hz

/-- The hypotheses of `C113_stable` are met: -/
example (z : ℂ) := C113_stable .C 51200 (by norm_num) z

/-- **C113** A constant offset is removed by A and C weighting, and everything is unchanged by Z weighting. -/
theorem C113_offset (fs : ℝ) :
    transferFn (weightDigital .A fs) 1 = 0 ∧ transferFn (weightDigital .C fs) 1 = 0 ∧
      ∀ z : ℂ, z ≠ 0 → transferFn (weightDigital .Z fs) z = 1 := by
  have h : (1 : ℂ) + 1 ≠ 0 := by norm_num
  refine ⟨?_, ?_, fun z hz => ?_⟩
  · rw [digital_eq _ _ _ h one_ne_zero]
    simp [transferFn, weightAnalog]
  · rw [digital_eq _ _ _ h one_ne_zero]
    simp [transferFn, weightAnalog]
  · simp [transferFn, weightDigital, hz]

/-- The hypotheses of `C113_offset` are met: -/
example := C113_offset 51200

/-- The filters do not have the gain of the standard near half the sampling frequency: there it is zero, whatever the
sampling frequency, and that of the standard is not. -/
theorem C113_response_violated (w : FreqWeight) (hw : w ≠ .Z) (fs : ℝ) (hfs : 0 < fs) :
    transferFn (weightDigital w fs) (-1) = 0 ∧ 0 < weightCurveSq w (fs / 2) := by
  obtain ⟨n1, n2⟩ := num_degree
  cases w
  · constructor
    · show aeval (-1 : ℂ) (bilinearPoly 6 fs _) / _ = 0
      rw [bilinear_eval_neg_one, coeff_eq_zero_of_natDegree_lt (by omega)]
      simp
    · unfold weightCurveSq; positivity
  · constructor
    · show aeval (-1 : ℂ) (bilinearPoly 4 fs _ * X ^ 2) / _ = 0
      rw [map_mul, bilinear_eval_neg_one, coeff_eq_zero_of_natDegree_lt (by omega)]
      simp
    · unfold weightCurveSq; positivity
  · exact absurd rfl hw

set_option exponentiation.threshold 2000 in
/-- **C113** The curves are within 0.01 dB of 0 dB at 1 kHz (squared gains between 0.998 and 1.002). -/
theorem C113_reference (w : FreqWeight) : 0.998 < weightCurveSq w 1000 ∧ weightCurveSq w 1000 < 1.002 := by
  have up : ∀ (x q : ℝ) (n : ℕ), 0 < n → x * n ≤ 1 → 0 < q → (10 : ℝ) ≤ q ^ n → (10 : ℝ) ^ x ≤ q := by
    intro x q n hn hx hq h
    have h1 : ((10 : ℝ) ^ x) ^ n ≤ q ^ n := by
      rw [← Real.rpow_natCast, ← Real.rpow_mul (by norm_num)]
      exact le_trans (by
        calc (10 : ℝ) ^ (x * n) ≤ (10 : ℝ) ^ (1 : ℝ) := Real.rpow_le_rpow_of_exponent_le (by norm_num) hx
          _ = 10 := Real.rpow_one _) h
    exact le_of_pow_le_pow_left₀ hn.ne' hq.le h1
  have low : ∀ (x q : ℝ) (n k : ℕ), 0 < n → (k : ℝ) ≤ x * n → 0 < q → q ^ n ≤ (10 : ℝ) ^ k → q ≤ (10 : ℝ) ^ x := by
    intro x q n k hn hx hq h
    have h1 : q ^ n ≤ ((10 : ℝ) ^ x) ^ n := by
      rw [← Real.rpow_natCast ((10 : ℝ) ^ x), ← Real.rpow_mul (by norm_num)]
      refine le_trans h ?_
      rw [← Real.rpow_natCast]
      exact Real.rpow_le_rpow_of_exponent_le (by norm_num) hx
    exact le_of_pow_le_pow_left₀ hn.ne' (by positivity) h1
  cases w
  · have a1 := up (1.9997 / 10) 1.58490 5 (by norm_num) (by norm_num) (by norm_num) (by norm_num)
    have a2 := low (1.9997 / 10) 1.583 2000 399 (by norm_num) (by norm_num) (by norm_num) (by norm_num)
    unfold weightCurveSq
    constructor
    · rw [lt_div_iff₀ (by positivity)]
      nlinarith
    · rw [div_lt_iff₀ (by positivity)]
      nlinarith
  · have a1 := up (0.0619 / 10) 1.01451 160 (by norm_num) (by norm_num) (by norm_num) (by norm_num)
    have a2 := low (0.0619 / 10) 1.0142 163 1 (by norm_num) (by norm_num) (by norm_num) (by norm_num)
    unfold weightCurveSq
    constructor
    · rw [lt_div_iff₀ (by positivity)]
      nlinarith
    · rw [div_lt_iff₀ (by positivity)]
      nlinarith
  · unfold weightCurveSq
    norm_num

/-- A frequency and a sampling frequency that meet the hypotheses. -/
example : (0 : ℝ) < 51200 ∧ |(1000 : ℝ)| < 51200 / 2 ∧ FreqWeight.A ≠ .Z := ⟨by norm_num, by norm_num, by decide⟩

end Acoular
