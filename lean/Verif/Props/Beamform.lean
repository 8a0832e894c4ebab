import Verif.Lemmas.Beamform
import Mathlib.Analysis.Matrix.Spectrum
import Mathlib.Analysis.InnerProductSpace.Basic
import Mathlib.Algebra.Order.BigOperators.Ring.Finset

/-!
# Property theorems: beamforming kernels (C23, C24), steering vectors (C25), point spread functions (C26)

`0 < r0` and `0 < rm m`: the focus point coincides neither with the reference nor with a microphone.
-/

namespace Acoular

open Matrix Complex Spec
open scoped ComplexConjugate ComplexOrder

variable {n e : ℕ}

/-- The settings of the instances below: two microphones 1 m and 2 m away from the focus point, and the matrix `A Aᴴ` of this `A`. -/
private noncomputable def gramEx : Matrix (Fin 2) (Fin 2) ℂ := ![![1, 2], ![Complex.I, 3]]

private theorem gram_herm : (gramEx * gramExᴴ).IsHermitian := Matrix.isHermitian_mul_conjTranspose_self _

private theorem pos12 : ∀ m, 0 < (![1, 2] : Fin 2 → ℝ) m := by intro m; fin_cases m <;> simp

/-! ## C23 -/

section C23

/-- **C23.** The optimised kernel computes the quadratic form of the steering vector, for every formulation, with or
without the diagonal. -/
theorem C23_kernel_quadratic_form (st : Formulation) (rDiag : Bool) (loss r0 : ℝ) (rm : Fin n → ℝ) (k : ℝ)
    (h0 : 0 < r0) (hr : ∀ m, 0 < rm m) (C : Matrix (Fin n) (Fin n) ℂ) (hC : C.IsHermitian) :
    (fullCsmKernel st rDiag loss r0 rm k C : ℂ) =
      loss * quadForm (if rDiag then removeDiag C else C) (steer st r0 rm k) := by
  rw [quadForm_steer st r0 rm k h0.ne' (fun m => (hr m).ne'), ← scalarProdFull_eq hC]
  unfold fullCsmKernel
  rw [kernelResult_eq]
  push_cast
  ring

/-- The hypotheses of `C23_kernel_quadratic_form` are met: -/
example := C23_kernel_quadratic_form .inverse true 2 3 ![1, 2] 5 (by norm_num) pos12 (gramEx * gramExᴴ) gram_herm

/-- **C23.** Without diagonal removal the map is non-negative for every positive semidefinite matrix. -/
theorem C23_nonneg (st : Formulation) (loss r0 : ℝ) (hl : 0 ≤ loss) (rm : Fin n → ℝ) (k : ℝ)
    (C : Matrix (Fin n) (Fin n) ℂ) (hC : C.PosSemidef) : 0 ≤ fullCsmKernel st false loss r0 rm k C := by
  unfold fullCsmKernel
  rw [kernelResult_eq]
  apply mul_nonneg _ hl
  apply mul_nonneg (sq_nonneg _)
  have h1 := scalarProdFull_eq hC.isHermitian false (kernelSteer st rm k)
  have h2 := hC.dotProduct_mulVec_nonneg (kernelSteer st rm k)
  simp only [Bool.false_eq_true, if_false] at h1
  have h3 : (0 : ℂ) ≤ (scalarProdFull C false (kernelSteer st rm k) : ℂ) := by rw [h1]; exact h2
  exact_mod_cast h3

/-- The hypotheses of `C23_nonneg` are met: -/
example := C23_nonneg .trueLevel 2 3 (by norm_num) ![1, 2] 5 (gramEx * gramExᴴ) (Matrix.posSemidef_self_mul_conjTranspose _)

/-- **C23.** What `BeamformerBase` stores: the quadratic form; with diagonal removal the one without the diagonal times
the loss factor (`n/(n-1)` unless set by the user), negative values replaced by zero. -/
theorem C23_result (st : Formulation) (rDiag : Bool) (rDiagNorm r0 : ℝ) (rm : Fin n → ℝ) (k : ℝ)
    (h0 : 0 < r0) (hr : ∀ m, 0 < rm m) (C : Matrix (Fin n) (Fin n) ℂ) (hC : C.IsHermitian) :
    bfCalcPoint st rDiag rDiagNorm r0 rm k C =
      if rDiag then max 0 ((if rDiagNorm = 0 then (n : ℝ) / (n - 1) else rDiagNorm) * (quadForm (removeDiag C) (steer st r0 rm k)).re)
      else (quadForm C (steer st r0 rm k)).re := by
  have h := C23_kernel_quadratic_form st rDiag (sigLossNorm rDiag rDiagNorm n) r0 rm k h0 hr C hC
  have h' := congrArg Complex.re h
  rw [Complex.ofReal_re, Complex.re_ofReal_mul] at h'
  unfold bfCalcPoint
  simp only [h']
  cases rDiag
  · simp [sigLossNorm]
  · simp only [sigLossNorm, if_true, Bool.true_eq_false, if_false]
    generalize (if rDiagNorm = 0 then (n : ℝ) / (n - 1) else rDiagNorm) * (quadForm (removeDiag C) (steer st r0 rm k)).re = x
    split
    · rename_i hlt
      rw [max_eq_left hlt.le]
    · rename_i hlt
      rw [max_eq_right (not_lt.1 hlt)]

/-- The hypotheses of `C23_result` are met: -/
example := C23_result .classic true 0 3 ![1, 2] 5 (by norm_num) pos12 (gramEx * gramExᴴ) gram_herm

/-- **C23.** The stored map is never negative. -/
theorem C23_result_nonneg (st : Formulation) (rDiag : Bool) (rDiagNorm r0 : ℝ) (rm : Fin n → ℝ) (k : ℝ)
    (C : Matrix (Fin n) (Fin n) ℂ) (hC : C.PosSemidef) : 0 ≤ bfCalcPoint st rDiag rDiagNorm r0 rm k C := by
  unfold bfCalcPoint
  cases rDiag
  · exact C23_nonneg st _ r0 (by simp [sigLossNorm]) rm k C hC
  · simp only [if_true]
    split
    · exact le_rfl
    · rename_i h; exact not_lt.1 h

example : fullCsmKernel (n := 1) .trueLevel false 1 1 ![2] 3 ![![(4 : ℂ)]] = 16 := by
  simp only [fullCsmKernel, kernelResult, helpNormalize, scalarProdFull, kernelSteer]
  simp only [Finset.univ_unique, Fin.default_eq_zero, Finset.sum_singleton, Bool.false_eq_true, if_false]
  have h := phase_mul_conj (3 * (![2] : Fin 1 → ℝ) 0)
  have : (![![(4 : ℂ)]] : Matrix (Fin 1) (Fin 1) ℂ) 0 0 * conj (phase (3 * (![2] : Fin 1 → ℝ) 0) / (((![2] : Fin 1 → ℝ) 0 : ℝ) : ℂ)) *
      (phase (3 * (![2] : Fin 1 → ℝ) 0) / (((![2] : Fin 1 → ℝ) 0 : ℝ) : ℂ)) = 1 := by
    rw [map_div₀, Complex.conj_ofReal]
    simp only [Matrix.cons_val_zero] at h ⊢
    push_cast
    linear_combination h
  rw [this]
  simp only [Finset.sum_filter, Finset.sum_singleton, lt_irrefl, if_false, zero_mul, Complex.zero_re, Complex.one_re]
  norm_num

end C23

/-! ## C24 -/

section C24

theorem assemble_isHermitian (eva : Fin e → ℝ) (eve : Fin n → Fin e → ℂ) : (assemble eva eve).IsHermitian := by
  ext i j
  rw [Matrix.conjTranspose_apply]
  unfold assemble
  rw [star_sum]
  apply Finset.sum_congr rfl
  intro l _
  simp only [RCLike.star_def, map_mul, Complex.conj_conj, Complex.conj_ofReal]
  ring

theorem quadForm_assemble (eva : Fin e → ℝ) (eve : Fin n → Fin e → ℂ) (h : Fin n → ℂ) :
    quadForm (assemble eva eve) h =
      ∑ l, (eva l : ℂ) * ((∑ m, conj (eve m l) * h m) * conj (∑ m, conj (eve m l) * h m)) := by
  rw [quadForm_eq_sum]
  unfold assemble
  have e1 : ∀ l, (eva l : ℂ) * ((∑ m, conj (eve m l) * h m) * conj (∑ m, conj (eve m l) * h m)) =
      ∑ j, ∑ i, conj (h i) * ((eva l : ℂ) * (eve i l * conj (eve j l))) * h j := by
    intro l
    rw [map_sum, Finset.sum_mul_sum, Finset.mul_sum]
    apply Finset.sum_congr rfl
    intro j _
    rw [Finset.mul_sum]
    apply Finset.sum_congr rfl
    intro i _
    simp only [map_mul, Complex.conj_conj]
    ring
  simp only [e1]
  rw [Finset.sum_comm (s := Finset.univ (α := Fin e))]
  apply Finset.sum_congr rfl
  intro j _
  rw [Finset.sum_comm (s := Finset.univ (α := Fin e))]
  apply Finset.sum_congr rfl
  intro i _
  rw [Finset.mul_sum, Finset.sum_mul]

theorem quadForm_removeDiag (C : Matrix (Fin n) (Fin n) ℂ) (h : Fin n → ℂ) :
    quadForm (removeDiag C) h = quadForm C h - ∑ m, conj (h m) * C m m * h m := by
  rw [quadForm_eq_sum, quadForm_eq_sum, ← Finset.sum_sub_distrib]
  apply Finset.sum_congr rfl
  intro j _
  have : ∀ i, conj (h i) * removeDiag C i j * h j = conj (h i) * C i j * h j - if i = j then conj (h i) * C i j * h j else 0 := by
    intro i
    unfold removeDiag
    split <;> simp
  simp only [this]
  rw [Finset.sum_sub_distrib]
  simp

/-- The eigenvalue loop computes the same number as the matrix loop on the reassembled matrix. -/
theorem scalarProdEig_eq (eva : Fin e → ℝ) (eve : Fin n → Fin e → ℂ) (rDiag : Bool) (h : Fin n → ℂ) :
    scalarProdEig eva eve rDiag h = scalarProdFull (assemble eva eve) rDiag h := by
  apply Complex.ofReal_injective
  rw [scalarProdFull_eq (assemble_isHermitian eva eve)]
  have hre : ∀ z : ℂ, ((z * conj z).re : ℂ) = z * conj z := by
    intro z; rw [Complex.mul_conj]; simp
  unfold scalarProdEig
  cases rDiag
  · simp only [Bool.false_eq_true, if_false]
    rw [quadForm_assemble]
    push_cast
    apply Finset.sum_congr rfl
    intro l _
    rw [hre]; ring
  · simp only [if_true]
    rw [quadForm_removeDiag, quadForm_assemble]
    push_cast
    have e2 : ∑ m, conj (h m) * assemble eva eve m m * h m =
        ∑ l, (∑ m, ((conj (eve m l) * h m) * conj (conj (eve m l) * h m))) * (eva l : ℂ) := by
      unfold assemble
      simp only [Finset.mul_sum, Finset.sum_mul]
      rw [Finset.sum_comm]
      apply Finset.sum_congr rfl
      intro l _
      apply Finset.sum_congr rfl
      intro m _
      simp only [map_mul, Complex.conj_conj]
      ring
    rw [e2, ← Finset.sum_sub_distrib]
    apply Finset.sum_congr rfl
    intro l _
    rw [hre, Finset.sum_congr rfl (fun m _ => hre _)]
    ring

/-- **C24.** The eigenvalue kernel on some eigenpairs equals the full-matrix kernel on the matrix assembled from them,
for every formulation, with and without diagonal removal. -/
theorem C24_eig_kernel (st : Formulation) (rDiag : Bool) (loss r0 : ℝ) (rm : Fin n → ℝ) (k : ℝ)
    (eva : Fin e → ℝ) (eve : Fin n → Fin e → ℂ) :
    eigKernel st rDiag loss r0 rm k eva eve = fullCsmKernel st rDiag loss r0 rm k (assemble eva eve) := by
  unfold eigKernel fullCsmKernel
  rw [scalarProdEig_eq]

/-- The hypotheses of `C24_eig_kernel` are met: -/
example := C24_eig_kernel .trueLevel true 1 3 ![1, 2] 5 ![4, 9] ![![1, 2], ![Complex.I, 3]]

/-- **C24.** The same for the kernels with a user supplied steering vector. -/
theorem C24_custom_eig_kernel (rDiag : Bool) (loss : ℝ) (h : Fin n → ℂ) (eva : Fin e → ℝ) (eve : Fin n → Fin e → ℂ) :
    customEigKernel rDiag loss h eva eve = customKernel rDiag loss h (assemble eva eve) := by
  unfold customEigKernel customKernel
  rw [scalarProdEig_eq]

/-- The hypotheses of `C24_custom_eig_kernel` are met: -/
example := C24_custom_eig_kernel true 1 ![1, Complex.I] ![4, 9] ![![1, 2], ![Complex.I, 3]]

/-- All eigenpairs of a Hermitian matrix reassemble the matrix (spectral theorem). -/
theorem assemble_all (C : Matrix (Fin n) (Fin n) ℂ) (hC : C.IsHermitian) :
    assemble hC.eigenvalues (fun i l => (hC.eigenvectorUnitary : Matrix (Fin n) (Fin n) ℂ) i l) = C := by
  conv_rhs => rw [hC.spectral_theorem]
  ext i j
  unfold assemble
  rw [Unitary.conjStarAlgAut_apply, Matrix.mul_apply]
  apply Finset.sum_congr rfl
  intro l _
  rw [Matrix.mul_diagonal, Matrix.star_apply]
  simp only [Function.comp, RCLike.star_def, Complex.coe_algebraMap]
  ring

/-- **C24.** With all eigenpairs the eigenvalue kernel gives the conventional map. -/
theorem C24_all_components (st : Formulation) (rDiag : Bool) (loss r0 : ℝ) (rm : Fin n → ℝ) (k : ℝ)
    (C : Matrix (Fin n) (Fin n) ℂ) (hC : C.IsHermitian) :
    eigKernel st rDiag loss r0 rm k hC.eigenvalues (fun i l => (hC.eigenvectorUnitary : Matrix (Fin n) (Fin n) ℂ) i l) =
      fullCsmKernel st rDiag loss r0 rm k C := by
  rw [C24_eig_kernel, assemble_all]

/-- The hypotheses of `C24_all_components` are met: -/
example := C24_all_components .trueLevel true 1 3 ![1, 2] 5 (gramEx * gramExᴴ) gram_herm

/-- **C24.** The maps of the single components (as `BeamformerEig` computes them before negative values are removed) add
up to the conventional map. -/
theorem C24_components_add_up (st : Formulation) (rDiag : Bool) (loss r0 : ℝ) (rm : Fin n → ℝ) (k : ℝ)
    (C : Matrix (Fin n) (Fin n) ℂ) (hC : C.IsHermitian) :
    ∑ l, eigKernel st rDiag loss r0 rm k (fun _ : Fin 1 => hC.eigenvalues l)
        (fun i _ => (hC.eigenvectorUnitary : Matrix (Fin n) (Fin n) ℂ) i l) =
      fullCsmKernel st rDiag loss r0 rm k C := by
  rw [← C24_all_components st rDiag loss r0 rm k C hC]
  unfold eigKernel
  simp only [kernelResult_eq]
  rw [← Finset.sum_mul, ← Finset.mul_sum]
  congr 2
  unfold scalarProdEig
  simp

/-- The hypotheses of `C24_components_add_up` are met: -/
example := C24_components_add_up .trueLevel true 1 3 ![1, 2] 5 (gramEx * gramExᴴ) gram_herm

end C24

/-! ## C25 -/

section C25

private theorem transfer_eq (r0 : ℝ) (rm : Fin n → ℝ) (k : ℝ) (m : Fin n) : transfer r0 rm k m = monopole r0 rm k m := by
  unfold transfer monopole
  rw [phase_eq]
  push_cast
  ring

private theorem transfer_mul_conj (r0 : ℝ) (rm : Fin n → ℝ) (k : ℝ) (m : Fin n) :
    transfer r0 rm k m * conj (transfer r0 rm k m) = ((r0 ^ 2 * (1 / (rm m) ^ 2) : ℝ) : ℂ) := by
  unfold transfer
  rw [map_div₀, map_mul, Complex.conj_ofReal, Complex.conj_ofReal]
  have := phase_mul_conj (k * (rm m - r0))
  push_cast
  rw [show phase (k * (rm m - r0)) * ↑r0 / ↑(rm m) * ((starRingEnd ℂ) (phase (k * (rm m - r0))) * ↑r0 / ↑(rm m)) =
    (phase (k * (rm m - r0)) * (starRingEnd ℂ) (phase (k * (rm m - r0)))) * (↑r0 ^ 2 * (1 / ↑(rm m) ^ 2)) by ring, this, one_mul]

private theorem sum_transfer (r0 : ℝ) (rm : Fin n → ℝ) (k : ℝ) :
    ∑ l, transfer r0 rm k l * conj (transfer r0 rm k l) = ((r0 ^ 2 * ∑ l, 1 / (rm l) ^ 2 : ℝ) : ℂ) := by
  simp only [transfer_mul_conj]
  rw [Finset.mul_sum, Complex.ofReal_sum]

/-- **C25.** `steer_vector` returns the weights of the four formulations. -/
theorem C25_steer_vector (st : Formulation) (r0 : ℝ) (rm : Fin n → ℝ) (k : ℝ) (h0 : 0 < r0) (hr : ∀ m, 0 < rm m)
    (m : Fin n) : steerVector st r0 rm k m = steer st r0 rm k m := by
  have hm : (rm m : ℂ) ≠ 0 := by exact_mod_cast (hr m).ne'
  have h0' : (r0 : ℂ) ≠ 0 := by exact_mod_cast h0.ne'
  have hn : 0 < n := Fin.pos m
  have hn' : (n : ℂ) ≠ 0 := by exact_mod_cast hn.ne'
  have hH := sumInvSq_pos hn hr
  have hH' : ((∑ l, 1 / (rm l) ^ 2 : ℝ) : ℂ) ≠ 0 := by exact_mod_cast hH.ne'
  unfold steerVector steer
  rw [← phase_eq]
  cases st
  · simp only [steerFuncFreq, steerAmp]
    have hnorm : ‖transfer r0 rm k m‖ = r0 / rm m := by
      unfold transfer
      rw [norm_div, norm_mul, norm_phase, Complex.norm_real, Complex.norm_real, Real.norm_of_nonneg h0.le,
        Real.norm_of_nonneg (hr m).le, one_mul]
    rw [hnorm]
    unfold transfer
    push_cast
    field_simp
  · simp only [steerFuncFreq, steerAmp]
    have hc : conj (transfer r0 rm k m) * phase (k * (rm m - r0)) = r0 / rm m := by
      unfold transfer
      rw [map_div₀, map_mul, Complex.conj_ofReal, Complex.conj_ofReal]
      have := phase_mul_conj (k * (rm m - r0))
      linear_combination (r0 / rm m : ℂ) * this
    have hne : conj (transfer r0 rm k m) ≠ 0 := by
      intro h
      rw [h, zero_mul] at hc
      exact div_ne_zero h0' hm hc.symm
    push_cast
    rw [div_div, div_eq_iff (mul_ne_zero hne hn')]
    rw [show (↑(rm m) / (↑r0 * ↑n) * phase (k * (rm m - r0)) * ((starRingEnd ℂ) (transfer r0 rm k m) * ↑n) : ℂ) =
      (↑(rm m) / (↑r0 * ↑n)) * ↑n * ((starRingEnd ℂ) (transfer r0 rm k m) * phase (k * (rm m - r0))) by ring, hc]
    field_simp
  · simp only [steerFuncFreq, steerAmp, sum_transfer]
    unfold transfer
    rw [Complex.ofReal_mul, Complex.ofReal_div, Complex.ofReal_mul, Complex.ofReal_mul, Complex.ofReal_one]
    generalize ((∑ l, 1 / (rm l) ^ 2 : ℝ) : ℂ) = H at hH'
    push_cast
    field_simp
  · simp only [steerFuncFreq, steerAmp, sum_transfer]
    rw [Complex.ofReal_re]
    have e : √(r0 ^ 2 * (∑ l, 1 / (rm l) ^ 2) * n) = r0 * √(n * ∑ l, 1 / (rm l) ^ 2) := by
      rw [mul_assoc, Real.sqrt_mul (sq_nonneg r0), Real.sqrt_sq h0.le, mul_comm (∑ l, 1 / (rm l) ^ 2)]
    rw [e]
    unfold transfer
    rw [Complex.ofReal_mul, Complex.ofReal_div, Complex.ofReal_mul, Complex.ofReal_one]
    have hs : (√(n * ∑ l, 1 / (rm l) ^ 2) : ℂ) ≠ 0 := by
      have : 0 < √(n * ∑ l, 1 / (rm l) ^ 2) := Real.sqrt_pos.2 (mul_pos (by exact_mod_cast hn) hH)
      exact_mod_cast this.ne'
    generalize (√(n * ∑ l, 1 / (rm l) ^ 2) : ℂ) = R at hs
    field_simp

/-- The hypotheses of `C25_steer_vector` are met: -/
example := C25_steer_vector .trueLevel 3 ![1, 2] 5 (by norm_num) pos12 1

/-- **C25.** The kernel for predefined formulations equals the generic kernel on the vector from `steer_vector`. -/
theorem C25_predefined_eq_custom (st : Formulation) (rDiag : Bool) (loss r0 : ℝ) (rm : Fin n → ℝ) (k : ℝ)
    (h0 : 0 < r0) (hr : ∀ m, 0 < rm m) (C : Matrix (Fin n) (Fin n) ℂ) (hC : C.IsHermitian) :
    fullCsmKernel st rDiag loss r0 rm k C = customKernel rDiag loss (steerVector st r0 rm k) C := by
  apply Complex.ofReal_injective
  rw [C23_kernel_quadratic_form st rDiag loss r0 rm k h0 hr C hC]
  unfold customKernel
  rw [Complex.ofReal_mul, scalarProdFull_eq hC, show steerVector st r0 rm k = steer st r0 rm k from
    funext fun m => C25_steer_vector st r0 rm k h0 hr m]
  ring

/-- The hypotheses of `C25_predefined_eq_custom` are met: -/
example := C25_predefined_eq_custom .trueLocation true 2 3 ![1, 2] 5 (by norm_num) pos12 (gramEx * gramExᴴ) gram_herm

/-- **C25.** The same for the eigenvalue kernels. -/
theorem C25_predefined_eq_custom_eig (st : Formulation) (rDiag : Bool) (loss r0 : ℝ) (rm : Fin n → ℝ) (k : ℝ)
    (h0 : 0 < r0) (hr : ∀ m, 0 < rm m) (eva : Fin e → ℝ) (eve : Fin n → Fin e → ℂ) :
    eigKernel st rDiag loss r0 rm k eva eve = customEigKernel rDiag loss (steerVector st r0 rm k) eva eve := by
  rw [C24_eig_kernel, C24_custom_eig_kernel]
  exact C25_predefined_eq_custom st rDiag loss r0 rm k h0 hr _ (assemble_isHermitian eva eve)

/-- The hypotheses of `C25_predefined_eq_custom_eig` are met: -/
example := C25_predefined_eq_custom_eig .trueLevel true 1 3 ![1, 2] 5 (by norm_num) pos12 ![4, 9] ![![1, 2], ![Complex.I, 3]]

/-- **C25.** The amplitudes used in the time domain are the moduli of the entries of the steering vector. -/
theorem C25_time_domain (st : Formulation) (r0 : ℝ) (rm : Fin n → ℝ) (k : ℝ) (h0 : 0 < r0) (hr : ∀ m, 0 < rm m)
    (m : Fin n) : steerTime st r0 rm m = ‖steerVector st r0 rm k m‖ := by
  rw [C25_steer_vector st r0 rm k h0 hr]
  have hn : (0 : ℝ) < n := by exact_mod_cast Fin.pos m
  have hH := sumInvSq_pos (Fin.pos m) hr
  have hm := hr m
  have hamp : 0 ≤ steerAmp st r0 rm m := by
    cases st <;> simp only [steerAmp]
    · positivity
    · positivity
    · exact one_div_nonneg.2 (mul_nonneg (mul_nonneg h0.le hm.le) hH.le)
    · exact one_div_nonneg.2 (mul_nonneg hm.le (Real.sqrt_nonneg _))
  unfold steer
  rw [← phase_eq, norm_mul, norm_phase, Complex.norm_real, Real.norm_of_nonneg hamp, mul_one]
  cases st <;> simp only [steerTime, steerAmp]
  · field_simp
  · have := hH.ne'
    generalize ∑ l, 1 / (rm l) ^ 2 = H at this
    field_simp
  · have hpos : 0 < √(∑ l, 1 / (rm l) ^ 2) := Real.sqrt_pos.2 hH
    have hpn : 0 < √(n : ℝ) := Real.sqrt_pos.2 hn
    rw [Real.sqrt_mul hn.le, one_div, Real.sqrt_inv]
    field_simp

/-- The hypotheses of `C25_time_domain` are met: -/
example := C25_time_domain .trueLevel 3 ![1, 2] 5 (by norm_num) pos12 1

/-- **C25.** The normalisation factor returned besides the map is `h^H h`, for the predefined and for the generic
kernels. -/
theorem C25_norm (st : Formulation) (r0 : ℝ) (rm : Fin n → ℝ) (k : ℝ) (h0 : 0 < r0) (hr : ∀ m, 0 < rm m) (hn : 0 < n) :
    kernelNorm st r0 rm = customNorm (steerVector st r0 rm k) ∧
      customNorm (steerVector st r0 rm k) = ∑ m, ‖steer st r0 rm k m‖ ^ 2 := by
  have hn' : (0 : ℝ) < n := by exact_mod_cast hn
  have hc : customNorm (steerVector st r0 rm k) = ∑ m, ‖steer st r0 rm k m‖ ^ 2 := by
    unfold customNorm
    rw [Complex.re_sum]
    apply Finset.sum_congr rfl
    intro m _
    rw [C25_steer_vector st r0 rm k h0 hr, Complex.mul_conj, Complex.ofReal_re, Complex.normSq_eq_norm_sq]
  refine ⟨?_, hc⟩
  rw [hc]
  have hsq : ∀ m, ‖steer st r0 rm k m‖ ^ 2 = (steerAmp st r0 rm m) ^ 2 := by
    intro m
    unfold steer
    rw [← phase_eq, norm_mul, norm_phase, Complex.norm_real, mul_one, Real.norm_eq_abs, sq_abs]
  simp only [hsq]
  have hH := sumInvSq_pos hn hr
  have hHe : ∑ m, 1 / (rm m * rm m) = ∑ l, 1 / (rm l) ^ 2 :=
    Finset.sum_congr rfl fun m _ => by rw [sq]
  cases st <;> simp only [kernelNorm, steerAmp, helpNormalize]
  · rw [Finset.sum_const, Finset.card_univ, Fintype.card_fin, nsmul_eq_mul]
    field_simp
  · rw [Finset.sum_div]
    apply Finset.sum_congr rfl
    intro m _
    field_simp
  · rw [hHe]
    have : ∀ m, (1 / (r0 * rm m * ∑ l, 1 / (rm l) ^ 2)) ^ 2 = (1 / (rm m) ^ 2) * (1 / (r0 * ∑ l, 1 / (rm l) ^ 2) ^ 2) := by
      intro m
      rw [div_pow, mul_pow, mul_pow, mul_pow]
      field_simp
    simp only [this]
    rw [← Finset.sum_mul]
    have hne := hH.ne'
    generalize ∑ l, 1 / (rm l) ^ 2 = H at hne
    field_simp
  · have : ∀ m, (1 / (rm m * √(n * ∑ l, 1 / (rm l) ^ 2))) ^ 2 = (1 / (rm m) ^ 2) * (1 / (n * ∑ l, 1 / (rm l) ^ 2)) := by
      intro m
      rw [div_pow, mul_pow, Real.sq_sqrt (mul_nonneg hn'.le hH.le)]
      field_simp
    simp only [this]
    rw [← Finset.sum_mul]
    have hne := hH.ne'
    generalize ∑ l, 1 / (rm l) ^ 2 = H at hne
    field_simp

/-- The hypotheses of `C25_norm` are met: -/
example := C25_norm .trueLevel 3 ![1, 2] 5 (by norm_num) pos12 (by norm_num)

end C25

/-! ## C26 -/

section C26

/-- **C26.** The point spread function is `|h^H a|²`, with the steering vector `h` of the focus point and the monopole
field `a` of the source. -/
theorem C26_psf_eq (st : Formulation) (r0 : ℝ) (rm : Fin n → ℝ) (s0 : ℝ) (sm : Fin n → ℝ) (k : ℝ) (h0 : 0 < r0)
    (hr : ∀ m, 0 < rm m) (hn : 0 < n) :
    psfKernel st r0 rm s0 sm k = ‖∑ m, conj (steer st r0 rm k m) * monopole s0 sm k m‖ ^ 2 := by
  have hn' : (0 : ℝ) < n := by exact_mod_cast hn
  have hnc : (n : ℂ) ≠ 0 := by exact_mod_cast hn.ne'
  have h0c : (r0 : ℂ) ≠ 0 := by exact_mod_cast h0.ne'
  have hH := sumInvSq_pos hn hr
  have hHe : ∑ m, 1 / (rm m * rm m) = ∑ l, 1 / (rm l) ^ 2 := Finset.sum_congr rfl fun m _ => by rw [sq]
  have key : ∀ (c : ℝ) (p : Fin n → ℂ),
      (∀ m, conj (steer st r0 rm k m) * monopole s0 sm k m = (c : ℂ) * phase (-(k * s0) + k * r0) * conj (p m)) →
      ‖∑ m, conj (steer st r0 rm k m) * monopole s0 sm k m‖ ^ 2 = ((∑ m, p m) * conj (∑ m, p m)).re * c ^ 2 := by
    intro c p hp
    simp only [hp]
    rw [← Finset.mul_sum, norm_mul, norm_mul, norm_phase, Complex.norm_real, ← map_sum, RCLike.norm_conj, mul_one,
      Complex.mul_conj, Complex.ofReal_re, Complex.normSq_eq_norm_sq, mul_pow, Real.norm_eq_abs, sq_abs]
    ring
  have hph : ∀ m, conj (phase (k * (rm m - r0))) * phase (k * (sm m - s0)) =
      phase (-(k * s0) + k * r0) * conj (phase (k * (rm m - sm m))) := by
    intro m
    rw [conj_phase, conj_phase, ← phase_add, ← phase_add]
    congr 1; ring
  have hmono : ∀ m, monopole s0 sm k m = (s0 / sm m : ℝ) * phase (k * (sm m - s0)) := by
    intro m; unfold monopole; rw [phase_eq]
  have hsteer : ∀ m, conj (steer st r0 rm k m) = (steerAmp st r0 rm m : ℂ) * conj (phase (k * (rm m - r0))) := by
    intro m; unfold steer; rw [map_mul, Complex.conj_ofReal, phase_eq]
  have hprod : ∀ m, conj (steer st r0 rm k m) * monopole s0 sm k m =
      ((steerAmp st r0 rm m * (s0 / sm m) : ℝ) : ℂ) * (phase (-(k * s0) + k * r0) * conj (phase (k * (rm m - sm m)))) := by
    intro m
    rw [hmono, hsteer, ← hph]
    push_cast
    ring
  cases st
  · rw [key (s0 / n) (fun m => phase (k * (rm m - sm m)) / (sm m : ℂ)) (by
      intro m
      rw [hprod, map_div₀, Complex.conj_ofReal]
      simp only [steerAmp]
      push_cast
      ring)]
    simp only [psfKernel]
    ring
  · rw [key (s0 / r0 / n) (fun m => phase (k * (rm m - sm m)) / (sm m : ℂ) * (rm m : ℂ)) (by
      intro m
      rw [hprod, map_mul, map_div₀, Complex.conj_ofReal, Complex.conj_ofReal]
      simp only [steerAmp]
      push_cast
      field_simp)]
    simp only [psfKernel]
    ring
  · rw [key (s0 / r0 / ∑ l, 1 / (rm l) ^ 2) (fun m => phase (k * (rm m - sm m)) / (sm m : ℂ) / (rm m : ℂ)) (by
      intro m
      have hmc : (rm m : ℂ) ≠ 0 := by exact_mod_cast (hr m).ne'
      rw [hprod, map_div₀, map_div₀, Complex.conj_ofReal, Complex.conj_ofReal]
      simp only [steerAmp]
      rw [Complex.ofReal_mul, Complex.ofReal_div, Complex.ofReal_mul, Complex.ofReal_mul, Complex.ofReal_div, Complex.ofReal_div,
        Complex.ofReal_div]
      push_cast
      field_simp)]
    simp only [psfKernel, hHe]
    ring
  · rw [key (s0 / √(n * ∑ l, 1 / (rm l) ^ 2)) (fun m => phase (k * (rm m - sm m)) / (sm m : ℂ) / (rm m : ℂ)) (by
      intro m
      have hmc : (rm m : ℂ) ≠ 0 := by exact_mod_cast (hr m).ne'
      rw [hprod, map_div₀, map_div₀, Complex.conj_ofReal, Complex.conj_ofReal]
      simp only [steerAmp]
      push_cast
      field_simp)]
    simp only [psfKernel, hHe]
    rw [div_pow, Real.sq_sqrt (mul_nonneg hn'.le hH.le)]
    have hne := hH.ne'
    generalize ∑ l, 1 / (rm l) ^ 2 = H at hne
    field_simp

/-- The hypotheses of `C26_psf_eq` are met: -/
example := C26_psf_eq .trueLevel 3 ![1, 2] 4 ![2, 3] 5 (by norm_num) pos12 (by norm_num)

/-- **C26.** Point spread functions are non-negative. -/
theorem C26_psf_nonneg (st : Formulation) (r0 : ℝ) (rm : Fin n → ℝ) (s0 : ℝ) (sm : Fin n → ℝ) (k : ℝ) (h0 : 0 < r0)
    (hr : ∀ m, 0 < rm m) (hn : 0 < n) : 0 ≤ psfKernel st r0 rm s0 sm k := by
  rw [C26_psf_eq st r0 rm s0 sm k h0 hr hn]
  positivity

/-- The hypotheses of `C26_psf_nonneg` are met: -/
example := C26_psf_nonneg .trueLevel 3 ![1, 2] 4 ![2, 3] 5 (by norm_num) pos12 (by norm_num)

private theorem sum_phase_self (sm : Fin n → ℝ) (k : ℝ) (w : Fin n → ℂ) :
    ∑ m, phase (k * (sm m - sm m)) * w m = ∑ m, w m := by
  apply Finset.sum_congr rfl
  intro m _
  rw [sub_self, mul_zero, phase_zero, one_mul]

/-- **C26.** At the position of the source the value is 1 for 'inverse' and 'true level'. -/
theorem C26_calibrated (st : Formulation) (hst : st = .inverse ∨ st = .trueLevel) (s0 : ℝ) (sm : Fin n → ℝ) (k : ℝ)
    (h0 : 0 < s0) (hs : ∀ m, 0 < sm m) (hn : 0 < n) : psfKernel st s0 sm s0 sm k = 1 := by
  rw [C26_psf_eq st s0 sm s0 sm k h0 hs hn]
  have hn' : (n : ℝ) ≠ 0 := by exact_mod_cast hn.ne'
  have hph : ∀ m, conj (phase (k * (sm m - s0))) * phase (k * (sm m - s0)) = 1 := by
    intro m; rw [mul_comm, phase_mul_conj]
  have hprod : ∀ m, conj (steer st s0 sm k m) * monopole s0 sm k m = ((steerAmp st s0 sm m * (s0 / sm m) : ℝ) : ℂ) := by
    intro m
    unfold steer monopole
    rw [map_mul, Complex.conj_ofReal, ← phase_eq]
    have := hph m
    push_cast
    linear_combination (↑(steerAmp st s0 sm m) * (↑s0 / ↑(sm m)) : ℂ) * this
  simp only [hprod]
  rw [← Complex.ofReal_sum]
  have : ∑ m, steerAmp st s0 sm m * (s0 / sm m) = 1 := by
    rcases hst with rfl | rfl
    · simp only [steerAmp]
      have : ∀ m, sm m / (s0 * n) * (s0 / sm m) = 1 / n := by
        intro m
        have := (hs m).ne'
        field_simp
      simp only [this]
      rw [Finset.sum_const, Finset.card_univ, Fintype.card_fin, nsmul_eq_mul]
      field_simp
    · simp only [steerAmp]
      have hH := (sumInvSq_pos hn hs).ne'
      have : ∀ m, 1 / (s0 * sm m * ∑ l, 1 / (sm l) ^ 2) * (s0 / sm m) = (1 / (sm m) ^ 2) * (1 / ∑ l, 1 / (sm l) ^ 2) := by
        intro m
        have := (hs m).ne'
        generalize ∑ l, 1 / (sm l) ^ 2 = H at hH
        field_simp
      simp only [this]
      rw [← Finset.sum_mul]
      field_simp
  rw [this]
  simp

/-- **C26.** For 'true location' no focus point has a larger value than the position of the source
(Cauchy–Schwarz). -/
theorem C26_true_location_max (r0 : ℝ) (rm : Fin n → ℝ) (s0 : ℝ) (sm : Fin n → ℝ) (k : ℝ)
    (hr : ∀ m, 0 < rm m) (hs0 : 0 < s0) (hs : ∀ m, 0 < sm m) (hn : 0 < n) :
    psfKernel .trueLocation r0 rm s0 sm k ≤ psfKernel .trueLocation s0 sm s0 sm k := by
  have hn' : (0 : ℝ) < n := by exact_mod_cast hn
  have hHr := sumInvSq_pos hn hr
  have hHs := sumInvSq_pos hn hs
  have hHe : ∀ rm : Fin n → ℝ, ∑ m, 1 / (rm m * rm m) = ∑ l, 1 / (rm l) ^ 2 :=
    fun rm => Finset.sum_congr rfl fun m _ => by rw [sq]
  simp only [psfKernel, hHe]
  -- value at the source
  have hself : (∑ m, phase (k * (sm m - sm m)) / (sm m : ℂ) / (sm m : ℂ)) = ((∑ l, 1 / (sm l) ^ 2 : ℝ) : ℂ) := by
    rw [Complex.ofReal_sum]
    apply Finset.sum_congr rfl
    intro m _
    rw [sub_self, mul_zero, phase_zero]
    push_cast
    have : (sm m : ℂ) ≠ 0 := by exact_mod_cast (hs m).ne'
    field_simp
  rw [hself]
  have hre : ∀ z : ℂ, (z * conj z).re = ‖z‖ ^ 2 := by
    intro z; rw [Complex.mul_conj, Complex.ofReal_re, Complex.normSq_eq_norm_sq]
  rw [hre, hre, Complex.norm_real, Real.norm_of_nonneg hHs.le]
  have hcs : ‖∑ m, phase (k * (rm m - sm m)) / (sm m : ℂ) / (rm m : ℂ)‖ ^ 2 ≤ (∑ l, 1 / (sm l) ^ 2) * ∑ l, 1 / (rm l) ^ 2 := by
    have h1 : ‖∑ m, phase (k * (rm m - sm m)) / (sm m : ℂ) / (rm m : ℂ)‖ ≤ ∑ m, (1 / sm m) * (1 / rm m) := by
      refine (norm_sum_le _ _).trans (Finset.sum_le_sum ?_)
      intro m _
      rw [norm_div, norm_div, norm_phase, Complex.norm_real, Complex.norm_real, Real.norm_of_nonneg (hs m).le,
        Real.norm_of_nonneg (hr m).le]
      apply le_of_eq
      rw [div_div, one_div_mul_one_div]
    have h2 : (∑ m, (1 / sm m) * (1 / rm m)) ^ 2 ≤ (∑ l, (1 / sm l) ^ 2) * ∑ l, (1 / rm l) ^ 2 :=
      Finset.sum_mul_sq_le_sq_mul_sq _ _ _
    simp only [_root_.one_div_pow] at h2
    exact (pow_le_pow_left₀ (norm_nonneg _) h1 2).trans h2
  rw [div_div, div_div, div_le_div_iff₀ (mul_pos hn' hHr) (mul_pos hn' hHs)]
  have hs2 : 0 ≤ (s0 * s0) * (n * ∑ l, 1 / (sm l) ^ 2) := by positivity
  calc ‖∑ m, phase (k * (rm m - sm m)) / (sm m : ℂ) / (rm m : ℂ)‖ ^ 2 * (s0 * s0) * (n * ∑ l, 1 / (sm l) ^ 2)
      = ‖∑ m, phase (k * (rm m - sm m)) / (sm m : ℂ) / (rm m : ℂ)‖ ^ 2 * ((s0 * s0) * (n * ∑ l, 1 / (sm l) ^ 2)) := by ring
    _ ≤ ((∑ l, 1 / (sm l) ^ 2) * ∑ l, 1 / (rm l) ^ 2) * ((s0 * s0) * (n * ∑ l, 1 / (sm l) ^ 2)) :=
        mul_le_mul_of_nonneg_right hcs hs2
    _ = (∑ l, 1 / (sm l) ^ 2) ^ 2 * (s0 * s0) * (n * ∑ l, 1 / (rm l) ^ 2) := by ring

/-- The hypotheses of `C26_true_location_max` are met: -/
example := C26_true_location_max 3 ![1, 2] 4 ![2, 1] 5 pos12 (by norm_num) (by intro m; fin_cases m <;> simp) (by norm_num)

/-- **C26.** The same holds for 'classic'. -/
theorem C26_classic_max (r0 : ℝ) (rm : Fin n → ℝ) (s0 : ℝ) (sm : Fin n → ℝ) (k : ℝ) (hs : ∀ m, 0 < sm m) :
    psfKernel .classic r0 rm s0 sm k ≤ psfKernel .classic s0 sm s0 sm k := by
  simp only [psfKernel]
  have hre : ∀ z : ℂ, (z * conj z).re = ‖z‖ ^ 2 := by
    intro z; rw [Complex.mul_conj, Complex.ofReal_re, Complex.normSq_eq_norm_sq]
  rw [hre, hre]
  apply mul_le_mul_of_nonneg_right _ (mul_self_nonneg _)
  apply pow_le_pow_left₀ (norm_nonneg _)
  have hself : (∑ m, phase (k * (sm m - sm m)) / (sm m : ℂ)) = ((∑ m, 1 / sm m : ℝ) : ℂ) := by
    rw [Complex.ofReal_sum]
    apply Finset.sum_congr rfl
    intro m _
    rw [sub_self, mul_zero, phase_zero]
    push_cast
    rfl
  rw [hself, Complex.norm_real, Real.norm_of_nonneg (Finset.sum_nonneg fun m _ => by have := hs m; positivity)]
  refine (norm_sum_le _ _).trans (Finset.sum_le_sum ?_)
  intro m _
  rw [norm_div, norm_phase, Complex.norm_real, Real.norm_of_nonneg (hs m).le]

example : psfKernel (n := 2) .inverse 3 ![1, 2] 3 ![1, 2] 5 = 1 :=
  C26_calibrated .inverse (Or.inl rfl) 3 ![1, 2] 5 (by norm_num) (by intro m; fin_cases m <;> simp) (by norm_num)

end C26

end Acoular
