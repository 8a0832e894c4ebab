import Verif.Model.Beamform
import Mathlib.Analysis.SpecialFunctions.Pow.Real
import Mathlib.Tactic.FieldSimp
import Mathlib.Tactic.Positivity
import Mathlib.Tactic.LinearCombination
import Mathlib.Tactic.Linarith

/-! # Lemmas about the beamforming kernels -/

namespace Acoular

open Matrix Complex Spec
open scoped ComplexConjugate

variable {n e : ℕ}

theorem phase_eq (a : ℝ) : phase a = exp (-(I * a)) := by
  have : -(I * (a : ℂ)) = ((-a : ℝ) : ℂ) * I := by push_cast; ring
  rw [this, Complex.exp_mul_I, ← Complex.ofReal_cos, ← Complex.ofReal_sin, Real.cos_neg, Real.sin_neg]
  unfold phase
  push_cast
  ring

theorem phase_zero : phase 0 = 1 := by simp [phase]

theorem phase_add (a b : ℝ) : phase (a + b) = phase a * phase b := by
  rw [phase_eq, phase_eq, phase_eq, ← Complex.exp_add]
  congr 1; push_cast; ring

theorem conj_phase (a : ℝ) : conj (phase a) = phase (-a) := by
  unfold phase
  rw [map_sub, map_mul, Complex.conj_ofReal, Complex.conj_ofReal, Complex.conj_I, Real.cos_neg, Real.sin_neg]
  push_cast; ring

theorem phase_mul_conj (a : ℝ) : phase a * conj (phase a) = 1 := by
  rw [conj_phase, ← phase_add, add_neg_cancel, phase_zero]

theorem normSq_phase (a : ℝ) : Complex.normSq (phase a) = 1 := by
  have := phase_mul_conj a
  rw [Complex.mul_conj] at this
  exact_mod_cast this

theorem norm_phase (a : ℝ) : ‖phase a‖ = 1 := by
  have h := Complex.normSq_eq_norm_sq (phase a)
  rw [normSq_phase] at h
  nlinarith [norm_nonneg (phase a)]

theorem quadForm_eq_sum (C : Matrix (Fin n) (Fin n) ℂ) (h : Fin n → ℂ) :
    quadForm C h = ∑ j, ∑ i, conj (h i) * C i j * h j := by
  unfold quadForm dotProduct mulVec dotProduct
  simp only [Finset.mul_sum]
  rw [Finset.sum_comm]
  apply Finset.sum_congr rfl
  intro j _
  apply Finset.sum_congr rfl
  intro i _
  simp only [Pi.star_apply, RCLike.star_def]
  ring

theorem quadForm_smul (C : Matrix (Fin n) (Fin n) ℂ) (c : ℂ) (h : Fin n → ℂ) :
    quadForm C (fun m => c * h m) = (Complex.normSq c : ℂ) * quadForm C h := by
  rw [quadForm_eq_sum, quadForm_eq_sum, Finset.mul_sum]
  apply Finset.sum_congr rfl
  intro j _
  rw [Finset.mul_sum]
  apply Finset.sum_congr rfl
  intro i _
  rw [map_mul, ← Complex.mul_conj]
  ring

/-- A Hermitian double sum from its strictly upper triangle and its diagonal. -/
theorem herm_sum (a : Fin n → Fin n → ℂ) (h : ∀ i j, a j i = conj (a i j)) :
    ∑ j, ∑ i, a i j = ((∑ j, 2 * (∑ i ∈ Finset.univ.filter (· < j), a i j).re + ∑ j, (a j j).re : ℝ) : ℂ) := by
  have split : ∀ j, ∑ i, a i j = (∑ i ∈ Finset.univ.filter (· < j), a i j) + a j j + ∑ i ∈ Finset.univ.filter (j < ·), a i j := by
    intro j
    have h1 : ∑ i, a i j = ∑ i, ((if i < j then a i j else 0) + (if i = j then a i j else 0) + (if j < i then a i j else 0)) := by
      apply Finset.sum_congr rfl
      intro i _
      rcases lt_trichotomy i j with h | h | h
      · simp [h, h.ne, not_lt.2 h.le]
      · simp [h]
      · simp [h, h.ne', not_lt.2 h.le]
    rw [h1, Finset.sum_add_distrib, Finset.sum_add_distrib, Finset.sum_filter, Finset.sum_filter]
    simp
  have swap : ∑ j, ∑ i ∈ Finset.univ.filter (j < ·), a i j = conj (∑ j, ∑ i ∈ Finset.univ.filter (· < j), a i j) := by
    simp only [Finset.sum_filter, map_sum]
    rw [Finset.sum_comm]
    apply Finset.sum_congr rfl
    intro j _
    apply Finset.sum_congr rfl
    intro i _
    split
    · exact h i j
    · simp
  have diag : ∀ j, a j j = ((a j j).re : ℂ) := by
    intro j
    exact (Complex.conj_eq_iff_re.1 (h j j).symm).symm
  simp only [split]
  rw [Finset.sum_add_distrib, Finset.sum_add_distrib, swap]
  have e : ∀ z w : ℂ, z + w + conj z = ((2 * z.re : ℝ) : ℂ) + w := by
    intro z w
    have := Complex.add_conj z
    push_cast
    push_cast at this
    linear_combination this
  rw [e, Complex.ofReal_add, ← Finset.mul_sum, Complex.re_sum, Finset.sum_congr rfl (fun j _ => diag j), Complex.ofReal_sum]

theorem removeDiag_herm {C : Matrix (Fin n) (Fin n) ℂ} (hC : C.IsHermitian) : (removeDiag C).IsHermitian := by
  ext i j
  rw [Matrix.conjTranspose_apply]
  unfold removeDiag
  by_cases h : i = j
  · simp [h]
  · rw [if_neg h, if_neg (Ne.symm h)]
    exact hC.apply i j

/-- The loop of the kernels computes the quadratic form. -/
theorem scalarProdFull_eq {C : Matrix (Fin n) (Fin n) ℂ} (hC : C.IsHermitian) (rDiag : Bool) (h : Fin n → ℂ) :
    (scalarProdFull C rDiag h : ℂ) = quadForm (if rDiag then removeDiag C else C) h := by
  rw [quadForm_eq_sum]
  have hM : (if rDiag then removeDiag C else C).IsHermitian := by
    cases rDiag
    · exact hC
    · exact removeDiag_herm hC
  rw [herm_sum _ (by
    intro i j
    have := hM.apply i j
    rw [← this]
    simp only [map_mul, Complex.conj_conj, RCLike.star_def]
    ring)]
  norm_cast
  unfold scalarProdFull
  congr 1
  · apply Finset.sum_congr rfl
    intro m _
    rw [Finset.sum_mul]
    congr 2
    apply Finset.sum_congr rfl
    intro i hi
    have hne : i ≠ m := (Finset.mem_filter.1 hi).2.ne
    cases rDiag
    · simp only [Bool.false_eq_true, if_false]; ring
    · simp only [if_true, removeDiag, if_neg hne]; ring
  · cases rDiag
    · simp only [Bool.false_eq_true, if_false]
      apply Finset.sum_congr rfl
      intro m _
      congr 1; ring
    · simp [removeDiag]

/-- Factor that the kernels pull out of the sum. -/
noncomputable def pulledFactor (st : Formulation) (n : ℕ) (r0 : ℝ) (H : ℝ) : ℝ :=
  match st with
  | .classic => 1 / n
  | .inverse => 1 / (n * r0)
  | .trueLevel => 1 / (r0 * H)
  | .trueLocation => 1 / √(n * H)

theorem sumInvSq_pos (hn : 0 < n) {rm : Fin n → ℝ} (hr : ∀ m, 0 < rm m) : 0 < ∑ l, 1 / (rm l) ^ 2 := by
  apply Finset.sum_pos
  · intro i _
    have := hr i
    positivity
  · exact ⟨⟨0, hn⟩, Finset.mem_univ _⟩

theorem steer_eq_kernel (st : Formulation) (r0 : ℝ) (rm : Fin n → ℝ) (k : ℝ) (m : Fin n) (h0 : r0 ≠ 0)
    (hr : ∀ m, rm m ≠ 0) :
    steer st r0 rm k m = ((pulledFactor st n r0 (∑ l, 1 / (rm l) ^ 2) : ℝ) : ℂ) * phase (-(k * r0)) * kernelSteer st rm k m := by
  have e : exp (-(I * (k * (rm m - r0) : ℝ))) = phase (-(k * r0)) * phase (k * rm m) := by
    rw [← phase_eq, ← phase_add]
    congr 1; ring
  unfold steer
  rw [e]
  have hm : (rm m : ℂ) ≠ 0 := by exact_mod_cast hr m
  have h0' : (r0 : ℂ) ≠ 0 := by exact_mod_cast h0
  cases st
  · simp only [steerAmp, pulledFactor, kernelSteer]; ring
  · simp only [steerAmp, pulledFactor, kernelSteer]; push_cast; ring
  · simp only [steerAmp, pulledFactor, kernelSteer]; push_cast; field_simp
  · simp only [steerAmp, pulledFactor, kernelSteer]; push_cast; field_simp

theorem kernelResult_eq (st : Formulation) (r0 : ℝ) (rm : Fin n → ℝ) (loss x : ℝ) :
    kernelResult st r0 rm loss x = (pulledFactor st n r0 (∑ l, 1 / (rm l) ^ 2)) ^ 2 * x * loss := by
  have hH : ∀ rm : Fin n → ℝ, ∑ m, 1 / (rm m * rm m) = ∑ l, 1 / (rm l) ^ 2 := by
    intro rm
    apply Finset.sum_congr rfl
    intro m _
    rw [sq]
  cases st
  · simp only [kernelResult, pulledFactor]; field_simp
  · simp only [kernelResult, pulledFactor]; field_simp
  · simp only [kernelResult, pulledFactor, helpNormalize, hH]; field_simp
  · simp only [kernelResult, pulledFactor, helpNormalize, hH]
    have : 0 ≤ (n : ℝ) * ∑ l, 1 / (rm l) ^ 2 := by
      apply mul_nonneg (Nat.cast_nonneg n)
      apply Finset.sum_nonneg
      intro i _
      positivity
    rw [div_pow, Real.sq_sqrt this]
    ring

/-- The quadratic form of the steering vector from that of the kernel's vector. -/
theorem quadForm_steer (st : Formulation) (r0 : ℝ) (rm : Fin n → ℝ) (k : ℝ) (h0 : r0 ≠ 0) (hr : ∀ m, rm m ≠ 0)
    (C : Matrix (Fin n) (Fin n) ℂ) :
    quadForm C (steer st r0 rm k) =
      (((pulledFactor st n r0 (∑ l, 1 / (rm l) ^ 2)) ^ 2 : ℝ) : ℂ) * quadForm C (kernelSteer st rm k) := by
  have : steer st r0 rm k = fun m => (((pulledFactor st n r0 (∑ l, 1 / (rm l) ^ 2) : ℝ) : ℂ) * phase (-(k * r0))) *
      kernelSteer st rm k m := by
    funext m
    exact steer_eq_kernel st r0 rm k m h0 hr
  rw [this, quadForm_smul]
  congr 1
  rw [Complex.normSq_mul, normSq_phase, Complex.normSq_ofReal, mul_one, sq]

end Acoular
