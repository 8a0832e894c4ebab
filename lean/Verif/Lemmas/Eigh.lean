import Verif.Props.SyntheticEv
import Mathlib.Analysis.Matrix.Spectrum
import Mathlib.Data.Fin.Tuple.Sort

/-!
# What `eigh` promises exists for every Hermitian matrix
-/

namespace Acoular

open Matrix Spec

/-- Every Hermitian matrix has eigenvalues and eigenvectors as `eigh` promises them (`IsEigh`): the assumption made about
`numpy.linalg.eigh` can be met for every input. -/
theorem exists_isEigh {n : ℕ} (A : Matrix (Fin n) (Fin n) ℂ) (h : A.IsHermitian) :
    ∃ r : (Fin n → ℝ) × Matrix (Fin n) (Fin n) ℂ, IsEigh A r := by
  let σ := Tuple.sort h.eigenvalues
  let U : Matrix (Fin n) (Fin n) ℂ := h.eigenvectorUnitary
  have hU : Uᴴ * U = 1 := Unitary.coe_star_mul_self h.eigenvectorUnitary
  have hA : A = U * diagonal (fun l => (h.eigenvalues l : ℂ)) * Uᴴ := h.spectral_theorem
  refine ⟨(h.eigenvalues ∘ σ, U.submatrix id σ), Tuple.monotone_sort h.eigenvalues, ?_, ?_⟩
  · show (U.submatrix id σ)ᴴ * U.submatrix id σ = 1
    rw [conjTranspose_submatrix, ← submatrix_mul Uᴴ U σ id σ Function.bijective_id, hU]
    exact submatrix_one_equiv σ
  · show A = U.submatrix id σ * diagonal (fun l => ((h.eigenvalues (σ l) : ℝ) : ℂ)) * (U.submatrix id σ)ᴴ
    have hD : diagonal (fun l => ((h.eigenvalues (σ l) : ℝ) : ℂ)) =
        (diagonal (fun l => (h.eigenvalues l : ℂ))).submatrix σ σ := by
      rw [submatrix_diagonal_equiv]; rfl
    rw [hD, conjTranspose_submatrix, submatrix_mul_equiv _ _ id σ σ, submatrix_mul_equiv _ _ id σ id]
    rw [submatrix_id_id]
    exact hA

end Acoular
