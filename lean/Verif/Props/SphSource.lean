import Verif.Model.SphSource
import Verif.Lemmas.StreamModel

/-!
# C94: directivity of spherical harmonic sources
-/

namespace Acoular

open Spec

theorem sphTransform_eq (c : ℂ) (block : List ℝ) : sphTransform c block = block.map (· * c.re) := by
  match block with
  | [] => rfl
  | x :: l =>
    unfold sphTransform
    simp only
    refine List.ext_getElem (by simp) fun t h1 h2 => ?_
    have ht : t < l.length + 1 := by simpa using h1
    rw [List.getElem_map, List.getElem_range, List.getElem_map]
    set col : ZMod (l.length + 1) → ℂ := fun p => (((x :: l).getD p.val 0 : ℝ) : ℂ)
    have e : (fun k => ZMod.dft col k * c) = ZMod.dft (c • col) := by
      rw [map_smul]
      funext k
      simp [mul_comm]
    rw [e, LinearEquiv.symm_apply_apply]
    have hv : (t : ZMod (l.length + 1)).val = t := ZMod.val_natCast_of_lt ht
    have hc : col (t : ZMod (l.length + 1)) = (((x :: l)[t] : ℝ) : ℂ) := by
      show (((x :: l).getD _ 0 : ℝ) : ℂ) = _
      rw [hv]
      simp only [List.getD, List.getElem?_eq_getElem (show t < (x :: l).length from ht), Option.getD_some]
    rw [Pi.smul_apply, hc, smul_eq_mul, Complex.mul_re]
    simp [mul_comm]

/-- **C94** (part) The signal at a microphone is the signal of the monopole times the real part of the directivity, for
every block size, so also the same samples for every block size. -/
theorem C94_scaling_partial (c : ℂ) (num : ℕ) (hn : 0 < num) (data : List ℝ) (blocks : List (List ℝ)) (h : IsBlocking num data blocks) :
    IsBlocking num (data.map (· * c.re)) (blocks.map (sphTransform c)) := by
  have e : blocks.map (sphTransform c) = blocks.map (List.map (· * c.re)) :=
    List.map_congr_left fun b _ => sphTransform_eq c b
  rw [e]
  exact h.map hn _

/-- The hypotheses of `C94_scaling_partial` are met: -/
example := C94_scaling_partial (2 + Complex.I) 2 (by decide) [1, 2, 3] _ (isBlocking_chunks (by decide) _)

/-- With a real directivity this is the directivity. -/
theorem C94_real (d : ℝ) (block : List ℝ) : sphTransform (d : ℂ) block = block.map (· * d) := by
  rw [sphTransform_eq, Complex.ofReal_re]

/-- The imaginary part is lost: a purely imaginary directivity of modulus one, say of a mode with a coefficient of `1j`,
silences the source. -/
theorem C94_imaginary_violated (block : List ℝ) : sphTransform Complex.I block = List.replicate block.length 0 := by
  rw [sphTransform_eq]
  simp

/-- Two blocks of a signal. -/
example : IsBlocking 2 [1, 2, (3 : ℝ)] [[1, 2], [3]] := (isBlocking_iff (by norm_num)).2 (by simp [chunks, List.range_succ])

end Acoular
