import Verif.Model.EigBeam
import Verif.Props.Deconv
import Mathlib.Analysis.MeanInequalitiesPow
import Mathlib.LinearAlgebra.Matrix.PosDef
import Mathlib.Analysis.Matrix.PosDef

/-!
# Property theorems: component selection (C30), functional beamforming (C62), Capon (C63), CLEAN-SC lines (C64),
MUSIC (C65), orthogonal beamforming (C66)
-/

set_option linter.unusedSectionVars false

namespace Acoular

open Spec Matrix Complex
open scoped ComplexConjugate ComplexOrder

variable {n e g : ℕ}

/-! ## C30 -/

section C30

/-- **C30.** Computed afresh, `na` is always a valid index. -/
theorem C30_range_partial (nm n : ℤ) (h : 1 ≤ nm) : 0 ≤ eigNa nm n ∧ eigNa nm n ≤ nm - 1 := by
  unfold eigNa
  dsimp only
  split <;> omega

/-- The hypotheses of `C30_range_partial` are met: -/
example := C30_range_partial 64 (-100) (by norm_num)

/-- **C30.** It is `n` itself where that is valid, counts from the end for negative `n`, and is limited to the ends
otherwise. -/
theorem C30_value_partial (nm n : ℤ) (h : 1 ≤ nm) :
    (0 ≤ n → n < nm → eigNa nm n = n) ∧ (n < 0 → -nm ≤ n → eigNa nm n = nm + n) ∧
    (nm ≤ n → eigNa nm n = nm - 1) ∧ (n < -nm → eigNa nm n = 0) := by
  unfold eigNa
  dsimp only
  refine ⟨?_, ?_, ?_, ?_⟩ <;> intros <;> split <;> omega

/-- The hypotheses of `C30_value_partial` are met: -/
example := C30_value_partial 64 (-1) (by norm_num)

/-- The cache is right after every history without edits inside the microphone object. -/
private theorem eig_cache_ok (acts : List EigAct) (hno : ∀ a ∈ acts, ∀ k, a ≠ .editMics k) (s : EigObj)
    (hs : ∀ c, s.cache = some c → c = eigNa s.numMics s.n) :
    ∀ c, (acts.foldl eigAct s).cache = some c → c = eigNa (acts.foldl eigAct s).numMics (acts.foldl eigAct s).n := by
  induction acts generalizing s with
  | nil => exact hs
  | cons a acts ih =>
    rw [List.foldl_cons]
    apply ih (fun b hb => hno b (List.mem_cons_of_mem _ hb))
    intro c hc
    cases a with
    | setN k =>
      simp only [eigAct] at hc ⊢
      split at hc
      · rename_i hk; rw [hk]; exact hs c hc
      · cases hc
    | newMics k => simp only [eigAct] at hc; cases hc
    | editMics k => exact absurd rfl (hno _ List.mem_cons_self k)
    | readNa =>
      simp only [eigAct, Option.some.injEq] at hc ⊢
      rw [← hc]
      cases hcc : s.cache with
      | none => rfl
      | some d => exact hs d hcc

/-- **C30.** In every history in which no microphone object is edited in place, `na` is valid and up to date. -/
theorem C30_history_partial (acts : List EigAct) (hno : ∀ a ∈ acts, ∀ k, a ≠ .editMics k) (nm n : ℤ)
    (h1 : 1 ≤ (acts.foldl eigAct ⟨nm, n, none⟩).numMics) :
    let s := acts.foldl eigAct ⟨nm, n, none⟩
    eigReadNa s = eigNa s.numMics s.n ∧ 0 ≤ eigReadNa s ∧ eigReadNa s < s.numMics := by
  intro s
  have h : eigReadNa s = eigNa s.numMics s.n := by
    unfold eigReadNa
    cases hc : s.cache with
    | none => rfl
    | some c => exact eig_cache_ok acts hno ⟨nm, n, none⟩ (by simp) c hc
  have := C30_range_partial s.numMics s.n h1
  refine ⟨h, by omega, by omega⟩

/-- The hypotheses of `C30_history_partial` are met: -/
example := C30_history_partial [.setN 3, .readNa] (by simp) 64 (-1) (by decide)

/-- **C30 is false of the code**: `na` is not recomputed when channels of the microphone object are excluded; the index
is then out of range and no component at all is used. -/
theorem C30_stale_violated : ∃ (acts : List EigAct), let s := acts.foldl eigAct ⟨4, -1, none⟩
    s.numMics = 2 ∧ eigReadNa s = 3 ∧ eigComponents (eigReadNa s) [(1 : ℤ), 2] = [] :=
  ⟨[.readNa, .editMics 2], by decide⟩

/-- **C30.** With a valid `na` exactly the one component with that index is used, by MUSIC the smallest
`nmics - na ≥ 1`. -/
theorem C30_components {α : Type} (eva : List α) (na : ℤ) (h0 : 0 ≤ na) (h1 : na < eva.length) :
    (eigComponents na eva).length = 1 ∧ (eigComponents na eva)[0]? = eva[na.toNat]? ∧
    (musicComponents eva.length na eva).length = eva.length - na.toNat ∧ 1 ≤ (musicComponents eva.length na eva).length := by
  unfold eigComponents musicComponents
  refine ⟨?_, ?_, ?_, ?_⟩
  · simp only [List.length_take, List.length_drop]; omega
  · rw [List.getElem?_take_of_lt (by omega), List.getElem?_drop, Nat.add_zero]
  · simp only [List.length_take]; omega
  · simp only [List.length_take]; omega

example : eigNa 64 (-1) = 63 ∧ eigNa 64 (-100) = 0 ∧ eigNa 64 100 = 63 ∧ eigNa 64 5 = 5 := by decide

end C30

/-! ## C62 -/

section C62

/-- Weights of the eigenvectors: `|v_l^H h|² / |h|²`. -/
private noncomputable def wgt (eve : Fin n → Fin e → ℂ) (h : Fin n → ℂ) (l : Fin e) : ℝ :=
  ‖∑ m, conj (eve m l) * h m‖ ^ 2

private theorem scalarProdEig_wgt (eva : Fin e → ℝ) (eve : Fin n → Fin e → ℂ) (h : Fin n → ℂ) :
    scalarProdEig eva eve false h = ∑ l, wgt eve h l * eva l := by
  unfold scalarProdEig wgt
  apply Finset.sum_congr rfl
  intro l _
  simp only [Bool.false_eq_true, if_false]
  rw [Complex.mul_conj, Complex.ofReal_re, Complex.normSq_eq_norm_sq]

private theorem sum_wgt (U : Matrix (Fin n) (Fin n) ℂ) (hU : U * Uᴴ = 1) (h : Fin n → ℂ) :
    ∑ l, wgt (fun i l => U i l) h l = ∑ m, ‖h m‖ ^ 2 := by
  have hA : assemble (fun _ : Fin n => (1 : ℝ)) (fun i l => U i l) = 1 := by
    rw [← hU]
    ext i j
    unfold assemble
    rw [Matrix.mul_apply]
    apply Finset.sum_congr rfl
    intro l _
    rw [Matrix.conjTranspose_apply, RCLike.star_def, Complex.ofReal_one, one_mul]
  have h1 := scalarProdEig_wgt (fun _ : Fin n => (1 : ℝ)) (fun i l => U i l) h
  simp only [mul_one] at h1
  rw [← h1, scalarProdEig_eq, hA]
  unfold scalarProdFull
  have h2 : ∀ m, (∑ m2 ∈ Finset.univ.filter (· < m), (1 : Matrix (Fin n) (Fin n) ℂ) m2 m * conj (h m2)) = 0 := by
    intro m
    apply Finset.sum_eq_zero
    intro m2 hm2
    rw [Matrix.one_apply_ne (Finset.mem_filter.1 hm2).2.ne, zero_mul]
  simp only [h2, zero_mul, Complex.zero_re, mul_zero, Finset.sum_const_zero, zero_add, Bool.false_eq_true, if_false]
  apply Finset.sum_congr rfl
  intro m _
  rw [Matrix.one_apply_eq, one_mul, mul_comm, Complex.mul_conj, Complex.ofReal_re, Complex.normSq_eq_norm_sq]

variable (st : Formulation) (r0 : ℝ) (rm : Fin n → ℝ) (k : ℝ)

/-- The kernel as a weighted sum of the eigenvalues with weights adding up to `normalizeSteer`. -/
private theorem eigKernel_wgt (h0 : 0 < r0) (hr : ∀ m, 0 < rm m) (eva : Fin e → ℝ) (eve : Fin n → Fin e → ℂ) :
    eigKernel st false 1 r0 rm k eva eve = ∑ l, wgt eve (steer st r0 rm k) l * eva l := by
  rw [C25_predefined_eq_custom_eig st false 1 r0 rm k h0 hr]
  unfold customEigKernel
  rw [mul_one, scalarProdEig_wgt, show steerVector st r0 rm k = steer st r0 rm k from
    funext fun m => C25_steer_vector st r0 rm k h0 hr m]

private theorem kernelNorm_eq (h0 : 0 < r0) (hr : ∀ m, 0 < rm m) (hn : 0 < n) :
    kernelNorm st r0 rm = ∑ m, ‖steer st r0 rm k m‖ ^ 2 := by
  rw [(C25_norm st r0 rm k h0 hr hn).1, (C25_norm st r0 rm k h0 hr hn).2]

private theorem kernelNorm_pos (h0 : 0 < r0) (hr : ∀ m, 0 < rm m) (hn : 0 < n) : 0 < kernelNorm st r0 rm := by
  have hn' : (0 : ℝ) < n := by exact_mod_cast hn
  have hH := sumInvSq_pos hn hr
  have hHe : ∑ m, 1 / (rm m * rm m) = ∑ l, 1 / (rm l) ^ 2 := Finset.sum_congr rfl fun m _ => by rw [sq]
  cases st <;> simp only [kernelNorm, helpNormalize, hHe]
  · positivity
  · apply div_pos _ (by positivity)
    apply Finset.sum_pos (fun m _ => mul_pos (hr m) (hr m))
    exact ⟨⟨0, hn⟩, Finset.mem_univ _⟩
  · exact div_pos (by positivity) hH
  · positivity

/-- The power mean that functional beamforming takes. -/
private theorem functional_eq (h0 : 0 < r0) (hr : ∀ m, 0 < rm m) (gamma : ℝ) (eva : Fin e → ℝ)
    (eve : Fin n → Fin e → ℂ) :
    functionalPoint st gamma r0 rm k eva eve =
      (∑ l, wgt eve (steer st r0 rm k) l / kernelNorm st r0 rm * eva l ^ (1 / gamma)) ^ gamma * kernelNorm st r0 rm := by
  unfold functionalPoint
  dsimp only
  rw [eigKernel_wgt st r0 rm k h0 hr, Finset.sum_div]
  simp only [sigLossNorm, if_true, mul_one]
  congr 2
  apply Finset.sum_congr rfl
  intro l _
  ring

/-- **C62.** With exponent 1 functional beamforming is conventional beamforming. -/
theorem C62_gamma_one (h0 : 0 < r0) (hr : ∀ m, 0 < rm m) (hn : 0 < n) (C : Matrix (Fin n) (Fin n) ℂ) (hC : C.IsHermitian) :
    functionalPoint st 1 r0 rm k hC.eigenvalues (fun i l => (hC.eigenvectorUnitary : Matrix (Fin n) (Fin n) ℂ) i l) =
      fullCsmKernel st false 1 r0 rm k C := by
  rw [← C24_all_components st false 1 r0 rm k C hC]
  unfold functionalPoint
  dsimp only
  have hp := (kernelNorm_pos st r0 rm h0 hr hn).ne'
  simp only [div_one, Real.rpow_one, sigLossNorm, if_true, mul_one]
  field_simp

/-- The hypotheses of `C62_gamma_one` are met: -/
example := C62_gamma_one .trueLevel 1 ![1, 2] 5 (by norm_num) (by intro m; fin_cases m <;> simp) (by decide) _
  (Matrix.isHermitian_mul_conjTranspose_self (![![1, 2], ![Complex.I, 3]] : Matrix (Fin 2) (Fin 2) ℂ))

/-- **C62.** The map does not increase with the exponent. -/
theorem C62_antitone (h0 : 0 < r0) (hr : ∀ m, 0 < rm m) (hn : 0 < n) (C : Matrix (Fin n) (Fin n) ℂ) (hC : C.PosSemidef)
    (γ₁ γ₂ : ℝ) (h1 : 0 < γ₁) (h12 : γ₁ ≤ γ₂) :
    functionalPoint st γ₂ r0 rm k hC.isHermitian.eigenvalues
        (fun i l => (hC.isHermitian.eigenvectorUnitary : Matrix (Fin n) (Fin n) ℂ) i l) ≤
      functionalPoint st γ₁ r0 rm k hC.isHermitian.eigenvalues
        (fun i l => (hC.isHermitian.eigenvectorUnitary : Matrix (Fin n) (Fin n) ℂ) i l) := by
  have h2 : 0 < γ₂ := h1.trans_le h12
  rw [functional_eq st r0 rm k h0 hr, functional_eq st r0 rm k h0 hr]
  have hp := kernelNorm_pos st r0 rm h0 hr hn
  apply mul_le_mul_of_nonneg_right _ hp.le
  set w : Fin n → ℝ := fun l =>
    wgt (fun i l => (hC.isHermitian.eigenvectorUnitary : Matrix (Fin n) (Fin n) ℂ) i l) (steer st r0 rm k) l / kernelNorm st r0 rm with hw
  have hw0 : ∀ l ∈ Finset.univ, 0 ≤ w l := by
    intro l _
    exact div_nonneg (sq_nonneg _) hp.le
  have hw1 : ∑ l, w l = 1 := by
    rw [hw, ← Finset.sum_div, sum_wgt _ (by
      have := Matrix.mem_unitaryGroup_iff.1 hC.isHermitian.eigenvectorUnitary.2
      rw [Matrix.star_eq_conjTranspose] at this
      exact this), ← kernelNorm_eq st r0 rm k h0 hr hn, div_self hp.ne']
  have hz : ∀ l ∈ Finset.univ, 0 ≤ hC.isHermitian.eigenvalues l ^ (1 / γ₂) := fun l _ =>
    Real.rpow_nonneg (hC.eigenvalues_nonneg l) _
  have hj := Real.rpow_arith_mean_le_arith_mean_rpow Finset.univ w (fun l => hC.isHermitian.eigenvalues l ^ (1 / γ₂)) hw0 hw1 hz
    (p := γ₂ / γ₁) ((one_le_div h1).2 h12)
  have he : ∀ l, (hC.isHermitian.eigenvalues l ^ (1 / γ₂)) ^ (γ₂ / γ₁) = hC.isHermitian.eigenvalues l ^ (1 / γ₁) := by
    intro l
    rw [← Real.rpow_mul (hC.eigenvalues_nonneg l)]
    congr 1
    field_simp
  simp only [he] at hj
  have hS : 0 ≤ ∑ l, w l * hC.isHermitian.eigenvalues l ^ (1 / γ₂) :=
    Finset.sum_nonneg fun l hl => mul_nonneg (hw0 l hl) (hz l hl)
  have h3 := Real.rpow_le_rpow (Real.rpow_nonneg hS _) hj h1.le
  rw [← Real.rpow_mul hS, div_mul_cancel₀ _ h1.ne'] at h3
  exact h3

/-- The hypotheses of `C62_antitone` are met: -/
example := C62_antitone .trueLevel 1 ![1, 2] 5 (by norm_num) (by intro m; fin_cases m <;> simp) (by decide) _
  (Matrix.posSemidef_self_mul_conjTranspose (![![1, 2], ![Complex.I, 3]] : Matrix (Fin 2) (Fin 2) ℂ)) 1 2 (by norm_num) (by norm_num)

/-- **C62.** Functional beamforming with an exponent of at least 1 never exceeds conventional beamforming and is
non-negative. -/
theorem C62_le_conventional (h0 : 0 < r0) (hr : ∀ m, 0 < rm m) (hn : 0 < n) (C : Matrix (Fin n) (Fin n) ℂ)
    (hC : C.PosSemidef) (γ : ℝ) (hγ : 1 ≤ γ) :
    0 ≤ functionalPoint st γ r0 rm k hC.isHermitian.eigenvalues
        (fun i l => (hC.isHermitian.eigenvectorUnitary : Matrix (Fin n) (Fin n) ℂ) i l) ∧
    functionalPoint st γ r0 rm k hC.isHermitian.eigenvalues
        (fun i l => (hC.isHermitian.eigenvectorUnitary : Matrix (Fin n) (Fin n) ℂ) i l) ≤ fullCsmKernel st false 1 r0 rm k C := by
  constructor
  · rw [functional_eq st r0 rm k h0 hr]
    have hp := kernelNorm_pos st r0 rm h0 hr hn
    apply mul_nonneg _ hp.le
    apply Real.rpow_nonneg
    apply Finset.sum_nonneg
    intro l _
    exact mul_nonneg (div_nonneg (sq_nonneg _) hp.le) (Real.rpow_nonneg (hC.eigenvalues_nonneg l) _)
  · rw [← C62_gamma_one st r0 rm k h0 hr hn C hC.isHermitian]
    exact C62_antitone st r0 rm k h0 hr hn C hC 1 γ one_pos hγ

example : (1 : Matrix (Fin 2) (Fin 2) ℂ).PosSemidef := Matrix.PosSemidef.one

end C62

/-! ## C63 -/

section C63

/-- Cauchy–Schwarz with a positive definite matrix and its inverse. -/
private theorem cauchy_schwarz_inv (C : Matrix (Fin n) (Fin n) ℂ) (hC : C.PosDef) (h : Fin n → ℂ) :
    (∑ m, ‖h m‖ ^ 2) ^ 2 ≤ (quadForm C h).re * (quadForm C⁻¹ h).re := by
  have hdet : IsUnit C.det := hC.isUnit.map Matrix.detMonoidHom
  set x := C⁻¹ *ᵥ h with hx
  have hCx : C *ᵥ x = h := by rw [hx, Matrix.mulVec_mulVec, Matrix.mul_nonsing_inv _ hdet, Matrix.one_mulVec]
  have hnorm : ∀ u : Fin n → ℂ, star u ⬝ᵥ u = ((∑ m, ‖u m‖ ^ 2 : ℝ) : ℂ) := by
    intro u
    unfold dotProduct
    rw [Complex.ofReal_sum]
    apply Finset.sum_congr rfl
    intro m _
    rw [Pi.star_apply, RCLike.star_def, mul_comm, Complex.mul_conj, Complex.normSq_eq_norm_sq]
  have hself : ∀ u v : Fin n → ℂ, star (C *ᵥ u) ⬝ᵥ v = star u ⬝ᵥ (C *ᵥ v) := by
    intro u v
    rw [Matrix.star_mulVec, hC.isHermitian.eq, ← Matrix.dotProduct_mulVec]
  have h2 : quadForm C⁻¹ h = quadForm C x := by
    unfold quadForm
    rw [← hx]
    conv_lhs => rw [← hCx]
    rw [hself]
  have hxh : star x ⬝ᵥ (C *ᵥ h) = ((∑ m, ‖h m‖ ^ 2 : ℝ) : ℂ) := by
    rw [← hself, hCx, hnorm]
  have hhx : star h ⬝ᵥ (C *ᵥ x) = ((∑ m, ‖h m‖ ^ 2 : ℝ) : ℂ) := by
    rw [hCx, hnorm]
  rw [h2]
  set s := ∑ m, ‖h m‖ ^ 2
  have hpos : ∀ u : Fin n → ℂ, 0 ≤ (quadForm C u).re := fun u =>
    (Complex.nonneg_iff.1 (hC.posSemidef.dotProduct_mulVec_nonneg u)).1
  have hexp : ∀ t : ℝ, (quadForm C (h - (t : ℂ) • x)).re = (quadForm C h).re - 2 * t * s + t ^ 2 * (quadForm C x).re := by
    intro t
    have : quadForm C (h - (t : ℂ) • x) = quadForm C h - ((2 * t * s : ℝ) : ℂ) + ((t ^ 2 : ℝ) : ℂ) * quadForm C x := by
      unfold quadForm
      rw [Matrix.mulVec_sub, Matrix.mulVec_smul, star_sub, star_smul, sub_dotProduct, dotProduct_sub, dotProduct_sub,
        smul_dotProduct, smul_dotProduct, dotProduct_smul, dotProduct_smul, hxh, hhx]
      simp only [smul_eq_mul, RCLike.star_def, Complex.conj_ofReal]
      push_cast
      ring
    rw [this, Complex.add_re, Complex.sub_re, Complex.ofReal_re, Complex.re_ofReal_mul]
  rcases (hpos x).eq_or_lt with hb | hb
  · have hx0 : x = 0 := by
      by_contra hne
      have := hC.dotProduct_mulVec_pos hne
      have h3 : 0 < (quadForm C x).re := (Complex.pos_iff.1 this).1
      exact absurd hb h3.ne
    have hh0 : h = 0 := by rw [← hCx, hx0, Matrix.mulVec_zero]
    have hs0 : s = 0 := by simp [s, hh0]
    rw [hs0, ← hb]
    simp
  · have h3 := hpos (h - ((s / (quadForm C x).re : ℝ) : ℂ) • x)
    rw [hexp] at h3
    have h4 : (quadForm C h).re - 2 * (s / (quadForm C x).re) * s + (s / (quadForm C x).re) ^ 2 * (quadForm C x).re =
        ((quadForm C h).re * (quadForm C x).re - s ^ 2) / (quadForm C x).re := by
      field_simp
      ring
    rw [h4] at h3
    have h5 := (div_nonneg_iff.1 h3).resolve_right (fun h => absurd h.2 (not_le.2 hb))
    linarith [h5.1]

/-- **C63.** Capon never exceeds conventional beamforming, up to the factor `(N |h|²)²` of the formulation. -/
theorem C63_capon_general (st : Formulation) (r0 : ℝ) (rm : Fin n → ℝ) (k : ℝ) (h0 : 0 < r0) (hr : ∀ m, 0 < rm m)
    (hn : 0 < n) (C : Matrix (Fin n) (Fin n) ℂ) (hC : C.PosDef) :
    0 ≤ caponPoint st r0 rm k C ∧
    caponPoint st r0 rm k C * ((n : ℝ) * ∑ m, ‖steer st r0 rm k m‖ ^ 2) ^ 2 ≤ fullCsmKernel st false 1 r0 rm k C := by
  have hn' : (0 : ℝ) < n := by exact_mod_cast hn
  have hinv : C⁻¹.PosDef := hC.inv
  have e1 := C23_kernel_quadratic_form st false 1 r0 rm k h0 hr C hC.isHermitian
  have e2 := C23_kernel_quadratic_form st false ((n : ℝ) ^ 2) r0 rm k h0 hr C⁻¹ hinv.isHermitian
  have e1' := congrArg Complex.re e1
  have e2' := congrArg Complex.re e2
  simp only [Bool.false_eq_true, if_false, Complex.ofReal_re, Complex.re_ofReal_mul, one_mul] at e1' e2'
  have hcs := cauchy_schwarz_inv C hC (steer st r0 rm k)
  have hnn := C23_nonneg st ((n : ℝ) ^ 2) r0 (by positivity) rm k C⁻¹ hinv.posSemidef
  have hnn1 := C23_nonneg st 1 r0 zero_le_one rm k C hC.posSemidef
  unfold caponPoint
  simp only [sigLossNorm, if_true, one_mul]
  refine ⟨one_div_nonneg.2 hnn, ?_⟩
  rw [e2'] at hnn
  rw [e1'] at hnn1 ⊢
  rw [e2']
  generalize (quadForm C (steer st r0 rm k)).re = a at *
  generalize (quadForm C⁻¹ (steer st r0 rm k)).re = b at *
  generalize ∑ m, ‖steer st r0 rm k m‖ ^ 2 = s at *
  rcases hnn.eq_or_lt with hb | hb
  · rw [← hb, div_zero, zero_mul]; exact hnn1
  · rw [div_mul_eq_mul_div, one_mul, div_le_iff₀ hb]
    calc (n * s) ^ 2 = (n : ℝ) ^ 2 * s ^ 2 := by ring
      _ ≤ (n : ℝ) ^ 2 * (a * b) := mul_le_mul_of_nonneg_left hcs (by positivity)
      _ = a * ((n : ℝ) ^ 2 * b) := by ring

/-- The hypotheses of `C63_capon_general` are met: -/
example := C63_capon_general .trueLevel 1 ![1, 2] 5 (by norm_num) (by intro m; fin_cases m <;> simp) (by decide) 1 Matrix.PosDef.one

/-- **C63.** For 'classic' and 'true location' Capon never exceeds conventional beamforming. -/
theorem C63_capon_le (st : Formulation) (hst : st = .classic ∨ st = .trueLocation) (r0 : ℝ) (rm : Fin n → ℝ) (k : ℝ)
    (h0 : 0 < r0) (hr : ∀ m, 0 < rm m) (hn : 0 < n) (C : Matrix (Fin n) (Fin n) ℂ) (hC : C.PosDef) :
    caponPoint st r0 rm k C ≤ fullCsmKernel st false 1 r0 rm k C := by
  have hn' : (n : ℝ) ≠ 0 := by exact_mod_cast hn.ne'
  have h := (C63_capon_general st r0 rm k h0 hr hn C hC).2
  rw [← (C25_norm st r0 rm k h0 hr hn).2, ← (C25_norm st r0 rm k h0 hr hn).1] at h
  have : (n : ℝ) * kernelNorm st r0 rm = 1 := by
    rcases hst with rfl | rfl <;> simp only [kernelNorm] <;> field_simp
  rw [this, one_pow, mul_one] at h
  exact h

/-- The hypotheses of `C63_capon_le` are met: -/
example := C63_capon_le .classic (.inl rfl) 1 ![1, 2] 5 (by norm_num) (by intro m; fin_cases m <;> simp) (by decide) 1 Matrix.PosDef.one

/-- **C63 is false for 'inverse'**: one microphone, the reference twice as far from the
focus point. -/
theorem C63_inverse_violated : ∃ (r0 : ℝ) (rm : Fin 1 → ℝ) (C : Matrix (Fin 1) (Fin 1) ℂ), 0 < r0 ∧ (∀ m, 0 < rm m) ∧
    C.PosDef ∧ fullCsmKernel .inverse false 1 r0 rm 0 C < caponPoint .inverse r0 rm 0 C := by
  refine ⟨2, fun _ => 1, 1, by norm_num, by norm_num, Matrix.PosDef.one, ?_⟩
  have hk : ∀ loss, fullCsmKernel (n := 1) .inverse false loss 2 (fun _ => 1) 0 1 = loss / 4 := by
    intro loss
    simp only [fullCsmKernel, kernelResult, scalarProdFull, kernelSteer, phase, Finset.univ_unique, Fin.default_eq_zero,
      Finset.sum_singleton, Finset.sum_filter, lt_irrefl, if_false, zero_mul, Complex.zero_re, Bool.false_eq_true]
    simp
    ring
  unfold caponPoint
  rw [inv_one, hk, hk]
  simp [sigLossNorm]
  norm_num

end C63

/-! ## C64 -/

section C64

private theorem accum_none (comps : List (Fin g × Fl)) (b : Fin g → Fl) (p : Fin g) (h : b p = none) :
    flAccum comps b p = none := by
  unfold flAccum
  induction comps generalizing b with
  | nil => exact h
  | cons c cs ih =>
    rw [List.foldl_cons]
    apply ih
    by_cases hp : p = c.1
    · subst hp
      rw [Function.update_self, h]; rfl
    · rw [Function.update_of_ne hp]; exact h

private theorem accum_some (comps : List (Fin g × Fl)) (hc : ∀ c ∈ comps, c.2 ≠ none) (b : Fin g → Fl)
    (hb : ∀ p, b p ≠ none) : ∀ p, flAccum comps b p ≠ none := by
  unfold flAccum
  induction comps generalizing b with
  | nil => exact hb
  | cons c cs ih =>
    rw [List.foldl_cons]
    apply ih (fun d hd => hc d (List.mem_cons_of_mem _ hd))
    intro p
    by_cases hp : p = c.1
    · subst hp
      rw [Function.update_self]
      obtain ⟨v, hv⟩ := Option.ne_none_iff_exists'.1 (hb c.1)
      obtain ⟨w, hw⟩ := Option.ne_none_iff_exists'.1 (hc c List.mem_cons_self)
      rw [hv, hw]
      simp [Fl.add]
    · rw [Function.update_of_ne hp]; exact hb p

/-- **C64.** If no line of the request yields NaN, what is stored for a line is the sum of its own components, whichever
lines are computed before it. -/
theorem C64_lines_independent_partial {ι : Type} (comps : ι → List (Fin g × Fl)) (is : List ι)
    (hc : ∀ i ∈ is, ∀ c ∈ comps i, c.2 ≠ none) (buf : Fin g → Fl) (hb : ∀ p, buf p ≠ none) :
    cleanscLines comps is buf = is.map fun i => (i, flAccum (comps i) fun _ => some 0) := by
  induction is generalizing buf with
  | nil => rfl
  | cons i is ih =>
    rw [cleanscLines]
    have hz : (fun p => Fl.mul (buf p) (some 0)) = fun _ => some 0 := by
      funext p
      obtain ⟨v, hv⟩ := Option.ne_none_iff_exists'.1 (hb p)
      rw [hv]
      simp [Fl.mul]
    rw [hz, ih (fun j hj => hc j (List.mem_cons_of_mem _ hj))]
    · rfl
    · exact accum_some _ (hc i List.mem_cons_self) _ (by simp)

/-- The hypotheses of `C64_lines_independent_partial` are met: -/
example := C64_lines_independent_partial (g := 2) (fun i : ℕ => [(0, some 1), (1, some (i : ℚ))]) [0, 1] (by simp) (fun _ => some 7) (by simp)

/-- **C64 is false of the code**: after a line without any signal, every later line of the same request is NaN at the
first grid point, although it is fine when requested alone. -/
theorem C64_silent_line_violated (J : ℕ) (hJ : 2 ≤ J) (v : ℝ) (i : Fin (g + 1)) :
    let comps : Bool → List (Fin (g + 1) × Fl) := fun b => if b then [(i, some v)] else silentComponents J
    (cleanscLines comps [false, true] fun _ => some 0).map (fun r => (r.1, r.2 0)) = [(false, none), (true, none)] ∧
    ∀ r ∈ cleanscLines comps [true] fun _ => some 0, r.2 0 ≠ none := by
  obtain ⟨J, rfl⟩ : ∃ k, J = k + 2 := ⟨J - 2, by omega⟩
  intro comps
  have h1 : flAccum (comps false) (fun _ : Fin (g + 1) => Fl.mul (some 0) (some 0)) 0 = none := by
    show flAccum ((0, some 0) :: List.replicate (J + 1) (0, none)) _ 0 = none
    rw [List.replicate_succ]
    unfold flAccum
    rw [List.foldl_cons, List.foldl_cons]
    apply accum_none
    rw [Function.update_self]
    dsimp only
    cases (Function.update (fun _ : Fin (g + 1) => Fl.mul (some 0) (some 0)) 0 (Fl.add (Fl.mul (some 0) (some 0)) (some 0)) 0) <;> rfl
  constructor
  · simp only [cleanscLines, List.map_cons, List.map_nil]
    rw [h1]
    congr 3
    apply accum_none
    rw [h1]; rfl
  · intro r hr
    rw [C64_lines_independent_partial comps [true] (by
      intro i hi c hc
      rw [List.mem_singleton] at hi
      subst hi
      have : c = _ := List.mem_singleton.1 hc
      rw [this]; simp) _ (by simp)] at hr
    rw [List.map_singleton, List.mem_singleton] at hr
    rw [hr]
    exact accum_some _ (by
      intro c hc
      have : c = _ := List.mem_singleton.1 hc
      rw [this]; simp) _ (by simp) 0

end C64

/-! ## C65 -/

/-- **C65.** The MUSIC map is positive, at most 4e-10, and reaches 4e-10 (0 dB) where the noise subspace responds
least. -/
theorem C65_music (out : Fin (g + 1) → ℝ) (h : ∀ p, 0 < out p) :
    (∀ p, 0 < musicMap out p ∧ musicMap out p ≤ 4 / 10 ^ 10) ∧
    ∃ p, musicMap out p = 4 / 10 ^ 10 ∧ ∀ q, out p ≤ out q := by
  have hm := (argmax_isFirstMax fun i => - out i).1
  set q := argmax fun i => - out i
  have hq : ∀ p, out q ≤ out p := fun p => by have := hm p; dsimp only at this; linarith
  have he : ∀ p, musicMap out p = (4 / 10 ^ 10) * (out q / out p) := by
    intro p; unfold musicMap; dsimp only; rw [neg_neg]; ring
  refine ⟨fun p => ?_, q, ?_, hq⟩
  · rw [he]
    have h1 : out q / out p ≤ 1 := (div_le_one (h p)).2 (hq p)
    have h2 : 0 < out q / out p := div_pos (h q) (h p)
    constructor
    · positivity
    · nlinarith
  · rw [he, div_self (h q).ne', mul_one]

example : musicMap (g := 1) ![2, 4] 0 = 4 / 10 ^ 10 ∧ musicMap (g := 1) ![2, 4] 1 = 2 / 10 ^ 10 := by
  have : argmax (K := ℝ) (g := 1) (fun i => - (![2, 4] : Fin 2 → ℝ) i) = 0 := by
    simp [argmax, List.finRange_succ]
    norm_num
  constructor <;> unfold musicMap <;> rw [this] <;> norm_num

/-! ## C66 -/

section C66

private theorem pyIndex_neg (n k : ℕ) (hk : k < n) : pyIndex n (-1 - (k : ℤ)) = some ⟨n - 1 - k, by omega⟩ := by
  unfold pyIndex
  rw [dif_neg (by omega), dif_pos (by omega)]
  congr 2
  omega

/-- **C66.** The powers in the orthogonal beamforming map add up to the considered eigenvalues divided by the number of
channels, wherever the maxima are. -/
theorem C66_orth_sum (geo : SteerGeo n (g + 1)) (rDiag : Bool) (normfactor : ℝ) (eva : Fin n → ℝ) (eve : Fin n → Fin n → ℂ)
    (is : List ℤ) (ls : List (Fin n)) (hls : is.map (pyIndex n) = ls.map some) (ac : Fin (g + 1) → ℝ) :
    ∃ out, orthCalc geo rDiag normfactor eva eve is ac = some out ∧
      ∑ p, out p = ∑ p, ac p + (ls.map fun l => eva l / n).sum := by
  induction is generalizing ls ac with
  | nil =>
    have : ls = [] := by
      cases ls with
      | nil => rfl
      | cons a l => simp at hls
    subst this
    exact ⟨ac, rfl, by simp⟩
  | cons i is ih =>
    obtain ⟨l, ls, rfl⟩ : ∃ l l', ls = l :: l' := by
      cases ls with
      | nil => simp at hls
      | cons a l => exact ⟨a, l, rfl⟩
    rw [List.map_cons, List.map_cons, List.cons.injEq] at hls
    rw [orthCalc, hls.1]
    dsimp only
    obtain ⟨out, h1, h2⟩ := ih ls hls.2 (Function.update ac _ (ac _ + eva l / n))
    refine ⟨out, h1, ?_⟩
    rw [h2, Finset.sum_update_of_mem (Finset.mem_univ _), Finset.sdiff_singleton_eq_erase, List.map_cons, List.sum_cons,
      ← Finset.add_sum_erase _ ac (Finset.mem_univ _)]
    ring

/-- The hypotheses of `C66_orth_sum` are met: -/
example := C66_orth_sum (n := 2) (g := 1) ⟨.trueLevel, ![1, 1], ![![1, 2], ![2, 1]], 3⟩ true 2 ![1, 4] ![![1, 0], ![0, 1]] [-1] [1]
  (by decide) (fun _ => 0)

/-- **C66.** With `n` components set, these are the `n` largest eigenvalues; an exception is raised only if there are
fewer. -/
theorem C66_orth_n (geo : SteerGeo n (g + 1)) (rDiag : Bool) (normfactor : ℝ) (eva : Fin n → ℝ) (eve : Fin n → Fin n → ℂ)
    (m : ℕ) (hm : m ≤ n) :
    ∃ out, orthCalc geo rDiag normfactor eva eve (orthEvaList m) (fun _ => 0) = some out ∧
      ∑ p, out p = (∑ l ∈ Finset.univ.filter (fun l : Fin n => n - m ≤ l.val), eva l) / n := by
  obtain ⟨out, h1, h2⟩ := C66_orth_sum geo rDiag normfactor eva eve (orthEvaList m)
    ((List.finRange m).map fun k : Fin m => (⟨n - 1 - k.val, by omega⟩ : Fin n)) (by
      unfold orthEvaList
      rw [List.map_map, List.map_map, ← List.map_coe_finRange_eq_range, List.map_map]
      apply List.map_congr_left
      intro k _
      exact pyIndex_neg n k.val (by omega)) (fun _ => 0)
  refine ⟨out, h1, ?_⟩
  rw [h2, Finset.sum_const_zero, zero_add, List.map_map, ← Fin.sum_univ_def, Finset.sum_div]
  refine Finset.sum_nbij (fun k : Fin m => (⟨n - 1 - k.val, by omega⟩ : Fin n)) ?_ ?_ ?_ ?_
  · intro k _
    simp only [Finset.mem_filter, Finset.mem_univ, true_and]
    omega
  · intro k _ k' _ h
    simp only [Fin.mk.injEq] at h
    ext; omega
  · intro l hl
    simp only [Finset.coe_filter, Finset.mem_univ, true_and, Set.mem_ofPred_eq] at hl
    refine ⟨⟨n - 1 - l.val, by omega⟩, Finset.mem_coe.2 (Finset.mem_univ _), ?_⟩
    ext
    simp only
    omega
  · intro k _; rfl

/-- The hypotheses of `C66_orth_n` are met: -/
example := C66_orth_n (n := 2) (g := 1) ⟨.trueLevel, ![1, 1], ![![1, 2], ![2, 1]], 3⟩ true 2 ![1, 4] ![![1, 0], ![0, 1]] 1 (by decide)

end C66

end Acoular
