import Verif.Props.ExactSources
import Verif.Props.SyntheticEv
import Verif.Props.EigBeam
import Verif.Lemmas.Eigh

/-!
# Property theorems: one source, seen by the beamformers in the frequency domain (C141)

The settings are positions, speed of sound, frequency and reference; the field of the source is stated with them.
-/

namespace Acoular

open Matrix Complex Spec
open scoped ComplexConjugate

variable {n g : ℕ}

/-- Specification: distance of two points. -/
noncomputable def Spec.distance (x y : Fin 3 → ℝ) : ℝ := √(∑ j, (x j - y j) ^ 2)

/-- Specification: distance of a point to the reference, a position or a fixed distance. -/
noncomputable def Spec.refDistance (x : Fin 3 → ℝ) : SteerRef → ℝ
  | .dist d => d
  | .pos y => distance x y

/-- Specification: sound pressure at `y` of a monopole at `x` in a medium at rest with speed of sound `c`, frequency `f`; amplitude one and
phase zero in the distance `d` of the source. -/
noncomputable def Spec.pressure (f c d : ℝ) (x y : Fin 3 → ℝ) : ℂ :=
  (d / distance x y : ℝ) * exp (-(I * (2 * Real.pi * f / c * (distance x y - d) : ℝ)))

/-- Specification: sound pressures at the microphones for a source at grid point `q`, line `i`. -/
noncomputable def Spec.field (s : BfSet n g) (i : ℕ) (q : Fin (g + 1)) (m : Fin n) : ℂ :=
  pressure (s.freqs i) s.c (refDistance (s.gpos q) s.ref) (s.gpos q) (s.mpos m)

/-- Specification: `Σ |a|²`. -/
noncomputable def Spec.energy (a : Fin n → ℂ) : ℝ := ∑ m, ‖a m‖ ^ 2

/-- Specification: `|h^H a|² / (|h|² |a|²)`. -/
noncomputable def Spec.coherence (h a : Fin n → ℂ) : ℝ := ‖∑ m, conj (h m) * a m‖ ^ 2 / (energy h * energy a)

/-- Specification: there are microphones, no grid point is at the place of one or at the reference, the diagonal is not removed. -/
structure Spec.ProperArray (s : BfSet n g) : Prop where
  mics : 0 < n
  ref : ∀ p, 0 < refDistance (s.gpos p) s.ref
  apart : ∀ p m, s.gpos p ≠ s.mpos m
  full : s.rDiag = false

/-- Specification: steering vector for grid point `p`. -/
noncomputable def Spec.steerOf (s : BfSet n g) (i : ℕ) (p : Fin (g + 1)) : Fin n → ℂ :=
  steer s.form (refDistance (s.gpos p) s.ref) (fun m => distance (s.gpos p) (s.mpos m)) (2 * Real.pi * s.freqs i / s.c)

private theorem pointDist_eq (x y : Fin 3 → ℝ) : pointDist x y = distance x y := by
  rw [pointDist, distance, Fin.sum_univ_three]

private theorem distance_pos {x y : Fin 3 → ℝ} (h : x ≠ y) : 0 < distance x y := by
  apply Real.sqrt_pos.2
  obtain ⟨j, hj⟩ := Function.ne_iff.1 h
  refine Finset.sum_pos' (fun _ _ => sq_nonneg _) ⟨j, Finset.mem_univ _, ?_⟩
  have := sub_ne_zero.2 hj
  positivity

private theorem geo_r0 (s : BfSet n g) (i : ℕ) (p : Fin (g + 1)) : (s.geo i).r0 p = refDistance (s.gpos p) s.ref := by
  cases h : s.ref <;> simp [BfSet.geo, refDistance, pointDist_eq, h]

private theorem geo_rm (s : BfSet n g) (i : ℕ) (p : Fin (g + 1)) : (s.geo i).rm p = fun m => distance (s.gpos p) (s.mpos m) := by
  funext m
  simp [BfSet.geo, pointDist_eq]

private theorem field_eq (s : BfSet n g) (i : ℕ) (q : Fin (g + 1)) : field s i q = monopoles (s.geo i) q := by
  funext m
  unfold field pressure monopoles monopole
  rw [geo_r0, geo_rm]
  rfl

theorem steerOf_eq (s : BfSet n g) (i : ℕ) (p : Fin (g + 1)) :
    steerOf s i p = steer s.form ((s.geo i).r0 p) ((s.geo i).rm p) (s.geo i).k := by
  rw [geo_r0, geo_rm]; rfl

theorem apart_of {s : BfSet n g} (h : ProperArray s) (i : ℕ) : Apart (s.geo i) where
  mics := h.mics
  r0 p := by rw [geo_r0]; exact h.ref p
  rm p m := by rw [geo_rm]; exact distance_pos (h.apart p m)

theorem energy_cast (h : Fin n → ℂ) : (energy h : ℂ) = ∑ m, conj (h m) * h m := by
  unfold energy
  rw [Complex.ofReal_sum]
  refine Finset.sum_congr rfl fun m _ => ?_
  rw [mul_comm, Complex.mul_conj, Complex.normSq_eq_norm_sq]

theorem quad_outer (a h : Fin n → ℂ) : quadForm (outer a) h = ((‖∑ m, conj (h m) * a m‖ ^ 2 : ℝ) : ℂ) := by
  rw [← Complex.normSq_eq_norm_sq, ← Complex.mul_conj, map_sum, quadForm_eq_sum, Finset.sum_mul]
  rw [Finset.sum_comm]
  apply Finset.sum_congr rfl
  intro i _
  rw [Finset.mul_sum]
  apply Finset.sum_congr rfl
  intro j _
  simp only [outer, map_mul, Complex.conj_conj]
  ring

theorem quad_smul (x : ℂ) (C : Matrix (Fin n) (Fin n) ℂ) (h : Fin n → ℂ) : quadForm (x • C) h = x * quadForm C h := by
  unfold quadForm
  rw [Matrix.smul_mulVec, dotProduct_smul, smul_eq_mul]

private theorem quad_sub (A B : Matrix (Fin n) (Fin n) ℂ) (h : Fin n → ℂ) : quadForm (A - B) h = quadForm A h - quadForm B h := by
  unfold quadForm
  rw [Matrix.sub_mulVec, dotProduct_sub]

private theorem quad_one (h : Fin n → ℂ) : quadForm 1 h = (energy h : ℂ) := by
  unfold quadForm
  rw [Matrix.one_mulVec, energy_cast]
  rfl

private theorem herm_smul (x : ℝ) (a : Fin n → ℂ) : ((x : ℂ) • outer a).IsHermitian := by
  refine Matrix.IsHermitian.ext fun i j => ?_
  simp only [Matrix.smul_apply, smul_eq_mul, outer, RCLike.star_def, map_mul, Complex.conj_ofReal, Complex.conj_conj]
  ring

private theorem cauchy (h a : Fin n → ℂ) : ‖∑ m, conj (h m) * a m‖ ^ 2 ≤ energy h * energy a := by
  have h1 : ‖∑ m, conj (h m) * a m‖ ≤ ∑ m, ‖h m‖ * ‖a m‖ := by
    refine (norm_sum_le _ _).trans (le_of_eq (Finset.sum_congr rfl fun m _ => ?_))
    rw [norm_mul, RCLike.norm_conj]
  calc ‖∑ m, conj (h m) * a m‖ ^ 2 ≤ (∑ m, ‖h m‖ * ‖a m‖) ^ 2 := pow_le_pow_left₀ (norm_nonneg _) h1 2
    _ ≤ _ := Finset.sum_mul_sq_le_sq_mul_sq _ _ _

theorem coherence_bound (h a : Fin n → ℂ) (hh : 0 < energy h) (ha : 0 < energy a) : 0 ≤ coherence h a ∧ coherence h a ≤ 1 := by
  unfold coherence
  have := mul_pos hh ha
  refine ⟨by positivity, (div_le_one this).2 (cauchy h a)⟩

theorem energy_field {s : BfSet n g} (h : ProperArray s) (i : ℕ) (q : Fin (g + 1)) : 0 < energy (field s i q) := by
  have hm := h.mics
  refine Finset.sum_pos (fun m _ => ?_) ⟨⟨0, hm⟩, Finset.mem_univ _⟩
  have : field s i q m ≠ 0 := by
    unfold field pressure
    refine mul_ne_zero ?_ (Complex.exp_ne_zero _)
    exact_mod_cast (div_pos (h.ref q) (distance_pos (h.apart q m))).ne'
  positivity

private theorem energy_steer {s : BfSet n g} (h : ProperArray s) (i : ℕ) (p : Fin (g + 1)) :
    energy (steerOf s i p) = kernelNorm s.form ((s.geo i).r0 p) ((s.geo i).rm p) := by
  have ha := apart_of h i
  rw [(C25_norm s.form _ _ (s.geo i).k (ha.r0 p) (ha.rm p) h.mics).1, (C25_norm s.form _ _ (s.geo i).k (ha.r0 p) (ha.rm p) h.mics).2,
    ← steerOf_eq]
  rfl

theorem energy_steer_pos {s : BfSet n g} (h : ProperArray s) (i : ℕ) (p : Fin (g + 1)) : 0 < energy (steerOf s i p) := by
  have hm := h.mics
  have hm' : (0 : ℝ) < n := by exact_mod_cast hm
  have ha := apart_of h i
  refine Finset.sum_pos (fun m _ => ?_) ⟨⟨0, hm⟩, Finset.mem_univ _⟩
  have hH : 0 < ∑ l, 1 / ((s.geo i).rm p l) ^ 2 := sumInvSq_pos hm (ha.rm p)
  have h1 := ha.rm p m
  have h2 := ha.r0 p
  have : steerOf s i p m ≠ 0 := by
    rw [steerOf_eq]
    unfold steer
    refine mul_ne_zero ?_ (Complex.exp_ne_zero _)
    norm_cast
    apply ne_of_gt
    cases s.form <;> simp only [steerAmp]
    · positivity
    · positivity
    · exact one_div_pos.2 (mul_pos (mul_pos h2 h1) hH)
    · exact one_div_pos.2 (mul_pos h1 (Real.sqrt_pos.2 (mul_pos hm' hH)))
  positivity

private theorem dirty_single {s : BfSet n g} (h : ProperArray s) (i : ℕ) (q : Fin (g + 1)) (x : ℝ)
    (hC : s.csm i = (x : ℂ) • outer (field s i q)) (p : Fin (g + 1)) :
    s.dirty i p = x * ‖∑ m, conj (steerOf s i p m) * field s i q m‖ ^ 2 := by
  have ha := apart_of h i
  unfold BfSet.dirty
  rw [h.full, C23_result s.form false s.rDiagNorm _ _ _ (ha.r0 p) (ha.rm p) _ (hC ▸ herm_smul _ _), if_neg (by simp), hC, quad_smul, quad_outer,
    ← steerOf_eq]
  norm_cast

/-- **C141.** Conventional beamforming and one monopole at a grid point: with 'inverse' and 'true level' the map has at this point the mean
square of the sound pressure in the reference distance; with 'classic' and 'true location' no value of the map is larger than that at
this point. -/
theorem C141_base (rt : BfRoutines n g) {s : BfSet n g} (h : ProperArray s) (F i : ℕ) (q : Fin (g + 1)) (x : ℝ) (hx : 0 < x)
    (hC : s.csm i = (x : ℂ) • outer (field s i q)) : ∃ v, s.row rt F i .base = .map v ∧
      (s.form = .inverse ∨ s.form = .trueLevel → v q = x) ∧
      (s.form = .classic ∨ s.form = .trueLocation → ∀ p, v p ≤ v q) := by
  have ha := apart_of h i
  have key : ∀ p, s.dirty i p = x * psfKernel s.form ((s.geo i).r0 p) ((s.geo i).rm p) ((s.geo i).r0 q) ((s.geo i).rm q) (s.geo i).k := by
    intro p
    rw [dirty_single h i q x hC, C26_psf_eq _ _ _ _ _ _ (ha.r0 p) (ha.rm p) h.mics, ← steerOf_eq, field_eq]
    rfl
  refine ⟨_, rfl, fun hf => ?_, fun hf p => ?_⟩
  · rw [key, C26_calibrated _ hf _ _ _ (ha.r0 q) (ha.rm q) h.mics, mul_one]
  · rw [key, key]
    refine mul_le_mul_of_nonneg_left ?_ hx.le
    rcases hf with hf | hf <;> rw [hf]
    · exact C26_classic_max _ _ _ _ _ (ha.rm q)
    · exact C26_true_location_max _ _ _ _ _ (ha.rm p) (ha.r0 q) (ha.rm q) h.mics

/-! ## Eigenvalues of the cross spectral matrix of one source -/

theorem eigh_assemble {A : Matrix (Fin n) (Fin n) ℂ} {eva : Fin n → ℝ} {eve : Fin n → Fin n → ℂ}
    (h : IsEigh A (eva, Matrix.of eve)) : A = assemble eva eve := by
  obtain ⟨-, -, e⟩ := h
  rw [e]
  ext i j
  rw [Matrix.mul_apply]
  unfold assemble
  refine Finset.sum_congr rfl fun l _ => ?_
  rw [Matrix.mul_diagonal, Matrix.conjTranspose_apply, RCLike.star_def]
  simp only [Matrix.of_apply]
  ring

private theorem eigh_single {a : Fin n → ℂ} {x : ℝ} {eva : Fin n → ℝ} {eve : Fin n → Fin n → ℂ}
    (h : IsEigh ((x : ℂ) • outer a) (eva, Matrix.of eve)) (l : Fin n) : eva l = 0 ∨ eva l = x * energy a := by
  obtain ⟨-, hu, e⟩ := h
  have hcv : ((x : ℂ) • outer a) * Matrix.of eve = Matrix.of eve * diagonal (fun l => (eva l : ℂ)) := by
    rw [e, Matrix.mul_assoc, hu, Matrix.mul_one]
  set z : ℂ := ∑ j, conj (a j) * eve j l with hz
  have hi : ∀ i, (x : ℂ) * a i * z = eve i l * eva l := by
    intro i
    have := congrFun (congrFun hcv i) l
    rw [Matrix.mul_diagonal] at this
    simp only [Matrix.mul_apply, Matrix.smul_apply, smul_eq_mul, outer, Matrix.of_apply] at this
    rw [← this, hz, Finset.mul_sum]
    exact Finset.sum_congr rfl fun j _ => by ring
  have hl : ((x * energy a : ℝ) : ℂ) * z = eva l * z := by
    rw [Complex.ofReal_mul, energy_cast]
    conv_rhs => rw [hz, Finset.mul_sum]
    rw [show ∀ S : ℂ, (x : ℂ) * S * z = S * ((x : ℂ) * z) from fun S => by ring, Finset.sum_mul]
    refine Finset.sum_congr rfl fun i _ => ?_
    rw [show (eva l : ℂ) * (conj (a i) * eve i l) = conj (a i) * (eve i l * eva l) by ring, ← hi i]
    ring
  by_cases h0 : z = 0
  · left
    by_contra hne
    have hv : ∀ i, eve i l = 0 := by
      intro i
      have := hi i
      rw [h0, mul_zero] at this
      rcases mul_eq_zero.1 this.symm with h | h
      · exact h
      · exact absurd (by exact_mod_cast h) hne
    have := congrFun (congrFun hu l) l
    rw [Matrix.mul_apply, Matrix.one_apply_eq] at this
    simp [hv] at this
  · right
    have := mul_right_cancel₀ h0 hl
    exact_mod_cast this.symm

private theorem eigh_power {a : Fin n → ℂ} {x : ℝ} {eva : Fin n → ℝ} {eve : Fin n → Fin n → ℂ}
    (h : IsEigh ((x : ℂ) • outer a) (eva, Matrix.of eve)) : ∑ l, eva l = x * energy a := by
  obtain ⟨-, hu, e⟩ := h
  have h1 : trace ((x : ℂ) • outer a) = ((∑ l, eva l : ℝ) : ℂ) := by
    rw [e, Matrix.trace_mul_comm, ← Matrix.mul_assoc, hu, Matrix.one_mul, Matrix.trace_diagonal]
    push_cast
    rfl
  have h2 : trace ((x : ℂ) • outer a) = ((x * energy a : ℝ) : ℂ) := by
    rw [Complex.ofReal_mul, energy_cast, Matrix.trace, Finset.mul_sum]
    refine Finset.sum_congr rfl fun i _ => ?_
    simp only [Matrix.diag_apply, Matrix.smul_apply, smul_eq_mul, outer]
    ring
  exact_mod_cast h1.symm.trans h2

private theorem assemble_scaled {a : Fin n → ℂ} {x : ℝ} {eva : Fin n → ℝ} {eve : Fin n → Fin n → ℂ}
    (h : IsEigh ((x : ℂ) • outer a) (eva, Matrix.of eve)) (hl : x * energy a ≠ 0) (f : ℝ → ℝ) (hf : f 0 = 0) :
    assemble (fun l => f (eva l)) eve = ((f (x * energy a) / energy a : ℝ) : ℂ) • outer a := by
  have hs := eigh_single h
  have hx : x ≠ 0 := left_ne_zero_of_mul hl
  have ha : energy a ≠ 0 := right_ne_zero_of_mul hl
  have e := eigh_assemble h
  have h1 : assemble (fun l => f (eva l)) eve = ((f (x * energy a) / (x * energy a) : ℝ) : ℂ) • assemble eva eve := by
    ext i j
    simp only [assemble, Matrix.smul_apply, smul_eq_mul]
    rw [Finset.mul_sum]
    refine Finset.sum_congr rfl fun l _ => ?_
    rw [← mul_assoc (((f (x * energy a) / (x * energy a) : ℝ)) : ℂ), ← Complex.ofReal_mul]
    congr 2
    rcases hs l with h | h <;> rw [h]
    · rw [hf, mul_zero]
    · field_simp
  rw [h1, ← e, smul_smul]
  congr 1
  norm_cast
  field_simp

private theorem eigh_last {a : Fin n → ℂ} {x : ℝ} {eva : Fin n → ℝ} {eve : Fin n → Fin n → ℂ}
    (h : IsEigh ((x : ℂ) • outer a) (eva, Matrix.of eve)) (hl : 0 < x * energy a) (l : Fin n) (hlast : (l : ℕ) + 1 = n) :
    eva l = x * energy a ∧ ∀ j, j ≠ l → eva j = 0 := by
  have hs := eigh_single h
  have hp := eigh_power h
  have hnn : ∀ j, 0 ≤ eva j := fun j => by rcases hs j with h | h <;> rw [h]; exact hl.le
  have hll : eva l = x * energy a := by
    rcases hs l with h0 | h0
    · exfalso
      have : ∀ j, eva j = 0 := fun j => le_antisymm (h0 ▸ h.1 (show j ≤ l by rw [Fin.le_def]; omega)) (hnn j)
      rw [Finset.sum_eq_zero fun j _ => this j] at hp
      exact hl.ne hp
    · exact h0
  refine ⟨hll, fun j hj => ?_⟩
  rw [← Finset.add_sum_erase _ _ (Finset.mem_univ l), hll] at hp
  have h0 : ∑ j ∈ Finset.univ.erase l, eva j = 0 := by linarith
  exact (Finset.sum_eq_zero_iff_of_nonneg fun j _ => hnn j).1 h0 j (Finset.mem_erase.2 ⟨hj, Finset.mem_univ _⟩)

private theorem assemble_last {a : Fin n → ℂ} {x : ℝ} {eva : Fin n → ℝ} {eve : Fin n → Fin n → ℂ}
    (h : IsEigh ((x : ℂ) • outer a) (eva, Matrix.of eve)) (hl : 0 < x * energy a) (l : Fin n) (hlast : (l : ℕ) + 1 = n) (y : ℝ) :
    assemble (e := 1) (fun _ => y) (fun m _ => eve m l) = ((y / energy a : ℝ) : ℂ) • outer a := by
  have hs := eigh_last h hl l hlast
  have hf := assemble_scaled h hl.ne' (fun v => y / (x * energy a) * v) (by simp)
  have hx : x ≠ 0 := left_ne_zero_of_mul hl.ne'
  have ha : energy a ≠ 0 := right_ne_zero_of_mul hl.ne'
  rw [show y / (x * energy a) * (x * energy a) = y by field_simp] at hf
  rw [← hf]
  ext i j
  simp only [assemble, Finset.univ_unique, Finset.sum_singleton]
  rw [Finset.sum_eq_single l]
  · rw [hs.1, show y / (x * energy a) * (x * energy a) = y by field_simp]
  · intro b _ hb
    rw [hs.2 b hb]
    simp
  · simp

private theorem kernel_smul {s : BfSet n g} (h : ProperArray s) (i : ℕ) (loss y : ℝ) (a : Fin n → ℂ) (p : Fin (g + 1)) :
    fullCsmKernel s.form false loss ((s.geo i).r0 p) ((s.geo i).rm p) (s.geo i).k ((y : ℂ) • outer a) =
      loss * (y * ‖∑ m, conj (steerOf s i p m) * a m‖ ^ 2) := by
  have ha := apart_of h i
  have := C23_kernel_quadratic_form s.form false loss _ _ (s.geo i).k (ha.r0 p) (ha.rm p) _ (herm_smul y a)
  rw [if_neg (by simp), quad_smul, quad_outer, ← steerOf_eq] at this
  exact_mod_cast this

private theorem coherence_scaled (κ : ℝ) (hκ : κ ≠ 0) (a : Fin n → ℂ) (ha : 0 < energy a) :
    coherence (fun m => (κ : ℂ) * a m) a = 1 ∧ energy (fun m => (κ : ℂ) * a m) = κ ^ 2 * energy a := by
  have h1 : energy (fun m => (κ : ℂ) * a m) = κ ^ 2 * energy a := by
    unfold energy
    rw [Finset.mul_sum]
    refine Finset.sum_congr rfl fun m _ => ?_
    rw [norm_mul, mul_pow, Complex.norm_real, Real.norm_eq_abs, sq_abs]
  refine ⟨?_, h1⟩
  unfold coherence
  rw [h1, show ∑ m, conj ((κ : ℂ) * a m) * a m = ((κ * energy a : ℝ) : ℂ) by
    rw [Complex.ofReal_mul, energy_cast, Finset.mul_sum]
    refine Finset.sum_congr rfl fun m _ => ?_
    rw [map_mul, Complex.conj_ofReal, mul_assoc], Complex.norm_real, Real.norm_eq_abs, sq_abs]
  have := ha.ne'
  field_simp

private theorem energy_field_eq (s : BfSet n g) (i : ℕ) (q : Fin (g + 1)) :
    energy (field s i q) = (s.geo i).r0 q ^ 2 * ∑ l, 1 / ((s.geo i).rm q l) ^ 2 := by
  rw [field_eq]
  unfold energy monopoles monopole
  rw [Finset.mul_sum]
  refine Finset.sum_congr rfl fun m _ => ?_
  rw [norm_mul, mul_pow, Complex.norm_real, Real.norm_eq_abs, sq_abs,
    show -(I * (((s.geo i).k * ((s.geo i).rm q m - (s.geo i).r0 q) : ℝ) : ℂ)) =
      ((-((s.geo i).k * ((s.geo i).rm q m - (s.geo i).r0 q)) : ℝ) : ℂ) * I by push_cast; ring, Complex.norm_exp_ofReal_mul_I]
  ring

/-- 'true level' and 'true location': the steering vector is a multiple of the field. -/
theorem steer_field {s : BfSet n g} (h : ProperArray s) (i : ℕ) (q : Fin (g + 1)) :
    (s.form = .trueLevel → steerOf s i q = fun m => ((1 / energy (field s i q) : ℝ) : ℂ) * field s i q m) ∧
    (s.form = .trueLocation → steerOf s i q = fun m => ((1 / √(n * energy (field s i q)) : ℝ) : ℂ) * field s i q m) := by
  have ha := apart_of h i
  have hm' : (0 : ℝ) < n := by exact_mod_cast h.mics
  have hH : 0 < ∑ l, 1 / ((s.geo i).rm q l) ^ 2 := sumInvSq_pos h.mics (ha.rm q)
  have h2 := ha.r0 q
  constructor <;> intro hf <;> funext m <;> rw [steerOf_eq, energy_field_eq, field_eq, hf] <;> unfold monopoles monopole steer <;>
    rw [← mul_assoc, ← Complex.ofReal_mul] <;> congr 2 <;> simp only [steerAmp] <;> have h1 := ha.rm q m
  · field_simp
  · rw [show (n : ℝ) * ((s.geo i).r0 q ^ 2 * ∑ l, 1 / ((s.geo i).rm q l) ^ 2) = (s.geo i).r0 q ^ 2 * (n * ∑ l, 1 / ((s.geo i).rm q l) ^ 2) by ring,
      Real.sqrt_mul (sq_nonneg ((s.geo i).r0 q)), Real.sqrt_sq h2.le]
    field_simp

theorem coherence_source {s : BfSet n g} (h : ProperArray s) (i : ℕ) (q : Fin (g + 1)) :
    (s.form = .trueLevel ∨ s.form = .trueLocation → coherence (steerOf s i q) (field s i q) = 1) ∧
    (s.form = .trueLevel → energy (steerOf s i q) = 1 / energy (field s i q)) ∧
    (s.form = .classic ∨ s.form = .trueLocation → ∀ p, energy (steerOf s i p) = 1 / n) := by
  have hA := energy_field h i q
  have hm' : (0 : ℝ) < n := by exact_mod_cast h.mics
  refine ⟨fun hf => ?_, fun hf => ?_, fun hf p => ?_⟩
  · rcases hf with hf | hf
    · rw [(steer_field h i q).1 hf]
      exact (coherence_scaled _ (by positivity) _ hA).1
    · rw [(steer_field h i q).2 hf]
      exact (coherence_scaled _ (by positivity) _ hA).1
  · rw [(steer_field h i q).1 hf, (coherence_scaled _ (by positivity) _ hA).2]
    field_simp
  · rw [energy_steer h]
    rcases hf with hf | hf <;> rw [hf] <;> rfl

/-- With 'classic' and 'true location' the coherence is largest at the source. -/
theorem coherence_max {s : BfSet n g} (h : ProperArray s) (i : ℕ) (q : Fin (g + 1))
    (hf : s.form = .classic ∨ s.form = .trueLocation) (p : Fin (g + 1)) :
    coherence (steerOf s i p) (field s i q) ≤ coherence (steerOf s i q) (field s i q) := by
  have ha := apart_of h i
  have hm' : (0 : ℝ) < n := by exact_mod_cast h.mics
  have hA := energy_field h i q
  have he := (coherence_source h i q).2.2 hf
  have key : ∀ p, ‖∑ m, conj (steerOf s i p m) * field s i q m‖ ^ 2 =
      psfKernel s.form ((s.geo i).r0 p) ((s.geo i).rm p) ((s.geo i).r0 q) ((s.geo i).rm q) (s.geo i).k := by
    intro p
    rw [C26_psf_eq _ _ _ _ _ _ (ha.r0 p) (ha.rm p) h.mics, ← steerOf_eq, field_eq]
    rfl
  unfold coherence
  rw [he p, he q, key, key]
  refine div_le_div_of_nonneg_right ?_ (by positivity)
  rcases hf with hf | hf <;> rw [hf]
  · exact C26_classic_max _ _ _ _ _ (ha.rm q)
  · exact C26_true_location_max _ _ _ _ _ (ha.rm p) (ha.r0 q) (ha.rm q) h.mics

/-- **C141.** Functional beamforming and one monopole: the value at each grid point is that of the conventional map with the exponent applied
to the coherence; with 'true level' it is at the source the mean square of the pressure in the reference distance, and with 'classic'
and 'true location' no value is larger than that at the source. -/
theorem C141_functional (rt : BfRoutines n g) {s : BfSet n g} (h : ProperArray s) (F i : ℕ) (q : Fin (g + 1)) (x : ℝ) (hx : 0 < x)
    (hC : s.csm i = (x : ℂ) • outer (field s i q)) (hg : 0 < s.gamma)
    (he : IsEigh (s.csm i) ((rt.eigh (s.csm i)).1, Matrix.of (rt.eigh (s.csm i)).2)) :
    ∃ v, s.row rt F i .functional = .map v ∧
      (∀ p, v p = x * energy (field s i q) * energy (steerOf s i p) * coherence (steerOf s i p) (field s i q) ^ s.gamma) ∧
      (s.form = .trueLevel → v q = x) ∧
      (s.form = .classic ∨ s.form = .trueLocation → ∀ p, v p ≤ v q) := by
  have hA := energy_field h i q
  suffices hv : ∀ p, _ = x * energy (field s i q) * energy (steerOf s i p) * coherence (steerOf s i p) (field s i q) ^ s.gamma by
    refine ⟨_, rfl, hv, fun hf => ?_, fun hf p => ?_⟩
    · rw [hv, (coherence_source h i q).1 (.inl hf), (coherence_source h i q).2.1 hf, Real.one_rpow]
      field_simp
    · rw [hv, hv, (coherence_source h i q).2.2 hf p, (coherence_source h i q).2.2 hf q]
      have := coherence_bound _ _ (energy_steer_pos h i p) hA
      exact mul_le_mul_of_nonneg_left (Real.rpow_le_rpow this.1 (coherence_max h i q hf p) hg.le) (by positivity)
  intro p
  have hH := energy_steer_pos h i p
  have hL : 0 < x * energy (field s i q) := mul_pos hx hA
  have hco := coherence_bound _ _ hH hA
  have he' := he
  rw [hC] at he'
  unfold functionalPoint
  simp only
  rw [C24_eig_kernel, hC]
  rw [assemble_scaled he' hL.ne' (fun v => v ^ (1 / s.gamma)) (Real.zero_rpow (by positivity)), kernel_smul h, ← energy_steer h i p]
  have e : 1 * ((x * energy (field s i q)) ^ (1 / s.gamma) / energy (field s i q) *
      ‖∑ m, conj (steerOf s i p m) * field s i q m‖ ^ 2) / energy (steerOf s i p) =
      (x * energy (field s i q)) ^ (1 / s.gamma) * coherence (steerOf s i p) (field s i q) := by
    unfold coherence
    field_simp
  rw [e, Real.mul_rpow (by positivity) hco.1, ← Real.rpow_mul hL.le, one_div, inv_mul_cancel₀ hg.ne', Real.rpow_one]
  simp only [sigLossNorm, if_true]
  ring

/-- Distances `r`: `(Σ r²) (Σ 1/r²) > n²` unless all are equal. -/
private theorem distances_strict (r : Fin n → ℝ) (hr : ∀ m, 0 < r m) (hne : ∃ m l, r m ≠ r l) :
    (n : ℝ) ^ 2 < (∑ m, r m ^ 2) * ∑ m, 1 / r m ^ 2 := by
  obtain ⟨a, b, hab⟩ := hne
  have h1 : ∀ m l, r m ^ 2 * (1 / r l ^ 2) + r l ^ 2 * (1 / r m ^ 2) - 2 = ((r m ^ 2 - r l ^ 2) / (r m * r l)) ^ 2 := by
    intro m l
    have := hr m
    have := hr l
    field_simp
    ring
  have h2 : 2 * ((∑ m, r m ^ 2) * ∑ m, 1 / r m ^ 2) - 2 * (n : ℝ) ^ 2 =
      ∑ m, ∑ l, ((r m ^ 2 - r l ^ 2) / (r m * r l)) ^ 2 := by
    have e1 : (∑ m, r m ^ 2) * ∑ m, 1 / r m ^ 2 = ∑ m, ∑ l, r m ^ 2 * (1 / r l ^ 2) := Finset.sum_mul_sum _ _ _ _
    have e2 : (∑ m, r m ^ 2) * ∑ m, 1 / r m ^ 2 = ∑ m, ∑ l, r l ^ 2 * (1 / r m ^ 2) := by rw [e1, Finset.sum_comm]
    have e3 : 2 * (n : ℝ) ^ 2 = ∑ _m : Fin n, ∑ _l : Fin n, (2 : ℝ) := by simp; ring
    rw [two_mul ((∑ m, r m ^ 2) * _), e3]
    nth_rewrite 1 [e1]
    rw [e2, ← Finset.sum_add_distrib, ← Finset.sum_sub_distrib]
    refine Finset.sum_congr rfl fun m _ => ?_
    rw [← Finset.sum_add_distrib, ← Finset.sum_sub_distrib]
    exact Finset.sum_congr rfl fun l _ => h1 m l
  have h3 : 0 < ∑ m, ∑ l, ((r m ^ 2 - r l ^ 2) / (r m * r l)) ^ 2 := by
    refine Finset.sum_pos' (fun m _ => Finset.sum_nonneg fun l _ => sq_nonneg _) ⟨a, Finset.mem_univ _, ?_⟩
    refine Finset.sum_pos' (fun l _ => sq_nonneg _) ⟨b, Finset.mem_univ _, ?_⟩
    have ha := hr a
    have hb := hr b
    have : r a ^ 2 - r b ^ 2 ≠ 0 := by
      intro h
      exact hab ((pow_left_inj₀ ha.le hb.le two_ne_zero).1 (sub_eq_zero.1 h))
    positivity
  linarith

private theorem inverse_product {s : BfSet n g} (h : ProperArray s) (i : ℕ) (q : Fin (g + 1)) (hf : s.form = .inverse) :
    energy (steerOf s i q) * energy (field s i q) * coherence (steerOf s i q) (field s i q) = 1 ∧
    energy (steerOf s i q) * energy (field s i q) =
      (∑ m, distance (s.gpos q) (s.mpos m) ^ 2) * (∑ m, 1 / distance (s.gpos q) (s.mpos m) ^ 2) / n ^ 2 := by
  have ha := apart_of h i
  have hA := energy_field h i q
  have hH := energy_steer_pos h i q
  have hm' : (0 : ℝ) < n := by exact_mod_cast h.mics
  constructor
  · unfold coherence
    rw [mul_div_cancel₀ _ (mul_pos hH hA).ne', steerOf_eq, field_eq]
    have := C26_calibrated s.form (.inl hf) _ _ (s.geo i).k (ha.r0 q) (ha.rm q) h.mics
    rw [C26_psf_eq _ _ _ _ _ _ (ha.r0 q) (ha.rm q) h.mics] at this
    exact this
  · have h2 := ha.r0 q
    rw [energy_field_eq, geo_rm, energy_steer h, hf, geo_rm]
    simp only [kernelNorm, helpNormalize]
    rw [geo_r0] at *
    simp only [← pow_two]
    generalize ∑ m, distance (s.gpos q) (s.mpos m) ^ 2 = a
    generalize ∑ m, 1 / distance (s.gpos q) (s.mpos m) ^ 2 = b
    field_simp

/-- **C141**, fails for the functional beamformer with 'inverse': if the microphones are not all equally far from the source and the exponent is
above one, the value at the source is too small. (With equal distances or exponent one it is right.) -/
theorem C141_functional_inverse_violated (rt : BfRoutines n g) {s : BfSet n g} (h : ProperArray s) (F i : ℕ) (q : Fin (g + 1)) (x : ℝ) (hx : 0 < x)
    (hC : s.csm i = (x : ℂ) • outer (field s i q)) (hg : 1 < s.gamma)
    (he : IsEigh (s.csm i) ((rt.eigh (s.csm i)).1, Matrix.of (rt.eigh (s.csm i)).2)) (hf : s.form = .inverse)
    (hd : ∃ m l, distance (s.gpos q) (s.mpos m) ≠ distance (s.gpos q) (s.mpos l)) :
    ∃ v, s.row rt F i .functional = .map v ∧ v q < x := by
  obtain ⟨v, hv, h1, -⟩ := C141_functional rt h F i q x hx hC (by linarith) he
  refine ⟨v, hv, ?_⟩
  have hA := energy_field h i q
  have hH := energy_steer_pos h i q
  have hm' : (0 : ℝ) < n := by exact_mod_cast h.mics
  obtain ⟨p1, p2⟩ := inverse_product h i q hf
  have hP : 1 < energy (steerOf s i q) * energy (field s i q) := by
    rw [p2, lt_div_iff₀ (by positivity), one_mul]
    exact distances_strict _ (fun m => distance_pos (h.apart q m)) hd
  have hc : coherence (steerOf s i q) (field s i q) < 1 := by
    by_contra hc
    push Not at hc
    nlinarith
  have hc0 : 0 < coherence (steerOf s i q) (field s i q) := by
    by_contra hc0
    push Not at hc0
    nlinarith [mul_pos hH hA]
  rw [h1]
  generalize coherence (steerOf s i q) (field s i q) = c at *
  have e : c ^ s.gamma = c * c ^ (s.gamma - 1) := by
    rw [← Real.rpow_one_add' hc0.le (by linarith)]
    congr 1
    ring
  have hlt : c ^ (s.gamma - 1) < 1 := Real.rpow_lt_one hc0.le hc (by linarith)
  calc x * energy (field s i q) * energy (steerOf s i q) * c ^ s.gamma
      = x * (energy (steerOf s i q) * energy (field s i q) * c) * c ^ (s.gamma - 1) := by rw [e]; ring
    _ = x * c ^ (s.gamma - 1) := by rw [p1, mul_one]
    _ < x * 1 := by gcongr
    _ = x := mul_one x

private theorem pyIndex_last (h : 0 < n) : ∃ l : Fin n, pyIndex n (-1) = some l ∧ (l : ℕ) + 1 = n := by
  refine ⟨⟨n - 1, by omega⟩, ?_, by simp; omega⟩
  unfold pyIndex
  rw [dif_neg (by omega), dif_pos (by omega)]
  congr 2
  omega

private theorem pyIndex_na (h : 0 < n) : pyIndex n (eigNa n (-1)) = pyIndex n (-1) := by
  have : eigNa n (-1) = n - 1 := by
    unfold eigNa
    simp only
    rw [if_pos (by omega), max_eq_left (by omega)]
    omega
  rw [this]
  unfold pyIndex
  rw [dif_pos (by omega), dif_neg (by omega), dif_pos (by omega)]
  congr 2

/-- **C141.** Beamforming with the largest eigenvalue (`n = -1`) and one monopole: the map is the conventional map. -/
theorem C141_eig (rt : BfRoutines n g) {s : BfSet n g} (h : ProperArray s) (F i : ℕ) (q : Fin (g + 1)) (x : ℝ) (hx : 0 < x)
    (hC : s.csm i = (x : ℂ) • outer (field s i q)) (hn : s.comps = -1)
    (he : IsEigh (s.csm i) ((rt.eigh (s.csm i)).1, Matrix.of (rt.eigh (s.csm i)).2)) :
    s.row rt F i .eig = s.row rt F i .base := by
  have hA := energy_field h i q
  have hL : 0 < x * energy (field s i q) := mul_pos hx hA
  obtain ⟨l, hl, hlast⟩ := pyIndex_last h.mics
  rw [hC] at he
  unfold BfSet.row
  simp only
  rw [hn, pyIndex_na h.mics, hl]
  simp only
  congr 1
  funext p
  rw [h.full, if_neg (by simp), C24_eig_kernel, hC, (eigh_last he hL l hlast).1, assemble_last he hL l hlast, kernel_smul h,
    dirty_single h i q x hC]
  have := hA.ne'
  simp only [sigLossNorm, if_true]
  field_simp

/-- **C141.** Orthogonal beamforming with the largest eigenvalue and one monopole: one source with the mean power of the microphones, at the
first maximum of the conventional map; all other points are zero. -/
theorem C141_orth (rt : BfRoutines n g) {s : BfSet n g} (h : ProperArray s) (F i : ℕ) (q : Fin (g + 1)) (x : ℝ) (hx : 0 < x)
    (hC : s.csm i = (x : ℂ) • outer (field s i q)) (hn : s.evaList = [-1])
    (he : IsEigh (s.csm i) ((rt.eigh (s.csm i)).1, Matrix.of (rt.eigh (s.csm i)).2)) :
    ∃ v p₀, s.row rt F i .orth = .map v ∧ v p₀ = x * energy (field s i q) / n ∧ (∀ p, p ≠ p₀ → v p = 0) ∧
      (∀ d, s.row rt F i .base = .map d → IsFirstMax d p₀) ∧
      (s.form = .trueLocation → (∀ p, p ≠ q → coherence (steerOf s i p) (field s i q) < 1) → p₀ = q) := by
  have hA := energy_field h i q
  have hL : 0 < x * energy (field s i q) := mul_pos hx hA
  obtain ⟨l, hl, hlast⟩ := pyIndex_last h.mics
  rw [hC] at he
  set out : Fin (g + 1) → ℝ := fun p => eigKernel (e := 1) (s.geo i).st s.rDiag (sigLossNorm s.rDiag s.rDiagNorm n) ((s.geo i).r0 p)
    ((s.geo i).rm p) (s.geo i).k (fun _ => 1) (fun m _ => (rt.eigh (s.csm i)).2 m l) with hout
  have ho : ∀ p, out p = s.dirty i p / (x * energy (field s i q)) := by
    intro p
    rw [hout]
    simp only
    rw [h.full, C24_eig_kernel, hC, assemble_last he hL l hlast, show (s.geo i).st = s.form from rfl, kernel_smul h,
      dirty_single h i q x hC]
    simp only [sigLossNorm, if_true]
    field_simp
  have hmax : IsFirstMax (s.dirty i) (argmax out) := by
    have := argmax_isFirstMax out
    refine ⟨fun j => ?_, fun j hj => ?_⟩
    · have := this.1 j
      rw [ho, ho] at this
      exact (div_le_div_iff_of_pos_right hL).1 this
    · have := this.2 j hj
      rw [ho, ho] at this
      exact (div_lt_div_iff_of_pos_right hL).1 this
  refine ⟨Function.update (fun _ => 0) (argmax out) (0 + (rt.eigh (s.csm i)).1 l / n), argmax out, ?_, ?_, ?_, ?_, ?_⟩
  · unfold BfSet.row
    simp only
    rw [hn]
    unfold orthCalc
    rw [hl]
    simp only
    unfold orthCalc
    rfl
  · rw [Function.update_self, zero_add, hC, (eigh_last he hL l hlast).1]
  · intro p hp
    rw [Function.update_of_ne hp]
  · intro d hd
    have : s.dirty i = d := by simpa [BfSet.row] using hd
    exact this ▸ hmax
  · intro hf hlt
    by_contra hne
    have h1 := hmax.1 q
    have h2 := hlt _ hne
    rw [dirty_single h i q x hC, dirty_single h i q x hC] at h1
    have h3 : coherence (steerOf s i q) (field s i q) ≤ coherence (steerOf s i (argmax out)) (field s i q) := by
      unfold coherence
      rw [(coherence_source h i q).2.2 (.inr hf) q, (coherence_source h i q).2.2 (.inr hf) (argmax out)]
      have hm' : (0 : ℝ) < n := by exact_mod_cast h.mics
      exact div_le_div_of_nonneg_right (le_of_mul_le_mul_left h1 hx) (by positivity)
    rw [(coherence_source h i q).1 (.inr hf)] at h3
    exact absurd h2 (not_lt.2 h3)

/-! ## Capon -/

private theorem outer_mul (a : Fin n → ℂ) : outer a * outer a = (energy a : ℂ) • outer a := by
  ext i j
  rw [Matrix.mul_apply, Matrix.smul_apply, smul_eq_mul, energy_cast, Finset.sum_mul]
  refine Finset.sum_congr rfl fun m _ => ?_
  simp only [outer]
  ring

private theorem capon_inv (a : Fin n → ℂ) (x σ : ℝ) (hσ : 0 < σ) (hx : 0 ≤ x) (ha : 0 < energy a) :
    ((x : ℂ) • outer a + (σ : ℂ) • (1 : Matrix (Fin n) (Fin n) ℂ))⁻¹ =
      ((1 / σ : ℝ) : ℂ) • (1 : Matrix (Fin n) (Fin n) ℂ) - ((x / (σ * (σ + x * energy a)) : ℝ) : ℂ) • outer a := by
  apply Matrix.inv_eq_right_inv
  have h1 : (0 : ℝ) < σ + x * energy a := by positivity
  rw [Matrix.add_mul, Matrix.mul_sub, Matrix.mul_sub]
  simp only [Matrix.smul_mul, Matrix.mul_smul, Matrix.mul_one, Matrix.one_mul, outer_mul, smul_smul]
  rw [show ((1 / σ : ℝ) : ℂ) * (σ : ℂ) = 1 by norm_cast; field_simp]
  rw [show ∀ A B C D : Matrix (Fin n) (Fin n) ℂ, A - B + (C - D) = C + (A - B - D) from fun A B C D => by abel, one_smul, ← sub_smul, ← sub_smul]
  rw [show ((1 / σ : ℝ) : ℂ) * (x : ℂ) - ((x / (σ * (σ + x * energy a)) : ℝ) : ℂ) * (x * energy a) -
    ((x / (σ * (σ + x * energy a)) : ℝ) : ℂ) * σ = 0 by
      norm_cast
      field_simp
      ring, zero_smul, add_zero]

/-- **C141.** Capon beamforming, one monopole and uncorrelated noise with the power `σ` in each channel: the value at each grid point; with
'true location' it is at the source the mean power of the source at the microphones plus the noise power divided by their number; with
'classic' and 'true location' no value is larger than that at the source. -/
theorem C141_capon (rt : BfRoutines n g) {s : BfSet n g} (h : ProperArray s) (F i : ℕ) (q : Fin (g + 1)) (x σ : ℝ) (hx : 0 < x) (hσ : 0 < σ)
    (hC : s.csm i = (x : ℂ) • outer (field s i q) + (σ : ℂ) • 1) :
    ∃ v, s.row rt F i .capon = .map v ∧
      (∀ p, v p = σ / (n ^ 2 * energy (steerOf s i p) *
        (1 - x * energy (field s i q) / (σ + x * energy (field s i q)) * coherence (steerOf s i p) (field s i q)))) ∧
      (s.form = .trueLocation → v q = x * energy (field s i q) / n + σ / n) ∧
      (s.form = .classic ∨ s.form = .trueLocation → ∀ p, v p ≤ v q) := by
  have hA := energy_field h i q
  have hm' : (0 : ℝ) < n := by exact_mod_cast h.mics
  have hS : 0 < σ + x * energy (field s i q) := by positivity
  have hpos : ∀ p, 0 < 1 - x * energy (field s i q) / (σ + x * energy (field s i q)) * coherence (steerOf s i p) (field s i q) := by
    intro p
    have hc := coherence_bound _ _ (energy_steer_pos h i p) hA
    have : x * energy (field s i q) / (σ + x * energy (field s i q)) < 1 := (div_lt_one hS).2 (by linarith)
    have h0 : 0 ≤ x * energy (field s i q) / (σ + x * energy (field s i q)) := by positivity
    nlinarith
  suffices hv : ∀ p, _ = σ / (n ^ 2 * energy (steerOf s i p) *
        (1 - x * energy (field s i q) / (σ + x * energy (field s i q)) * coherence (steerOf s i p) (field s i q))) by
    refine ⟨_, rfl, hv, fun hf => ?_, fun hf p => ?_⟩
    · rw [hv, (coherence_source h i q).1 (.inr hf), (coherence_source h i q).2.2 (.inr hf) q]
      rw [show 1 - x * energy (field s i q) / (σ + x * energy (field s i q)) * 1 = σ / (σ + x * energy (field s i q)) by field_simp; ring]
      field_simp
      ring
    · rw [hv, hv, (coherence_source h i q).2.2 hf p, (coherence_source h i q).2.2 hf q]
      have h1 := hpos q
      refine div_le_div_of_nonneg_left hσ.le (by positivity) (mul_le_mul_of_nonneg_left ?_ (by positivity))
      have h2 := mul_le_mul_of_nonneg_left (coherence_max h i q hf p) (show 0 ≤ x * energy (field s i q) / (σ + x * energy (field s i q)) by positivity)
      linarith
  intro p
  have ha := apart_of h i
  have hH := energy_steer_pos h i p
  unfold caponPoint
  have hh : (((1 / σ : ℝ) : ℂ) • (1 : Matrix (Fin n) (Fin n) ℂ) -
      ((x / (σ * (σ + x * energy (field s i q))) : ℝ) : ℂ) • outer (field s i q)).IsHermitian := by
    refine Matrix.IsHermitian.sub ?_ (herm_smul _ _)
    refine Matrix.IsHermitian.ext fun i j => ?_
    simp only [Matrix.smul_apply, smul_eq_mul, RCLike.star_def, map_mul, Complex.conj_ofReal, Matrix.one_apply]
    split_ifs <;> simp_all
  have hk := C23_kernel_quadratic_form s.form false (sigLossNorm false 1 n * (n : ℝ) ^ 2) _ _ (s.geo i).k (ha.r0 p) (ha.rm p) _ hh
  rw [if_neg (by simp), quad_sub, quad_smul, quad_smul, quad_one, quad_outer, ← steerOf_eq] at hk
  rw [hC, capon_inv _ _ _ hσ hx.le hA]
  rw [← Complex.ofReal_mul, ← Complex.ofReal_mul, ← Complex.ofReal_sub, ← Complex.ofReal_mul] at hk
  rw [Complex.ofReal_injective hk]
  have hB : ‖∑ m, conj (steerOf s i p m) * field s i q m‖ ^ 2 =
      coherence (steerOf s i p) (field s i q) * (energy (steerOf s i p) * energy (field s i q)) := by
    unfold coherence
    field_simp
  rw [hB]
  have h1 := hpos p
  simp only [sigLossNorm, if_true]
  rw [one_mul, show (n : ℝ) ^ 2 * (1 / σ * energy (steerOf s i p) - x / (σ * (σ + x * energy (field s i q))) *
      (coherence (steerOf s i p) (field s i q) * (energy (steerOf s i p) * energy (field s i q)))) =
      (n ^ 2 * energy (steerOf s i p) * (1 - x * energy (field s i q) / (σ + x * energy (field s i q)) *
        coherence (steerOf s i p) (field s i q))) / σ by field_simp, one_div_div]

/-- The general formula of `C141_capon`, with 'true level', at the source. -/
private theorem capon_level (rt : BfRoutines n g) {s : BfSet n g} (h : ProperArray s) (F i : ℕ) (q : Fin (g + 1)) (x σ : ℝ) (hx : 0 < x) (hσ : 0 < σ)
    (hC : s.csm i = (x : ℂ) • outer (field s i q) + (σ : ℂ) • 1) (hf : s.form = .trueLevel) :
    ∃ v, s.row rt F i .capon = .map v ∧ v q = (x * energy (field s i q) + σ) * energy (field s i q) / n ^ 2 := by
  obtain ⟨v, h1, h2, -⟩ := C141_capon rt h F i q x σ hx hσ hC
  refine ⟨v, h1, ?_⟩
  have hA := energy_field h i q
  have hm' : (0 : ℝ) < n := by exact_mod_cast h.mics
  have hS : 0 < σ + x * energy (field s i q) := by positivity
  rw [h2, (coherence_source h i q).1 (.inl hf), (coherence_source h i q).2.1 hf]
  rw [show 1 - x * energy (field s i q) / (σ + x * energy (field s i q)) * 1 = σ / (σ + x * energy (field s i q)) by field_simp; ring]
  field_simp
  ring

/-! ## Instances -/

/-- Two microphones, two grid points, reference distance 1 m, 1000 Hz; source at the first grid point. -/
noncomputable def oneEx (f : Formulation) (x σ : ℝ) : BfSet 2 1 where
  freqs := fun _ => 1000
  csm := fun _ => (x : ℂ) • outer (fun m => pressure 1000 343 1 ![0, 0, 4] (![![3, 0, 0], ![-3, 0, 0]] m)) + (σ : ℂ) • 1
  gpos := ![![0, 0, 4], ![1, 0, 4]]
  mpos := ![![3, 0, 0], ![-3, 0, 0]]
  c := 343
  ref := .dist 1
  form := f
  invForm := f
  rDiag := false
  rDiagNorm := 0
  precision := "float64"
  psfPrecision := "float64"
  gamma := 2
  comps := -1
  evaList := [-1]
  damp := 1
  stopn := 3
  nIter := 100
  alpha := 0
  unitMult := 1
  method := ""
  epsPerc := 0
  pnorm := 1
  beta := 0
  first := 1
  bounds := fun _ => (-1, 1)
  shgo := ""

private theorem oneEx_dist : ∀ m : Fin 2, distance ![0, 0, 4] ((![![3, 0, 0], ![-3, 0, 0]] : Fin 2 → Fin 3 → ℝ) m) = 5 := by
  intro m
  unfold distance
  rw [show (5 : ℝ) = √(5 ^ 2) by rw [Real.sqrt_sq (by norm_num)], Fin.sum_univ_three]
  match m with
  | 0 => congr 1; simp; norm_num
  | 1 => congr 1; simp; norm_num

theorem oneEx_sensible (f : Formulation) (x σ : ℝ) : ProperArray (oneEx f x σ) where
  mics := by norm_num
  ref p := by simp [oneEx, refDistance]
  apart p m h := by
    have := congrFun h 2
    match p, m with
    | 0, 0 => simp [oneEx] at this
    | 0, 1 => simp [oneEx] at this
    | 1, 0 => simp [oneEx] at this
    | 1, 1 => simp [oneEx] at this
  full := rfl

private theorem oneEx_csm (f : Formulation) (x σ : ℝ) : (oneEx f x σ).csm 0 = (x : ℂ) • outer (field (oneEx f x σ) 0 0) + (σ : ℂ) • 1 := rfl

private theorem oneEx_field (f : Formulation) (x σ : ℝ) (m : Fin 2) :
    field (oneEx f x σ) 0 0 m = (1 / 5 : ℝ) * exp (-(I * (2 * Real.pi * 1000 / 343 * (5 - 1) : ℝ))) := by
  have := oneEx_dist m
  unfold field pressure
  simp only [oneEx, refDistance]
  rw [show (![![0, 0, 4], ![1, 0, 4]] : Fin 2 → Fin 3 → ℝ) 0 = ![0, 0, 4] from rfl, this]

private theorem oneEx_outer (f : Formulation) (x σ : ℝ) (m l : Fin 2) : outer (field (oneEx f x σ) 0 0) m l = 1 / 25 := by
  rw [outer, oneEx_field, oneEx_field, Complex.mul_conj, Complex.normSq_eq_norm_sq, norm_mul, Complex.norm_real,
    show -(I * ((2 * Real.pi * 1000 / 343 * (5 - 1) : ℝ) : ℂ)) = ((-(2 * Real.pi * 1000 / 343 * (5 - 1)) : ℝ) : ℂ) * I by push_cast; ring,
    Complex.norm_exp_ofReal_mul_I]
  norm_num

private theorem oneEx_energy (f : Formulation) (x σ : ℝ) : energy (field (oneEx f x σ) 0 0) = 2 / 25 := by
  unfold energy
  have : ∀ m, ‖field (oneEx f x σ) 0 0 m‖ ^ 2 = 1 / 25 := by
    intro m
    have := oneEx_outer f x σ m m
    rw [outer, Complex.mul_conj, Complex.normSq_eq_norm_sq] at this
    have h2 : ((‖field (oneEx f x σ) 0 0 m‖ ^ 2 : ℝ) : ℂ) = ((1 / 25 : ℝ) : ℂ) := by rw [this]; norm_num
    exact Complex.ofReal_injective h2
  rw [Fin.sum_univ_two, this, this]
  norm_num

/-- **C141**, fails for Capon with 'true level': source of mean square pressure 1 in the reference distance, noise 20 dB below; the value at
the source is less than one percent of the mean square pressure there. -/
theorem C141_capon_level_violated (rt : BfRoutines 2 1) : ∃ s : BfSet 2 1, ProperArray s ∧ s.form = .trueLevel ∧
    s.csm 0 = ((1 : ℝ) : ℂ) • outer (field s 0 0) + ((1 / 100 : ℝ) : ℂ) • 1 ∧ ∃ v, s.row rt 1 0 .capon = .map v ∧ v 0 < 1 / 100 := by
  refine ⟨oneEx .trueLevel 1 (1 / 100), oneEx_sensible _ _ _, rfl, oneEx_csm _ _ _, ?_⟩
  obtain ⟨v, h1, h2⟩ := capon_level rt (oneEx_sensible .trueLevel 1 (1 / 100)) 1 0 0 1 (1 / 100) (by norm_num) (by norm_num) (oneEx_csm _ _ _) rfl
  refine ⟨v, h1, ?_⟩
  rw [h2, oneEx_energy]
  norm_num

private theorem oneEx_exact (f : Formulation) (x : ℝ) : (oneEx f x 0).csm 0 = (x : ℂ) • outer (field (oneEx f x 0) 0 0) := by
  rw [oneEx_csm, Complex.ofReal_zero, zero_smul, add_zero]

noncomputable def eighOne (x : ℝ) : (Fin 2 → ℝ) × (Fin 2 → Fin 2 → ℂ) :=
  (![0, x * (2 / 25)], ![![((1 / √2 : ℝ) : ℂ), ((1 / √2 : ℝ) : ℂ)], ![-((1 / √2 : ℝ) : ℂ), ((1 / √2 : ℝ) : ℂ)]])

theorem eighOne_isEigh (f : Formulation) (x : ℝ) (hx : 0 ≤ x) : IsEigh ((oneEx f x 0).csm 0) ((eighOne x).1, Matrix.of (eighOne x).2) := by
  have hs : ((1 / √2 : ℝ) : ℂ) * ((1 / √2 : ℝ) : ℂ) = 1 / 2 := by
    norm_cast
    rw [div_mul_div_comm, Real.mul_self_sqrt (by norm_num)]
    norm_num
  refine ⟨?_, ?_, ?_⟩
  · intro a b hab
    match a, b with
    | 0, 0 => exact le_rfl
    | 0, 1 => simp only [eighOne]; simp; linarith
    | 1, 0 => simp at hab
    | 1, 1 => exact le_rfl
  · ext i j
    rw [Matrix.mul_apply, Fin.sum_univ_two]
    simp only [Matrix.conjTranspose_apply, RCLike.star_def, Matrix.of_apply, eighOne]
    match i, j with
    | 0, 0 => simp [-one_div, -Complex.ofReal_div, -Complex.ofReal_inv, -Complex.ofReal_one, hs]
    | 0, 1 => simp [-one_div, -Complex.ofReal_div, -Complex.ofReal_inv, -Complex.ofReal_one, hs]
    | 1, 0 => simp [-one_div, -Complex.ofReal_div, -Complex.ofReal_inv, -Complex.ofReal_one, hs]
    | 1, 1 => simp [-one_div, -Complex.ofReal_div, -Complex.ofReal_inv, -Complex.ofReal_one, hs]
  · rw [oneEx_exact]
    ext i j
    rw [Matrix.mul_apply, Fin.sum_univ_two, Matrix.mul_diagonal, Matrix.mul_diagonal, Matrix.smul_apply, oneEx_outer, smul_eq_mul]
    simp only [Matrix.conjTranspose_apply, RCLike.star_def, Matrix.of_apply, eighOne]
    have e : ∀ z : ℂ, ((1 / √2 : ℝ) : ℂ) * z * ((1 / √2 : ℝ) : ℂ) = 1 / 2 * z := fun z => by rw [← hs]; ring
    match i, j with
    | 0, 0 => simp [-one_div, -Complex.ofReal_div, -Complex.ofReal_inv, -Complex.ofReal_one, e]; push_cast; ring
    | 0, 1 => simp [-one_div, -Complex.ofReal_div, -Complex.ofReal_inv, -Complex.ofReal_one, e]; push_cast; ring
    | 1, 0 => simp [-one_div, -Complex.ofReal_div, -Complex.ofReal_inv, -Complex.ofReal_one, e]; push_cast; ring
    | 1, 1 => simp [-one_div, -Complex.ofReal_div, -Complex.ofReal_inv, -Complex.ofReal_one, e]; push_cast; ring

noncomputable def rtOne (x : ℝ) : BfRoutines 2 1 where
  eigh := fun _ => eighOne x
  psfSolve := fun _ _ _ _ _ _ _ => 0
  cmfSolve := fun _ _ _ _ _ _ _ _ => 0
  gibMode := fun _ _ _ _ _ _ _ _ _ _ => ⟨fun _ => 0, []⟩
  shgo := fun _ _ _ _ => 0

/-- The hypotheses of `C141_base`, `C141_functional`, `C141_eig`, `C141_orth` are met: -/
example : ∃ v, (oneEx .trueLevel 3 0).row (rtOne 3) 1 0 .base = .map v ∧ v 0 = 3 := by
  obtain ⟨v, h1, h2, -⟩ := C141_base (rtOne 3) (oneEx_sensible .trueLevel 3 0) 1 0 0 3 (by norm_num) (oneEx_exact _ _)
  exact ⟨v, h1, h2 (.inr rfl)⟩

example : ∃ v, (oneEx .trueLevel 3 0).row (rtOne 3) 1 0 .functional = .map v ∧ v 0 = 3 := by
  obtain ⟨v, h1, -, h2, -⟩ := C141_functional (rtOne 3) (oneEx_sensible .trueLevel 3 0) 1 0 0 3 (by norm_num) (oneEx_exact _ _)
    (by norm_num [oneEx]) (eighOne_isEigh _ 3 (by norm_num))
  exact ⟨v, h1, h2 rfl⟩

example : (oneEx .inverse 3 0).row (rtOne 3) 1 0 .eig = (oneEx .inverse 3 0).row (rtOne 3) 1 0 .base :=
  C141_eig (rtOne 3) (oneEx_sensible .inverse 3 0) 1 0 0 3 (by norm_num) (oneEx_exact _ _) rfl (eighOne_isEigh _ 3 (by norm_num))

example : ∃ v p₀, (oneEx .classic 3 0).row (rtOne 3) 1 0 .orth = .map v ∧ v p₀ = 3 / 25 := by
  obtain ⟨v, p₀, h1, h2, -⟩ := C141_orth (rtOne 3) (oneEx_sensible .classic 3 0) 1 0 0 3 (by norm_num) (oneEx_exact _ _) rfl
    (eighOne_isEigh _ 3 (by norm_num))
  refine ⟨v, p₀, h1, ?_⟩
  rw [h2, oneEx_energy]
  norm_num

/-- Source at the second grid point, √20 m and √32 m from the microphones. -/
private noncomputable def obliqueEx : BfSet 2 1 :=
  { oneEx .inverse 1 0 with csm := fun _ => ((1 : ℝ) : ℂ) • outer (field (oneEx .inverse 1 0) 0 1) }

/-- The hypotheses of `C141_functional_inverse_violated` are met, with any routine `eigh` that does what it promises for this matrix: -/
example : ∃ rt : BfRoutines 2 1, ∃ v, obliqueEx.row rt 1 0 .functional = .map v ∧ v 1 < 1 := by
  obtain ⟨r, hr⟩ := exists_isEigh (obliqueEx.csm 0) (herm_smul 1 (field (oneEx .inverse 1 0) 0 1))
  have hp := oneEx_sensible .inverse 1 0
  refine ⟨{ rtOne 1 with eigh := fun _ => (r.1, r.2) },
    C141_functional_inverse_violated _ (s := obliqueEx) ⟨hp.mics, hp.ref, hp.apart, hp.full⟩ 1 0 1 1 one_pos rfl
      (by norm_num [obliqueEx, oneEx]) hr rfl ⟨0, 1, ?_⟩⟩
  unfold distance
  rw [Ne, Real.sqrt_inj (Finset.sum_nonneg fun _ _ => sq_nonneg _) (Finset.sum_nonneg fun _ _ => sq_nonneg _)]
  simp [obliqueEx, oneEx, Fin.sum_univ_three]
  norm_num

/-- The hypotheses of `C141_capon` are met: -/
example : ∃ v, (oneEx .trueLocation 3 2).row (rtOne 3) 1 0 .capon = .map v ∧ v 0 = 3 / 25 + 1 := by
  obtain ⟨v, h1, -, h2, -⟩ := C141_capon (rtOne 3) (oneEx_sensible .trueLocation 3 2) 1 0 0 3 2 (by norm_num) (by norm_num) (oneEx_csm _ _ _)
  refine ⟨v, h1, ?_⟩
  rw [h2 rfl, oneEx_energy]
  norm_num

end Acoular
