import Verif.Props.DamasConverge
import Verif.Props.Inverse

/-!
# C144: what DAMAS+ returns for the exact matrix of known sources
-/

namespace Acoular

open Matrix Complex Spec
open scoped ComplexConjugate

variable {n g : ℕ}

/-- Specification: powers that nowhere explain more than the map shows. -/
def Spec.Explains (A : Fin g → Fin g → ℝ) (y x : Fin g → ℝ) : Prop :=
  (∀ p, 0 ≤ x p) ∧ ∀ i, applyPsf A x i ≤ y i

/-- Specification: what is left of the map. -/
noncomputable def Spec.unexplained (A : Fin g → Fin g → ℝ) (y x : Fin g → ℝ) : ℝ := ∑ i, (y i - applyPsf A x i)

private theorem injective_of_posDef (A : Fin g → Fin g → ℝ) (d : Fin g → ℝ) (h : WeightedPosDef A d) (x x' : Fin g → ℝ)
    (he : ∀ i, applyPsf A x i = applyPsf A x' i) : x = x' := by
  by_contra hne
  have h1 := h.def_ (fun p => x p - x' p) (by
    intro h0
    apply hne
    funext p
    have := congrFun h0 p
    simp only [Pi.zero_apply] at this
    linarith)
  have h2 : ∀ i, applyPsf A (fun p => x p - x' p) i = 0 := by
    intro i
    have : applyPsf A (fun p => x p - x' p) i = applyPsf A x i - applyPsf A x' i := by
      unfold applyPsf
      rw [← Finset.sum_sub_distrib]
      exact Finset.sum_congr rfl fun p _ => by ring
    rw [this, he, sub_self]
  simp [h2] at h1

/-- The map of exact data in the form of the fits. -/
private theorem map_eq (geo : SteerGeo n g) (hg : Apart geo) (norm : ℝ) (x : Fin g → ℝ) :
    mapOf geo false norm (incoherentCsm (monopoles geo) x) = fun i => ∑ p, psfOf geo i p * x p :=
  funext fun p => C128_map geo hg norm x p

/-- **C144.** Method 'NNLS', formulation 'true level', no diagonal removal: if the cross spectral matrix determines the powers of the sources, the
powers are the only possible result, whatever the unit multiplier. -/
theorem C144_nnls (geo : SteerGeo n g) (hg : Apart geo) (hst : geo.st = .trueLevel) (hid : Determined (monopoles geo)) (norm unit : ℝ)
    (hu : 0 < unit) (x : Fin g → ℝ) (hx : ∀ p, 0 ≤ x p) (r : Fin g → ℝ) :
    NnlsResult unit (psfOf geo) (mapOf geo false norm (incoherentCsm (monopoles geo) x)) r ↔ r = x := by
  have hpd := level_posDef geo hg hst hid
  rw [C84_unit_nnls unit 1 hu one_pos, map_eq geo hg norm x]
  have hmin : ∀ (z : Fin g → ℝ) (b : ℝ), 0 ≤ fitObjective 0 (psfOf geo) (fun i => (∑ p, psfOf geo i p * x p) * 1) z b := by
    intro z b
    unfold fitObjective
    rw [zero_mul, add_zero]
    exact div_nonneg (Finset.sum_nonneg fun i _ => sq_nonneg _) (by positivity)
  have hzero : fitObjective 0 (psfOf geo) (fun i => (∑ p, psfOf geo i p * x p) * 1) x 0 = 0 := by
    unfold fitObjective
    simp
  constructor
  · rintro ⟨c, ⟨h0, b, hb, hm⟩, rfl⟩
    rw [hb rfl] at hm
    have h1 : fitObjective 0 (psfOf geo) (fun i => (∑ p, psfOf geo i p * x p) * 1) c 0 = 0 :=
      le_antisymm ((hm x 0 hx fun _ => rfl).trans hzero.le) (hmin c 0)
    have h2 : c = x := by
      refine injective_of_posDef (psfOf geo) _ hpd c x fun i => ?_
      unfold fitObjective at h1
      rw [zero_mul, add_zero, div_eq_zero_iff] at h1
      have hcard : (2 * (Fintype.card (Fin g) : ℝ)) ≠ 0 := by
        have : 0 < g := i.pos
        simp
        omega
      have h3 := h1.resolve_right hcard
      rw [Finset.sum_eq_zero_iff_of_nonneg fun i _ => sq_nonneg _] at h3
      have h4 := pow_eq_zero_iff (two_ne_zero) |>.1 (h3 i (Finset.mem_univ i))
      unfold applyPsf
      linarith
    rw [h2]
    funext p
    simp
  · rintro rfl
    exact ⟨r, ⟨hx, 0, fun _ => rfl, fun x' b' _ _ => by rw [hzero]; exact hmin _ _⟩, by simp⟩

private theorem lp_scale (u : ℝ) (hu : 0 < u) (A : Fin g → Fin g → ℝ) (y x : Fin g → ℝ) : LpResult u A y x ↔ LpResult 1 A y x := by
  have hs : ∀ (z : Fin g → ℝ) i, ∑ p, A i p * (z p * u) = (∑ p, A i p * z p) * u := fun z i => by
    rw [Finset.sum_mul]; exact Finset.sum_congr rfl fun p _ => by ring
  have hd : ∀ (z : Fin g → ℝ) i, ∑ p, A i p * (z p / u) = (∑ p, A i p * z p) / u := fun z i => by
    rw [Finset.sum_div]; exact Finset.sum_congr rfl fun p _ => by ring
  have hc : ∀ z : Fin g → ℝ, ∑ p, -1 * (∑ j, A p j) * (z p * u) = (∑ p, -1 * (∑ j, A p j) * z p) * u := fun z => by
    rw [Finset.sum_mul]; exact Finset.sum_congr rfl fun p _ => by ring
  have hc' : ∀ z : Fin g → ℝ, ∑ p, -1 * (∑ j, A p j) * (z p / u) = (∑ p, -1 * (∑ j, A p j) * z p) / u := fun z => by
    rw [Finset.sum_div]; exact Finset.sum_congr rfl fun p _ => by ring
  constructor
  · rintro ⟨z, ⟨h0, h1⟩, h2, rfl⟩
    refine ⟨fun p => z p / u, ⟨fun p => div_nonneg (h0 p) hu.le, fun i => ?_⟩, fun z' h0' h1' => ?_, by simp⟩
    · rw [hd, div_le_iff₀ hu, mul_one]; exact h1 i
    · have := h2 (fun p => z' p * u) (fun p => mul_nonneg (h0' p) hu.le) fun i => by
        rw [hs]; exact mul_le_mul_of_nonneg_right (by simpa using h1' i) hu.le
      rw [hc] at this
      rw [hc', div_le_iff₀ hu]
      exact this
  · rintro ⟨z, ⟨h0, h1⟩, h2, rfl⟩
    refine ⟨fun p => z p * u, ⟨fun p => mul_nonneg (h0 p) hu.le, fun i => ?_⟩, fun z' h0' h1' => ?_, ?_⟩
    · rw [hs]; exact mul_le_mul_of_nonneg_right (by simpa using h1 i) hu.le
    · have := h2 (fun p => z' p / u) (fun p => div_nonneg (h0' p) hu.le) fun i => by
        rw [hd, div_le_iff₀ hu, mul_one]; exact h1' i
      rw [hc', le_div_iff₀ hu] at this
      rw [hc]
      exact this
    · funext p
      have := hu.ne'
      field_simp

/-- **C84.** The linear program does not depend on the unit multiplier either. -/
theorem C84_unit_lp (u v : ℝ) (hu : 0 < u) (hv : 0 < v) (A : Fin g → Fin g → ℝ) (y x : Fin g → ℝ) : LpResult u A y x ↔ LpResult v A y x :=
  (lp_scale u hu A y x).trans (lp_scale v hv A y x).symm

/-- The hypotheses of `C84_unit_lp` are met: -/
example := C84_unit_lp 1000000000 1 (by norm_num) (by norm_num) ![![1, 1/2], ![1/2, 1]] ![2, 2]

private theorem sum_swap (A : Fin g → Fin g → ℝ) (x lam : Fin g → ℝ) :
    ∑ i, lam i * applyPsf A x i = ∑ p, (∑ i, lam i * A i p) * x p := by
  unfold applyPsf
  simp only [Finset.mul_sum, Finset.sum_mul]
  rw [Finset.sum_comm]
  exact Finset.sum_congr rfl fun p _ => Finset.sum_congr rfl fun i _ => by ring

/-- **C144.** Method 'LP': if the matrix of point spread functions is symmetric, the results are those powers that explain as much of the map as
possible without explaining too much anywhere. -/
theorem C144_lp_most_partial (A : Fin g → Fin g → ℝ) (hA : ∀ i j, A i j = A j i) (unit : ℝ) (hu : 0 < unit) (y x : Fin g → ℝ) :
    LpResult unit A y x ↔ Explains A y x ∧ ∀ x', Explains A y x' → unexplained A y x ≤ unexplained A y x' := by
  have hobj : ∀ z : Fin g → ℝ, ∑ p, -1 * (∑ j, A p j) * z p = unexplained A y z - ∑ i, y i := by
    intro z
    have := sum_swap A z fun _ => 1
    simp only [one_mul] at this
    unfold unexplained
    rw [Finset.sum_sub_distrib, this]
    have : ∀ p, ∑ i, A i p = ∑ j, A p j := fun p => Finset.sum_congr rfl fun j _ => hA j p
    simp only [this, neg_mul, one_mul, Finset.sum_neg_distrib]
    ring
  rw [C84_unit_lp unit 1 hu one_pos]
  constructor
  · rintro ⟨z, ⟨h0, h1⟩, h2, rfl⟩
    simp only [div_one, mul_one] at *
    refine ⟨⟨h0, h1⟩, fun x' hx' => ?_⟩
    have := h2 x' hx'.1 hx'.2
    rw [hobj, hobj] at this
    linarith
  · rintro ⟨⟨h0, h1⟩, h2⟩
    refine ⟨x, ⟨h0, fun i => by rw [mul_one]; exact h1 i⟩, fun z' h0' h1' => ?_, by simp⟩
    rw [hobj, hobj]
    have := h2 z' ⟨h0', fun i => by have := h1' i; rwa [mul_one] at this⟩
    linarith

/-- **C144.** Method 'LP', formulation 'true level', no diagonal removal: the powers are the only possible result if the matrix determines them and
monopoles of unit power at all grid points have the same mean square over the microphones. -/
theorem C144_lp_partial (geo : SteerGeo n g) (hg : Apart geo) (hst : geo.st = .trueLevel) (hid : Determined (monopoles geo))
    (heq : ∀ p q, ∑ m, ‖monopoles geo p m‖ ^ 2 = ∑ m, ‖monopoles geo q m‖ ^ 2) (norm unit : ℝ)
    (hu : 0 < unit) (x : Fin g → ℝ) (hx : ∀ p, 0 ≤ x p) (r : Fin g → ℝ) :
    LpResult unit (psfOf geo) (mapOf geo false norm (incoherentCsm (monopoles geo) x)) r ↔ r = x := by
  have hpd := level_posDef geo hg hst hid
  have hmic : ∀ p, ∑ m, ‖monopoles geo p m‖ ^ 2 = micPower geo p := by
    intro p
    unfold monopoles monopole micPower
    rw [Finset.mul_sum]
    refine Finset.sum_congr rfl fun m _ => ?_
    rw [norm_mul, Complex.norm_real, Real.norm_eq_abs, mul_pow, sq_abs]
    rw [show Complex.exp _ = Complex.exp ((-(geo.k * (geo.rm p m - geo.r0 p)) : ℝ) * I) by congr 1; push_cast; ring,
      Complex.norm_exp_ofReal_mul_I]
    ring
  have hsymm : ∀ i j, psfOf geo i j = psfOf geo j i := by
    intro i j
    have h1 := hpd.symm i j
    have h2 : micPower geo i = micPower geo j := by rw [← hmic, ← hmic, heq i j]
    simp only [h2] at h1
    have h3 := micPower_pos geo hg j
    exact mul_left_cancel₀ (by positivity) h1
  rw [C144_lp_most_partial _ hsymm unit hu, map_eq geo hg norm x]
  have hexp : Explains (psfOf geo) (fun i => ∑ p, psfOf geo i p * x p) x := ⟨hx, fun i => le_rfl⟩
  have hzero : unexplained (psfOf geo) (fun i => ∑ p, psfOf geo i p * x p) x = 0 := by
    unfold unexplained applyPsf
    simp
  have hpos : ∀ z, Explains (psfOf geo) (fun i => ∑ p, psfOf geo i p * x p) z → 0 ≤ unexplained (psfOf geo) (fun i => ∑ p, psfOf geo i p * x p) z :=
    fun z hz => Finset.sum_nonneg fun i _ => sub_nonneg.2 (hz.2 i)
  constructor
  · rintro ⟨h1, h2⟩
    have h3 := le_antisymm (by rw [← hzero]; exact h2 x hexp) (hpos r h1)
    refine injective_of_posDef (psfOf geo) _ hpd r x fun i => ?_
    unfold unexplained at h3
    rw [Finset.sum_eq_zero_iff_of_nonneg fun i _ => sub_nonneg.2 (h1.2 i)] at h3
    have := h3 i (Finset.mem_univ i)
    have e : applyPsf (psfOf geo) x i = ∑ p, psfOf geo i p * x p := rfl
    rw [e]
    linarith
  · rintro rfl
    exact ⟨hexp, fun x' hx' => by rw [hzero]; exact hpos x' hx'⟩

/-- Two microphones, reference distance 1, two points at distances (1, 1) and (1, 2), wave number `2 π`. -/
noncomputable def unequalPoints : SteerGeo 2 2 :=
  ⟨.trueLevel, fun _ => 1, fun p m => if p = 1 ∧ m = 1 then 2 else 1, 2 * Real.pi⟩

private theorem psf_unequal (p q : Fin 2) : psfOf unequalPoints p q =
    if p = q then 1 else if p = 0 then 9 / 16 else 36 / 25 := by
  have h1 : phase (2 * Real.pi) = 1 := by simp [phase]
  have h2 : phase (-(2 * Real.pi)) = 1 := by simp [phase]
  fin_cases p <;> fin_cases q <;>
    simp [psfOf, psfKernel, unequalPoints, Fin.sum_univ_two, phase_zero] <;> norm_num [h1, h2, Complex.div_re]

/-- **C144, violated for 'LP'.** The sums of the rows of the point spread functions are used as weights instead of those of the columns. Two
sources of unit power whose distances from the microphones differ: although the matrix determines the powers, the only possible result is that
the first source is missing and the second has a power of 2.44. -/
theorem C144_lp_violated (norm unit : ℝ) (hu : 0 < unit) (r : Fin 2 → ℝ) :
    Determined (monopoles unequalPoints) ∧
    (LpResult unit (psfOf unequalPoints) (mapOf unequalPoints false norm (incoherentCsm (monopoles unequalPoints) fun _ => 1)) r ↔
      r = ![0, 61 / 25]) := by
  have hg : Apart unequalPoints := by
    refine ⟨by norm_num, fun _ => one_pos, fun p m => ?_⟩
    unfold unequalPoints
    simp only
    split <;> norm_num
  refine ⟨?_, ?_⟩
  · intro x x' h
    have h00 := congrFun (congrFun h 0) 0
    have h11 := congrFun (congrFun h 1) 1
    simp [incoherentCsm, Matrix.sum_apply, Fin.sum_univ_two, outer, monopoles, monopole, unequalPoints] at h00 h11
    have he : Complex.exp (-(I * (2 * Real.pi * (2 - 1)))) = 1 := by
      rw [show -(I * (2 * (Real.pi : ℂ) * (2 - 1))) = -(2 * Real.pi * I) by ring, Complex.exp_neg, Complex.exp_two_pi_mul_I, inv_one]
    rw [he, map_one] at h11
    have r00 := congrArg Complex.re h00
    have r11 := congrArg Complex.re h11
    norm_num [Complex.inv_re, Complex.inv_im, Complex.normSq] at r00 r11
    funext p
    match p with
    | 0 => linarith
    | 1 => linarith
  · rw [lp_scale unit hu, map_eq unequalPoints hg norm]
    unfold LpResult
    simp only [Fin.sum_univ_two, psf_unequal, Fin.forall_fin_two]
    norm_num
    constructor
    · rintro ⟨⟨⟨h0, h1⟩, h2, h3⟩, h4⟩
      have h5 := h4 ![0, 61 / 25] (by norm_num) (by norm_num) (by norm_num) (by norm_num)
      norm_num at h5
      have e0 : r 0 = 0 := by linarith
      funext p
      match p with
      | 0 => exact e0
      | 1 =>
        show r 1 = 61 / 25
        rw [e0] at h3 h5
        linarith
    · rintro rfl
      norm_num
      intro z h0 h1 h2 h3
      linarith

/-! ## Instances -/

/-- Two points at mirrored places: distances (1, 2) and (2, 1). -/
private noncomputable def mirrored : SteerGeo 2 2 := ⟨.trueLevel, fun _ => 1, fun p m => if p = m then 1 else 2, 0⟩

private theorem mirrored_apart : Apart mirrored := by
  refine ⟨by norm_num, fun _ => one_pos, fun p m => ?_⟩
  unfold mirrored
  simp only
  split <;> norm_num

private theorem mirrored_determined : Determined (monopoles mirrored) := by
  intro x x' h
  have h00 := congrFun (congrFun h 0) 0
  have h11 := congrFun (congrFun h 1) 1
  simp [incoherentCsm, Matrix.sum_apply, Fin.sum_univ_two, outer, monopoles, monopole, mirrored] at h00 h11
  have r00 := congrArg Complex.re h00
  have r11 := congrArg Complex.re h11
  norm_num [Complex.inv_re, Complex.inv_im, Complex.normSq] at r00 r11
  funext p
  match p with
  | 0 => linarith
  | 1 => linarith

/-- The hypotheses of `C144_nnls` are met: -/
example := C144_nnls unequalPoints ⟨by norm_num, fun _ => one_pos, fun p m => by unfold unequalPoints; simp only; split <;> norm_num⟩ rfl
  (C144_lp_violated 0 1 one_pos 0).1 0 1000000000 (by norm_num) ![1, 3] (by intro p; fin_cases p <;> norm_num)

/-- The hypotheses of `C144_lp_partial` are met: -/
example := C144_lp_partial mirrored mirrored_apart rfl mirrored_determined
  (by
    intro p q
    fin_cases p <;> fin_cases q <;> simp [monopoles, monopole, mirrored, Fin.sum_univ_two] <;> norm_num)
  0 1000000000 (by norm_num) ![1, 3] (by intro p; fin_cases p <;> norm_num)

/-- The hypotheses of `C144_lp_most_partial` are met: -/
example := C144_lp_most_partial ![![1, 1/2], ![1/2, 1]] (by intro i j; fin_cases i <;> fin_cases j <;> rfl) 1000 (by norm_num) ![2, 3]

end Acoular
