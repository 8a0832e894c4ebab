import Verif.Model.BfDispatch
import Verif.Props.Beamform

/-!
# C117: the map does not depend on the kind of steering vector object
-/

namespace Acoular

open Spec

variable {g n e : ℕ}

/-- The cross spectral matrix that is meant. -/
noncomputable def Spec.csmOf : CsmInput n e → Matrix (Fin n) (Fin n) ℂ
  | .full C => C
  | .eig eva eve => assemble eva eve

/-- Distances are positive (a specialised kernel divides by them). -/
def SteerObj.Pos (s : SteerObj g n) : Prop := ∀ p, 0 < s.r0 p ∧ ∀ m, 0 < s.rm p m

private theorem custom_quad (rDiag : Bool) (loss : ℝ) (h : Fin n → ℂ) (C : Matrix (Fin n) (Fin n) ℂ) (hC : C.IsHermitian) :
    (customKernel rDiag loss h C : ℂ) = loss * quadForm (if rDiag then removeDiag C else C) h := by
  unfold customKernel
  rw [Complex.ofReal_mul, scalarProdFull_eq hC]
  ring

/-- **C117** For every steering vector object, of the class itself or of a derived one, the map is `hᴴ C h` with the steering
vectors `h` it provides (without the diagonal, if that is to be removed; times the factor), and the normalisation is `hᴴ h`;
the matrix given as such or by eigenvalues and eigenvectors. -/
theorem C117_map (s : SteerObj g n) (hpos : s.plain = true → s.Pos) (hn : 0 < n) (f : ℝ) (rDiag : Bool) (loss : ℝ)
    (csm : CsmInput n e) (hC : (csmOf csm).IsHermitian) :
    ∃ b w, s.map rDiag loss f csm = .ok (b, w) ∧
      (∀ p, (b p : ℂ) = loss * quadForm (if rDiag then removeDiag (csmOf csm) else csmOf csm) (s.vector f p)) ∧
      (∀ p, w p = ∑ m, ‖s.vector f p m‖ ^ 2) := by
  have hnorm : ∀ v : Fin n → ℂ, customNorm v = ∑ m, ‖v m‖ ^ 2 := by
    intro v
    unfold customNorm
    rw [Complex.re_sum]
    refine Finset.sum_congr rfl fun m _ => ?_
    rw [Complex.mul_conj, Complex.ofReal_re, Complex.normSq_eq_norm_sq]
  unfold SteerObj.map SteerObj.params
  by_cases hp : s.plain = true
  · have hv : s.vector f = fun p => steerVector s.steerType (s.r0 p) (s.rm p) (s.k f) := by
      unfold SteerObj.vector
      rw [if_pos hp]
    rw [hv]
    simp only [if_pos hp]
    refine ⟨_, _, rfl, fun p => ?_, fun p => ?_⟩
    · obtain ⟨a, b⟩ := hpos hp p
      cases csm with
      | full C =>
        simp only
        rw [C25_predefined_eq_custom s.steerType rDiag loss _ _ _ a b C hC]
        exact custom_quad _ _ _ _ hC
      | eig eva eve =>
        simp only
        rw [C25_predefined_eq_custom_eig s.steerType rDiag loss _ _ _ a b, C24_custom_eig_kernel]
        exact custom_quad _ _ _ _ hC
    · obtain ⟨a, b⟩ := hpos hp p
      rw [(C25_norm s.steerType _ _ (s.k f) a b hn).1, hnorm]
  · simp only [if_neg hp]
    refine ⟨_, _, rfl, fun p => ?_, fun p => hnorm _⟩
    cases csm with
    | full C => exact custom_quad _ _ _ _ hC
    | eig eva eve =>
      simp only
      rw [C24_custom_eig_kernel]
      exact custom_quad _ _ _ _ hC

/-- **C117** (phase) The transfer functions and steering vectors of the class itself at frequency `f` are those of a monopole:
between two microphones whose distances differ by `c / f` the phase turns once. -/
theorem C117_phase (s : SteerObj g n) (hs : s.plain = true) (hpos : s.Pos) (f : ℝ) (p : Fin g) (m : Fin n) :
    s.field f p m = (s.r0 p / s.rm p m : ℝ) * Complex.exp (-(Complex.I * (2 * Real.pi * ((s.rm p m - s.r0 p) / (s.c / f)) : ℝ))) ∧
    s.vector f p m = Spec.steerAmp s.steerType (s.r0 p) (s.rm p) m *
      Complex.exp (-(Complex.I * (2 * Real.pi * ((s.rm p m - s.r0 p) / (s.c / f)) : ℝ))) := by
  obtain ⟨a, b⟩ := hpos p
  have e : 2 * Real.pi * ((s.rm p m - s.r0 p) / (s.c / f)) = 2 * Real.pi * f / s.c * (s.rm p m - s.r0 p) := by
    rw [div_div_eq_mul_div]; ring
  rw [e]
  constructor
  · unfold SteerObj.field SteerObj.k
    rw [if_pos hs]
    unfold transfer
    rw [phase_eq]
    push_cast
    ring
  · unfold SteerObj.vector SteerObj.k
    rw [if_pos hs, C25_steer_vector s.steerType _ _ _ a b]
    rfl

/-- **C117** The point spread function is `|hᴴ a|²` with the steering vectors `h` and the transfer functions `a` the object
provides, one column for each source index. -/
theorem C117_psf (s : SteerObj g n) (hpos : s.plain = true → s.Pos) (hn : 0 < n) (f : ℝ) (ind : List (Fin g)) (p : Fin g) :
    s.psf f ind p = ind.map fun j => ‖∑ m, (starRingEnd ℂ) (s.vector f p m) * s.field f j m‖ ^ 2 := by
  unfold SteerObj.psf
  by_cases hp : s.plain = true
  · rw [if_pos hp]
    refine List.map_congr_left fun j _ => ?_
    obtain ⟨a, b⟩ := hpos hp p
    rw [C26_psf_eq s.steerType _ _ _ _ _ a b hn]
    congr 2
    refine Finset.sum_congr rfl fun m _ => ?_
    unfold SteerObj.field SteerObj.vector
    rw [if_pos hp, if_pos hp]
    rw [C25_steer_vector s.steerType _ _ _ a b]
    congr 1
    unfold monopole transfer
    rw [phase_eq]
    push_cast
    ring
  · rw [if_neg hp]
    refine List.map_congr_left fun j _ => ?_
    simp only
    rw [Complex.mul_conj, Complex.ofReal_re, Complex.normSq_eq_norm_sq]

/-- **C117** An object of a derived class that does not change the methods gives the map and the point spread function of the
specialised kernels. -/
theorem C117_derived (s : SteerObj g n) (hpos : s.Pos)
    (hn : 0 < n) (f : ℝ) (rDiag : Bool) (loss : ℝ) (csm : CsmInput n e) (hC : (csmOf csm).IsHermitian) (ind : List (Fin g)) :
    let s' : SteerObj g n := {s with plain := false, ownSteer := s.vector, ownTransfer := s.field}
    s'.map rDiag loss f csm = s.map rDiag loss f csm ∧ s'.psf f ind = s.psf f ind := by
  intro s'
  constructor
  · obtain ⟨b1, w1, e1, q1, n1⟩ := C117_map s (fun _ => hpos) hn f rDiag loss csm hC
    obtain ⟨b2, w2, e2, q2, n2⟩ := C117_map s' (fun h => by cases h) hn f rDiag loss csm hC
    rw [e1, e2]
    have hb : b2 = b1 := funext fun p => Complex.ofReal_injective (by rw [q1, q2]; rfl)
    have hw : w2 = w1 := funext fun p => by rw [n1, n2]; rfl
    rw [hb, hw]
  · funext p
    rw [C117_psf s (fun _ => hpos) hn f ind, C117_psf s' (fun h => by cases h) hn f ind]
    rfl

/-- **C118** The search is confined to the bounds: outside, the value is that of the next point inside. -/
theorem C118_bounds (s : SteerObj g n) (dist : (Fin 3 → ℝ) → (Fin 3 → ℝ) → ℝ) (mics : Fin n → Fin 3 → ℝ)
    (bounds : Fin 3 → ℝ × ℝ) (rDiag : Bool) (loss f : ℝ) (v : Fin n → ℂ) (x : Fin 3 → ℝ) :
    ∃ y : Fin 3 → ℝ, (∀ i, min (bounds i).1 (bounds i).2 ≤ y i ∧ y i ≤ max (bounds i).1 (bounds i).2) ∧
      (∀ z : Fin 3 → ℝ, (∀ i, min (bounds i).1 (bounds i).2 ≤ z i ∧ z i ≤ max (bounds i).1 (bounds i).2) →
        ∀ i, |x i - y i| ≤ |x i - z i|) ∧
      gridlessObjective s dist mics bounds rDiag loss f v x = gridlessObjective s dist mics bounds rDiag loss f v y := by
  have hmm : ∀ i, min (bounds i).1 (bounds i).2 ≤ max (bounds i).1 (bounds i).2 := fun i => min_le_max
  have hin : ∀ i, min (bounds i).1 (bounds i).2 ≤ clipBounds bounds x i ∧ clipBounds bounds x i ≤ max (bounds i).1 (bounds i).2 :=
    fun i => ⟨le_min (le_max_right _ _) (hmm i), min_le_right _ _⟩
  refine ⟨clipBounds bounds x, hin, fun z hz i => ?_, ?_⟩
  · obtain ⟨h1, h2⟩ := hz i
    unfold clipBounds
    generalize min (bounds i).1 (bounds i).2 = lo at h1
    generalize max (bounds i).1 (bounds i).2 = hi at h2
    rcases le_total (x i) lo with h3 | h3
    · rw [max_eq_right h3, min_eq_left (by linarith)]
      rw [abs_of_nonpos (by linarith), abs_of_nonpos (by linarith)]
      linarith
    · rw [max_eq_left h3]
      rcases le_total (x i) hi with h4 | h4
      · rw [min_eq_left h4]
        simp
      · rw [min_eq_right h4, abs_of_nonneg (by linarith), abs_of_nonneg (by linarith)]
        linarith
  · have : clipBounds bounds (clipBounds bounds x) = clipBounds bounds x := by
      funext i
      obtain ⟨h1, h2⟩ := hin i
      show min (max (clipBounds bounds x i) _) _ = _
      rw [max_eq_left h1, min_eq_left h2]
    unfold gridlessObjective
    simp only [this]

/-- **C118** (part) Inside the bounds and with the reference at the origin, the function that is minimised is the negative map of the
component on any grid that contains the point, for steering vectors of the class itself. -/
theorem C118_map_partial (s : SteerObj g n) (hs : s.plain = true) (dist : (Fin 3 → ℝ) → (Fin 3 → ℝ) → ℝ)
    (mics : Fin n → Fin 3 → ℝ) (gpos : Fin g → Fin 3 → ℝ) (hrm : ∀ p m, s.rm p m = dist (gpos p) (mics m))
    (hr0 : ∀ p, s.r0 p = dist (gpos p) 0) (bounds : Fin 3 → ℝ × ℝ) (rDiag : Bool) (loss f : ℝ) (v : Fin n → ℂ) (p : Fin g)
    (hb : ∀ i, min (bounds i).1 (bounds i).2 ≤ gpos p i ∧ gpos p i ≤ max (bounds i).1 (bounds i).2) :
    ∃ b w, s.map rDiag loss f (.eig (fun _ : Fin 1 => 1) fun m _ => v m) = .ok (b, w) ∧
      gridlessObjective s dist mics bounds rDiag loss f v (gpos p) = .ok (-(b p)) := by
  have hc : clipBounds bounds (gpos p) = gpos p := by
    funext i
    obtain ⟨h1, h2⟩ := hb i
    show min (max (gpos p i) _) _ = _
    rw [max_eq_left h1, min_eq_left h2]
  unfold SteerObj.map SteerObj.params gridlessObjective
  simp only [if_pos hs, hc]
  refine ⟨_, _, rfl, ?_⟩
  simp only [beamformerFreq]
  rw [hr0 p, show s.rm p = fun m => dist (gpos p) (mics m) from funext (hrm p)]

/-- The reference of the steering vector is not used in the search: with one microphone at the origin and a reference distance of one
metre, the map of the component is four times as large in two metres distance as in one metre, but the search sees equal
values. -/
theorem C118_reference_violated (f : ℝ) (bounds : Fin 3 → ℝ × ℝ) (hb : ∀ i, bounds i = (0, 2)) :
    let x : Fin 2 → Fin 3 → ℝ := ![![0, 0, 1], ![0, 0, 2]]
    let dist : (Fin 3 → ℝ) → (Fin 3 → ℝ) → ℝ := fun p q => √(∑ i, (p i - q i) ^ 2)
    let s : SteerObj 2 1 := ⟨true, .trueLevel, 343, fun _ => 1, fun p _ => dist (x p) 0, fun _ _ _ => 0, fun _ _ _ => 0⟩
    (∃ b w, s.map false 1 f (.eig (fun _ : Fin 1 => 1) fun _ _ => 1) = .ok (b, w) ∧ b 0 = 1 ∧ b 1 = 4) ∧
      ∀ p, gridlessObjective s dist (fun _ => 0) bounds false 1 f (fun _ => 1) (x p) = .ok (-1) := by
  intro x dist s
  have hd0 : dist (x 0) 0 = 1 := by
    simp [dist, x, Fin.sum_univ_succ]
  have hd1 : dist (x 1) 0 = 2 := by
    simp [dist, x, Fin.sum_univ_succ]
  have hval : ∀ (r0 r k : ℝ), 0 < r0 → 0 < r → eigKernel .trueLevel false 1 r0 (fun _ : Fin 1 => r) k (fun _ : Fin 1 => 1)
      (fun _ _ => 1) = r ^ 2 / r0 ^ 2 := by
    intro r0 r k h0 hr
    have hs : scalarProdEig (fun _ : Fin 1 => 1) (fun (_ : Fin 1) (_ : Fin 1) => (1 : ℂ)) false
        (kernelSteer .trueLevel (fun _ : Fin 1 => r) k) = 1 / r ^ 2 := by
      unfold scalarProdEig kernelSteer
      simp only [Finset.univ_unique, Finset.sum_singleton, map_one, one_mul, Bool.false_eq_true, if_false, mul_one]
      rw [Complex.mul_conj, Complex.ofReal_re, Complex.normSq_div, normSq_phase, Complex.normSq_ofReal]
      ring
    unfold eigKernel kernelResult
    rw [hs]
    simp only [helpNormalize, Finset.univ_unique, Finset.sum_singleton]
    field_simp
  constructor
  · refine ⟨_, _, rfl, ?_, ?_⟩
    · show eigKernel .trueLevel false 1 1 (fun _ => dist (x 0) 0) _ _ _ = 1
      rw [hval _ _ _ one_pos (by rw [hd0]; norm_num), hd0]
      norm_num
    · show eigKernel .trueLevel false 1 1 (fun _ => dist (x 1) 0) _ _ _ = 4
      rw [hval _ _ _ one_pos (by rw [hd1]; norm_num), hd1]
      norm_num
  · intro p
    have hc : clipBounds bounds (x p) = x p := by
      funext i
      unfold clipBounds
      rw [hb i]
      fin_cases p <;> fin_cases i <;> simp [x]
    have hd : 0 < dist (x p) 0 := by
      fin_cases p
      · simp only [Fin.zero_eta]; rw [hd0]; norm_num
      · simp only [Fin.mk_one]; rw [hd1]; norm_num
    unfold gridlessObjective
    simp only [hc]
    show Except.ok (-(eigKernel .trueLevel false 1 (dist (x p) 0) (fun _ => dist (x p) 0) _ _ _)) = _
    rw [hval _ _ _ hd hd, div_self (by positivity)]

/-- Steering vectors of derived classes are not used in the search, and not refused either: with steering vectors that are zero the
map is zero everywhere, but the search sees the map of the predefined formulation. -/
theorem C118_derived_violated (s : SteerObj g n) (own : ℝ → Fin g → Fin n → ℂ)
    (dist : (Fin 3 → ℝ) → (Fin 3 → ℝ) → ℝ) (mics : Fin n → Fin 3 → ℝ) (bounds : Fin 3 → ℝ × ℝ) (rDiag : Bool) (loss f : ℝ)
    (v : Fin n → ℂ) (x : Fin 3 → ℝ) :
    gridlessObjective {s with plain := false, ownSteer := own} dist mics bounds rDiag loss f v x =
        gridlessObjective s dist mics bounds rDiag loss f v x ∧
      (own f = 0 → ∃ w, ({s with plain := false, ownSteer := own} : SteerObj g n).map rDiag loss f
        (.eig (fun _ : Fin 1 => 1) fun m _ => v m) = .ok (0, w)) := by
  refine ⟨rfl, fun h => ⟨fun _ => customNorm (0 : Fin n → ℂ), ?_⟩⟩
  unfold SteerObj.map SteerObj.params SteerObj.vector beamformerFreq
  simp only [Bool.false_eq_true, if_false, h]
  congr 2
  funext p
  simp [customEigKernel, scalarProdEig]

/-- One grid point at 1 m, two microphones 1 m and 2 m away from it, predefined steering vector. -/
private def plainEx : SteerObj 1 2 := ⟨true, .trueLevel, 343, fun _ => 1, fun _ m => 1 + (m : ℕ), fun _ _ _ => 0, fun _ _ _ => 0⟩

private theorem plainEx_pos : plainEx.Pos := fun _ => ⟨one_pos, fun m => by simp only [plainEx]; positivity⟩

/-- The hypotheses of `C117_map` are met: -/
example := C117_map (e := 1) plainEx (fun _ => plainEx_pos) (by decide) 1000 true 2 (.full 1) Matrix.isHermitian_one

/-- The hypotheses of `C117_phase` are met: -/
example := C117_phase plainEx rfl plainEx_pos 1000 0 1

/-- The hypotheses of `C117_psf` are met: -/
example := C117_psf plainEx (fun _ => plainEx_pos) (by decide) 1000 [0] 0

/-- The hypotheses of `C117_derived` are met: -/
example := C117_derived (e := 1) plainEx plainEx_pos (by decide) 1000 true 2 (.full 1) Matrix.isHermitian_one [0]

/-- An instance of `C118_bounds`: -/
example := C118_bounds plainEx dist (fun m _ => (m : ℕ)) (fun _ => (-1, 1)) true 1 1000 ![1, Complex.I] ![5, 0, 0]

/-- The hypotheses of `C118_map_partial` are met: -/
example := C118_map_partial plainEx rfl (fun x y => 1 + y 0) (fun m _ => (m : ℕ)) (fun _ => 0) (fun _ _ => rfl) (fun _ => by simp [plainEx])
  (fun _ => (-1, 1)) true 1 1000 ![1, Complex.I] 0 (fun _ => by norm_num)

/-- One grid point, two microphones. -/
example : SteerObj.Pos (⟨true, .trueLevel, 343, fun _ => 1, fun _ m => 1 + (m : ℕ), fun _ _ _ => 0, fun _ _ _ => 0⟩ : SteerObj 1 2) :=
  fun _ => ⟨one_pos, fun m => by positivity⟩

end Acoular
