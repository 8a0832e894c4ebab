import Verif.Props.Deconv
import Verif.Props.BfDigest
import Verif.Spec.Spectra

/-!
# Property theorems: deconvolution of the exact matrix of incoherent monopoles (C128)

The claims about the single stages (C23 map, C26 point spread function, C27 DAMAS, C28 CLEAN) are put together: what the
beamformers return for data whose sources are known.
-/

namespace Acoular

open Matrix Complex Spec
open scoped ComplexConjugate

variable {n g : ℕ}

/-- Cross spectral matrix of incoherent sources: `a q` is the sound pressure of source `q` at the microphones for unit
power, `x q` its power. -/
noncomputable def Spec.incoherentCsm (a : Fin g → Fin n → ℂ) (x : Fin g → ℝ) : Matrix (Fin n) (Fin n) ℂ :=
  ∑ q, (x q : ℂ) • outer (a q)

/-- Monopoles at the grid points; power at the reference. -/
noncomputable def Spec.monopoles (geo : SteerGeo n g) (q : Fin g) : Fin n → ℂ := monopole (geo.r0 q) (geo.rm q) geo.k

/-- No grid point coincides with the reference or a microphone. -/
structure Spec.Apart (geo : SteerGeo n g) : Prop where
  mics : 0 < n
  r0 : ∀ p, 0 < geo.r0 p
  rm : ∀ p m, 0 < geo.rm p m

/-- Map of the conventional beamformer (acoular/fbeamform.py 508-519). -/
noncomputable def mapOf (geo : SteerGeo n g) (rDiag : Bool) (norm : ℝ) (C : Matrix (Fin n) (Fin n) ℂ) (p : Fin g) : ℝ :=
  bfCalcPoint geo.st rDiag norm (geo.r0 p) (geo.rm p) geo.k C

/-- Point spread functions of the grid (acoular/fbeamform.py 1113-1140). -/
noncomputable def psfOf (geo : SteerGeo n g) (p q : Fin g) : ℝ :=
  psfKernel geo.st (geo.r0 p) (geo.rm p) (geo.r0 q) (geo.rm q) geo.k

/-- The two are those of the beamformers. -/
theorem dirty_eq_mapOf (s : BfSet n g) (i : ℕ) : s.dirty i = mapOf (s.geo i) s.rDiag s.rDiagNorm (s.csm i) := rfl

theorem psf_eq_psfOf (s : BfSet n g) (i : ℕ) : s.psf i = psfOf (s.geo i) := rfl

private theorem quadForm_outer (a h : Fin n → ℂ) :
    quadForm (outer a) h = ((‖∑ m, conj (h m) * a m‖ ^ 2 : ℝ) : ℂ) := by
  rw [← Complex.normSq_eq_norm_sq, ← Complex.mul_conj, map_sum, quadForm_eq_sum, Finset.sum_mul]
  rw [Finset.sum_comm]
  apply Finset.sum_congr rfl
  intro i _
  rw [Finset.mul_sum]
  apply Finset.sum_congr rfl
  intro j _
  simp only [outer, map_mul, Complex.conj_conj]
  ring

private theorem quadForm_incoherent (a : Fin g → Fin n → ℂ) (x : Fin g → ℝ) (h : Fin n → ℂ) :
    quadForm (incoherentCsm a x) h = ((∑ q, ‖∑ m, conj (h m) * a q m‖ ^ 2 * x q : ℝ) : ℂ) := by
  have : quadForm (incoherentCsm a x) h = ∑ q, (x q : ℂ) * quadForm (outer (a q)) h := by
    unfold quadForm incoherentCsm
    rw [Matrix.sum_mulVec, dotProduct_sum]
    apply Finset.sum_congr rfl
    intro q _
    rw [Matrix.smul_mulVec, dotProduct_smul, smul_eq_mul]
  rw [this, Complex.ofReal_sum]
  apply Finset.sum_congr rfl
  intro q _
  rw [quadForm_outer, Complex.ofReal_mul, mul_comm]

private theorem incoherent_herm (a : Fin g → Fin n → ℂ) (x : Fin g → ℝ) : (incoherentCsm a x).IsHermitian := by
  unfold Matrix.IsHermitian
  ext i j
  simp only [incoherentCsm, Matrix.conjTranspose_apply, Matrix.sum_apply, Matrix.smul_apply, outer, smul_eq_mul]
  rw [star_sum]
  apply Finset.sum_congr rfl
  intro q _
  simp only [star_mul', Complex.star_def, Complex.conj_conj, Complex.conj_ofReal]
  ring

/-- **C128.** Without diagonal removal the map of incoherent monopoles is the sum of their point spread functions weighted
with their powers, for every formulation. -/
theorem C128_map (geo : SteerGeo n g) (hg : Apart geo) (norm : ℝ) (x : Fin g → ℝ) (p : Fin g) :
    mapOf geo false norm (incoherentCsm (monopoles geo) x) p = applyPsf (psfOf geo) x p := by
  unfold mapOf applyPsf psfOf
  rw [C23_result _ _ _ _ _ _ (hg.r0 p) (hg.rm p) _ (incoherent_herm _ _)]
  simp only [Bool.false_eq_true, if_false]
  rw [quadForm_incoherent, Complex.ofReal_re]
  apply Finset.sum_congr rfl
  intro q _
  rw [C26_psf_eq _ _ _ _ _ _ (hg.r0 p) (hg.rm p) hg.mics]
  rfl

/-- **C128.** DAMAS without diagonal removal and with a formulation of correct level (`inverse`, `true level`) converges
linearly to the powers of the sources if the values of the point spread functions at the other grid points add up to at
most `q < 1`. Missing: other point spread functions, for which no rate is shown. -/
theorem C128_damas_partial (geo : SteerGeo n g) (hg : Apart geo) (hst : geo.st = .inverse ∨ geo.st = .trueLevel) (norm : ℝ)
    (x : Fin g → ℝ) (hx : ∀ p, 0 ≤ x p) (damp q M : ℝ) (hd : 0 < damp) (hd1 : damp ≤ 1) (hq1 : q ≤ 1)
    (hq : ∀ p, ∑ j ∈ Finset.univ.erase p, psfOf geo p j ≤ q) (hM : ∀ p, |applyPsf (psfOf geo) x p - x p| ≤ M) (nIter : ℕ)
    (p : Fin g) :
    |damasCalc (psfOf geo) (mapOf geo false norm (incoherentCsm (monopoles geo) x)) false nIter damp p - x p| ≤
      (1 - damp + damp * q) ^ nIter * M := by
  have hy : mapOf geo false norm (incoherentCsm (monopoles geo) x) = applyPsf (psfOf geo) x :=
    funext fun p => C128_map geo hg norm x p
  have hpos : ∀ p j, 0 ≤ psfOf geo p j := fun p j =>
    C26_psf_nonneg _ _ _ _ _ _ (hg.r0 p) (hg.rm p) hg.mics
  unfold damasCalc
  simp only [Bool.false_eq_true, if_false]
  rw [hy]
  refine C27_convergence (psfOf geo) (applyPsf (psfOf geo) x) x (applyPsf (psfOf geo) x) damp q M ?_ hd hd1 hq1 ?_ hM ?_ nIter p
  · intro i
    exact C26_calibrated _ hst _ _ _ (hg.r0 i) (hg.rm i) hg.mics
  · intro i
    rw [Finset.sum_congr rfl fun j _ => abs_of_nonneg (hpos i j)]
    exact hq i
  · intro i
    exact ⟨hx i, le_rfl, Or.inr rfl⟩

/-- **C128.** The powers themselves are not changed by any number of iterations. -/
theorem C128_damas_fixed (geo : SteerGeo n g) (hg : Apart geo) (hst : geo.st = .inverse ∨ geo.st = .trueLevel) (norm : ℝ)
    (x : Fin g → ℝ) (hx : ∀ p, 0 ≤ x p) (damp : ℝ) (nIter : ℕ) :
    damasSolve (psfOf geo) (mapOf geo false norm (incoherentCsm (monopoles geo) x)) nIter damp x = x :=
  C27_exact_solution _ _ _ _ (fun i => C26_calibrated _ hst _ _ _ (hg.r0 i) (hg.rm i) hg.mics) hx
    (fun p => (C128_map geo hg norm x p).symm) nIter

/-- **C128.** With the other formulations the powers are a solution of DAMAS only if the point spread function of every
source is one at the source. -/
theorem C128_damas_uncalibrated (geo : SteerGeo n g) (hg : Apart geo) (norm : ℝ) (x : Fin g → ℝ) (hx : ∀ p, 0 ≤ x p)
    (damp : ℝ) (hd : 0 < damp) (s : Fin g) (hs : 0 < x s) (hA : psfOf geo s s ≠ 1) :
    damasSweep (psfOf geo) (mapOf geo false norm (incoherentCsm (monopoles geo) x)) damp x ≠ x := by
  intro h
  rcases C27_nonunit_diagonal _ _ x damp hd hx (fun p => (C128_map geo hg norm x p).symm) h s with h | h
  · exact hA h
  · exact hs.ne' h

/-- **C128.** CLEAN without diagonal removal and one source whose point spread function has its only maximum at the source:
all the power is found at the source, the part `1 - (1 - damp * psf)^n_iter` of it, nothing anywhere else. -/
theorem C128_clean_partial (geo : SteerGeo n (g + 1)) (hg : Apart geo) (norm : ℝ) (x : ℝ) (hx : 0 < x) (s : Fin (g + 1))
    (hmax : ∀ p, p ≠ s → psfOf geo p s < psfOf geo s s) (damp : ℝ) (hd : 0 < damp) (hd1 : damp * psfOf geo s s < 1)
    (nIter : ℕ) (hn : 1 ≤ nIter) :
    (cleanCalc (psfOf geo) damp nIter false (mapOf geo false norm (incoherentCsm (monopoles geo) (Pi.single s x)))).clean =
      Pi.single s (x * (1 - (1 - damp * psfOf geo s s) ^ nIter)) := by
  have hpos : ∀ p j, 0 ≤ psfOf geo p j := fun p j =>
    C26_psf_nonneg _ _ _ _ _ _ (hg.r0 p) (hg.rm p) hg.mics
  have hy : mapOf geo false norm (incoherentCsm (monopoles geo) (Pi.single s x)) = fun p => psfOf geo p s * x := by
    funext p
    rw [C128_map geo hg norm _ p]
    unfold applyPsf
    rw [Finset.sum_eq_single s]
    · rw [Pi.single_eq_same]
    · intro q _ hq; rw [Pi.single_eq_of_ne hq, mul_zero]
    · intro h; exact absurd (Finset.mem_univ s) h
  rw [hy]
  obtain ⟨R, pos, N, hrun, hR0, hN1, hN2, -, -, hc, -, hstop⟩ :=
    C28_run (psfOf geo) damp nIter false (fun p => psfOf geo p s * x)
  generalize hA : psfOf geo = A at *
  set f : ℝ := 1 - damp * A s s with hf
  have hf0 : 0 < f := by rw [hf]; linarith
  have hposk : ∀ k, (∀ p, R k p = f ^ k * x * A p s) → pos k = s := by
    intro k hk
    by_contra hne
    have h1 := (hrun.pos_max k).1 s
    rw [hk, hk] at h1
    have h2 : 0 < f ^ k * x := by positivity
    have h3 := mul_lt_mul_of_pos_left (hmax (pos k) hne) h2
    linarith
  have hR : ∀ k p, R k p = f ^ k * x * A p s := by
    intro k
    induction k with
    | zero =>
      intro p
      rw [hR0]
      simp only [cleanStart, Bool.false_eq_true, if_false, pow_zero]
      ring
    | succ k ih =>
      intro p
      rw [hrun.step, hposk k ih, ih, ih, hf]
      ring
  have hps : ∀ k, pos k = s := fun k => hposk k (hR k)
  -- A s s = 0 is possible only for a single grid point; then nothing is found
  rcases (hpos s s).eq_or_lt with h0 | h0
  · funext p
    rw [hc]
    have hf1 : f = 1 := by rw [hf, ← h0]; ring
    rw [hf1, one_pow, sub_self, mul_zero, Pi.single_zero]
    apply Finset.sum_eq_zero
    intro k _
    rw [hps, hR, ← h0]
    ring
  have hf1 : f < 1 := by rw [hf]; nlinarith [mul_pos hd h0]
  have hN : N = nIter := by
    by_contra hne
    have hlt : (N : ℤ) < nIter := by
      rcases Nat.lt_or_ge N nIter with h | h
      · exact_mod_cast h
      · have : (nIter : ℤ) ≤ N := by exact_mod_cast h
        rw [max_eq_right (by exact_mod_cast hn)] at hN2
        exact absurd (le_antisymm (by exact_mod_cast hN2) h) hne
    apply hstop hlt
    constructor
    · obtain ⟨M, rfl⟩ : ∃ M, N = M + 1 := ⟨N - 1, by omega⟩
      rw [Nat.add_sub_cancel]
      apply Finset.sum_lt_sum
      · intro i _
        rw [hR, hR, abs_of_nonneg (by have := hpos i s; positivity), abs_of_nonneg (by have := hpos i s; positivity)]
        have h1 : 0 ≤ f ^ M * x * A i s := by have := hpos i s; positivity
        rw [pow_succ]
        nlinarith
      · refine ⟨s, Finset.mem_univ s, ?_⟩
        rw [hR, hR, abs_of_pos (by positivity), abs_of_pos (by positivity)]
        have h1 : 0 < f ^ M * x * A s s := by positivity
        rw [pow_succ]
        nlinarith
    · exact ⟨s, by rw [hR]; positivity⟩
  funext p
  rw [hc, hN]
  by_cases hp : p = s
  · subst hp
    rw [Pi.single_eq_same, Finset.filter_true_of_mem (fun k _ => hps k)]
    have : ∀ k, damp * R k (pos k) = x * (f ^ k - f ^ (k + 1)) := by
      intro k; rw [hps, hR, pow_succ, hf]; ring
    simp only [this]
    rw [← Finset.mul_sum, Finset.sum_range_sub']
    simp
  · rw [Pi.single_eq_of_ne hp, Finset.filter_false_of_mem (fun k _ => by rw [hps]; exact fun h => hp h.symm)]
    simp

/-! ### A concrete case -/

/-- Two microphones, reference distance 1, two points at distances (1, 1) and (1, 2), wave number `π`. -/
noncomputable def twoPoints (st : Formulation) : SteerGeo 2 2 :=
  ⟨st, fun _ => 1, fun p m => if p = 1 ∧ m = 1 then 2 else 1, Real.pi⟩

theorem twoPoints_apart (st : Formulation) : Apart (twoPoints st) := by
  refine ⟨by norm_num, fun _ => one_pos, fun p m => ?_⟩
  unfold twoPoints
  simp only
  split <;> norm_num

theorem phase_pi : phase Real.pi = -1 := by simp [phase]
private theorem phase_neg_pi : phase (-Real.pi) = -1 := by simp [phase]

theorem psf_level (p q : Fin 2) : psfOf (twoPoints .trueLevel) p q =
    if p = q then 1 else if p = 0 then 1 / 16 else 4 / 25 := by
  fin_cases p <;> fin_cases q <;>
    simp [psfOf, psfKernel, twoPoints, Fin.sum_univ_two, phase_zero] <;> norm_num [phase_pi, phase_neg_pi, Complex.div_re]

/-- The hypotheses of `C128_damas_partial` are met, two sources: the error is at most `(4/25)^n_iter * 4/25`. -/
example (nIter : ℕ) (p : Fin 2) :
    |damasCalc (psfOf (twoPoints .trueLevel))
      (mapOf (twoPoints .trueLevel) false 0 (incoherentCsm (monopoles (twoPoints .trueLevel)) fun _ => 1)) false nIter 1 p - 1| ≤
      (1 - 1 + 1 * (4 / 25 : ℝ)) ^ nIter * (4 / 25) := by
  refine C128_damas_partial (twoPoints .trueLevel) (twoPoints_apart _) (Or.inr rfl) 0 (fun _ => 1) (fun _ => zero_le_one) 1
    (4 / 25) (4 / 25) one_pos le_rfl (by norm_num) ?_ ?_ nIter p
  · intro p
    fin_cases p
    · rw [show Finset.univ.erase ((⟨0, by decide⟩ : Fin 2)) = {1} from by decide, Finset.sum_singleton, psf_level]; norm_num
    · rw [show Finset.univ.erase ((⟨1, by decide⟩ : Fin 2)) = {0} from by decide, Finset.sum_singleton, psf_level]; norm_num
  · intro p
    fin_cases p <;> simp [applyPsf, Fin.sum_univ_two, psf_level] <;> norm_num [abs_le]

/-- The hypotheses of `C128_clean_partial` are met. -/
example : (cleanCalc (psfOf (twoPoints .trueLevel)) (1 / 2) 10 false
    (mapOf (twoPoints .trueLevel) false 0 (incoherentCsm (monopoles (twoPoints .trueLevel)) (Pi.single 1 3)))).clean =
      Pi.single 1 (3 * (1 - (1 - 1 / 2 * psfOf (twoPoints .trueLevel) 1 1) ^ 10)) := by
  refine C128_clean_partial (twoPoints .trueLevel) (twoPoints_apart _) 0 3 (by norm_num) 1 ?_ (1 / 2) (by norm_num) ?_ 10
    (by norm_num)
  · intro p hp
    fin_cases p
    · rw [psf_level, psf_level]; norm_num
    · exact absurd rfl hp
  · rw [psf_level]; norm_num

/-- **C128.** With the classic formulation a source that is not at the same distance from all microphones is lost: the
power 1 at the second point is not a solution. -/
theorem C128_classic_violated (damp : ℝ) (hd : 0 < damp) :
    damasSweep (psfOf (twoPoints .classic))
      (mapOf (twoPoints .classic) false 0 (incoherentCsm (monopoles (twoPoints .classic)) (Pi.single 1 1))) damp (Pi.single 1 1) ≠
      Pi.single 1 1 := by
  refine C128_damas_uncalibrated (twoPoints .classic) (twoPoints_apart _) 0 (Pi.single 1 1) ?_ damp hd 1 ?_ ?_
  · intro p; fin_cases p <;> simp
  · simp
  · simp [psfOf, psfKernel, twoPoints, Fin.sum_univ_two, phase_zero]; norm_num

/-- **C128.** With diagonal removal the claim does not hold for more than one source: with the powers 1 and 1 at the two
points the map is 1/2 at the first, the point spread functions add up to 17/16, and the powers are not a solution. -/
theorem C128_rdiag_violated (damp : ℝ) (hd : 0 < damp) :
    let y := mapOf (twoPoints .trueLevel) true 0 (incoherentCsm (monopoles (twoPoints .trueLevel)) fun _ => 1)
    y 0 = 1 / 2 ∧ applyPsf (psfOf (twoPoints .trueLevel)) (fun _ => 1) 0 = 17 / 16 ∧
      damasSweep (psfOf (twoPoints .trueLevel)) y damp (fun _ => 1) ≠ fun _ => 1 := by
  intro y
  have hy : y 0 = 1 / 2 := by
    have hg := twoPoints_apart .trueLevel
    show mapOf _ _ _ _ _ = _
    unfold mapOf
    rw [C23_result _ _ _ _ _ _ (hg.r0 0) (hg.rm 0) _ (incoherent_herm _ _)]
    simp only [if_true]
    rw [quadForm_eq_sum]
    simp [removeDiag, Fin.sum_univ_two, incoherentCsm, Matrix.sum_apply, outer, monopoles, monopole, steer, steerAmp, twoPoints]
    have he : cexp (-(I * (↑Real.pi * (2 - 1)))) = -1 := by
      rw [show -(I * ((Real.pi : ℂ) * (2 - 1))) = -(Real.pi * I) by ring, Complex.exp_neg, Complex.exp_pi_mul_I]
      norm_num
    rw [he]
    norm_num
  have hA : applyPsf (psfOf (twoPoints .trueLevel)) (fun _ => 1) 0 = 17 / 16 := by
    simp [applyPsf, Fin.sum_univ_two, psf_level]; norm_num
  refine ⟨hy, hA, fun h => ?_⟩
  have h1 := (C27_fixed_point_iff _ _ _ damp hd).1 h 0
  rcases h1.2.2 with h2 | h2
  · exact one_ne_zero h2
  · rw [hy] at h2
    simp [applyPsf, unitDiag, Fin.sum_univ_two, psf_level] at h2
    norm_num at h2

/-- Two points, each twice as far from one microphone as from the other; distances are multiples of the wave length. -/
noncomputable def crossedPoints : SteerGeo 2 2 :=
  ⟨.inverse, fun _ => 1, fun p m => if p = m then 1 else 2, 2 * Real.pi⟩

private theorem crossed_apart : Apart crossedPoints := by
  refine ⟨by norm_num, fun _ => one_pos, fun p m => ?_⟩
  unfold crossedPoints
  simp only
  split <;> norm_num

private theorem phase_two_pi : phase (2 * Real.pi) = 1 := by simp [phase]
private theorem phase_neg_two_pi : phase (-(2 * Real.pi)) = 1 := by simp [phase]

private theorem crossed_psf (p q : Fin 2) : psfOf crossedPoints p q = if p = q then 1 else 25 / 16 := by
  fin_cases p <;> fin_cases q <;>
    simp [psfOf, psfKernel, crossedPoints, Fin.sum_univ_two, phase_zero] <;>
    norm_num [phase_two_pi, phase_neg_two_pi]

/-- **C128.** With the formulation `inverse` overlapping point spread functions can make DAMAS settle on wrong powers: two
monopoles of power 1 at these points, any number of iterations; nothing is found at the first point, 41/16 at the second. -/
theorem C128_damas_inverse_violated (norm : ℝ) (nIter : ℕ) (hn : 1 ≤ nIter) :
    damasCalc (psfOf crossedPoints) (mapOf crossedPoints false norm (incoherentCsm (monopoles crossedPoints) fun _ => 1)) false
      nIter 1 = ![0, 41 / 16] := by
  have hy : mapOf crossedPoints false norm (incoherentCsm (monopoles crossedPoints) fun _ => 1) = fun _ => 41 / 16 := by
    funext p
    rw [C128_map _ crossed_apart]
    fin_cases p <;> simp [applyPsf, Fin.sum_univ_two, crossed_psf] <;> norm_num
  have hstep : ∀ a : ℝ, 0 ≤ a → damasSweep (psfOf crossedPoints) (fun _ => 41 / 16) 1 ![a, 41 / 16] = ![0, 41 / 16] := by
    intro a _
    funext p
    simp only [damasSweep, List.finRange_succ, List.finRange_zero, List.map_cons, List.map_nil, List.foldl_cons, List.foldl_nil]
    fin_cases p <;> simp [damasStep, Fin.sum_univ_two, crossed_psf] <;> norm_num
  have hsolve : ∀ k, damasSolve (psfOf crossedPoints) (fun _ => 41 / 16) k 1 ![0, 41 / 16] = ![0, 41 / 16] := by
    intro k
    induction k with
    | zero => rfl
    | succ k ih => rw [damasSolve, hstep 0 le_rfl, ih]
  obtain ⟨k, rfl⟩ := Nat.exists_eq_add_of_le' hn
  rw [hy]
  unfold damasCalc
  simp only [Bool.false_eq_true, if_false]
  rw [damasSolve]
  have h1 := hstep (41 / 16) (by norm_num)
  rw [show (![41 / 16, 41 / 16] : Fin 2 → ℝ) = fun _ => 41 / 16 by funext p; fin_cases p; rfl; rfl] at h1
  rw [h1, hsolve]

/-- The hypotheses of `C128_map`, `C128_damas_fixed` are met: -/
example := And.intro (C128_map (twoPoints .trueLevel) (twoPoints_apart _) 0 ![1, 3] 1)
  (C128_damas_fixed (twoPoints .trueLevel) (twoPoints_apart _) (.inr rfl) 0 (fun _ => 1) (fun _ => zero_le_one) 1 5)

/-- The hypotheses of `C128_damas_uncalibrated` are met: -/
example := C128_damas_uncalibrated (twoPoints .classic) (twoPoints_apart _) 0 (fun _ => 1) (fun _ => zero_le_one) 1 one_pos 1 one_pos
  (by simp [psfOf, psfKernel, twoPoints, Fin.sum_univ_two, phase_zero]; norm_num [phase_pi, phase_neg_pi, Complex.div_re])

end Acoular
