import Verif.Props.ExactSources
import Mathlib.Analysis.Normed.Group.Pointwise
import Mathlib.Topology.MetricSpace.ProperSpace
import Mathlib.Topology.Order.MonotoneConvergence

/-!
# Property theorems: convergence of DAMAS for overlapping point spread functions (C27, C128)

The sweeps of DAMAS minimise a quadratic function one entry after the other.  For the formulation 'true level' the point spread functions
are those of a positive semidefinite function, whatever the overlap, and it is positive definite exactly if the cross spectral matrix
determines the powers.
-/

namespace Acoular

open Matrix Complex Spec Filter Topology
open scoped ComplexConjugate

variable {n g : ℕ}

/-- The point spread functions are symmetric up to a positive factor at each grid point, and the sum
`∑ d_i x_i (A x)_i` is positive for every `x` other than zero. -/
structure Spec.WeightedPosDef (A : Fin g → Fin g → ℝ) (d : Fin g → ℝ) : Prop where
  pos : ∀ i, 0 < d i
  symm : ∀ i j, d i * A i j = d j * A j i
  def_ : ∀ x : Fin g → ℝ, x ≠ 0 → 0 < ∑ i, d i * (x i * applyPsf A x i)

/-- What the sweeps minimise. -/
private noncomputable def objv (A : Fin g → Fin g → ℝ) (d y x : Fin g → ℝ) : ℝ :=
  (∑ i, d i * (x i * applyPsf A x i)) / 2 - ∑ i, d i * (y i * x i)

private theorem applyPsf_update (A : Fin g → Fin g → ℝ) (x : Fin g → ℝ) (i : Fin g) (e : ℝ) (k : Fin g) :
    applyPsf A (Function.update x i (x i + e)) k = applyPsf A x k + A k i * e := by
  unfold applyPsf
  have hu : ∀ j, Function.update x i (x i + e) j = x j + if j = i then e else 0 := by
    intro j
    by_cases hj : j = i
    · subst hj; simp
    · rw [Function.update_of_ne hj, if_neg hj, add_zero]
  simp only [hu, mul_add]
  rw [Finset.sum_add_distrib]
  simp

private theorem objv_update (A : Fin g → Fin g → ℝ) (d y x : Fin g → ℝ) (hs : ∀ i j, d i * A i j = d j * A j i) (i : Fin g) (e : ℝ) :
    objv A d y (Function.update x i (x i + e)) = objv A d y x + d i * (e * (applyPsf A x i - y i) + e ^ 2 * A i i / 2) := by
  have hu : ∀ j, Function.update x i (x i + e) j = x j + if j = i then e else 0 := by
    intro j
    by_cases hj : j = i
    · subst hj; simp
    · rw [Function.update_of_ne hj, if_neg hj, add_zero]
  unfold objv
  simp only [applyPsf_update, hu]
  have e1 : ∑ k, d k * ((x k + if k = i then e else 0) * (applyPsf A x k + A k i * e)) =
      ∑ k, d k * (x k * applyPsf A x k) + e * (d i * applyPsf A x i) + d i * e * (applyPsf A x i + A i i * e) := by
    have : ∀ k, d k * ((x k + if k = i then e else 0) * (applyPsf A x k + A k i * e)) =
        d k * (x k * applyPsf A x k) + e * (d i * (A i k * x k)) + if k = i then d i * e * (applyPsf A x i + A i i * e) else 0 := by
      intro k
      have := hs i k
      split
      · rename_i h; subst h; ring
      · linear_combination (-e * x k) * this
    simp only [this]
    rw [Finset.sum_add_distrib, Finset.sum_add_distrib, ← Finset.mul_sum, ← Finset.mul_sum]
    simp [applyPsf]
  have e2 : ∑ k, d k * (y k * (x k + if k = i then e else 0)) = ∑ k, d k * (y k * x k) + d i * (y i * e) := by
    simp only [mul_add]
    rw [Finset.sum_add_distrib]
    simp
  rw [e1, e2]
  ring

private theorem dstep_self (A : Fin g → Fin g → ℝ) (y : Fin g → ℝ) (w : ℝ) (x : Fin g → ℝ) (i : Fin g) (hA : A i i = 1) :
    damasStep A y w x i i = max 0 (x i + w * (y i - applyPsf A x i)) := by
  unfold damasStep applyPsf
  simp only [Function.update_self]
  rw [hA, show (1 - w) * x i + w * (y i - (∑ j, A i j * x j - 1 * x i)) = x i + w * (y i - ∑ j, A i j * x j) by ring]
  split
  · rename_i h; exact (max_eq_right h.le).symm
  · rename_i h; exact (max_eq_left (not_lt.1 h)).symm

private theorem dstep_eq (A : Fin g → Fin g → ℝ) (y : Fin g → ℝ) (w : ℝ) (x : Fin g → ℝ) (i : Fin g) :
    damasStep A y w x i = Function.update x i (damasStep A y w x i i) := by
  unfold damasStep
  simp

/-- Each step lowers the objective at least by a multiple of the square of the change. -/
private theorem dstep_objv (A : Fin g → Fin g → ℝ) (d y x : Fin g → ℝ) (w : ℝ) (hs : ∀ i j, d i * A i j = d j * A j i)
    (hd : ∀ i, 0 < d i) (hA : ∀ i, A i i = 1) (hw : 0 < w) (i : Fin g) (hx : 0 ≤ x i) :
    objv A d y (damasStep A y w x i) ≤ objv A d y x - d i * (1 / w - 1 / 2) * (damasStep A y w x i i - x i) ^ 2 := by
  obtain ⟨e, he⟩ : ∃ e, damasStep A y w x i i = x i + e := ⟨damasStep A y w x i i - x i, by ring⟩
  rw [dstep_eq, he, objv_update A d y x hs, hA, Function.update_self]
  have hself := dstep_self A y w x i (hA i)
  rw [he] at hself
  set b := y i - applyPsf A x i with hb
  have key : e * (-b) ≤ -(1 / w) * e ^ 2 := by
    rcases le_total 0 (x i + w * b) with h | h
    · rw [max_eq_right h] at hself
      have : e = w * b := by linarith
      have hb' : b = e / w := by rw [this]; field_simp
      rw [hb']
      apply le_of_eq; ring
    · rw [max_eq_left h] at hself
      have hex : e = -x i := by linarith
      have h1 : b ≤ -(x i) / w := by rw [le_div_iff₀ hw]; linarith
      have h2 : x i * b ≤ x i * (-(x i) / w) := mul_le_mul_of_nonneg_left h1 hx
      rw [hex]
      calc -x i * -b = x i * b := by ring
        _ ≤ x i * (-(x i) / w) := h2
        _ = -(1 / w) * (-x i) ^ 2 := by ring
  have := mul_le_mul_of_nonneg_left key (hd i).le
  have e0 : applyPsf A x i - y i = -b := by rw [hb]; ring
  rw [e0]
  nlinarith

private theorem dstep_nonneg (A : Fin g → Fin g → ℝ) (y : Fin g → ℝ) (w : ℝ) (x : Fin g → ℝ) (hA : ∀ i, A i i = 1) (hx : ∀ i, 0 ≤ x i)
    (i j : Fin g) : 0 ≤ damasStep A y w x i j := by
  rw [dstep_eq]
  by_cases h : j = i
  · subst h; rw [Function.update_self, dstep_self A y w x j (hA j)]; exact le_max_left _ _
  · rw [Function.update_of_ne h]; exact hx j

private theorem fold_objv (A : Fin g → Fin g → ℝ) (d y : Fin g → ℝ) (w : ℝ) (hs : ∀ i j, d i * A i j = d j * A j i)
    (hd : ∀ i, 0 < d i) (hA : ∀ i, A i i = 1) (hw : 0 < w) (hw2 : w < 2) (l : List (Fin g)) :
    ∀ x : Fin g → ℝ, (∀ i, 0 ≤ x i) → objv A d y (l.foldl (damasStep A y w) x) ≤ objv A d y x ∧
      (objv A d y x ≤ objv A d y (l.foldl (damasStep A y w) x) → l.foldl (damasStep A y w) x = x) := by
  have hc : 0 < 1 / w - 1 / 2 := by
    rw [sub_pos]; exact one_div_lt_one_div_of_lt hw hw2
  induction l with
  | nil => intro x _; exact ⟨le_rfl, fun _ => rfl⟩
  | cons i l ih =>
    intro x hx
    rw [List.foldl_cons]
    obtain ⟨h1, h2⟩ := ih (damasStep A y w x i) (dstep_nonneg A y w x hA hx i)
    have h3 := dstep_objv A d y x w hs hd hA hw i (hx i)
    have h4 : 0 ≤ d i * (1 / w - 1 / 2) * (damasStep A y w x i i - x i) ^ 2 := by have := hd i; positivity
    refine ⟨by linarith, fun h => ?_⟩
    have h5 : d i * (1 / w - 1 / 2) * (damasStep A y w x i i - x i) ^ 2 ≤ 0 := by linarith
    have h6 : damasStep A y w x i i = x i := by
      by_contra hne
      have : 0 < (damasStep A y w x i i - x i) ^ 2 := by
        have := sub_ne_zero.2 hne; positivity
      have := mul_pos (mul_pos (hd i) hc) this
      linarith
    have h7 : damasStep A y w x i = x := by rw [dstep_eq, h6, Function.update_eq_self]
    rw [h7] at h2 ⊢
    exact h2 (by rw [h7] at h; exact h)

private theorem applyPsf_cont (A : Fin g → Fin g → ℝ) (i : Fin g) : Continuous fun x : Fin g → ℝ => applyPsf A x i := by
  unfold applyPsf
  fun_prop

private theorem objv_cont (A : Fin g → Fin g → ℝ) (d y : Fin g → ℝ) : Continuous (objv A d y) := by
  unfold objv applyPsf
  fun_prop

private theorem sweep_cont (A : Fin g → Fin g → ℝ) (y : Fin g → ℝ) (w : ℝ) (hA : ∀ i, A i i = 1) : Continuous (damasSweep A y w) := by
  unfold damasSweep
  generalize List.finRange g = l
  induction l with
  | nil => exact continuous_id
  | cons i l ih =>
    simp only [List.foldl_cons]
    refine ih.comp ?_
    have : (fun x => damasStep A y w x i) = fun x => Function.update x i (max 0 (x i + w * (y i - applyPsf A x i))) := by
      funext x
      rw [dstep_eq, dstep_self A y w x i (hA i)]
    rw [this]
    have := applyPsf_cont A i
    exact continuous_id.update i (by fun_prop)

/-- Lower bound of a positive definite form. -/
private theorem coercive (A : Fin g → Fin g → ℝ) (d : Fin g → ℝ) (h : WeightedPosDef A d) :
    ∃ lam : ℝ, 0 < lam ∧ ∀ x : Fin g → ℝ, lam * ‖x‖ ^ 2 ≤ ∑ i, d i * (x i * applyPsf A x i) := by
  set q : (Fin g → ℝ) → ℝ := fun x => ∑ i, d i * (x i * applyPsf A x i) with hq
  have hqc : Continuous q := by
    rw [hq]; unfold applyPsf; fun_prop
  have hhom : ∀ (t : ℝ) x, q (t • x) = t ^ 2 * q x := by
    intro t x
    simp only [hq, applyPsf, Pi.smul_apply, smul_eq_mul]
    rw [Finset.mul_sum]
    refine Finset.sum_congr rfl fun i _ => ?_
    rw [show ∑ j, A i j * (t * x j) = t * ∑ j, A i j * x j by rw [Finset.mul_sum]; exact Finset.sum_congr rfl fun j _ => by ring]
    ring
  rcases (Metric.sphere (0 : Fin g → ℝ) 1).eq_empty_or_nonempty with he | hne
  · refine ⟨1, one_pos, fun x => ?_⟩
    have hx : x = 0 := by
      by_contra hx
      have : (‖x‖⁻¹ • x) ∈ Metric.sphere (0 : Fin g → ℝ) 1 := by
        rw [mem_sphere_zero_iff_norm, norm_smul, norm_inv, norm_norm, inv_mul_cancel₀ (norm_ne_zero_iff.2 hx)]
      rw [he] at this
      exact this
    subst hx
    simp
  · obtain ⟨z, hz, hmin⟩ := (isCompact_sphere (0 : Fin g → ℝ) 1).exists_isMinOn hne hqc.continuousOn
    have hz0 : z ≠ 0 := by
      intro h0; rw [h0, mem_sphere_zero_iff_norm, norm_zero] at hz; exact zero_ne_one hz
    refine ⟨q z, h.def_ z hz0, fun x => ?_⟩
    by_cases hx : x = 0
    · subst hx; simp
    have hn := norm_ne_zero_iff.2 hx
    have hm : (‖x‖⁻¹ • x) ∈ Metric.sphere (0 : Fin g → ℝ) 1 := by
      rw [mem_sphere_zero_iff_norm, norm_smul, norm_inv, norm_norm, inv_mul_cancel₀ hn]
    have h1 : q z ≤ q (‖x‖⁻¹ • x) := hmin hm
    rw [hhom] at h1
    have h2 : 0 < ‖x‖ ^ 2 := by positivity
    calc q z * ‖x‖ ^ 2 ≤ (‖x‖⁻¹ ^ 2 * q x) * ‖x‖ ^ 2 := mul_le_mul_of_nonneg_right h1 h2.le
      _ = q x := by field_simp

/-- The objective bounds the map. -/
private theorem bounded_level (A : Fin g → Fin g → ℝ) (d y : Fin g → ℝ) (h : WeightedPosDef A d) (C : ℝ) :
    ∃ R : ℝ, ∀ x : Fin g → ℝ, objv A d y x ≤ C → ‖x‖ ≤ R := by
  obtain ⟨lam, hl, hb⟩ := coercive A d h
  set B : ℝ := ∑ i, |d i * y i| with hB
  have hB0 : 0 ≤ B := Finset.sum_nonneg fun i _ => abs_nonneg _
  refine ⟨max 1 (2 * (|C| + B) / lam), fun x hx => ?_⟩
  by_cases h1 : ‖x‖ ≤ 1
  · exact h1.trans (le_max_left _ _)
  push Not at h1
  refine le_trans ?_ (le_max_right _ _)
  rw [le_div_iff₀ hl]
  have hlin : ∑ i, d i * (y i * x i) ≤ B * ‖x‖ := by
    rw [hB, Finset.sum_mul]
    refine Finset.sum_le_sum fun i _ => ?_
    calc d i * (y i * x i) ≤ |d i * (y i * x i)| := le_abs_self _
      _ = |d i * y i| * |x i| := by rw [← abs_mul]; ring_nf
      _ ≤ |d i * y i| * ‖x‖ := mul_le_mul_of_nonneg_left (by rw [← Real.norm_eq_abs]; exact norm_le_pi_norm x i) (abs_nonneg _)
  have h2 := hb x
  unfold objv at hx
  have h3 : lam * ‖x‖ ^ 2 ≤ 2 * (C + B * ‖x‖) := by linarith
  have h4 : C ≤ |C| * ‖x‖ := (le_abs_self C).trans (le_mul_of_one_le_right (abs_nonneg C) h1.le)
  have h5 : lam * ‖x‖ * ‖x‖ ≤ 2 * (|C| + B) * ‖x‖ := by nlinarith
  have := le_of_mul_le_mul_right h5 (by linarith)
  linarith

private theorem solve_succ (A : Fin g → Fin g → ℝ) (y : Fin g → ℝ) (w : ℝ) (k : ℕ) :
    ∀ x, damasSolve A y (k + 1) w x = damasSweep A y w (damasSolve A y k w x) := by
  induction k with
  | zero => intro x; rfl
  | succ k ih => intro x; rw [damasSolve, ih]; rfl

/-- Two solutions of the complementarity problem agree. -/
private theorem comp_unique (A : Fin g → Fin g → ℝ) (d y x z : Fin g → ℝ) (h : WeightedPosDef A d) (hx : Complementary A y x)
    (hz : Complementary A y z) : x = z := by
  by_contra hne
  have h1 := h.def_ (x - z) (sub_ne_zero.2 hne)
  have h2 : ∑ i, d i * ((x - z) i * applyPsf A (x - z) i) ≤ 0 := by
    refine Finset.sum_nonpos fun i _ => ?_
    have e : applyPsf A (x - z) i = applyPsf A x i - applyPsf A z i := by
      unfold applyPsf
      rw [← Finset.sum_sub_distrib]
      exact Finset.sum_congr rfl fun j _ => by rw [Pi.sub_apply]; ring
    rw [e, Pi.sub_apply]
    obtain ⟨a1, a2, a3⟩ := hx i
    obtain ⟨b1, b2, b3⟩ := hz i
    have : (x i - z i) * (applyPsf A x i - applyPsf A z i) ≤ 0 := by
      rcases a3 with a3 | a3 <;> rcases b3 with b3 | b3
      · rw [a3, b3]; simp
      · rw [a3, b3]; nlinarith
      · rw [a3, b3]; nlinarith
      · rw [a3, b3]; simp
    exact mul_nonpos_of_nonneg_of_nonpos (h.pos i).le this
  linarith

/-- **C27.** Point spread functions with unit diagonal that are symmetric up to positive factors and positive definite, with any overlap: there is
exactly one solution of the deconvolution problem, and the sweeps of DAMAS converge to it from every start, for every relaxation between 0 and 2. -/
theorem C27_converges (A : Fin g → Fin g → ℝ) (d y : Fin g → ℝ) (h : WeightedPosDef A d) (hA : ∀ i, A i i = 1) :
    ∃! xs, Complementary A y xs ∧ ∀ (w : ℝ), 0 < w → w < 2 → ∀ x, Tendsto (fun k => damasSolve A y k w x) atTop (𝓝 xs) := by
  have hun : unitDiag A = A := by
    funext i j; unfold unitDiag; split
    · rename_i h; rw [← h, hA]
    · rfl
  -- the sequence after the first sweep
  have main : ∀ w : ℝ, 0 < w → w < 2 → ∀ x : Fin g → ℝ, (∀ i, 0 ≤ x i) → ∃ K : Set (Fin g → ℝ), IsCompact K ∧
      (∀ k, damasSolve A y k w x ∈ K) ∧ ∀ z, MapClusterPt z atTop (fun k => damasSolve A y k w x) → Complementary A y z := by
    intro w hw hw2 x hx
    have hnn : ∀ k i, 0 ≤ damasSolve A y k w x i := by
      intro k i
      rcases Nat.eq_zero_or_pos k with rfl | hk
      · exact hx i
      · exact C27_nonneg A y x w k hk i
    have hdec : ∀ k, objv A d y (damasSolve A y (k + 1) w x) ≤ objv A d y (damasSolve A y k w x) := by
      intro k
      rw [solve_succ]
      exact (fold_objv A d y w h.symm h.pos hA hw hw2 _ _ (hnn k)).1
    have hanti : Antitone fun k => objv A d y (damasSolve A y k w x) := antitone_nat_of_succ_le hdec
    obtain ⟨R, hR⟩ := bounded_level A d y h (objv A d y x)
    have hmem : ∀ k, damasSolve A y k w x ∈ Metric.closedBall (0 : Fin g → ℝ) R := by
      intro k
      rw [mem_closedBall_zero_iff]
      exact hR _ (hanti (Nat.zero_le k))
    have hK : IsCompact (Metric.closedBall (0 : Fin g → ℝ) R) := isCompact_closedBall _ _
    refine ⟨_, hK, hmem, fun z hz => ?_⟩
    have hbdd : BddBelow (Set.range fun k => objv A d y (damasSolve A y k w x)) := by
      obtain ⟨b, hb⟩ := (hK.image (objv_cont A d y)).bddBelow
      exact ⟨b, by rintro _ ⟨k, rfl⟩; exact hb ⟨_, hmem k, rfl⟩⟩
    have hlim := tendsto_atTop_ciInf hanti hbdd
    have hlim1 := hlim.comp (tendsto_add_atTop_nat 1)
    obtain ⟨ψ, hψ, hzt⟩ := hz.tendsto_subseq
    have u1 := tendsto_nhds_unique (((objv_cont A d y).tendsto z).comp hzt) (hlim.comp hψ.tendsto_atTop)
    have u2 := tendsto_nhds_unique ((((objv_cont A d y).comp (sweep_cont A y w hA)).tendsto z).comp hzt)
      (b := ⨅ k, objv A d y (damasSolve A y k w x)) (by
        have := hlim1.comp hψ.tendsto_atTop
        refine this.congr fun k => ?_
        simp only [Function.comp, solve_succ])
    have hz0 : ∀ i, 0 ≤ z i := by
      intro i
      have hcl : IsClosed {u : Fin g → ℝ | 0 ≤ u i} := isClosed_le continuous_const (continuous_apply i)
      exact hcl.mem_of_mapClusterPt hz (Eventually.of_forall fun k => hnn k i)
    have hfix : damasSweep A y w z = z :=
      (fold_objv A d y w h.symm h.pos hA hw hw2 _ z hz0).2 (by
        show objv A d y z ≤ objv A d y (damasSweep A y w z)
        rw [u1]; exact u2.ge)
    have := (C27_fixed_point_iff A y z w hw).1 hfix
    rwa [hun] at this
  obtain ⟨K, hK, hmem, hcl⟩ := main 1 one_pos (by norm_num) 0 (fun _ => le_rfl)
  obtain ⟨xs, _, hxs⟩ := hK.exists_mapClusterPt (f := atTop) (u := fun k => damasSolve A y k 1 0)
    (Filter.tendsto_principal.2 (Eventually.of_forall hmem))
  have hxs' := hcl xs hxs
  refine ⟨xs, ⟨hxs', fun w hw hw2 x => ?_⟩, fun z hz => comp_unique A d y z xs h hz.1 hxs'⟩
  obtain ⟨K, hK, hmem, hcl⟩ := main w hw hw2 (damasSweep A y w x) (fun i => C27_nonneg A y x w 1 le_rfl i)
  have := hK.tendsto_nhds_of_unique_mapClusterPt (Eventually.of_forall hmem) (y := xs)
    fun z _ hz => comp_unique A d y z xs h (hcl z hz) hxs'
  exact (tendsto_add_atTop_iff_nat 1).1 this

/-- The cross spectral matrix determines the powers of the sources. -/
def Spec.Determined (a : Fin g → Fin n → ℂ) : Prop :=
  ∀ x x' : Fin g → ℝ, incoherentCsm a x = incoherentCsm a x' → x = x'

private theorem sum_four (F : Fin g → Fin g → Fin n → Fin n → ℂ) :
    ∑ p, ∑ q, ∑ l, ∑ m, F p q l m = ∑ l, ∑ m, ∑ q, ∑ p, F p q l m := by
  have h1 : ∑ p, ∑ q, ∑ l, ∑ m, F p q l m = ∑ z : Fin g × Fin g, ∑ u : Fin n × Fin n, F z.1 z.2 u.1 u.2 := by
    simp only [Fintype.sum_prod_type]
  rw [h1, Finset.sum_comm]
  simp only [Fintype.sum_prod_type]
  exact Finset.sum_congr rfl fun l _ => Finset.sum_congr rfl fun m _ => Finset.sum_comm

private theorem frobenius (a : Fin g → Fin n → ℂ) (x : Fin g → ℝ) :
    ∑ p, ∑ q, x p * x q * ‖∑ m, conj (a p m) * a q m‖ ^ 2 = ∑ i, ∑ j, ‖incoherentCsm a x i j‖ ^ 2 := by
  have hsq : ∀ z : ℂ, ((‖z‖ ^ 2 : ℝ) : ℂ) = z * conj z := fun z => by
    rw [Complex.mul_conj, Complex.normSq_eq_norm_sq]
  have hC : ∀ i j, incoherentCsm a x i j = ∑ q, (x q : ℂ) * (a q i * conj (a q j)) := by
    intro i j
    simp only [incoherentCsm, Matrix.sum_apply, Matrix.smul_apply, outer, smul_eq_mul]
  apply Complex.ofReal_injective
  rw [Complex.ofReal_sum, Complex.ofReal_sum]
  simp only [Complex.ofReal_sum, Complex.ofReal_mul, hsq, hC, map_sum, map_mul, Complex.conj_conj, Complex.conj_ofReal]
  simp only [Finset.mul_sum, Finset.sum_mul]
  rw [sum_four]
  refine Finset.sum_congr rfl fun i _ => Finset.sum_congr rfl fun j _ => Finset.sum_congr rfl fun q _ => Finset.sum_congr rfl fun p _ => ?_
  ring

/-- Power of the monopole at the microphones. -/
noncomputable def micPower (geo : SteerGeo n g) (p : Fin g) : ℝ := geo.r0 p ^ 2 * ∑ l, 1 / geo.rm p l ^ 2

theorem micPower_pos (geo : SteerGeo n g) (hg : Apart geo) (p : Fin g) : 0 < micPower geo p := by
  unfold micPower
  have := hg.r0 p
  have : Nonempty (Fin n) := ⟨⟨0, hg.mics⟩⟩
  have h2 : 0 < ∑ l, 1 / geo.rm p l ^ 2 :=
    Finset.sum_pos (fun l _ => by have := hg.rm p l; positivity) Finset.univ_nonempty
  positivity

theorem psf_level_eq (geo : SteerGeo n g) (hg : Apart geo) (hst : geo.st = .trueLevel) (p q : Fin g) :
    micPower geo p ^ 2 * psfOf geo p q = ‖∑ m, conj (monopoles geo p m) * monopoles geo q m‖ ^ 2 := by
  have hN := micPower_pos geo hg p
  have hH : (∑ l, 1 / geo.rm p l ^ 2) ≠ 0 := by
    intro h; unfold micPower at hN; rw [h, mul_zero] at hN; exact lt_irrefl _ hN
  have hs : ∀ m, monopoles geo p m = ((micPower geo p : ℝ) : ℂ) * steer geo.st (geo.r0 p) (geo.rm p) geo.k m := by
    intro m
    unfold monopoles monopole steer
    rw [hst, ← mul_assoc, ← Complex.ofReal_mul]
    congr 2
    unfold steerAmp micPower
    simp only
    have h1 := (hg.r0 p).ne'
    have h2 := (hg.rm p m).ne'
    generalize (∑ l, 1 / geo.rm p l ^ 2) = H at *
    field_simp
  unfold psfOf
  rw [C26_psf_eq _ _ _ _ _ _ (hg.r0 p) (hg.rm p) hg.mics]
  have hsum : ∀ m, conj (monopoles geo p m) * monopoles geo q m =
      (micPower geo p : ℂ) * conj (steer geo.st (geo.r0 p) (geo.rm p) geo.k m) * monopoles geo q m := fun m => by
    rw [hs, map_mul, Complex.conj_ofReal]
  rw [Finset.sum_congr rfl fun m _ => hsum m]
  have : ∀ m, (micPower geo p : ℂ) * conj (steer geo.st (geo.r0 p) (geo.rm p) geo.k m) * monopoles geo q m =
      (micPower geo p : ℂ) * (conj (steer geo.st (geo.r0 p) (geo.rm p) geo.k m) * monopoles geo q m) := fun m => by ring
  simp only [this]
  rw [← Finset.mul_sum, norm_mul, Complex.norm_real, Real.norm_of_nonneg hN.le, mul_pow]
  rfl

theorem level_posDef (geo : SteerGeo n g) (hg : Apart geo) (hst : geo.st = .trueLevel) (hid : Determined (monopoles geo)) :
    WeightedPosDef (psfOf geo) fun p => micPower geo p ^ 2 := by
  refine ⟨fun p => by have := micPower_pos geo hg p; positivity, fun p q => ?_, fun x hx => ?_⟩
  · rw [psf_level_eq geo hg hst, psf_level_eq geo hg hst]
    congr 1
    rw [← RCLike.norm_conj, map_sum]
    congr 1
    refine Finset.sum_congr rfl fun m _ => ?_
    rw [map_mul, Complex.conj_conj, mul_comm]
  · have e : ∑ p, micPower geo p ^ 2 * (x p * applyPsf (psfOf geo) x p) =
        ∑ p, ∑ q, x p * x q * ‖∑ m, conj (monopoles geo p m) * monopoles geo q m‖ ^ 2 := by
      refine Finset.sum_congr rfl fun p _ => ?_
      unfold applyPsf
      rw [Finset.mul_sum, Finset.mul_sum]
      refine Finset.sum_congr rfl fun q _ => ?_
      rw [← psf_level_eq geo hg hst]
      ring
    rw [e, frobenius]
    have hne : incoherentCsm (monopoles geo) x ≠ 0 := by
      intro h0
      apply hx
      apply hid x 0
      rw [h0]
      simp [incoherentCsm]
    obtain ⟨i, j, hij⟩ : ∃ i j, incoherentCsm (monopoles geo) x i j ≠ 0 := by
      by_contra hall
      push Not at hall
      exact hne (Matrix.ext hall)
    have h1 : 0 < ‖incoherentCsm (monopoles geo) x i j‖ ^ 2 := by have := norm_pos_iff.2 hij; positivity
    refine Finset.sum_pos' (fun i _ => Finset.sum_nonneg fun j _ => by positivity) ⟨i, Finset.mem_univ i, ?_⟩
    exact Finset.sum_pos' (fun j _ => by positivity) ⟨j, Finset.mem_univ j, h1⟩

/-- **C128.** DAMAS with the formulation 'true level', without diagonal removal: if the cross spectral matrix determines the powers of the
sources at all, the result converges to the powers, however close the sources are to each other. -/
theorem C128_damas_level (geo : SteerGeo n g) (hg : Apart geo) (hst : geo.st = .trueLevel) (hid : Determined (monopoles geo)) (norm : ℝ)
    (x : Fin g → ℝ) (hx : ∀ p, 0 ≤ x p) (damp : ℝ) (hd : 0 < damp) (hd1 : damp ≤ 1) (p : Fin g) :
    Tendsto (fun nIter => damasCalc (psfOf geo) (mapOf geo false norm (incoherentCsm (monopoles geo) x)) false nIter damp p) atTop
      (𝓝 (x p)) := by
  have hy : mapOf geo false norm (incoherentCsm (monopoles geo) x) = applyPsf (psfOf geo) x :=
    funext fun p => C128_map geo hg norm x p
  have hpd := level_posDef geo hg hst hid
  obtain ⟨xs, ⟨h1, h2⟩, h3⟩ := C27_converges (psfOf geo) _ (applyPsf (psfOf geo) x) hpd
    (fun i => C26_calibrated _ (.inr hst) _ _ _ (hg.r0 i) (hg.rm i) hg.mics)
  have hxs : xs = x := comp_unique _ _ _ _ _ hpd h1 fun i => ⟨hx i, le_rfl, Or.inr rfl⟩
  rw [hy]
  have := (tendsto_pi_nhds.1 (h2 damp hd (by linarith) (applyPsf (psfOf geo) x))) p
  rw [hxs] at this
  exact this

/-- Three points close to each other, two microphones: the point spread functions overlap, those of the other points add up to more than one. -/
noncomputable def closePoints : SteerGeo 2 3 :=
  ⟨.trueLevel, fun _ => 1, fun p m => if m = 0 then ![1, 2, 3] p else ![3, 2, 1] p, 0⟩

/-- The hypotheses of `C128_damas_level` are met, although the neighbours together are as strong as the source: -/
example (p : Fin 3) : Tendsto (fun nIter => damasCalc (psfOf closePoints) (mapOf closePoints false 0
    (incoherentCsm (monopoles closePoints) ![1, 0, 2])) false nIter 1 p) atTop (𝓝 (![1, 0, 2] p)) := by
  refine C128_damas_level closePoints ?_ rfl ?_ 0 _ ?_ 1 one_pos le_rfl p
  · refine ⟨by norm_num, fun _ => one_pos, fun p m => ?_⟩
    unfold closePoints
    simp only
    match p, m with
    | 0, 0 => norm_num
    | 0, 1 => norm_num
    | 1, 0 => norm_num
    | 1, 1 => norm_num
    | 2, 0 => simp
    | 2, 1 => simp
  · intro x x' h
    have h00 := congrFun (congrFun h 0) 0
    have h01 := congrFun (congrFun h 0) 1
    have h11 := congrFun (congrFun h 1) 1
    simp [incoherentCsm, Matrix.sum_apply, Fin.sum_univ_three, outer, monopoles, monopole, closePoints] at h00 h01 h11
    have r00 := congrArg Complex.re h00
    have r01 := congrArg Complex.re h01
    have r11 := congrArg Complex.re h11
    norm_num [Complex.inv_re, Complex.inv_im, Complex.normSq] at r00 r01 r11
    funext p
    match p with
    | 0 => linarith
    | 1 => linarith
    | 2 => linarith
  · intro p; match p with
    | 0 => norm_num
    | 1 => norm_num
    | 2 => simp

/-- The hypotheses of `C27_converges` are met: -/
example := C27_converges ![![1, 1/2], ![9/8, 1]] ![9, 4] ![2, -1]
  ⟨by intro i; fin_cases i <;> norm_num, by intro i j; fin_cases i <;> fin_cases j <;> norm_num, by
    intro x hx
    simp only [applyPsf, Fin.sum_univ_two]
    norm_num
    by_contra hc
    push Not at hc
    have h0 : x 0 = 0 := by nlinarith [sq_nonneg (x 0), sq_nonneg (x 1 + 9 / 8 * x 0)]
    have h1 : x 1 = 0 := by rw [h0] at hc; nlinarith [sq_nonneg (x 1)]
    apply hx
    funext i
    match i with
    | 0 => exact h0
    | 1 => exact h1⟩
  (by intro i; fin_cases i <;> norm_num)

end Acoular
