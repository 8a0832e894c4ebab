import Verif.Lemmas.JordanInside
import Mathlib.MeasureTheory.Measure.Lebesgue.Integral
import Mathlib.MeasureTheory.Measure.Lebesgue.EqHaar
import Mathlib.Analysis.SpecialFunctions.Integrals.Basic

/-!
# Lemmas: the signed area of a simple polygon

The signed area is the integral of the winding number.  Its sign tells the sense in which a simple polygon is listed.
-/

set_option linter.unusedSectionVars false

namespace Acoular

open Spec MeasureTheory

/-- The passages of one side above the points higher than `-M`. -/
noncomputable def passArea (M : ℝ) (a b p : ℝ × ℝ) : ℝ := if -M < p.2 then (passesAbove a b p : ℝ) else 0

private theorem region_eq {a b : ℝ × ℝ} (h : a.1 < b.1) (M : ℝ) :
    passArea M a b = fun p => -(regionBetween (fun _ => -M) (yl a b) (Set.Ico a.1 b.1)).indicator 1 p := by
  funext p
  unfold passArea
  rw [passes_of_lt h]
  by_cases hp : p ∈ regionBetween (fun _ => -M) (yl a b) (Set.Ico a.1 b.1)
  · rw [Set.indicator_of_mem hp]
    obtain ⟨⟨h1, h2⟩, h3, h4⟩ := hp
    rw [if_pos h3, if_pos ⟨h1, h2, h4⟩]
    simp
  · rw [Set.indicator_of_notMem hp]
    by_cases h3 : -M < p.2
    · rw [if_pos h3, if_neg]
      · simp
      · rintro ⟨h1, h2, h4⟩
        exact hp ⟨⟨h1, h2⟩, h3, h4⟩
    · rw [if_neg h3]; simp

private theorem measurable_yl (a b : ℝ × ℝ) : Measurable (yl a b) := by unfold yl; fun_prop

private theorem continuous_yl (a b : ℝ × ℝ) : Continuous (yl a b) := by unfold yl; fun_prop

private theorem region_meas (a b : ℝ × ℝ) (M : ℝ) :
    MeasurableSet (regionBetween (fun _ => -M) (yl a b) (Set.Ico a.1 b.1)) :=
  measurableSet_regionBetween measurable_const (measurable_yl a b) measurableSet_Ico

private theorem yl_ge {a b : ℝ × ℝ} (h : a.1 < b.1) {M : ℝ} (ha : -M ≤ a.2) (hb : -M ≤ b.2) {x : ℝ} (h1 : a.1 ≤ x)
    (h2 : x ≤ b.1) : -M ≤ yl a b x := by
  obtain ⟨s, s0, s1, e⟩ := onSide_yl h h1 h2
  have : yl a b x = a.2 + s * (b.2 - a.2) := congrArg Prod.snd e
  rw [this]
  nlinarith

private theorem region_vol {a b : ℝ × ℝ} (h : a.1 < b.1) {M : ℝ} (ha : -M ≤ a.2) (hb : -M ≤ b.2) :
    volume (regionBetween (fun _ => -M) (yl a b) (Set.Ico a.1 b.1)) =
      ENNReal.ofReal ((b.1 - a.1) * ((a.2 + b.2) / 2 + M)) := by
  rw [Measure.volume_eq_prod, volume_regionBetween_eq_integral]
  · congr 1
    rw [integral_Ico_eq_integral_Ioc, ← intervalIntegral.integral_of_le h.le]
    have e : ∀ y, (yl a b - (fun _ => -M : ℝ → ℝ)) y = (a.2 + M - a.1 * ((b.2 - a.2) / (b.1 - a.1))) + ((b.2 - a.2) / (b.1 - a.1)) * y := by
      intro y; simp [yl]; ring
    simp only [e]
    rw [intervalIntegral.integral_add (by simp) (by exact (continuous_const.mul continuous_id).intervalIntegrable _ _),
      intervalIntegral.integral_const, intervalIntegral.integral_const_mul, integral_id]
    have : b.1 - a.1 ≠ 0 := (sub_pos.2 h).ne'
    simp only [smul_eq_mul]
    field_simp
    ring
  · exact (continuous_const.integrableOn_Icc).mono_set Set.Ico_subset_Icc_self
  · exact ((continuous_yl a b).integrableOn_Icc).mono_set Set.Ico_subset_Icc_self
  · exact measurableSet_Ico
  · rintro x ⟨h1, h2⟩
    exact yl_ge h ha hb h1 h2.le

private theorem pass_lt {a b : ℝ × ℝ} (h : a.1 < b.1) {M : ℝ} (ha : -M ≤ a.2) (hb : -M ≤ b.2) :
    Integrable (passArea M a b) ∧ ∫ p, passArea M a b p = -((b.1 - a.1) * ((a.2 + b.2) / 2 + M)) := by
  rw [region_eq h]
  have hv := region_vol h ha hb
  constructor
  · refine Integrable.neg ?_
    rw [integrable_indicator_iff (region_meas a b M)]
    refine (integrableOn_const (by rw [hv]; exact ENNReal.ofReal_ne_top) : IntegrableOn (fun _ => (1 : ℝ)) _ _)
  · rw [integral_neg, integral_indicator_one (region_meas a b M), measureReal_def, hv, ENNReal.toReal_ofReal]
    exact mul_nonneg (by linarith) (by linarith)

/-- The integral of the passages of a side. -/
theorem pass_integral {a b : ℝ × ℝ} {M : ℝ} (ha : -M ≤ a.2) (hb : -M ≤ b.2) :
    Integrable (passArea M a b) ∧ ∫ p, passArea M a b p = -((b.1 - a.1) * ((a.2 + b.2) / 2 + M)) := by
  rcases lt_trichotomy a.1 b.1 with h | h | h
  · exact pass_lt h ha hb
  · have e : passArea M a b = fun _ => 0 := by
      funext p; unfold passArea; rw [passes_of_eq h]; simp
    rw [e]
    simp [h]
  · have e : passArea M a b = fun p => -passArea M b a p := by
      funext p
      unfold passArea
      rw [passes_swap b a]
      split <;> simp
    obtain ⟨h1, h2⟩ := pass_lt h hb ha
    rw [e]
    exact ⟨h1.neg, by rw [integral_neg, h2]; ring⟩

private theorem line_null {a b : ℝ × ℝ} (hab : a ≠ b) : volume {q | OnSide a b q} = 0 := by
  let φ : ℝ × ℝ →ₗ[ℝ] ℝ :=
    { toFun := fun u => cr (b - a) u
      map_add' := fun u w => by unfold cr; simp; ring
      map_smul' := fun c u => by unfold cr; simp; ring }
  rw [Measure.volume_eq_prod]
  refine measure_mono_null ?_ (Measure.addHaar_affineSubspace ((volume : Measure ℝ).prod (volume : Measure ℝ)) (AffineSubspace.mk' a (LinearMap.ker φ)) ?_)
  · rintro q ⟨s, -, -, rfl⟩
    rw [SetLike.mem_coe, AffineSubspace.mem_mk', LinearMap.mem_ker]
    change cr (b - a) _ = 0
    unfold cr; simp; ring
  · intro htop
    have hd : b - a ≠ 0 := fun e => hab (sub_eq_zero.1 e).symm
    have : a + (-(b - a).2, (b - a).1) ∈ AffineSubspace.mk' a (LinearMap.ker φ) := by rw [htop]; trivial
    rw [AffineSubspace.mem_mk', LinearMap.mem_ker] at this
    have e : cr (b - a) (a + (-(b - a).2, (b - a).1) -ᵥ a) = dt (b - a) (b - a) := by
      unfold cr dt; simp; ring
    have h0 : cr (b - a) (a + (-(b - a).2, (b - a).1) -ᵥ a) = 0 := this
    rw [e] at h0
    unfold dt at h0
    apply hd
    have h1 : (b - a).1 = 0 := by nlinarith [mul_self_nonneg (b - a).1, mul_self_nonneg (b - a).2]
    have h2 : (b - a).2 = 0 := by nlinarith [mul_self_nonneg (b - a).1, mul_self_nonneg (b - a).2]
    exact Prod.ext h1 h2

namespace SimpleSeq

variable {f : ℕ → ℝ × ℝ} {n : ℕ} {L : ℤ}

theorem bd_null (h : SimpleSeq f n) : volume {q | Bd f n q} = 0 := by
  have : {q | Bd f n q} = ⋃ i ∈ Finset.range n, {q | OnSide (f i) (f (i + 1)) q} := by
    ext q; simp [Bd]
  rw [this]
  refine (measure_biUnion_null_iff (Finset.range n).countable_toSet).2 fun i _ => line_null (h.ne i)

/-- A point beside a side, with a neighbourhood. -/
theorem near_ball (h : SimpleSeq f n) {m : ℝ × ℝ} (hc : cr (f 1 - f 0) m ≠ 0) {w : ℤ}
    (hw : ∃ η0 > (0 : ℝ), ∀ η : ℝ, 0 < η → η ≤ η0 → wind f n (f 0 + (1 / 2 : ℝ) • (f 1 - f 0) + η • m) = w) :
    ∃ x, ∃ ε > 0, ∀ y ∈ Metric.ball x ε, ¬Bd f n y ∧ wind f n y = w := by
  have hn := h.hn
  set d := f 1 - f 0 with hd
  obtain ⟨η0, hη0, hw⟩ := hw
  obtain ⟨δ, hδ, hs⟩ := strip f n (A := {f 0 + (1 / 2 : ℝ) • d}) isCompact_singleton
  set η := min η0 (δ / (‖m‖ + 1) / 2) with hη
  have e0 : 0 < η := lt_min hη0 (by positivity)
  have e1 : η * ‖m‖ < δ := by
    have : η ≤ δ / (‖m‖ + 1) / 2 := min_le_right _ _
    have h2 : δ / (‖m‖ + 1) / 2 * (‖m‖ + 1) = δ / 2 := by field_simp
    nlinarith [norm_nonneg m]
  set x := f 0 + (1 / 2 : ℝ) • d + η • m with hx
  have hoff : ¬Bd f n x := by
    rintro ⟨i, hi, hon⟩
    by_cases hi0 : i = 0
    · subst hi0
      have := leftOf_onSide hon
      rw [leftOf_cr] at this
      have e : cr (f (0 + 1) - f 0) (x - f 0) = η * cr d m := by
        rw [hx]; unfold cr; simp [hd]; ring
      rw [e] at this
      exact mul_ne_zero e0.ne' hc this
    · refine hs _ rfl x ?_ i hi ?_ hon
      · rw [dist_eq_norm, hx, add_sub_cancel_left, norm_smul, Real.norm_of_nonneg e0.le]; exact e1
      · rintro y rfl
        exact h.open_off (j := 0) (by rw [Nat.mod_eq_of_lt hi, Nat.zero_mod]; exact hi0) (by norm_num) (by norm_num)
  have hwx : wind f n x = w := hw η e0 (min_le_left _ _)
  obtain ⟨ε, hε, hb⟩ := strip f n (A := {x}) isCompact_singleton
  have free : ∀ y ∈ Metric.ball x ε, ¬Bd f n y := by
    rintro y hy ⟨i, hi, hon⟩
    exact hb x rfl y hy i hi (by rintro z rfl hz; exact hoff ⟨i, hi, hz⟩) hon
  refine ⟨x, ε, hε, fun y hy => ⟨free y hy, ?_⟩⟩
  rw [← hwx]
  refine (h.wind_seg fun σ c0 c1 i hi hon => ?_).symm
  refine free _ ?_ ⟨i, hi, hon⟩
  exact (convex_ball x ε).add_smul_sub_mem (Metric.mem_ball_self hε) hy ⟨c0, c1⟩

/-- Points directly left and directly right of a side, with neighbourhoods. -/
theorem left_ball (h : SimpleSeq f n) (hL : ∀ j, HasLeft f n j L) :
    (∃ x, ∃ ε > 0, ∀ y ∈ Metric.ball x ε, ¬Bd f n y ∧ wind f n y = L) ∧
    ∃ x, ∃ ε > 0, ∀ y ∈ Metric.ball x ε, ¬Bd f n y ∧ wind f n y = L - 1 := by
  have hd0 : f 1 - f 0 ≠ 0 := fun e => h.ne 0 (sub_eq_zero.1 e).symm
  set d := f 1 - f 0 with hd
  set m : ℝ × ℝ := (-d.2, d.1) with hm
  have hc : 0 < cr d m := by
    unfold cr
    simp only [hm]
    by_contra hcon
    apply hd0
    have h1 : d.1 = 0 := by nlinarith [mul_self_nonneg d.1, mul_self_nonneg d.2]
    have h2 : d.2 = 0 := by nlinarith [mul_self_nonneg d.1, mul_self_nonneg d.2]
    exact Prod.ext h1 h2
  have hc' : cr d (-m) < 0 := by
    have : cr d (-m) = -cr d m := by unfold cr; simp; ring
    rw [this]; linarith
  exact ⟨h.near_ball hc.ne' ((hL 0 (1 / 2) (by norm_num) (by norm_num) m).1 hc),
    h.near_ball hc'.ne ((hL 0 (1 / 2) (by norm_num) (by norm_num) (-m)).2 hc')⟩

/-- The vertices are bounded. -/
theorem bounded (h : SimpleSeq f n) (c : ℝ) : ∃ M, c < M ∧ ∀ i, |(f i).1| < M ∧ |(f i).2| < M := by
  have hn := h.hn
  obtain ⟨k, -, hk⟩ := Finset.exists_max_image (Finset.range n) (fun i => |(f i).1| + |(f i).2|)
    ⟨0, Finset.mem_range.2 (by omega)⟩
  refine ⟨max c (|(f k).1| + |(f k).2|) + 1, by linarith [le_max_left c (|(f k).1| + |(f k).2|)], fun i => ?_⟩
  have := hk (i % n) (Finset.mem_range.2 (Nat.mod_lt _ (by omega)))
  rw [h.mod_eq] at this
  have h1 := le_max_right c (|(f k).1| + |(f k).2|)
  have a1 := abs_nonneg (f i).1
  have a2 := abs_nonneg (f i).2
  constructor <;> linarith

/-- Twice the signed area. -/
def area2 (f : ℕ → ℝ × ℝ) (n : ℕ) : ℝ := ∑ i ∈ Finset.range n, ((f (i + 1)).2 * (f i).1 - (f (i + 1)).1 * (f i).2)

/-- The signed area is the integral of the winding number. -/
theorem area_integral (h : SimpleSeq f n) {M : ℝ} (hM : ∀ i, -M ≤ (f i).2) :
    Integrable (fun p : ℝ × ℝ => if -M < p.2 then (wind f n p : ℝ) else 0) ∧
    ∫ p : ℝ × ℝ, (if -M < p.2 then (wind f n p : ℝ) else 0) = area2 f n / 2 := by
  have e : (fun p : ℝ × ℝ => if -M < p.2 then (wind f n p : ℝ) else 0) =
      fun p => ∑ i ∈ Finset.range n, passArea M (f i) (f (i + 1)) p := by
    funext p
    unfold passArea wind
    split <;> simp
  rw [e]
  refine ⟨integrable_finsetSum _ fun i _ => (pass_integral (hM i) (hM (i + 1))).1, ?_⟩
  rw [integral_finsetSum _ fun i _ => (pass_integral (hM i) (hM (i + 1))).1,
    Finset.sum_congr rfl fun i _ => (pass_integral (hM i) (hM (i + 1))).2]
  unfold area2
  rw [Finset.sum_div]
  have tele : ∑ i ∈ Finset.range n, ((f (i + 1)).1 * ((f (i + 1)).2 / 2 + M) - (f i).1 * ((f i).2 / 2 + M)) = 0 := by
    rw [Finset.sum_range_sub (fun i => (f i).1 * ((f i).2 / 2 + M)), h.closed, sub_self]
  have : ∀ i, -(((f (i + 1)).1 - (f i).1) * (((f i).2 + (f (i + 1)).2) / 2 + M)) =
      ((f (i + 1)).2 * (f i).1 - (f (i + 1)).1 * (f i).2) / 2 -
        ((f (i + 1)).1 * ((f (i + 1)).2 / 2 + M) - (f i).1 * ((f i).2 / 2 + M)) := by
    intro i; ring
  simp only [this]
  rw [Finset.sum_sub_distrib, tele, sub_zero]

/-- The polygon as a closed list of vertices. -/
private theorem listed (f : ℕ → ℝ × ℝ) (n : ℕ) : ((List.range (n + 1)).map f).length = n + 1 ∧
    ∀ i ≤ n, pt ((List.range (n + 1)).map f) i = f i := by
  refine ⟨by simp, fun i hi => ?_⟩
  unfold pt
  rw [List.getD_eq_getElem?_getD, List.getElem?_map, List.getElem?_range (by omega)]
  rfl

/-- Off the boundary there are two values. -/
theorem two_values (h : SimpleSeq f n) (hL : ∀ j, HasLeft f n j L) {p : ℝ × ℝ} (hp : ¬Bd f n p) :
    wind f n p = L ∨ wind f n p = L - 1 := by
  obtain ⟨neg, d, -, -, -, h1, h2⟩ := h.inside_level hL (listed f n).1 (listed f n).2 p
  cases neg
  · exact .inl ((h2 rfl).resolve_left hp)
  · exact .inr (h1 rfl).2

/-- The value on the left is 0 or 1. -/
theorem level (h : SimpleSeq f n) (hL : ∀ j, HasLeft f n j L) : L = 0 ∨ L = 1 := by
  obtain ⟨M, -, hM⟩ := h.bounded 0
  have hlo : ∀ i, -M < (f i).1 := fun i => (abs_lt.1 (hM i).1).1
  have hb : ¬Bd f n (-M, 0) := by
    rintro ⟨i, -, s, s0, s1, e⟩
    have : -M = (f i).1 + s * ((f (i + 1)).1 - (f i).1) := congrArg Prod.fst e
    have a := hlo i
    have b := hlo (i + 1)
    have : (f i).1 + s * ((f (i + 1)).1 - (f i).1) = (1 - s) * (f i).1 + s * (f (i + 1)).1 := by ring
    nlinarith [mul_nonneg (sub_nonneg.2 s1) (by linarith : 0 ≤ (f i).1 + M),
      mul_nonneg s0 (by linarith : 0 ≤ (f (i + 1)).1 + M), mul_nonneg s0 (sub_nonneg.2 s1)]
  have hw : wind f n (-M, 0) = 0 := by
    unfold wind
    refine Finset.sum_eq_zero fun i _ => ?_
    unfold passesAbove
    rw [if_neg (by rintro ⟨h1, -, -⟩; exact absurd (hlo i) (not_lt.2 h1)),
      if_neg (by rintro ⟨h1, -, -⟩; exact absurd (hlo (i + 1)) (not_lt.2 h1))]
  rcases h.two_values hL hb with e | e
  · left; rw [← e, hw]
  · right; rw [hw] at e; linarith

/-- The sign of the area. -/
theorem area_sign (h : SimpleSeq f n) (hL : ∀ j, HasLeft f n j L) : (L = 1 ∧ 0 < area2 f n) ∨ (L = 0 ∧ area2 f n < 0) := by
  have gen : ∀ {g : ℝ × ℝ → ℝ}, Integrable g → (∀ᵐ p, 0 ≤ g p) → (∃ U : Set (ℝ × ℝ), IsOpen U ∧ U.Nonempty ∧ ∀ p ∈ U, g p ≠ 0) →
      0 < ∫ p, g p := by
    rintro g hi hnn ⟨U, hU, hne, hg⟩
    rw [integral_pos_iff_support_of_nonneg_ae hnn hi]
    exact (hU.measure_pos volume hne).trans_le (measure_mono fun p hp => hg p hp)
  have hae : ∀ᵐ p : ℝ × ℝ, ¬Bd f n p := by
    rw [ae_iff]; simpa using h.bd_null
  rcases h.level hL with hl | hl
  · right
    refine ⟨hl, ?_⟩
    obtain ⟨x, ε, hε, hx⟩ := (h.left_ball hL).2
    obtain ⟨M, hM1, hM⟩ := h.bounded (|x.2|)
    obtain ⟨hi, he⟩ := h.area_integral (M := M) fun i => (abs_lt.1 (hM i).2).1.le
    have := gen hi.neg (hae.mono fun p hp => by
        simp only [Pi.neg_apply]
        split
        · rcases h.two_values hL hp with e | e <;> rw [e, hl] <;> simp
        · simp)
      ⟨Metric.ball x ε ∩ {p | -M < p.2}, Metric.isOpen_ball.inter (isOpen_lt continuous_const continuous_snd),
        ⟨x, Metric.mem_ball_self hε, (abs_lt.1 hM1).1⟩, fun p hp => by
          have h2 : -M < p.2 := hp.2
          simp only [Pi.neg_apply]
          rw [if_pos h2, (hx p hp.1).2, hl]; simp⟩
    simp only [Pi.neg_apply] at this
    rw [integral_neg, he] at this
    linarith
  · left
    refine ⟨hl, ?_⟩
    obtain ⟨x, ε, hε, hx⟩ := (h.left_ball hL).1
    obtain ⟨M, hM1, hM⟩ := h.bounded (|x.2|)
    obtain ⟨hi, he⟩ := h.area_integral (M := M) fun i => (abs_lt.1 (hM i).2).1.le
    have := gen hi (hae.mono fun p hp => by
        split
        · rcases h.two_values hL hp with e | e <;> rw [e, hl] <;> simp
        · exact le_refl _)
      ⟨Metric.ball x ε ∩ {p | -M < p.2}, Metric.isOpen_ball.inter (isOpen_lt continuous_const continuous_snd),
        ⟨x, Metric.mem_ball_self hε, (abs_lt.1 hM1).1⟩, fun p hp => by
          have h2 : -M < p.2 := hp.2
          rw [if_pos h2, (hx p hp.1).2, hl]; simp⟩
    rw [he] at this
    linarith

end SimpleSeq

end Acoular
