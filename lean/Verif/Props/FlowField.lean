import Verif.Spec.Env
import Verif.Model.Env
import Mathlib.Analysis.Calculus.FDeriv.Pi
import Mathlib.Analysis.Calculus.FDeriv.Mul
import Mathlib.Analysis.Calculus.FDeriv.Pow
import Mathlib.Analysis.Calculus.Deriv.Abs
import Mathlib.Analysis.SpecialFunctions.Sqrt
import Mathlib.Analysis.SpecialFunctions.Log.Deriv
import Mathlib.Analysis.SpecialFunctions.ExpDeriv
import Mathlib.Tactic.Linarith
import Mathlib.Tactic.FieldSimp
import Mathlib.Tactic.FinCases
import Mathlib.Tactic.NormNum

/-!
# Property theorems: Jacobians of the flow fields (C35)
-/

namespace Acoular

open Spec Real

/-- A linear functional given by three coefficients. -/
private noncomputable def lin (a b c : ℝ) : (Fin 3 → ℝ) →L[ℝ] ℝ :=
  a • ContinuousLinearMap.proj 0 + b • ContinuousLinearMap.proj 1 + c • ContinuousLinearMap.proj 2

private theorem lin_apply (a b c : ℝ) (v : Fin 3 → ℝ) : lin a b c v = a * v 0 + b * v 1 + c * v 2 := by
  simp [lin]

/-- A Jacobian is found row by row. -/
private theorem isJacobian_of_rows {f : (Fin 3 → ℝ) → Fin 3 → ℝ} {J : Matrix (Fin 3) (Fin 3) ℝ} {x : Fin 3 → ℝ}
    (h : ∀ i, HasFDerivAt (fun y => f y i) (lin (J i 0) (J i 1) (J i 2)) x) : IsJacobian f J x := by
  unfold IsJacobian
  rw [hasFDerivAt_pi']
  intro i
  refine (h i).congr_fderiv ?_
  ext v
  rw [lin_apply]
  simp [Matrix.toLin'_apply, Matrix.mulVec, dotProduct, Fin.sum_univ_three]

private theorem lin_zero : lin 0 0 0 = 0 := by ext v; simp [lin_apply]

private theorem coord (i : Fin 3) (o : Fin 3 → ℝ) (x : Fin 3 → ℝ) :
    HasFDerivAt (fun y : Fin 3 → ℝ => y i - o i) (ContinuousLinearMap.proj i : (Fin 3 → ℝ) →L[ℝ] ℝ) x :=
  (ContinuousLinearMap.proj (R := ℝ) (φ := fun _ : Fin 3 => ℝ) i).hasFDerivAt.sub_const _

/-- Rotating flow: exact everywhere. -/
theorem C35_rotating_flow (rps v0 : ℝ) (origin x : Fin 3 → ℝ) :
    IsJacobian (fun y => (rotatingFlow rps v0 origin y).1) (rotatingFlow rps v0 origin x).2 x := by
  apply isJacobian_of_rows
  intro i
  fin_cases i
  · simp only [rotatingFlow]
    have := ((coord 1 origin x).neg).const_mul (2 * π * rps)
    refine this.congr_fderiv ?_
    ext v
    simp [lin_apply]
  · simp only [rotatingFlow]
    have := (coord 0 origin x).const_mul (2 * π * rps)
    refine this.congr_fderiv ?_
    ext v
    simp [lin_apply]
  · simp only [rotatingFlow]
    simpa [lin_zero] using hasFDerivAt_const v0 x

/-- The hypotheses of `C35_rotating_flow` are met: -/
example := C35_rotating_flow 10 5 0 ![1, 2, 3]

/-! ### Jets -/

/-- `max(h, 0)²` is differentiable. -/
private theorem hasDerivAt_pos_sq (h : ℝ) : HasDerivAt (fun t : ℝ => max t 0 ^ 2) (2 * max h 0) h := by
  rcases lt_trichotomy h 0 with hlt | rfl | hgt
  · have : (fun t : ℝ => max t 0 ^ 2) =ᶠ[nhds h] fun _ => 0 := by
      filter_upwards [gt_mem_nhds hlt] with t ht
      rw [max_eq_right ht.le]; simp
    rw [max_eq_right hlt.le, mul_zero]
    exact (hasDerivAt_const h (0 : ℝ)).congr_of_eventuallyEq this
  · rw [max_self, mul_zero]
    rw [hasDerivAt_iff_isLittleO]
    simp only [max_self, ne_eq, OfNat.ofNat_ne_zero, not_false_eq_true, zero_pow, sub_zero, smul_zero]
    have h1 : (fun t : ℝ => max t 0 ^ 2) =O[nhds 0] fun t => t ^ 2 := by
      refine Asymptotics.IsBigO.of_bound 1 (Filter.Eventually.of_forall fun t => ?_)
      rw [one_mul, Real.norm_of_nonneg (by positivity), Real.norm_of_nonneg (by positivity)]
      rcases le_total t 0 with h | h
      · rw [max_eq_right h]; simp; positivity
      · rw [max_eq_left h]
    exact h1.trans_isLittleO (Asymptotics.isLittleO_pow_id one_lt_two)
  · have : (fun t : ℝ => max t 0 ^ 2) =ᶠ[nhds h] fun t => t ^ 2 := by
      filter_upwards [lt_mem_nhds hgt] with t ht
      rw [max_eq_left ht.le]
    rw [max_eq_left hgt.le]
    have h2 := hasDerivAt_pow 2 h
    simp only [Nat.cast_ofNat] at h2
    refine HasDerivAt.congr_of_eventuallyEq ?_ this
    simpa using h2

/-- Where `h ≤ 0` it is enough that `h` is Lipschitz at the point. -/
private theorem hasFDerivAt_pos_sq_lip {h : (Fin 3 → ℝ) → ℝ} {x : Fin 3 → ℝ} {C : ℝ} (h0 : h x ≤ 0)
    (hl : ∀ y, |h y - h x| ≤ C * ‖y - x‖) : HasFDerivAt (fun y => max (h y) 0 ^ 2) (0 : (Fin 3 → ℝ) →L[ℝ] ℝ) x := by
  rw [hasFDerivAt_iff_isLittleO]
  have e : max (h x) 0 = 0 := max_eq_right h0
  simp only [e, ne_eq, OfNat.ofNat_ne_zero, not_false_eq_true, zero_pow, sub_zero, zero_apply]
  have h1 : (fun y => max (h y) 0 ^ 2) =O[nhds x] fun y => ‖y - x‖ ^ 2 := by
    refine Asymptotics.IsBigO.of_bound (C ^ 2) (Filter.Eventually.of_forall fun y => ?_)
    rw [Real.norm_of_nonneg (by positivity), Real.norm_of_nonneg (by positivity), ← mul_pow]
    have := hl y
    have hb : max (h y) 0 ≤ C * ‖y - x‖ := by
      apply max_le
      · have := (abs_le.1 this).2; linarith
      · exact (abs_nonneg _).trans this
    exact pow_le_pow_left₀ (le_max_right _ _) hb 2
  refine h1.trans_isLittleO ?_
  have h2 : (fun y : Fin 3 → ℝ => ‖y - x‖ ^ 2) =o[nhds x] fun y => ‖y - x‖ := by
    have h3 : Filter.Tendsto (fun y : Fin 3 → ℝ => ‖y - x‖) (nhds x) (nhds 0) := by
      have : Continuous fun y : Fin 3 → ℝ => ‖y - x‖ := by fun_prop
      simpa using this.tendsto x
    exact (Asymptotics.isLittleO_pow_id one_lt_two).comp_tendsto h3
  exact Asymptotics.isLittleO_norm_right.1 h2

/-- The velocity profile of both jets: with `x₁ = k x`, `U = v₀ exp(-max(h,0)²/(2 x₁²))`. -/
private noncomputable def profile (v0 k : ℝ) (x h : ℝ) : ℝ := v0 * exp (-(max h 0 ^ 2) / (2 * (k * x) * (k * x)))

private theorem profile_eq (v0 k x h : ℝ) :
    (if h < 0 then v0 else v0 * exp (-h * h / (2 * (k * x) * (k * x)))) = profile v0 k x h := by
  unfold profile
  split
  · rename_i hlt
    rw [max_eq_right hlt.le]; simp
  · rename_i hge
    rw [max_eq_left (not_lt.1 hge), pow_two, neg_mul]

/-- Chain rule for the profile. -/
private theorem profile_deriv {v0 k : ℝ} {X q : (Fin 3 → ℝ) → ℝ} {x : Fin 3 → ℝ} {X' q' : (Fin 3 → ℝ) →L[ℝ] ℝ}
    (hX : HasFDerivAt X X' x) (hq : HasFDerivAt q q' x) (hk : k ≠ 0) (hx : X x ≠ 0) :
    HasFDerivAt (fun y => v0 * exp (-(q y) / (2 * (k * X y) * (k * X y))))
      ((v0 * exp (-(q x) / (2 * (k * X x) * (k * X x)))) •
        ((-1 / (2 * (k * X x) ^ 2)) • q' + (q x / (k ^ 2 * X x ^ 3)) • X')) x := by
  have h1 : HasFDerivAt (fun y => X y * X y) (X x • X' + X x • X') x := hX.mul hX
  have hne : X x * X x ≠ 0 := mul_ne_zero hx hx
  have h2 : HasFDerivAt (fun y => (X y * X y)⁻¹) ((-((X x * X x) ^ 2)⁻¹) • (X x • X' + X x • X')) x :=
    (hasDerivAt_inv hne).comp_hasFDerivAt x h1
  have h3 := ((hq.mul h2).const_mul (-1 / (2 * k ^ 2))).exp.const_mul v0
  have hf : (fun y => v0 * exp (-(q y) / (2 * (k * X y) * (k * X y)))) =
      fun y => v0 * exp (-1 / (2 * k ^ 2) * (q * fun y => (X y * X y)⁻¹) y) := by
    funext y
    congr 2
    simp only [Pi.mul_apply]
    by_cases h : X y = 0
    · simp [h]
    · field_simp
  rw [hf]
  refine h3.congr_fderiv ?_
  · have e : -(q x) / (2 * (k * X x) * (k * X x)) = -1 / (2 * k ^ 2) * (q x * (X x * X x)⁻¹) := by field_simp
    rw [e]
    ext v
    simp only [smul_apply, add_apply, smul_eq_mul]
    generalize exp (-1 / (2 * k ^ 2) * (q x * (X x * X x)⁻¹)) = E
    field_simp
    ring

/-- A profile with a kink is not differentiable. -/
private theorem kink {v0 s c w : ℝ} (hv : v0 ≠ 0) (hs : 0 < s) (hc : 0 < c) (hw : w ≠ 0) :
    ¬DifferentiableAt ℝ (fun t : ℝ => v0 * exp (-(max (s * |t| + c) 0 ^ 2) / (2 * w * w))) 0 := by
  intro h
  have h1 : DifferentiableAt ℝ (fun t : ℝ => exp (-(max (s * |t| + c) 0 ^ 2) / (2 * w * w))) 0 := by
    have := h.const_mul v0⁻¹
    have e : (fun t : ℝ => v0⁻¹ * (v0 * exp (-(max (s * |t| + c) 0 ^ 2) / (2 * w * w)))) =
        fun t => exp (-(max (s * |t| + c) 0 ^ 2) / (2 * w * w)) := by
      funext t; rw [inv_mul_cancel_left₀ hv]
    rwa [e] at this
  have h2 := ((h1.log (exp_pos _).ne').const_mul (-(2 * w * w))).sqrt (by
    simp only [Real.log_exp, abs_zero, mul_zero, zero_add, max_eq_left hc.le]
    have : -(2 * w * w) * (-(c ^ 2) / (2 * w * w)) = c ^ 2 := by field_simp
    rw [this]; positivity)
  have e : (fun t : ℝ => √(-(2 * w * w) * log (exp (-(max (s * |t| + c) 0 ^ 2) / (2 * w * w))))) = fun t => s * |t| + c := by
    funext t
    have hp : 0 ≤ s * |t| + c := by positivity
    rw [Real.log_exp, max_eq_left hp]
    have : -(2 * w * w) * (-((s * |t| + c) ^ 2) / (2 * w * w)) = (s * |t| + c) ^ 2 := by field_simp
    rw [this, Real.sqrt_sq hp]
  rw [e] at h2
  have h3 := (h2.sub_const c).const_mul s⁻¹
  have e2 : (fun t : ℝ => s⁻¹ * (s * |t| + c - c)) = abs := by
    funext t; rw [add_sub_cancel_right, inv_mul_cancel_left₀ hs.ne']
  rw [e2] at h3
  exact not_differentiableAt_abs_zero h3

/-! #### Open jet -/

/-- distance from the axis of the jet -/
private noncomputable def rad (o y : Fin 3 → ℝ) : ℝ := √((y 1 - o 1) * (y 1 - o 1) + (y 2 - o 2) * (y 2 - o 2))

private noncomputable def hJet (D l : ℝ) (o y : Fin 3 → ℝ) : ℝ := rad o y + 0.5022 / l * (y 0 - o 0) - 0.5 * D

private theorem openJet_fst (v0 D l : ℝ) (o y : Fin 3 → ℝ) :
    (openJet v0 D l o y).1 = ![profile v0 (0.5022 / l) (y 0 - o 0) (hJet D l o y), 0, 0] := by
  unfold openJet
  simp only [← profile_eq]
  rfl

private theorem rad_pos_deriv {o x : Fin 3 → ℝ} (h : 0 < rad o x) :
    HasFDerivAt (rad o) (lin 0 ((x 1 - o 1) / rad o x) ((x 2 - o 2) / rad o x)) x := by
  have h1 := (coord 1 o x).mul (coord 1 o x)
  have h2 := (coord 2 o x).mul (coord 2 o x)
  have hne : (x 1 - o 1) * (x 1 - o 1) + (x 2 - o 2) * (x 2 - o 2) ≠ 0 := by
    intro h0
    unfold rad at h
    rw [h0] at h
    simp at h
  have h3 := (h1.add h2).sqrt hne
  refine HasFDerivAt.congr_fderiv (f := rad o) h3 ?_
  ext v
  have e : √((x 1 - o 1) * (x 1 - o 1) + (x 2 - o 2) * (x 2 - o 2)) = rad o x := rfl
  simp only [lin_apply, smul_apply, add_apply, smul_eq_mul, Pi.add_apply, Pi.mul_apply, e, ContinuousLinearMap.proj_apply]
  field_simp
  ring

private theorem hJet_lip {D l : ℝ} {o x : Fin 3 → ℝ} (hr0 : rad o x = 0) (y : Fin 3 → ℝ) :
    |hJet D l o y - hJet D l o x| ≤ (2 + |0.5022 / l|) * ‖y - x‖ := by
  have hyz : (x 1 - o 1) * (x 1 - o 1) + (x 2 - o 2) * (x 2 - o 2) = 0 :=
    (Real.sqrt_eq_zero (add_nonneg (mul_self_nonneg _) (mul_self_nonneg _))).1 hr0
  have hy0 : x 1 - o 1 = 0 := by nlinarith [mul_self_nonneg (x 1 - o 1), mul_self_nonneg (x 2 - o 2)]
  have hz0 : x 2 - o 2 = 0 := by nlinarith [mul_self_nonneg (x 1 - o 1), mul_self_nonneg (x 2 - o 2)]
  have e : hJet D l o y - hJet D l o x = rad o y + 0.5022 / l * (y 0 - x 0) := by
    unfold hJet; rw [hr0]; ring
  have hr' : rad o y ≤ |y 1 - x 1| + |y 2 - x 2| := by
    unfold rad
    rw [Real.sqrt_le_iff]
    refine ⟨by positivity, ?_⟩
    have e1 : y 1 - o 1 = y 1 - x 1 := by linarith
    have e2 : y 2 - o 2 = y 2 - x 2 := by linarith
    rw [e1, e2]
    have h1 := sq_abs (y 1 - x 1)
    have h2 := sq_abs (y 2 - x 2)
    have h3 := mul_nonneg (abs_nonneg (y 1 - x 1)) (abs_nonneg (y 2 - x 2))
    nlinarith
  have hn : ∀ i, |y i - x i| ≤ ‖y - x‖ := fun i => by
    have := norm_le_pi_norm (y - x) i
    simpa using this
  rw [e]
  refine (abs_add_le _ _).trans ?_
  rw [abs_of_nonneg (show 0 ≤ rad o y from Real.sqrt_nonneg _), abs_mul]
  have := mul_le_mul_of_nonneg_left (hn 0) (abs_nonneg (0.5022 / l))
  have h1 := hn 1
  have h2 := hn 2
  linarith

/-- algebra of the derivatives with respect to the distance from the axis and along it -/
private theorem jet_coeff {U k X H a : ℝ} (hk : k ≠ 0) (hX : X ≠ 0) :
    U * (-1 / (2 * (k * X) ^ 2) * (2 * max H 0 * a)) = (if H < 0 then 0 else -H * U / (k * X * (k * X))) * a := by
  split
  · rename_i hlt
    rw [max_eq_right hlt.le]; simp
  · rename_i hge
    rw [max_eq_left (not_lt.1 hge)]
    field_simp

private theorem jet_coeff_x {U k X H c : ℝ} (hk : k ≠ 0) (hX : X ≠ 0) :
    U * (-1 / (2 * (k * X) ^ 2) * (2 * max H 0 * (c * k)) + max H 0 ^ 2 / (k ^ 2 * X ^ 3)) =
      if H < 0 then 0 else (H * H / (X * (k * X) * (k * X)) - c * H / (X * (k * X))) * U := by
  split
  · rename_i hlt
    rw [max_eq_right hlt.le]; simp
  · rename_i hge
    rw [max_eq_left (not_lt.1 hge)]
    field_simp
    ring

private theorem openJet_row_off (v0 D l : ℝ) (o x : Fin 3 → ℝ) (hl : l ≠ 0) (hx : x 0 ≠ o 0) (hr : 0 < rad o x) :
    HasFDerivAt (fun y : Fin 3 → ℝ => profile v0 (0.5022 / l) (y 0 - o 0) (hJet D l o y))
      (lin ((openJet v0 D l o x).2 0 0) ((openJet v0 D l o x).2 0 1) ((openJet v0 D l o x).2 0 2)) x := by
  have hk : (0.5022 / l : ℝ) ≠ 0 := div_ne_zero (by norm_num) hl
  have hX := coord 0 o x
  have hX0 : x 0 - o 0 ≠ 0 := sub_ne_zero.2 hx
  have hh : HasFDerivAt (hJet D l o) (lin (0.5022 / l) ((x 1 - o 1) / rad o x) ((x 2 - o 2) / rad o x)) x := by
    have := ((rad_pos_deriv hr).add (hX.const_mul (0.5022 / l))).sub_const (0.5 * D)
    refine HasFDerivAt.congr_fderiv (f := hJet D l o) this ?_
    ext v
    simp only [lin_apply, smul_apply, add_apply, smul_eq_mul, ContinuousLinearMap.proj_apply]
    ring
  have hq : HasFDerivAt (fun y => max (hJet D l o y) 0 ^ 2) _ x := (hasDerivAt_pos_sq (hJet D l o x)).comp_hasFDerivAt x hh
  have hp := profile_deriv (v0 := v0) hX hq hk hX0
  have e0 : (openJet v0 D l o x).2 0 0 = if hJet D l o x < 0 then 0 else (hJet D l o x * hJet D l o x /
      ((x 0 - o 0) * (0.5022 / l * (x 0 - o 0)) * (0.5022 / l * (x 0 - o 0))) -
        1 * hJet D l o x / ((x 0 - o 0) * (0.5022 / l * (x 0 - o 0)))) * profile v0 (0.5022 / l) (x 0 - o 0) (hJet D l o x) := by
    rw [one_mul, ← profile_eq]; rfl
  have e1 : (openJet v0 D l o x).2 0 1 = if 0 < rad o x then (x 1 - o 1) * (if hJet D l o x < 0 then 0 else
      -hJet D l o x * profile v0 (0.5022 / l) (x 0 - o 0) (hJet D l o x) /
        (0.5022 / l * (x 0 - o 0) * (0.5022 / l * (x 0 - o 0)))) / rad o x else 0 := by
    rw [← profile_eq]; rfl
  have e2 : (openJet v0 D l o x).2 0 2 = if 0 < rad o x then (x 2 - o 2) * (if hJet D l o x < 0 then 0 else
      -hJet D l o x * profile v0 (0.5022 / l) (x 0 - o 0) (hJet D l o x) /
        (0.5022 / l * (x 0 - o 0) * (0.5022 / l * (x 0 - o 0)))) / rad o x else 0 := by
    rw [← profile_eq]; rfl
  rw [if_pos hr] at e1 e2
  rw [e0, e1, e2, ← jet_coeff_x hk hX0]
  refine HasFDerivAt.congr_fderiv hp ?_
  ext v
  simp only [lin_apply, smul_apply, add_apply, smul_eq_mul, ContinuousLinearMap.proj_apply]
  have hU : v0 * exp (-(max (hJet D l o x) 0 ^ 2) / (2 * (0.5022 / l * (x 0 - o 0)) * (0.5022 / l * (x 0 - o 0)))) =
        profile v0 (0.5022 / l) (x 0 - o 0) (hJet D l o x) := rfl
  rw [hU]
  have c1 := jet_coeff (U := profile v0 (0.5022 / l) (x 0 - o 0) (hJet D l o x)) (H := hJet D l o x)
    (a := (x 1 - o 1) / rad o x) hk hX0
  have c2 := jet_coeff (U := profile v0 (0.5022 / l) (x 0 - o 0) (hJet D l o x)) (H := hJet D l o x)
    (a := (x 2 - o 2) / rad o x) hk hX0
  linear_combination v 1 * c1 + v 2 * c2

private theorem openJet_row_axis (v0 D l : ℝ) (o x : Fin 3 → ℝ) (hl : l ≠ 0) (hx : x 0 ≠ o 0) (hr : rad o x = 0)
    (h0 : hJet D l o x ≤ 0) :
    HasFDerivAt (fun y : Fin 3 → ℝ => profile v0 (0.5022 / l) (y 0 - o 0) (hJet D l o y))
      (lin ((openJet v0 D l o x).2 0 0) ((openJet v0 D l o x).2 0 1) ((openJet v0 D l o x).2 0 2)) x := by
  have hk : (0.5022 / l : ℝ) ≠ 0 := div_ne_zero (by norm_num) hl
  have hX := coord 0 o x
  have hX0 : x 0 - o 0 ≠ 0 := sub_ne_zero.2 hx
  have hq := hasFDerivAt_pos_sq_lip h0 (hJet_lip (D := D) (l := l) hr)
  have hp := profile_deriv (v0 := v0) hX hq hk hX0
  have hnr : ¬0 < rad o x := by rw [hr]; exact lt_irrefl 0
  have e0 : (openJet v0 D l o x).2 0 0 = if hJet D l o x < 0 then 0 else (hJet D l o x * hJet D l o x /
      ((x 0 - o 0) * (0.5022 / l * (x 0 - o 0)) * (0.5022 / l * (x 0 - o 0))) -
        hJet D l o x / ((x 0 - o 0) * (0.5022 / l * (x 0 - o 0)))) * profile v0 (0.5022 / l) (x 0 - o 0) (hJet D l o x) := by
    rw [← profile_eq]; rfl
  have e1 : (openJet v0 D l o x).2 0 1 = 0 := if_neg hnr
  have e2 : (openJet v0 D l o x).2 0 2 = 0 := if_neg hnr
  have e0' : (openJet v0 D l o x).2 0 0 = 0 := by
    rw [e0]
    split
    · rfl
    · rename_i hge
      rw [le_antisymm h0 (not_lt.1 hge)]; simp
  rw [e0', e1, e2, lin_zero]
  refine HasFDerivAt.congr_fderiv hp ?_
  ext v
  rw [max_eq_right h0]
  simp

/-- The Jacobian of the open jet is exact off the exit plane, off the axis; on the axis within the core. -/
private theorem openJet_core (v0 D l : ℝ) (o x : Fin 3 → ℝ) (hl : l ≠ 0) (hx : x 0 ≠ o 0)
    (h : 0 < rad o x ∨ hJet D l o x ≤ 0) : IsJacobian (fun y => (openJet v0 D l o y).1) (openJet v0 D l o x).2 x := by
  apply isJacobian_of_rows
  intro i
  simp only [openJet_fst]
  fin_cases i
  · by_cases hr : 0 < rad o x
    · exact openJet_row_off v0 D l o x hl hx hr
    · exact openJet_row_axis v0 D l o x hl hx (le_antisymm (not_lt.1 hr) (Real.sqrt_nonneg _)) (h.resolve_left hr)
  · have : ∀ j, (openJet v0 D l o x).2 1 j = 0 := by
      intro j; fin_cases j <;> rfl
    simp only [Fin.mk_one, this, lin_zero]
    exact hasFDerivAt_const 0 x
  · have : ∀ j, (openJet v0 D l o x).2 2 j = 0 := by
      intro j; fin_cases j <;> rfl
    simp only [Fin.reduceFinMk, this, lin_zero]
    exact hasFDerivAt_const 0 x

/-- On the axis beyond the core the velocity has a kink. -/
private theorem openJet_kink (v0 D l : ℝ) (o x : Fin 3 → ℝ) (hl : l ≠ 0) (hx : x 0 ≠ o 0) (hv : v0 ≠ 0)
    (hr : rad o x = 0) (hh : 0 < hJet D l o x) : ¬DifferentiableAt ℝ (fun y => (openJet v0 D l o y).1) x := by
  intro hd
  have hk : (0.5022 / l : ℝ) ≠ 0 := div_ne_zero (by norm_num) hl
  have hyz : (x 1 - o 1) * (x 1 - o 1) + (x 2 - o 2) * (x 2 - o 2) = 0 :=
    (Real.sqrt_eq_zero (add_nonneg (mul_self_nonneg _) (mul_self_nonneg _))).1 hr
  have hy0 : x 1 - o 1 = 0 := by nlinarith [mul_self_nonneg (x 1 - o 1), mul_self_nonneg (x 2 - o 2)]
  have hz0 : x 2 - o 2 = 0 := by nlinarith [mul_self_nonneg (x 1 - o 1), mul_self_nonneg (x 2 - o 2)]
  let γ : ℝ → Fin 3 → ℝ := fun t i => x i + if i = 1 then t else 0
  have hγ0 : γ 0 = x := by funext i; simp [γ]
  have hγ : DifferentiableAt ℝ γ 0 := by
    rw [differentiableAt_pi]
    intro i
    simp only [γ]
    split
    · exact (differentiableAt_id).const_add _
    · exact differentiableAt_const _
  have h1 : DifferentiableAt ℝ (fun t => (openJet v0 D l o (γ t)).1) 0 := by
    have hd' : DifferentiableAt ℝ (fun y => (openJet v0 D l o y).1) (γ 0) := by rw [hγ0]; exact hd
    exact hd'.comp 0 hγ
  have h2 := (differentiableAt_pi.1 h1) 0
  have e : (fun t => (openJet v0 D l o (γ t)).1 0) = fun t =>
      v0 * exp (-(max (1 * |t| + hJet D l o x) 0 ^ 2) / (2 * (0.5022 / l * (x 0 - o 0)) * (0.5022 / l * (x 0 - o 0)))) := by
    funext t
    rw [openJet_fst]
    have hrt : rad o (γ t) = |t| := by
      unfold rad
      have e1 : γ t 1 - o 1 = t := by simp [γ]; linarith
      have e2 : γ t 2 - o 2 = 0 := by simp [γ]; linarith
      rw [e1, e2, mul_zero, add_zero, Real.sqrt_mul_self_eq_abs]
    have e0 : γ t 0 = x 0 := by simp [γ]
    have hht : hJet D l o (γ t) = 1 * |t| + hJet D l o x := by
      unfold hJet; rw [hrt, hr, e0]; ring
    simp only [Matrix.cons_val_zero, hht, e0, profile]
  rw [e] at h2
  exact kink hv one_pos hh (mul_ne_zero hk (sub_ne_zero.2 hx)) h2

/-- Open jet: off the exit plane and off the axis the matrix returned is the Jacobian. -/
theorem C35_open_jet_off_axis (v0 D l : ℝ) (origin x : Fin 3 → ℝ) (hl : l ≠ 0) (hx : x 0 ≠ origin 0)
    (hr : x 1 ≠ origin 1 ∨ x 2 ≠ origin 2) :
    IsJacobian (fun y => (openJet v0 D l origin y).1) (openJet v0 D l origin x).2 x := by
  refine openJet_core v0 D l origin x hl hx (Or.inl (Real.sqrt_pos.2 ?_))
  rcases hr with h | h
  · exact add_pos_of_pos_of_nonneg (mul_self_pos.2 (sub_ne_zero.2 h)) (mul_self_nonneg _)
  · exact add_pos_of_nonneg_of_pos (mul_self_nonneg _) (mul_self_pos.2 (sub_ne_zero.2 h))

/-- The hypotheses of `C35_open_jet_off_axis` are met: -/
example := C35_open_jet_off_axis 10 0.2 5.2 0 ![1, 0, 1 / 2] (by norm_num) (by simp) (.inr (by simp))

/-- Open jet: wherever the velocity field is differentiable (off the exit plane), the matrix returned is its
Jacobian. -/
theorem C35_open_jet (v0 D l : ℝ) (origin x : Fin 3 → ℝ) (hl : l ≠ 0) (hx : x 0 ≠ origin 0)
    (hd : DifferentiableAt ℝ (fun y => (openJet v0 D l origin y).1) x) :
    IsJacobian (fun y => (openJet v0 D l origin y).1) (openJet v0 D l origin x).2 x := by
  by_cases h : 0 < rad origin x ∨ hJet D l origin x ≤ 0
  · exact openJet_core v0 D l origin x hl hx h
  · push Not at h
    have hr : rad origin x = 0 := le_antisymm h.1 (Real.sqrt_nonneg _)
    by_cases hv : v0 = 0
    · subst hv
      apply isJacobian_of_rows
      have hJ : ∀ i j, (openJet 0 D l origin x).2 i j = 0 := by
        intro i j
        unfold openJet
        simp only [zero_mul, ite_self, mul_zero, zero_div]
        fin_cases i <;> fin_cases j <;> rfl
      intro i
      simp only [hJ, lin_zero, openJet_fst, profile, zero_mul]
      fin_cases i <;> exact hasFDerivAt_const 0 x
    · exact absurd hd (openJet_kink v0 D l origin x hl hx hv hr h.2)

/-- ... and it is differentiable off the axis, and on the axis within the core. -/
theorem C35_open_jet_differentiable (v0 D l : ℝ) (origin x : Fin 3 → ℝ) (hl : l ≠ 0) (hx : x 0 ≠ origin 0)
    (h : x 1 ≠ origin 1 ∨ x 2 ≠ origin 2 ∨ 0.5022 / l * (x 0 - origin 0) ≤ 0.5 * D) :
    DifferentiableAt ℝ (fun y => (openJet v0 D l origin y).1) x := by
  have : 0 < rad origin x ∨ hJet D l origin x ≤ 0 := by
    by_cases hr : 0 < rad origin x
    · exact .inl hr
    · have hr0 : rad origin x = 0 := le_antisymm (not_lt.1 hr) (Real.sqrt_nonneg _)
      have hyz : (x 1 - origin 1) * (x 1 - origin 1) + (x 2 - origin 2) * (x 2 - origin 2) = 0 :=
        (Real.sqrt_eq_zero (add_nonneg (mul_self_nonneg _) (mul_self_nonneg _))).1 hr0
      have hy0 : x 1 - origin 1 = 0 := by nlinarith [mul_self_nonneg (x 1 - origin 1), mul_self_nonneg (x 2 - origin 2)]
      have hz0 : x 2 - origin 2 = 0 := by nlinarith [mul_self_nonneg (x 1 - origin 1), mul_self_nonneg (x 2 - origin 2)]
      rcases h with h | h | h
      · exact absurd (sub_eq_zero.1 hy0) h
      · exact absurd (sub_eq_zero.1 hz0) h
      · refine .inr ?_
        unfold hJet; rw [hr0]; linarith
  exact (openJet_core v0 D l origin x hl hx this).differentiableAt

/-- The hypotheses of `C35_open_jet_differentiable` are met: -/
example := C35_open_jet_differentiable 10 0.2 5.2 0 ![1, 0, 1 / 2] (by norm_num) (by simp) (.inr (.inl (by simp)))

/-- Beyond the core the velocity field has no derivative on the axis (the code returns zero there). -/
theorem C35_open_jet_axis_violated (v0 D l : ℝ) (origin x : Fin 3 → ℝ) (hl : l ≠ 0) (hx : x 0 ≠ origin 0)
    (hv : v0 ≠ 0) (h1 : x 1 = origin 1) (h2 : x 2 = origin 2) (h : 0.5 * D < 0.5022 / l * (x 0 - origin 0)) :
    ¬∃ J, IsJacobian (fun y => (openJet v0 D l origin y).1) J x := by
  rintro ⟨J, hJ⟩
  have hr : rad origin x = 0 := by unfold rad; rw [h1, h2]; simp
  exact openJet_kink v0 D l origin x hl hx hv hr (by unfold hJet; rw [hr]; linarith) hJ.differentiableAt

/-! #### Slot jet -/

private noncomputable def slotY (flow plane : Fin 3 → ℝ) : Fin 3 → ℝ := -(crossProduct (normalize flow) (normalize plane))

/-- the coordinate along a direction `a` -/
private noncomputable def along (a o y : Fin 3 → ℝ) : ℝ := dotp a (fun i => y i - o i)

private noncomputable def hSlot (B l : ℝ) (o flow plane y : Fin 3 → ℝ) : ℝ :=
  |along (slotY flow plane) o y| + √π * 0.5 * (0.5668 / l * along (normalize flow) o y) - 0.5 * B

private theorem slot_ux (v0 B l : ℝ) (o flow plane y : Fin 3 → ℝ) (i : Fin 3) :
    (slotJet v0 B l o flow plane y).1 i =
      normalize flow i * profile v0 (0.5668 / l) (along (normalize flow) o y) (hSlot B l o flow plane y) := by
  rw [← profile_eq]
  unfold slotJet
  simp only [Matrix.mulVec, dotProduct, Fin.sum_univ_three, Matrix.transpose_apply, Matrix.of_apply,
    Matrix.cons_val_zero, Matrix.cons_val_one, Matrix.cons_val, mul_zero, add_zero]
  rfl

private noncomputable def slotDx (v0 B l : ℝ) (o flow plane x : Fin 3 → ℝ) : ℝ :=
  if hSlot B l o flow plane x < 0 then 0 else (hSlot B l o flow plane x * hSlot B l o flow plane x /
      (along (normalize flow) o x * (0.5668 / l * along (normalize flow) o x) * (0.5668 / l * along (normalize flow) o x)) -
    √π * 0.5 * hSlot B l o flow plane x / (along (normalize flow) o x * (0.5668 / l * along (normalize flow) o x))) *
      profile v0 (0.5668 / l) (along (normalize flow) o x) (hSlot B l o flow plane x)

private noncomputable def slotDy (v0 B l : ℝ) (o flow plane x : Fin 3 → ℝ) : ℝ :=
  if hSlot B l o flow plane x < 0 then 0 else -SignType.sign (along (slotY flow plane) o x) * hSlot B l o flow plane x *
      profile v0 (0.5668 / l) (along (normalize flow) o x) (hSlot B l o flow plane x) /
    (0.5668 / l * along (normalize flow) o x * (0.5668 / l * along (normalize flow) o x))

private theorem rot_jac (f y z : Fin 3 → ℝ) (p q : ℝ) (i j : Fin 3) :
    ((Matrix.of ![f, y, z]).transpose * (!![p, 0, 0; q, 0, 0; 0, 0, 0] : Matrix (Fin 3) (Fin 3) ℝ).transpose *
      (Matrix.of ![f, y, z]).transpose.transpose) i j = f i * (p * f j + q * y j) := by
  simp only [Matrix.mul_apply, Fin.sum_univ_three, Matrix.transpose_apply, Matrix.of_apply,
    Matrix.cons_val_zero, Matrix.cons_val_one, Matrix.cons_val, mul_zero, add_zero, zero_mul]
  ring

private theorem slot_jac (v0 B l : ℝ) (o flow plane x : Fin 3 → ℝ) (i j : Fin 3) :
    (slotJet v0 B l o flow plane x).2 i j = normalize flow i *
      (slotDx v0 B l o flow plane x * normalize flow j + slotDy v0 B l o flow plane x * slotY flow plane j) := by
  unfold slotDx slotDy
  rw [← profile_eq]
  exact rot_jac _ _ _ _ _ _ _

private theorem along_deriv (a o x : Fin 3 → ℝ) : HasFDerivAt (along a o) (lin (a 0) (a 1) (a 2)) x := by
  have := (((coord 0 o x).const_mul (a 0)).add ((coord 1 o x).const_mul (a 1))).add ((coord 2 o x).const_mul (a 2))
  refine HasFDerivAt.congr_fderiv (f := along a o) this ?_
  ext v
  simp [lin_apply]

private theorem along_sub (a o x y : Fin 3 → ℝ) :
    along a o y - along a o x = a 0 * (y 0 - x 0) + a 1 * (y 1 - x 1) + a 2 * (y 2 - x 2) := by
  unfold along dotp; ring

private theorem along_lip (a o x y : Fin 3 → ℝ) :
    |along a o y - along a o x| ≤ (|a 0| + |a 1| + |a 2|) * ‖y - x‖ := by
  rw [along_sub]
  have hn : ∀ i, |y i - x i| ≤ ‖y - x‖ := fun i => by
    have := norm_le_pi_norm (y - x) i
    simpa using this
  have h : ∀ i, |a i * (y i - x i)| ≤ |a i| * ‖y - x‖ := fun i => by
    rw [abs_mul]; exact mul_le_mul_of_nonneg_left (hn i) (abs_nonneg _)
  refine (abs_add_le _ _).trans ?_
  have := abs_add_le (a 0 * (y 0 - x 0)) (a 1 * (y 1 - x 1))
  have h0 := h 0
  have h1 := h 1
  have h2 := h 2
  linarith

private theorem hSlot_lip (B l : ℝ) (o flow plane x : Fin 3 → ℝ) :
    ∃ C, ∀ y, |hSlot B l o flow plane y - hSlot B l o flow plane x| ≤ C * ‖y - x‖ := by
  set a := slotY flow plane with ha
  set b := normalize flow with hb
  refine ⟨(|a 0| + |a 1| + |a 2|) + |√π * 0.5 * (0.5668 / l)| * (|b 0| + |b 1| + |b 2|), fun y => ?_⟩
  have e : hSlot B l o flow plane y - hSlot B l o flow plane x =
      (|along a o y| - |along a o x|) + √π * 0.5 * (0.5668 / l) * (along b o y - along b o x) := by
    unfold hSlot; rw [← ha, ← hb]; ring
  rw [e]
  refine (abs_add_le _ _).trans ?_
  have h1 := (abs_abs_sub_abs_le_abs_sub (along a o y) (along a o x)).trans (along_lip a o x y)
  have h2 : |√π * 0.5 * (0.5668 / l) * (along b o y - along b o x)| ≤
      |√π * 0.5 * (0.5668 / l)| * ((|b 0| + |b 1| + |b 2|) * ‖y - x‖) := by
    rw [abs_mul]; exact mul_le_mul_of_nonneg_left (along_lip b o x y) (abs_nonneg _)
  linarith

/-- derivative of the speed where `|y|` is differentiable: `σ` is the sign of `y` (or anything if the direction
vanishes) -/
private theorem slot_row_off (v0 B l σ : ℝ) (o flow plane x : Fin 3 → ℝ) (hl : l ≠ 0)
    (hx : along (normalize flow) o x ≠ 0)
    (habs : HasFDerivAt (fun y => |along (slotY flow plane) o y|)
      (σ • lin (slotY flow plane 0) (slotY flow plane 1) (slotY flow plane 2)) x)
    (hσ : ∀ j, σ * slotY flow plane j = SignType.sign (along (slotY flow plane) o x) * slotY flow plane j) :
    HasFDerivAt (fun y => profile v0 (0.5668 / l) (along (normalize flow) o y) (hSlot B l o flow plane y))
      (slotDx v0 B l o flow plane x • lin (normalize flow 0) (normalize flow 1) (normalize flow 2) +
        slotDy v0 B l o flow plane x • lin (slotY flow plane 0) (slotY flow plane 1) (slotY flow plane 2)) x := by
  have hk : (0.5668 / l : ℝ) ≠ 0 := div_ne_zero (by norm_num) hl
  have hX := along_deriv (normalize flow) o x
  have hh := (habs.add ((hX.const_mul (0.5668 / l)).const_mul (√π * 0.5))).sub_const (0.5 * B)
  have hq : HasFDerivAt (fun y => max (hSlot B l o flow plane y) 0 ^ 2) _ x :=
    (hasDerivAt_pos_sq (hSlot B l o flow plane x)).comp_hasFDerivAt x hh
  have hp := profile_deriv (v0 := v0) hX hq hk hx
  refine HasFDerivAt.congr_fderiv hp ?_
  have hU : v0 * exp (-(max (hSlot B l o flow plane x) 0 ^ 2) /
      (2 * (0.5668 / l * along (normalize flow) o x) * (0.5668 / l * along (normalize flow) o x))) =
        profile v0 (0.5668 / l) (along (normalize flow) o x) (hSlot B l o flow plane x) := rfl
  rw [hU]
  have hdx : slotDx v0 B l o flow plane x = _ :=
    (jet_coeff_x (U := profile v0 (0.5668 / l) (along (normalize flow) o x) (hSlot B l o flow plane x))
      (H := hSlot B l o flow plane x) (c := √π * 0.5) hk hx).symm
  have hdy : ∀ j, slotDy v0 B l o flow plane x * slotY flow plane j =
      profile v0 (0.5668 / l) (along (normalize flow) o x) (hSlot B l o flow plane x) *
        (-1 / (2 * (0.5668 / l * along (normalize flow) o x) ^ 2) * (2 * max (hSlot B l o flow plane x) 0 * (σ * slotY flow plane j))) := by
    intro j
    rw [hσ j, jet_coeff hk hx]
    unfold slotDy
    split
    · simp
    · ring
  ext v
  simp only [lin_apply, smul_apply, add_apply, smul_eq_mul]
  have d0 := hdy 0
  have d1 := hdy 1
  have d2 := hdy 2
  rw [hdx]
  linear_combination -v 0 * d0 - v 1 * d1 - v 2 * d2

private theorem slot_row_core (v0 B l : ℝ) (o flow plane x : Fin 3 → ℝ) (hl : l ≠ 0)
    (hx : along (normalize flow) o x ≠ 0) (h0 : hSlot B l o flow plane x ≤ 0) :
    HasFDerivAt (fun y => profile v0 (0.5668 / l) (along (normalize flow) o y) (hSlot B l o flow plane y))
      (slotDx v0 B l o flow plane x • lin (normalize flow 0) (normalize flow 1) (normalize flow 2) +
        slotDy v0 B l o flow plane x • lin (slotY flow plane 0) (slotY flow plane 1) (slotY flow plane 2)) x := by
  have hk : (0.5668 / l : ℝ) ≠ 0 := div_ne_zero (by norm_num) hl
  obtain ⟨C, hC⟩ := hSlot_lip B l o flow plane x
  have hp := profile_deriv (v0 := v0) (along_deriv (normalize flow) o x) (hasFDerivAt_pos_sq_lip h0 hC) hk hx
  have e1 : slotDx v0 B l o flow plane x = 0 := by
    unfold slotDx
    split
    · rfl
    · rename_i hge; rw [le_antisymm h0 (not_lt.1 hge)]; simp
  have e2 : slotDy v0 B l o flow plane x = 0 := by
    unfold slotDy
    split
    · rfl
    · rename_i hge; rw [le_antisymm h0 (not_lt.1 hge)]; simp
  refine HasFDerivAt.congr_fderiv hp ?_
  rw [e1, e2, max_eq_right h0]
  ext v
  simp

private theorem slot_of_row (v0 B l : ℝ) (o flow plane x : Fin 3 → ℝ)
    (h : HasFDerivAt (fun y => profile v0 (0.5668 / l) (along (normalize flow) o y) (hSlot B l o flow plane y))
      (slotDx v0 B l o flow plane x • lin (normalize flow 0) (normalize flow 1) (normalize flow 2) +
        slotDy v0 B l o flow plane x • lin (slotY flow plane 0) (slotY flow plane 1) (slotY flow plane 2)) x) :
    IsJacobian (fun y => (slotJet v0 B l o flow plane y).1) (slotJet v0 B l o flow plane x).2 x := by
  apply isJacobian_of_rows
  intro i
  simp only [slot_ux, slot_jac]
  refine (h.const_mul (normalize flow i)).congr_fderiv ?_
  ext v
  simp only [lin_apply, smul_apply, add_apply, smul_eq_mul]
  ring

private theorem slot_orth (flow plane : Fin 3 → ℝ) : dotp (normalize flow) (slotY flow plane) = 0 := by
  unfold slotY dotp
  rw [cross_apply]
  simp only [Pi.neg_apply, Matrix.cons_val_zero, Matrix.cons_val_one, Matrix.cons_val]
  ring

/-- In the centre plane beyond the core the velocity has a kink. -/
private theorem slot_kink (v0 B l : ℝ) (o flow plane x : Fin 3 → ℝ) (hl : l ≠ 0)
    (hx : along (normalize flow) o x ≠ 0) (hv : v0 ≠ 0) (hy : along (slotY flow plane) o x = 0)
    (hyy : slotY flow plane ≠ 0) (hh : 0 < hSlot B l o flow plane x) :
    ¬DifferentiableAt ℝ (fun y => (slotJet v0 B l o flow plane y).1) x := by
  intro hd
  have hk : (0.5668 / l : ℝ) ≠ 0 := div_ne_zero (by norm_num) hl
  set a := slotY flow plane with ha
  set b := normalize flow with hb
  have hb0 : ∃ i, b i ≠ 0 := by
    by_contra hc
    push Not at hc
    apply hx
    unfold along dotp
    simp [hc]
  obtain ⟨i, hi⟩ := hb0
  let γ : ℝ → Fin 3 → ℝ := fun t j => x j + t * a j
  have hγ0 : γ 0 = x := by funext j; simp [γ]
  have hγ : DifferentiableAt ℝ γ 0 := by
    rw [differentiableAt_pi]
    intro j
    exact (differentiableAt_id.mul_const (a j)).const_add _
  have h1 : DifferentiableAt ℝ (fun t => (slotJet v0 B l o flow plane (γ t)).1) 0 := by
    have hd' : DifferentiableAt ℝ (fun y => (slotJet v0 B l o flow plane y).1) (γ 0) := by rw [hγ0]; exact hd
    exact hd'.comp 0 hγ
  have h2 := (differentiableAt_pi.1 h1) i
  have haa : 0 < dotp a a := by
    unfold dotp
    by_contra hc
    apply hyy
    have n0 := mul_self_nonneg (a 0)
    have n1 := mul_self_nonneg (a 1)
    have n2 := mul_self_nonneg (a 2)
    have e0 : a 0 = 0 := by rw [← mul_self_eq_zero]; linarith
    have e1 : a 1 = 0 := by rw [← mul_self_eq_zero]; linarith
    have e2 : a 2 = 0 := by rw [← mul_self_eq_zero]; linarith
    funext j; fin_cases j <;> simp [e0, e1, e2]
  have horth : dotp b a = 0 := slot_orth flow plane
  have e : (fun t => (slotJet v0 B l o flow plane (γ t)).1 i) = fun t =>
      (b i * v0) * exp (-(max (dotp a a * |t| + hSlot B l o flow plane x) 0 ^ 2) /
        (2 * (0.5668 / l * along b o x) * (0.5668 / l * along b o x))) := by
    funext t
    rw [slot_ux]
    have eX : along b o (γ t) = along b o x := by
      have : along b o (γ t) = along b o x + t * dotp b a := by unfold along dotp; simp only [γ]; ring
      rw [this, horth]; ring
    have eY : along a o (γ t) = t * dotp a a := by
      have : along a o (γ t) = along a o x + t * dotp a a := by unfold along dotp; simp only [γ]; ring
      rw [this, hy, zero_add]
    have eH : hSlot B l o flow plane (γ t) = dotp a a * |t| + hSlot B l o flow plane x := by
      unfold hSlot
      rw [← ha, ← hb, eX, eY, hy, abs_mul, abs_of_pos haa, abs_zero]
      ring
    rw [← hb, eX, eH]
    unfold profile
    ring
  rw [e] at h2
  exact kink (mul_ne_zero hi hv) haa hh (mul_ne_zero hk hx) h2

/-- Slot jet: wherever the velocity field is differentiable (off the exit plane), the matrix returned is its Jacobian,
for every flow direction and slot direction. -/
theorem C35_slot_jet (v0 B l : ℝ) (origin flow plane x : Fin 3 → ℝ) (hl : l ≠ 0)
    (hx : flow 0 * (x 0 - origin 0) + flow 1 * (x 1 - origin 1) + flow 2 * (x 2 - origin 2) ≠ 0)
    (hd : DifferentiableAt ℝ (fun y => (slotJet v0 B l origin flow plane y).1) x) :
    IsJacobian (fun y => (slotJet v0 B l origin flow plane y).1) (slotJet v0 B l origin flow plane x).2 x := by
  have hx' : along (normalize flow) origin x ≠ 0 := by
    have hn : √(flow 0 * flow 0 + flow 1 * flow 1 + flow 2 * flow 2) ≠ 0 := by
      intro h
      apply hx
      have hs := (Real.sqrt_eq_zero (add_nonneg (add_nonneg (mul_self_nonneg _) (mul_self_nonneg _)) (mul_self_nonneg _))).1 h
      have n0 := mul_self_nonneg (flow 0)
      have n1 := mul_self_nonneg (flow 1)
      have n2 := mul_self_nonneg (flow 2)
      have e0 : flow 0 = 0 := by rw [← mul_self_eq_zero]; linarith
      have e1 : flow 1 = 0 := by rw [← mul_self_eq_zero]; linarith
      have e2 : flow 2 = 0 := by rw [← mul_self_eq_zero]; linarith
      rw [e0, e1, e2]; ring
    have e : along (normalize flow) origin x = (flow 0 * (x 0 - origin 0) + flow 1 * (x 1 - origin 1) + flow 2 * (x 2 - origin 2)) /
        √(flow 0 * flow 0 + flow 1 * flow 1 + flow 2 * flow 2) := by
      unfold along dotp normalize
      field_simp
    rw [e]
    exact div_ne_zero hx hn
  by_cases h0 : hSlot B l origin flow plane x ≤ 0
  · exact slot_of_row _ _ _ _ _ _ _ (slot_row_core v0 B l origin flow plane x hl hx' h0)
  by_cases hy : along (slotY flow plane) origin x = 0
  · by_cases hyy : slotY flow plane = 0
    · apply slot_of_row
      refine slot_row_off v0 B l 0 origin flow plane x hl hx' ?_ (fun j => by simp [hyy])
      rw [hyy, zero_smul]
      have : (fun y => |along (0 : Fin 3 → ℝ) origin y|) = fun _ => 0 := by
        funext y; unfold along dotp; simp
      rw [this]
      exact hasFDerivAt_const 0 x
    · by_cases hv : v0 = 0
      · subst hv
        apply slot_of_row
        have e1 : slotDx 0 B l origin flow plane x = 0 := by unfold slotDx profile; simp
        have e2 : slotDy 0 B l origin flow plane x = 0 := by unfold slotDy profile; simp
        rw [e1, e2]
        have : (fun y => profile 0 (0.5668 / l) (along (normalize flow) origin y) (hSlot B l origin flow plane y)) = fun _ => 0 := by
          funext y; unfold profile; simp
        rw [this]
        simpa using hasFDerivAt_const (0 : ℝ) x
      · exact absurd hd (slot_kink v0 B l origin flow plane x hl hx' hv hy hyy (not_le.1 h0))
  · apply slot_of_row
    refine slot_row_off v0 B l (SignType.sign (along (slotY flow plane) origin x)) origin flow plane x hl hx' ?_ (fun j => rfl)
    exact (hasDerivAt_abs hy).comp_hasFDerivAt x (along_deriv (slotY flow plane) origin x)

private theorem norm_ne {a : Fin 3 → ℝ} (h : a ≠ 0) : √(a 0 * a 0 + a 1 * a 1 + a 2 * a 2) ≠ 0 := by
  intro h'
  apply h
  have hs := (Real.sqrt_eq_zero (add_nonneg (add_nonneg (mul_self_nonneg _) (mul_self_nonneg _)) (mul_self_nonneg _))).1 h'
  have n0 := mul_self_nonneg (a 0)
  have n1 := mul_self_nonneg (a 1)
  have n2 := mul_self_nonneg (a 2)
  have e0 : a 0 = 0 := by rw [← mul_self_eq_zero]; linarith
  have e1 : a 1 = 0 := by rw [← mul_self_eq_zero]; linarith
  have e2 : a 2 = 0 := by rw [← mul_self_eq_zero]; linarith
  funext j; fin_cases j <;> simp [e0, e1, e2]

/-- ... and it is differentiable everywhere off the exit plane and off the centre plane of the slot. -/
theorem C35_slot_jet_differentiable (v0 B l : ℝ) (origin flow plane x : Fin 3 → ℝ) (hl : l ≠ 0)
    (hx : inner3 flow (fun i => x i - origin i) ≠ 0)
    (hy : inner3 (crossProduct flow plane) (fun i => x i - origin i) ≠ 0) :
    DifferentiableAt ℝ (fun y => (slotJet v0 B l origin flow plane y).1) x := by
  have hf : flow ≠ 0 := by rintro rfl; apply hx; simp [inner3]
  have hp : plane ≠ 0 := by rintro rfl; apply hy; simp [inner3]
  have nf := norm_ne hf
  have np := norm_ne hp
  have hx' : along (normalize flow) origin x ≠ 0 := by
    have e : along (normalize flow) origin x = inner3 flow (fun i => x i - origin i) /
        √(flow 0 * flow 0 + flow 1 * flow 1 + flow 2 * flow 2) := by
      unfold along dotp normalize inner3
      field_simp
    rw [e]
    exact div_ne_zero hx nf
  have hy' : along (slotY flow plane) origin x ≠ 0 := by
    have e : along (slotY flow plane) origin x = -inner3 (crossProduct flow plane) (fun i => x i - origin i) /
        (√(flow 0 * flow 0 + flow 1 * flow 1 + flow 2 * flow 2) * √(plane 0 * plane 0 + plane 1 * plane 1 + plane 2 * plane 2)) := by
      unfold along dotp slotY inner3
      rw [cross_apply, cross_apply]
      simp only [Pi.neg_apply, Matrix.cons_val_zero, Matrix.cons_val_one, Matrix.cons_val, normalize]
      field_simp
      ring
    rw [e]
    exact div_ne_zero (neg_ne_zero.2 hy) (mul_ne_zero nf np)
  have := slot_of_row _ _ _ _ _ _ _ (slot_row_off v0 B l (SignType.sign (along (slotY flow plane) origin x)) origin flow
    plane x hl hx' ((hasDerivAt_abs hy').comp_hasFDerivAt x (along_deriv (slotY flow plane) origin x)) (fun j => rfl))
  exact this.differentiableAt

/-- A point beside the jet, with a slot direction that is not orthogonal to the flow. -/
example : DifferentiableAt ℝ (fun y => (slotJet 10 0.2 5.2 0 ![1, 0, 0] ![1, 1, 0] y).1) ![1, 0, 1 / 2] := by
  apply C35_slot_jet_differentiable
  · norm_num
  · simp [inner3]
  · rw [cross_apply]; simp [inner3]

/-- The hypotheses of `C35_open_jet` are met: -/
example := C35_open_jet 10 0.2 5.2 0 ![1, 0, 1 / 2] (by norm_num) (by simp)
  (C35_open_jet_differentiable 10 0.2 5.2 0 ![1, 0, 1 / 2] (by norm_num) (by simp) (.inr (.inl (by simp))))

/-- The hypotheses of `C35_slot_jet` are met: -/
example := C35_slot_jet 10 0.2 5.2 0 ![1, 0, 0] ![1, 1, 0] ![1, 0, 1 / 2] (by norm_num) (by simp)
  (C35_slot_jet_differentiable _ _ _ _ _ _ _ (by norm_num) (by simp [inner3]) (by rw [cross_apply]; simp [inner3]))

end Acoular
