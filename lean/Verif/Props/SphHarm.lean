import Verif.Model.SphHarm
import Mathlib.Analysis.SpecialFunctions.Complex.Log
import Mathlib.Tactic.FieldSimp
import Mathlib.Tactic.LinearCombination
import Mathlib.Tactic.FinCases
import Mathlib.Algebra.Polynomial.Taylor

/-!
# C111, C112: angles and modes of spherical harmonic sources
-/

namespace Acoular

open Real

/-- Rotation about the y axis. -/
noncomputable def Spec.rotY (t : ℝ) (v : Fin 3 → ℝ) : Fin 3 → ℝ :=
  ![cos t * v 0 - sin t * v 2, v 1, sin t * v 0 + cos t * v 2]

/-- Rotation about the z axis. -/
noncomputable def Spec.rotZ (t : ℝ) (v : Fin 3 → ℝ) : Fin 3 → ℝ :=
  ![cos t * v 0 - sin t * v 1, sin t * v 0 + cos t * v 1, v 2]

/-- Angle between a vector and the positive y axis. -/
noncomputable def Spec.polarY (v : Fin 3 → ℝ) : ℝ := arccos (v 1 / √(v 0 ^ 2 + v 1 ^ 2 + v 2 ^ 2))

open Spec

/-! ## Angles -/

private theorem mod2pi_range (x : ℝ) : 0 ≤ mod2pi x ∧ mod2pi x < 2 * π := by
  have hp : 0 < 2 * π := by positivity
  have h1 := Int.floor_le (x / (2 * π))
  have h2 := Int.lt_floor_add_one (x / (2 * π))
  rw [le_div_iff₀ hp] at h1
  rw [div_lt_iff₀ hp] at h2
  unfold mod2pi
  constructor <;> nlinarith

private theorem exp_mod2pi (x : ℝ) : Complex.exp (mod2pi x * Complex.I) = Complex.exp (x * Complex.I) := by
  unfold mod2pi
  have : ((x - 2 * π * ⌊x / (2 * π)⌋ : ℝ) : ℂ) * Complex.I =
      x * Complex.I - (⌊x / (2 * π)⌋ : ℤ) * (2 * π * Complex.I) := by
    push_cast; ring
  rw [this]
  exact Complex.exp_periodic.sub_int_mul_eq _

private theorem mod2pi_unique {x y : ℝ} (h : Complex.exp (x * Complex.I) = Complex.exp (y * Complex.I)) :
    mod2pi x = mod2pi y := by
  have hp : 0 < 2 * π := by positivity
  rw [Complex.exp_eq_exp_iff_exists_int] at h
  obtain ⟨n, hn⟩ := h
  have e : x = y + n * (2 * π) := by
    have h2 : ((x : ℂ)) = ((y + n * (2 * π) : ℝ) : ℂ) := by
      apply mul_right_cancel₀ Complex.I_ne_zero
      rw [hn]; push_cast; ring
    exact_mod_cast h2
  unfold mod2pi
  have : x / (2 * π) = y / (2 * π) + n := by rw [e]; field_simp
  rw [this, Int.floor_add_intCast]
  push_cast
  rw [e]
  ring

private theorem arctan2_smul {c : ℝ} (hc : 0 < c) (y x : ℝ) : arctan2 (c * y) (c * x) = arctan2 y x := by
  unfold arctan2
  have : (⟨c * x, c * y⟩ : ℂ) = (c : ℂ) * ⟨x, y⟩ := by
    apply Complex.ext <;> simp
  rw [this, Complex.arg_real_mul _ hc]

private theorem norm_exp_arctan2 (y x : ℝ) :
    (‖(⟨x, y⟩ : ℂ)‖ : ℂ) * Complex.exp (arctan2 y x * Complex.I) = ⟨x, y⟩ :=
  Complex.norm_mul_exp_arg_mul_I _

private theorem arctan2_polar (a b c : ℝ) (h : 0 < a ^ 2 + b ^ 2 + c ^ 2) :
    arctan2 √(a ^ 2 + c ^ 2) b = arccos (b / √(a ^ 2 + b ^ 2 + c ^ 2)) := by
  unfold arctan2
  set z : ℂ := ⟨b, √(a ^ 2 + c ^ 2)⟩ with hz
  have hn : ‖z‖ = √(a ^ 2 + b ^ 2 + c ^ 2) := by
    rw [Complex.norm_def, Complex.normSq_apply]
    congr 1
    show b * b + √(a ^ 2 + c ^ 2) * √(a ^ 2 + c ^ 2) = _
    rw [Real.mul_self_sqrt (by positivity)]; ring
  have hz0 : z ≠ 0 := by
    intro h0
    rw [h0, norm_zero] at hn
    exact (Real.sqrt_pos.2 h).ne hn
  rw [Complex.arg_of_im_nonneg_of_ne_zero (by show 0 ≤ √_; positivity) hz0, hn]

variable (d m s : Fin 3 → ℝ)

/-- The norm of a vector. -/
private noncomputable def nrm (v : Fin 3 → ℝ) : ℝ := √(v 0 ^ 2 + v 1 ^ 2 + v 2 ^ 2)

private theorem nrm_pos {v : Fin 3 → ℝ} (h : v ≠ 0) : 0 < v 0 ^ 2 + v 1 ^ 2 + v 2 ^ 2 := by
  by_contra hc
  apply h
  have h0 := sq_nonneg (v 0)
  have h1 := sq_nonneg (v 1)
  have h2 := sq_nonneg (v 2)
  funext i
  fin_cases i
  · exact pow_eq_zero_iff (two_ne_zero) |>.1 (by linarith : v 0 ^ 2 = 0)
  · exact pow_eq_zero_iff (two_ne_zero) |>.1 (by linarith : v 1 ^ 2 = 0)
  · exact pow_eq_zero_iff (two_ne_zero) |>.1 (by linarith : v 2 ^ 2 = 0)

/-- **C111** The azimuth is in `[0, 2π)`. -/
theorem C111_azimuth_range : 0 ≤ (radiationAngles d m s).1 ∧ (radiationAngles d m s).1 < 2 * π := mod2pi_range _

private theorem azi_exp (hd : d ≠ 0) :
    Complex.exp ((radiationAngles d m s).1 * Complex.I) =
      Complex.exp (arctan2 (-(m 2 - s 2)) (m 0 - s 0) * Complex.I) * Complex.exp (arctan2 (d 2) (d 0) * Complex.I) := by
  have hn : 0 < √(d 0 ^ 2 + d 1 ^ 2 + d 2 ^ 2) := Real.sqrt_pos.2 (nrm_pos hd)
  have e : arctan2 (d 2 / √(d 0 ^ 2 + d 1 ^ 2 + d 2 ^ 2)) (d 0 / √(d 0 ^ 2 + d 1 ^ 2 + d 2 ^ 2)) = arctan2 (d 2) (d 0) := by
    rw [div_eq_inv_mul, div_eq_inv_mul]
    exact arctan2_smul (inv_pos.2 hn) _ _
  show Complex.exp ((mod2pi (arctan2 ((m 2 - s 2) * -1) (m 0 - s 0) +
    arctan2 (d 2 / √(d 0 ^ 2 + d 1 ^ 2 + d 2 ^ 2)) (d 0 / √(d 0 ^ 2 + d 1 ^ 2 + d 2 ^ 2))) : ℝ) * Complex.I) = _
  rw [exp_mod2pi, e, mul_neg_one, ← Complex.exp_add]
  congr 1
  push_cast
  ring

/-- **C111** The azimuth is the angle, about the y axis, of the microphone as seen from the source (with inverted z axis)
plus that of the direction. -/
theorem C111_azimuth (hd : d ≠ 0) :
    ((√((m 0 - s 0) ^ 2 + (m 2 - s 2) ^ 2) * √(d 0 ^ 2 + d 2 ^ 2) : ℝ) : ℂ) *
        Complex.exp ((radiationAngles d m s).1 * Complex.I) =
      (⟨m 0 - s 0, -(m 2 - s 2)⟩ : ℂ) * ⟨d 0, d 2⟩ := by
  rw [azi_exp d m s hd, ← norm_exp_arctan2 (-(m 2 - s 2)), ← norm_exp_arctan2 (d 2)]
  have h1 : ‖(⟨m 0 - s 0, -(m 2 - s 2)⟩ : ℂ)‖ = √((m 0 - s 0) ^ 2 + (m 2 - s 2) ^ 2) := by
    rw [Complex.norm_def, Complex.normSq_apply]; congr 1; ring
  have h2 : ‖(⟨d 0, d 2⟩ : ℂ)‖ = √(d 0 ^ 2 + d 2 ^ 2) := by
    rw [Complex.norm_def, Complex.normSq_apply]; congr 1; ring
  rw [h1, h2]
  push_cast
  ring

/-- The hypotheses of `C111_azimuth` are met: -/
example := C111_azimuth ![1, 0, 0] ![0, 1, 2] 0 (fun h => by simpa using congrFun h 0)

/-- **C111** The elevation is the angle between the y axis and the microphone as seen from the source, plus the angle
between the y axis and the direction, plus a right angle. -/
theorem C111_elevation (hd : d ≠ 0) (hm : m ≠ s) :
    (radiationAngles d m s).2 = polarY (fun i => m i - s i) + polarY d + π / 2 := by
  have hv : (fun i => m i - s i) ≠ 0 := fun h => hm (funext fun i => sub_eq_zero.1 (congrFun h i))
  have hn : 0 < √(d 0 ^ 2 + d 1 ^ 2 + d 2 ^ 2) := Real.sqrt_pos.2 (nrm_pos hd)
  set n := √(d 0 ^ 2 + d 1 ^ 2 + d 2 ^ 2) with hn'
  have e1 : arctan2 √((m 0 - s 0) ^ 2 + ((m 2 - s 2) * -1) ^ 2) (m 1 - s 1) = polarY (fun i => m i - s i) := by
    rw [mul_neg_one, neg_sq]
    exact arctan2_polar _ _ _ (nrm_pos hv)
  have e2 : arctan2 √((d 0 / n) ^ 2 + (d 2 / n) ^ 2) (d 1 / n) = polarY d := by
    have : √((d 0 / n) ^ 2 + (d 2 / n) ^ 2) = n⁻¹ * √(d 0 ^ 2 + d 2 ^ 2) := by
      rw [div_pow, div_pow, ← add_div, Real.sqrt_div' _ (by positivity), Real.sqrt_sq hn.le, div_eq_inv_mul]
    rw [this, div_eq_inv_mul, arctan2_smul (inv_pos.2 hn)]
    exact arctan2_polar _ _ _ (nrm_pos hd)
  show arctan2 √((m 0 - s 0) ^ 2 + ((m 2 - s 2) * -1) ^ 2) (m 1 - s 1) +
    arctan2 √((d 0 / n) ^ 2 + (d 2 / n) ^ 2) (d 1 / n) + π * 0.5 = _
  rw [e1, e2]
  norm_num
  ring

/-- **C111** Only the position of the microphone relative to the source counts. -/
theorem C111_translation (a : Fin 3 → ℝ) : radiationAngles d (m + a) (s + a) = radiationAngles d m s := by
  have e : ∀ i, (m + a) i - (s + a) i = m i - s i := fun i => by simp
  unfold radiationAngles
  simp only [e]

/-- **C111** Neither the distance of the microphone nor the length of the direction counts. -/
theorem C111_scale (c k : ℝ) (hc : 0 < c) (hk : 0 < k) (hd : d ≠ 0) (hm : m ≠ 0) :
    radiationAngles (fun i => k * d i) (fun i => c * m i) 0 = radiationAngles d m 0 := by
  have hkd : (fun i => k * d i) ≠ 0 := fun h => hd (funext fun i => by simpa [hk.ne'] using congrFun h i)
  have hcm : (fun i => c * m i) ≠ 0 := fun h => hm (funext fun i => by simpa [hc.ne'] using congrFun h i)
  have pol : ∀ (k : ℝ) (v : Fin 3 → ℝ), 0 < k → polarY (fun i => k * v i) = polarY v := by
    intro k v hk
    unfold polarY
    have : √((k * v 0) ^ 2 + (k * v 1) ^ 2 + (k * v 2) ^ 2) = k * √(v 0 ^ 2 + v 1 ^ 2 + v 2 ^ 2) := by
      rw [show (k * v 0) ^ 2 + (k * v 1) ^ 2 + (k * v 2) ^ 2 = k ^ 2 * (v 0 ^ 2 + v 1 ^ 2 + v 2 ^ 2) by ring,
        Real.sqrt_mul (by positivity), Real.sqrt_sq hk.le]
    simp only [this]
    rw [mul_div_mul_left _ _ hk.ne']
  apply Prod.ext
  · have h := azi_exp (fun i => k * d i) (fun i => c * m i) 0 hkd
    have h' := azi_exp d m 0 hd
    have idem : ∀ x, mod2pi (mod2pi x) = mod2pi x := fun x => mod2pi_unique (exp_mod2pi x)
    have e : Complex.exp ((radiationAngles (fun i => k * d i) (fun i => c * m i) 0).1 * Complex.I) =
        Complex.exp ((radiationAngles d m 0).1 * Complex.I) := by
      rw [h, h']
      simp only [Pi.zero_apply, sub_zero]
      rw [show -(c * m 2) = c * -m 2 by ring, arctan2_smul hc, arctan2_smul hk]
    have := mod2pi_unique e
    unfold radiationAngles at this ⊢
    simp only [idem] at this
    exact this
  · rw [C111_elevation _ _ _ hkd hcm, C111_elevation _ _ _ hd hm]
    simp only [Pi.zero_apply, sub_zero]
    rw [pol c m hc, pol k d hk]

/-- The hypotheses of `C111_scale` are met: -/
example := C111_scale ![1, 0, 0] ![0, 1, 2] 2 3 (by norm_num) (by norm_num) (fun h => by simpa using congrFun h 0) (fun h => by simpa using congrFun h 1)

private theorem rotY_ne {t : ℝ} {v : Fin 3 → ℝ} (h : v ≠ 0) : rotY t v ≠ 0 := by
  intro h0
  apply h
  have a := congrFun h0 0
  have b := congrFun h0 1
  have c := congrFun h0 2
  simp only [rotY, Matrix.cons_val, Pi.zero_apply] at a b c
  have hs := sin_sq_add_cos_sq t
  funext i
  fin_cases i
  · show v 0 = 0
    linear_combination (-(v 0)) * hs + cos t * a + sin t * c
  · exact b
  · show v 2 = 0
    linear_combination (-(v 2)) * hs - sin t * a + cos t * c

/-- **C111** (part) Turning source and microphones together about the y axis changes nothing. -/
theorem C111_rotation_partial (t : ℝ) (hd' : d 0 ≠ 0 ∨ d 2 ≠ 0) (hm' : m 0 ≠ 0 ∨ m 2 ≠ 0) :
    radiationAngles (rotY t d) (rotY t m) 0 = radiationAngles d m 0 := by
  have hd : d ≠ 0 := fun h => by simp [h] at hd'
  have hm : m ≠ 0 := fun h => by simp [h] at hm'
  have hs := sin_sq_add_cos_sq t
  have sq : ∀ v : Fin 3 → ℝ, rotY t v 0 ^ 2 + rotY t v 2 ^ 2 = v 0 ^ 2 + v 2 ^ 2 := by
    intro v
    show (cos t * v 0 - sin t * v 2) ^ 2 + (sin t * v 0 + cos t * v 2) ^ 2 = _
    linear_combination (v 0 ^ 2 + v 2 ^ 2) * hs
  have pol : ∀ v : Fin 3 → ℝ, polarY (rotY t v) = polarY v := by
    intro v
    unfold polarY
    have e1 : rotY t v 1 = v 1 := rfl
    rw [e1, show rotY t v 0 ^ 2 + v 1 ^ 2 + rotY t v 2 ^ 2 = v 0 ^ 2 + v 1 ^ 2 + v 2 ^ 2 by
      linear_combination sq v]
  have idem : ∀ x, mod2pi (mod2pi x) = mod2pi x := fun x => mod2pi_unique (exp_mod2pi x)
  apply Prod.ext
  · have h := C111_azimuth (rotY t d) (rotY t m) 0 (rotY_ne hd)
    have h' := C111_azimuth d m 0 hd
    simp only [Pi.zero_apply, sub_zero, sq] at h h'
    have e0 : (⟨rotY t m 0, -rotY t m 2⟩ : ℂ) * ⟨rotY t d 0, rotY t d 2⟩ = ⟨m 0, -m 2⟩ * ⟨d 0, d 2⟩ := by
      apply Complex.ext
      · simp only [Complex.mul_re]
        show (cos t * m 0 - sin t * m 2) * (cos t * d 0 - sin t * d 2) -
          -(sin t * m 0 + cos t * m 2) * (sin t * d 0 + cos t * d 2) = _
        linear_combination (m 0 * d 0 + m 2 * d 2) * hs
      · simp only [Complex.mul_im]
        show (cos t * m 0 - sin t * m 2) * (sin t * d 0 + cos t * d 2) +
          -(sin t * m 0 + cos t * m 2) * (cos t * d 0 - sin t * d 2) = _
        linear_combination (m 0 * d 2 - m 2 * d 0) * hs
    rw [e0, ← h'] at h
    have pos : ∀ v : Fin 3 → ℝ, v 0 ≠ 0 ∨ v 2 ≠ 0 → √(v 0 ^ 2 + v 2 ^ 2) ≠ 0 := by
      intro v hv
      apply (Real.sqrt_pos.2 _).ne'
      rcases hv with hv | hv <;> positivity
    have e := mul_left_cancel₀ (Complex.ofReal_ne_zero.2 (mul_ne_zero (pos m hm') (pos d hd'))) h
    have := mod2pi_unique e
    unfold radiationAngles at this ⊢
    simp only [idem] at this
    exact this
  · rw [C111_elevation _ _ _ (rotY_ne hd) (rotY_ne hm), C111_elevation _ _ _ hd hm]
    simp only [Pi.zero_apply, sub_zero]
    have a : polarY (fun i => rotY t m i) = polarY m := pol m
    rw [a, pol d]

/-- The documented range `[0, π]` of the elevation is not kept: it is from `π/2` to `5π/2`, and inside the range only
if the two polar angles add up to no more than a right angle. -/
theorem C111_elevation_violated (hd : d ≠ 0) (hm : m ≠ s) :
    π / 2 ≤ (radiationAngles d m s).2 ∧
      ((radiationAngles d m s).2 ≤ π ↔ polarY (fun i => m i - s i) + polarY d ≤ π / 2) := by
  rw [C111_elevation d m s hd hm]
  have h1 := Real.arccos_nonneg ((m 1 - s 1) / √((m 0 - s 0) ^ 2 + (m 1 - s 1) ^ 2 + (m 2 - s 2) ^ 2))
  have h2 := Real.arccos_nonneg (d 1 / √(d 0 ^ 2 + d 1 ^ 2 + d 2 ^ 2))
  unfold polarY
  refine ⟨by linarith, ⟨fun h => by linarith, fun h => by linarith⟩⟩

/-- The example of the documentation is out of range. -/
theorem C111_documented_example : (radiationAngles ![1, 0, 0] ![1, 0, 0] 0).2 = 3 * π / 2 := by
  have h1 : (![1, 0, 0] : Fin 3 → ℝ) ≠ 0 := fun h => by simpa using congrFun h 0
  rw [C111_elevation _ _ _ h1 h1]
  have e : polarY ![1, 0, 0] = π / 2 := by simp [polarY]
  have e' : polarY (fun i => (![1, 0, 0] : Fin 3 → ℝ) i - (0 : Fin 3 → ℝ) i) = π / 2 := by simp [polarY]
  rw [e, e']
  ring

private theorem polar_up : polarY ![0, 1, 0] = 0 := by simp [polarY]

private theorem polar_diag : polarY (rotZ (-(π / 4)) ![0, 1, 0]) = π / 4 := by
  have h : rotZ (-(π / 4)) ![0, 1, 0] = ![sin (π / 4), cos (π / 4), 0] := by
    funext i; fin_cases i <;> simp [rotZ]
  rw [h]
  unfold polarY
  simp only [Matrix.cons_val]
  rw [show sin (π / 4) ^ 2 + cos (π / 4) ^ 2 + 0 ^ 2 = 1 by rw [sin_sq_add_cos_sq]; norm_num, Real.sqrt_one, div_one]
  exact Real.arccos_cos (by positivity) (by linarith [Real.pi_pos])

/-- Turning source and microphone together about the z axis changes the elevation. -/
theorem C111_rotation_violated :
    ∃ d m : Fin 3 → ℝ, ∃ t : ℝ, (radiationAngles (rotZ t d) (rotZ t m) 0).2 = π ∧ (radiationAngles d m 0).2 = π / 2 := by
  have h1 : (![0, 1, 0] : Fin 3 → ℝ) ≠ 0 := fun h => by simpa using congrFun h 1
  have h2 : rotZ (-(π / 4)) ![0, 1, 0] ≠ 0 := fun h => by
    have := congrFun h 1
    simp [rotZ] at this
  refine ⟨![0, 1, 0], ![0, 1, 0], -(π / 4), ?_, ?_⟩
  · rw [C111_elevation _ _ _ h2 h2]
    simp only [Pi.zero_apply, sub_zero]
    have a : polarY (fun i => rotZ (-(π / 4)) ![0, 1, 0] i) = π / 4 := polar_diag
    rw [a]; ring
  · rw [C111_elevation _ _ _ h1 h1]
    simp only [Pi.zero_apply, sub_zero]
    have a : polarY (fun i => (![0, 1, 0] : Fin 3 → ℝ) i) = 0 := polar_up
    rw [a]; ring

/-! ## Modes -/

/-- The column of the mode of degree `l` and order `m`. -/
def Spec.modeColumn (l : ℕ) (m : ℤ) : ℕ := (l ^ 2 + l + m).toNat

/-- The factor of the modes of degree `l` and order `±k` that does not depend on the azimuth. -/
noncomputable def Spec.modeAmp (l k : ℕ) (ele : ℝ) : ℝ :=
  √((2 * l + 1) / (4 * π) * ((l - k).factorial / (l + k).factorial)) * legendreP l k (cos ele)

private theorem foldl_set {α β : Type} (f : β → α) (xs : List β) (a : List α) (i : ℕ) (h : i + xs.length ≤ a.length) :
    xs.foldl (fun (st : List α × ℕ) p => (st.1.set st.2 (f p), st.2 + 1)) (a, i) =
      (a.take i ++ xs.map f ++ a.drop (i + xs.length), i + xs.length) := by
  induction xs generalizing a i with
  | nil => simp
  | cons x xs ih =>
    simp only [List.length_cons] at h
    rw [List.foldl_cons, ih _ _ (by simp; omega)]
    have hi : i < a.length := by omega
    refine Prod.ext ?_ (by simp; omega)
    simp only [List.map_cons, List.length_cons]
    have e1 : (a.set i (f x)).take (i + 1) = a.take i ++ [f x] := by
      rw [List.take_add_one, List.take_set_of_le (by omega)]
      simp [hi]
    rw [e1, List.drop_set_of_lt (by omega), show i + 1 + xs.length = i + (xs.length + 1) by omega]
    simp

private theorem modePairs_succ (L : ℕ) :
    modePairs (L + 1) = modePairs L ++ (List.range (2 * (L + 1) + 1)).map fun j : ℕ => (L + 1, (j : ℤ) - ((L + 1 : ℕ) : ℤ)) := by
  unfold modePairs
  rw [List.range_succ, List.flatMap_append]
  simp

private theorem modePairs_length (L : ℕ) : (modePairs L).length = (L + 1) ^ 2 := by
  induction L with
  | zero => rfl
  | succ L ih => rw [modePairs_succ, List.length_append, ih]; simp; ring

private theorem modePairs_get (L l : ℕ) (m : ℤ) (hl : l ≤ L) (h1 : -(l : ℤ) ≤ m) (h2 : m ≤ l) :
    (modePairs L)[modeColumn l m]? = some (l, m) := by
  obtain ⟨j, hj⟩ : ∃ j : ℕ, (j : ℤ) = m + l := ⟨(m + l).toNat, by omega⟩
  have hc : modeColumn l m = l ^ 2 + j := by
    have : (l : ℤ) ^ 2 + l + m = ((l ^ 2 + j : ℕ) : ℤ) := by push_cast; omega
    unfold modeColumn
    rw [this, Int.toNat_natCast]
  induction L with
  | zero =>
    obtain rfl : l = 0 := by omega
    obtain rfl : m = 0 := by omega
    rfl
  | succ L ih =>
    rw [modePairs_succ]
    rcases Nat.lt_or_ge l (L + 1) with h | h
    · rw [List.getElem?_append_left, ih (by omega)]
      rw [modePairs_length, hc]
      have : (l + 1) ^ 2 ≤ (L + 1) ^ 2 := Nat.pow_le_pow_left (by omega) 2
      nlinarith
    · obtain rfl : l = L + 1 := by omega
      rw [List.getElem?_append_right (by rw [modePairs_length, hc]; omega), modePairs_length, hc, Nat.add_sub_cancel_left,
        List.getElem?_map, List.getElem?_range (by omega)]
      simp only [Option.map_some, Option.some.injEq, Prod.mk.injEq, true_and]
      omega

variable (L : ℕ) (src : Option (Fin 3 → ℝ))

private theorem getModes_eq :
    getModes L d m src = (modePairs L).map
      (modeValue (radiationAngles d m (src.getD fun _ => 0)).1 (radiationAngles d m (src.getD fun _ => 0)).2) := by
  unfold getModes
  simp only
  rw [foldl_set _ _ _ _ (by simp [modePairs_length])]
  simp [modePairs_length]

/-- **C112** There are `(lOrder + 1)²` modes, and the columns of the modes of degrees up to `lOrder` are all of them,
each once. -/
theorem C112_columns :
    (getModes L d m src).length = (L + 1) ^ 2 ∧
      ∀ i < (L + 1) ^ 2, ∃! p : ℕ × ℤ, p.1 ≤ L ∧ -(p.1 : ℤ) ≤ p.2 ∧ p.2 ≤ p.1 ∧ modeColumn p.1 p.2 = i := by
  refine ⟨by rw [getModes_eq]; simp [modePairs_length], fun i hi => ?_⟩
  have hrange : ∀ p ∈ modePairs L, p.1 ≤ L ∧ -(p.1 : ℤ) ≤ p.2 ∧ p.2 ≤ p.1 := by
    intro p hp
    unfold modePairs at hp
    simp only [List.mem_flatMap, List.mem_range, List.mem_map] at hp
    obtain ⟨l, hl, j, hj, rfl⟩ := hp
    refine ⟨?_, ?_, ?_⟩ <;> simp only <;> omega
  have hinj : ∀ l k : ℕ, ∀ a b : ℤ, -(l : ℤ) ≤ a → a ≤ l → -(k : ℤ) ≤ b → b ≤ k → modeColumn l a = modeColumn k b →
      l = k ∧ a = b := by
    intro l k a b h1 h2 h3 h4 h
    have key := modePairs_get (max l k) l a (le_max_left _ _) h1 h2
    have key' := modePairs_get (max l k) k b (le_max_right _ _) h3 h4
    rw [h, key'] at key
    simpa [eq_comm] using key
  have hcol : ∀ p : ℕ × ℤ, p.1 ≤ L → -(p.1 : ℤ) ≤ p.2 → p.2 ≤ p.1 → modeColumn p.1 p.2 < (L + 1) ^ 2 := by
    intro p h1 h2 h3
    have := modePairs_get L p.1 p.2 h1 h2 h3
    rw [← modePairs_length]
    exact (List.getElem?_eq_some_iff.1 this).1
  -- the map from the pairs to the columns is injective between finite sets of the same size
  have hsurj : ∃ p ∈ modePairs L, modeColumn p.1 p.2 = i := by
    let S := (modePairs L).toFinset
    have hnd : (modePairs L).Nodup := by
      unfold modePairs
      rw [List.nodup_flatMap]
      refine ⟨fun l _ => List.nodup_range.map fun a b h => by simpa using h, ?_⟩
      refine List.nodup_range.imp fun {a b} hab => ?_
      intro x hx hy
      simp only [List.mem_map] at hx hy
      obtain ⟨_, _, rfl⟩ := hx
      obtain ⟨_, _, h⟩ := hy
      exact hab (congrArg Prod.fst h).symm
    have hcard : S.card = (Finset.range ((L + 1) ^ 2)).card := by
      rw [Finset.card_range, List.toFinset_card_of_nodup hnd, modePairs_length]
    have := Finset.surj_on_of_inj_on_of_card_le (s := S) (t := Finset.range ((L + 1) ^ 2))
      (fun p _ => modeColumn p.1 p.2)
      (fun p hp => by
        have h := hrange p (List.mem_toFinset.1 hp)
        exact Finset.mem_range.2 (hcol p h.1 h.2.1 h.2.2))
      (fun p q hp hq h => by
        have h1 := hrange p (List.mem_toFinset.1 hp)
        have h2 := hrange q (List.mem_toFinset.1 hq)
        have := hinj _ _ _ _ h1.2.1 h1.2.2 h2.2.1 h2.2.2 h
        exact Prod.ext this.1 this.2) hcard.ge i (Finset.mem_range.2 hi)
    obtain ⟨p, hp, e⟩ := this
    exact ⟨p, List.mem_toFinset.1 hp, e.symm⟩
  obtain ⟨p, hp, e⟩ := hsurj
  have h := hrange p hp
  refine ⟨p, ⟨h.1, h.2.1, h.2.2, e⟩, ?_⟩
  rintro q ⟨q1, q2, q3, q4⟩
  have := hinj q.1 p.1 q.2 p.2 q2 q3 h.2.1 h.2.2 (q4.trans e.symm)
  exact Prod.ext this.1 this.2

/-- **C112** Column `l² + l + m` holds, for `m ≥ 0`, the spherical harmonic `A exp(i m azi)` and, for `m < 0`,
`i (-1)^m A exp(i |m| azi)`. -/
theorem C112_modes (l k : ℕ) (hl : l ≤ L) (hk : k ≤ l) :
    let ae := radiationAngles d m (src.getD fun _ => 0)
    (getModes L d m src)[modeColumn l k]? = some (modeAmp l k ae.2 * Complex.exp (k * ae.1 * Complex.I)) ∧
      (0 < k → (getModes L d m src)[modeColumn l (-k)]? =
        some (Complex.I * (-1) ^ k * (modeAmp l k ae.2 * Complex.exp (k * ae.1 * Complex.I)))) := by
  intro ae
  rw [getModes_eq, List.getElem?_map, List.getElem?_map, modePairs_get L l k hl (by omega) (by omega),
    modePairs_get L l (-k) hl (by omega) (by omega)]
  constructor
  · simp only [Option.map_some, Option.some.injEq]
    unfold modeValue sphHarm modeAmp
    simp only [Int.natAbs_natCast]
    rw [if_neg (by omega), if_pos (by omega)]
  · intro hk0
    simp only [Option.map_some, Option.some.injEq]
    unfold modeValue sphHarm modeAmp
    simp only [Int.natAbs_neg, Int.natAbs_natCast]
    rw [if_pos (by omega), if_neg (by omega), map_mul, Complex.conj_conj]
    simp only [map_pow, map_neg, map_one]
    ring

/-- **C112** The real part of the modes, which scales the signals (C94), are the real spherical harmonics (up to sign and
a factor √2): `A cos(m azi)` for `m ≥ 0` and `A sin(|m| azi)` for `m < 0`. -/
theorem C112_real (l k : ℕ) (hl : l ≤ L) (hk : k ≤ l) :
    let ae := radiationAngles d m (src.getD fun _ => 0)
    (getModes L d m src)[modeColumn l k]?.map Complex.re = some (modeAmp l k ae.2 * cos (k * ae.1)) ∧
      (0 < k → (getModes L d m src)[modeColumn l (-k)]?.map Complex.re =
        some ((-1) ^ (k + 1) * modeAmp l k ae.2 * sin (k * ae.1))) := by
  intro ae
  obtain ⟨h1, h2⟩ := C112_modes d m L src l k hl hk
  have ex : Complex.exp (k * ae.1 * Complex.I) = Complex.cos ((k * ae.1 : ℝ) : ℂ) + Complex.sin ((k * ae.1 : ℝ) : ℂ) * Complex.I := by
    rw [← Complex.exp_mul_I]; push_cast; rfl
  refine ⟨?_, fun hk0 => ?_⟩
  · rw [h1, Option.map_some, ex]
    have : ((modeAmp l k ae.2 : ℝ) : ℂ) * (Complex.cos ((k * ae.1 : ℝ) : ℂ) + Complex.sin ((k * ae.1 : ℝ) : ℂ) * Complex.I) =
        ((modeAmp l k ae.2 * cos (k * ae.1) : ℝ) : ℂ) + ((modeAmp l k ae.2 * sin (k * ae.1) : ℝ) : ℂ) * Complex.I := by
      push_cast; ring
    show some (Complex.re (((modeAmp l k ae.2 : ℝ) : ℂ) * _)) = _
    rw [this, Complex.add_re, Complex.ofReal_re, Complex.re_ofReal_mul, Complex.I_re, mul_zero, add_zero]
  · rw [h2 hk0, Option.map_some, ex]
    have : Complex.I * (-1) ^ k * (((modeAmp l k ae.2 : ℝ) : ℂ) * (Complex.cos ((k * ae.1 : ℝ) : ℂ) + Complex.sin ((k * ae.1 : ℝ) : ℂ) * Complex.I)) =
        (((-1) ^ k * modeAmp l k ae.2 * cos (k * ae.1) : ℝ) : ℂ) * Complex.I + (((-1) ^ (k + 1) * modeAmp l k ae.2 * sin (k * ae.1) : ℝ) : ℂ) := by
      push_cast
      linear_combination (-1) ^ k * ((modeAmp l k ae.2 : ℝ) : ℂ) * Complex.sin (k * ae.1) * Complex.I_sq
    rw [this, Complex.add_re, Complex.ofReal_re, Complex.re_ofReal_mul, Complex.I_re, mul_zero, zero_add]

private theorem mode10 (ele : ℝ) : modeAmp 1 0 ele = √(3 / (4 * π)) * cos ele := by
  unfold modeAmp legendreP
  norm_num
  left
  ring

/-- A microphone in the direction of a source of degree one: the radiation depends on how the two are turned in space. -/
theorem C112_rotation_violated : ∃ d m : Fin 3 → ℝ, ∃ t : ℝ,
    (getModes 1 d m none)[modeColumn 1 0]? = some 0 ∧
      (getModes 1 (rotZ t d) (rotZ t m) none)[modeColumn 1 0]? = some (-√(3 / (4 * π)) : ℝ) := by
  obtain ⟨d, m, t, h1, h2⟩ := C111_rotation_violated
  refine ⟨d, m, t, ?_, ?_⟩
  · have := (C112_modes d m 1 none 1 0 (le_refl _) (by norm_num)).1
    rw [show ((0 : ℕ) : ℤ) = 0 from rfl] at this
    rw [this]
    have h2' : (radiationAngles d m (Option.getD none fun _ => 0)).2 = π / 2 := h2
    rw [h2', mode10]
    simp
  · have := (C112_modes (rotZ t d) (rotZ t m) 1 none 1 0 (le_refl _) (by norm_num)).1
    rw [show ((0 : ℕ) : ℤ) = 0 from rfl] at this
    rw [this]
    have h1' : (radiationAngles (rotZ t d) (rotZ t m) (Option.getD none fun _ => 0)).2 = π := h1
    rw [h1', mode10]
    simp

open Polynomial in
private theorem legendre_pole (l : ℕ) (s : ℝ) (hs : s ^ 2 = 1) : legendreP l 0 s = s ^ l := by
  unfold legendreP
  have h : (Polynomial.derivative^[l] ((X ^ 2 - 1 : Polynomial ℝ) ^ l)).eval s = (l.factorial : ℝ) * (2 * s) ^ l := by
    rw [← Polynomial.factorial_smul_hasseDeriv]
    rw [LinearMap.smul_apply, Polynomial.eval_smul, ← Polynomial.taylor_coeff, nsmul_eq_mul]
    congr 1
    have e : taylor s ((X ^ 2 - 1 : Polynomial ℝ) ^ l) = X ^ l * (X + C (2 * s)) ^ l := by
      rw [taylor_pow, ← mul_pow]
      congr 1
      simp only [map_sub, taylor_pow, taylor_X, taylor_one, C_1]
      have : (C s : Polynomial ℝ) ^ 2 = 1 := by rw [← C_pow, hs, C_1]
      rw [show (C (2 * s) : Polynomial ℝ) = 2 * C s by rw [C_mul]; rfl]
      linear_combination this
    rw [e, coeff_X_pow_mul', if_pos (le_refl _), Nat.sub_self, coeff_zero_eq_eval_zero]
    simp
  rw [add_zero, h]
  have : (l.factorial : ℝ) ≠ 0 := by exact_mod_cast l.factorial_ne_zero
  have h2 : (2 : ℝ) ^ l ≠ 0 := by positivity
  rw [mul_pow]
  field_simp

/-- **C112** On the axis of the angles (elevation a multiple of π) only the modes of order 0 radiate, with `√((2l+1)/(4π))`,
and the odd degrees have the sign of the side. -/
theorem C112_axis (l k : ℕ) (hl : l ≤ L) (hk : k ≤ l) :
    let ae := radiationAngles d m (src.getD fun _ => 0)
    cos ae.2 ^ 2 = 1 →
      (getModes L d m src)[modeColumn l 0]? = some ((√((2 * l + 1) / (4 * π)) * cos ae.2 ^ l : ℝ) : ℂ) ∧
        (0 < k → (getModes L d m src)[modeColumn l k]? = some 0 ∧ (getModes L d m src)[modeColumn l (-k)]? = some 0) := by
  intro ae h
  constructor
  · have h0 := (C112_modes d m L src l 0 hl (Nat.zero_le _)).1
    rw [show ((0 : ℕ) : ℤ) = 0 from rfl] at h0
    rw [h0]
    congr 1
    unfold modeAmp
    rw [show radiationAngles d m (src.getD fun _ => 0) = ae from rfl, legendre_pole l _ h]
    have : (l.factorial : ℝ) ≠ 0 := by exact_mod_cast l.factorial_ne_zero
    simp [this]
  · intro hk0
    have hz : modeAmp l k ae.2 = 0 := by
      unfold modeAmp legendreP
      rw [h, sub_self, Real.sqrt_zero, zero_pow (by omega)]
      simp
    obtain ⟨h1, h2⟩ := C112_modes d m L src l k hl hk
    have h2 := h2 hk0
    rw [show radiationAngles d m (src.getD fun _ => 0) = ae from rfl, hz] at h1 h2
    rw [h1, h2]
    simp

/-- A microphone on the y axis and a direction along the x axis meet the hypothesis. -/
example : cos (radiationAngles ![1, 0, 0] ![0, 1, 0] 0).2 ^ 2 = 1 := by
  have h1 : (![1, 0, 0] : Fin 3 → ℝ) ≠ 0 := fun h => by simpa using congrFun h 0
  have h2 : (![0, 1, 0] : Fin 3 → ℝ) ≠ 0 := fun h => by simpa using congrFun h 1
  rw [C111_elevation _ _ _ h1 h2]
  have e : polarY ![1, 0, 0] = π / 2 := by simp [polarY]
  have e' : polarY (fun i => (![0, 1, 0] : Fin 3 → ℝ) i - (0 : Fin 3 → ℝ) i) = 0 := by simp [polarY]
  rw [e, e', show 0 + π / 2 + π / 2 = π by ring, cos_pi]
  norm_num

/-- The modes of degree one for a microphone on the x axis. -/
example : modeColumn 1 (-1) = 1 ∧ modeColumn 1 0 = 2 ∧ modeColumn 1 1 = 3 ∧ modeColumn 2 (-2) = 4 := by decide

/-- Directions that meet the hypotheses. -/
example : ((![1, 0, 0] : Fin 3 → ℝ) 0 ≠ 0 ∨ (![1, 0, 0] : Fin 3 → ℝ) 2 ≠ 0) ∧ (![1, 0, 0] : Fin 3 → ℝ) ≠ 0 := by
  refine ⟨Or.inl (by simp), fun h => by simpa using congrFun h 0⟩

end Acoular
