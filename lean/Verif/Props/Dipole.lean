import Verif.Model.Dipole
import Verif.Spec.Sources
import Mathlib.Analysis.Calculus.Deriv.Inv
import Mathlib.Analysis.Calculus.Deriv.Add
import Mathlib.Analysis.Calculus.Deriv.Mul
import Mathlib.Analysis.Calculus.Deriv.Comp
import Mathlib.Analysis.Calculus.Deriv.Pow
import Mathlib.Analysis.SpecialFunctions.Sqrt
import Mathlib.Analysis.InnerProductSpace.PiL2
import Mathlib.Tactic.Linarith
import Mathlib.Tactic.FieldSimp
import Mathlib.Tactic.Ring
import Mathlib.Tactic.NormNum
import Mathlib.Tactic.Positivity

/-!
# C149: the sound of a fixed dipole
-/

namespace Acoular

variable {M : ℕ}

/-- Distance of two points. -/
noncomputable def Spec.pointDist (x y : Fin 3 → ℝ) : ℝ := √((x 0 - y 0) ^ 2 + (x 1 - y 1) ^ 2 + (x 2 - y 2) ^ 2)

/-- Sound pressure at `x`, time `t`, of a monopole at `y` with the signal `s` in a medium with speed of sound `c`. -/
noncomputable def Spec.monopoleField (c : ℝ) (s : ℝ → ℝ) (y x : Fin 3 → ℝ) (t : ℝ) : ℝ :=
  s (t - pointDist y x / c) / pointDist y x

/-- `D` is the sound pressure of a dipole at `y` with direction `n`: the change of the field of a monopole that is moved in
this direction. -/
def Spec.IsDipoleField (c : ℝ) (s : ℝ → ℝ) (y n x : Fin 3 → ℝ) (t D : ℝ) : Prop :=
  HasDerivAt (fun h : ℝ => monopoleField c s (fun i => y i + h * n i) x t) D 0

open Spec

/-- Two poles of opposite sign at `y ± h n`: the quotient of the difference of their fields and of their distance tends
to the field of the dipole; see `C149_field` for its value. -/
private theorem sq_path (y n x : Fin 3 → ℝ) : HasDerivAt (fun h : ℝ => (y 0 + h * n 0 - x 0) ^ 2 + (y 1 + h * n 1 - x 1) ^ 2 +
    (y 2 + h * n 2 - x 2) ^ 2) (2 * (n 0 * (y 0 - x 0) + n 1 * (y 1 - x 1) + n 2 * (y 2 - x 2))) 0 := by
  have h : ∀ i : Fin 3, HasDerivAt (fun h : ℝ => (y i + h * n i - x i) ^ 2) (2 * (n i * (y i - x i))) 0 := by
    intro i
    have h1 : HasDerivAt (fun h : ℝ => y i + h * n i - x i) (1 * n i) 0 :=
      HasDerivAt.sub_const (x i) (HasDerivAt.const_add (y i) (HasDerivAt.mul_const (hasDerivAt_id (0 : ℝ)) (n i)))
    refine (HasDerivAt.pow h1 2).congr_deriv ?_
    simp
    ring
  refine (HasDerivAt.add (HasDerivAt.add (h 0) (h 1)) (h 2)).congr_deriv ?_
  ring

/-- **C149** (the field wanted): at distance `r` and angle `θ` to the direction, the field of a dipole consists of a near
field, which follows the signal, and a far field, which follows its derivative, both proportional to `cos θ`. -/
theorem C149_field (c : ℝ) (s : ℝ → ℝ) (s' : ℝ) (y n x : Fin 3 → ℝ) (t : ℝ) (hr : 0 < pointDist y x)
    (hs : HasDerivAt s s' (t - pointDist y x / c)) :
    let r := pointDist y x
    let cosθ := (n 0 * (x 0 - y 0) + n 1 * (x 1 - y 1) + n 2 * (x 2 - y 2)) / r
    IsDipoleField c s y n x t (cosθ * (s (t - r / c) / r ^ 2 + s' / (c * r))) := by
  intro r cosθ
  have hsq := sq_path y n x
  have hpos : (y 0 + 0 * n 0 - x 0) ^ 2 + (y 1 + 0 * n 1 - x 1) ^ 2 + (y 2 + 0 * n 2 - x 2) ^ 2 ≠ 0 := by
    intro h
    simp only [zero_mul, add_zero] at h
    unfold pointDist at hr
    rw [h, Real.sqrt_zero] at hr
    exact lt_irrefl 0 hr
  have hd := hsq.sqrt hpos
  have e0 : (√((y 0 + 0 * n 0 - x 0) ^ 2 + (y 1 + 0 * n 1 - x 1) ^ 2 + (y 2 + 0 * n 2 - x 2) ^ 2)) = r := by
    simp only [zero_mul, add_zero]; rfl
  rw [e0] at hd
  have hd' : HasDerivAt (fun h : ℝ => pointDist (fun i => y i + h * n i) x) (-cosθ) 0 := by
    refine hd.congr_deriv ?_
    simp only [cosθ]
    field_simp
    ring
  have e1 : pointDist (fun i => y i + 0 * n i) x = r := by simp only [zero_mul, add_zero]; rfl
  have hin : HasDerivAt (fun h : ℝ => t - pointDist (fun i => y i + h * n i) x / c) (cosθ / c) 0 := by
    refine (HasDerivAt.const_sub t (HasDerivAt.div_const hd' c)).congr_deriv ?_
    ring
  have hs2 : HasDerivAt s s' (t - pointDist (fun i => y i + 0 * n i) x / c) := by rw [e1]; exact hs
  have hcomp := HasDerivAt.comp (0 : ℝ) hs2 hin
  have hne : pointDist (fun i => y i + 0 * n i) x ≠ 0 := by rw [e1]; exact hr.ne'
  unfold IsDipoleField monopoleField
  refine (HasDerivAt.div hcomp hd' hne).congr_deriv ?_
  simp only [Function.comp, e1]
  have hr0 : r ≠ 0 := hr.ne'
  by_cases hc : c = 0
  · subst hc; simp; field_simp
  · field_simp
    ring

/-- The hypotheses of `C149_field` are met: a quadratic signal, a microphone at distance three. -/
example : IsDipoleField 1 (fun τ => τ ^ 2) 0 ![0, 0, 1] ![0, 0, 3] 5 (1 * (2 ^ 2 / 3 ^ 2 + 4 / (1 * 3))) := by
  have hd : pointDist 0 ![0, 0, 3] = 3 := by
    unfold pointDist
    simp
  have := C149_field 1 (fun τ => τ ^ 2) 4 0 ![0, 0, 1] ![0, 0, 3] 5 (by rw [hd]; norm_num) (by
    rw [hd]
    refine (hasDerivAt_pow 2 _).congr_deriv ?_
    norm_num)
  simp only [hd] at this
  convert this using 2
  · simp
  · norm_num

/-! ### The program -/

/-- The places of the two poles: half of `wave length * magnitude * 1e-5` before and behind the place of the dipole. -/
noncomputable def Spec.pole (s : SrcSet M) (σ : ℝ) (i : Fin 3) : ℝ :=
  s.loc i + σ * (s.c / s.signal.fs * (s.direction i / 100000) / 2)

/-- The distance of the poles. -/
noncomputable def Spec.poleDistance (s : SrcSet M) : ℝ := s.c / s.signal.fs * (pointDist s.direction 0 / 100000)

/-- The sample of the signal that reaches a microphone at distance `r` at sample `t`. -/
noncomputable def Spec.arriving (s : SrcSet M) (r : ℝ) (t : ℕ) : ℤ :=
  nearestSample ((t + (s.start - s.startT - r / s.c) * s.signal.fs) * s.up)

private theorem abs_dist (x y : Fin 3 → ℝ) : (absVec fun i => x i - y i) = pointDist x y := by
  unfold absVec pointDist
  congr 1
  ring

private theorem mag_eq (s : SrcSet M) : s.direcMag = pointDist s.direction 0 / 100000 := by
  unfold SrcSet.direcMag absVec pointDist
  rw [show (s.direction 0 * (1 / 100000) * (s.direction 0 * (1 / 100000)) + s.direction 1 * (1 / 100000) *
      (s.direction 1 * (1 / 100000)) + s.direction 2 * (1 / 100000) * (s.direction 2 * (1 / 100000))) =
      ((s.direction 0 - (0 : Fin 3 → ℝ) 0) ^ 2 + (s.direction 1 - (0 : Fin 3 → ℝ) 1) ^ 2 +
      (s.direction 2 - (0 : Fin 3 → ℝ) 2) ^ 2) * (1 / 100000) ^ 2 by simp only [Pi.zero_apply]; ring]
  rw [Real.sqrt_mul (by positivity), Real.sqrt_sq (by norm_num)]
  ring

private theorem poleDist_eq (s : SrcSet M) : s.poleDist = poleDistance s := by
  unfold SrcSet.poleDist poleDistance
  rw [mag_eq]

private theorem half_eq (s : SrcSet M) (h : s.direcMag ≠ 0) (i : Fin 3) :
    s.halfVector i = s.c / s.signal.fs * (s.direction i / 100000) / 2 := by
  unfold SrcSet.halfVector SrcSet.poleDist
  by_cases hf : s.signal.fs = 0
  · simp [hf]
  · field_simp

private theorem arrayGet_looped (l : List ℝ) (i : ℤ) : arrayGet l i = loopedSample l i := by
  unfold arrayGet loopedSample
  by_cases h : 0 ≤ i
  · rw [if_neg (by omega), if_pos h]
  · rw [if_pos (by omega), if_neg h]
    by_cases h2 : -(l.length : ℤ) ≤ i
    · rw [if_neg (by omega), if_pos h2, add_comm]
    · rw [if_pos (by omega), if_neg h2]

private theorem index_eq (s : SrcSet M) (r : Fin (M + 1) → ℝ) (m : Fin (M + 1)) (t : ℕ) :
    truncInt (1 / 2 + (s.firstIndex r m + t) * (s.up : ℝ)) = arriving s (r m) t := by
  unfold arriving nearestSample truncInt SrcSet.firstIndex
  have e : (1 / 2 + ((-r m / s.c - s.startT + s.start) * s.signal.fs + t) * (s.up : ℝ)) =
      (t + (s.start - s.startT - r m / s.c) * s.signal.fs) * s.up + 1 / 2 := by ring
  rw [e]

private theorem fancy_some (sig : List ℝ) (rm pos : Fin (M + 1) → ℝ) (a : Fin (M + 1) → ℝ) (h : fancyRow sig rm pos = some a)
    (m : Fin (M + 1)) : ∃ x, arrayGet sig (truncInt (1 / 2 + pos m)) = some x ∧ a m = x / rm m := by
  unfold fancyRow at h
  split at h
  · rename_i hh
    obtain ⟨x, hx⟩ := Option.isSome_iff_exists.1 (hh m)
    refine ⟨x, hx, ?_⟩
    rw [← Option.some.inj h]
    simp only [hx, Option.get_some]
  · cases h

/-- **C149** (part): what a microphone receives from the two poles: one sample of the signal from each, the one that arrives
at the time of the sample, divided by the distance of the pole; the difference is scaled with the distance of the dipole and
the distance of the poles. -/
theorem C149_poles_partial (s : SrcSet M) (t : ℕ) (f : Fin (M + 1) → ℝ) (h : s.dipoleRow t = some f) (m : Fin (M + 1)) :
    let r := pointDist s.loc (s.mics m)
    let r1 := pointDist (pole s 1) (s.mics m)
    let r2 := pointDist (pole s (-1)) (s.mics m)
    ∃ a b, loopedSample (s.signal.u s.up) (arriving s r1 t) = some a ∧ loopedSample (s.signal.u s.up) (arriving s r2 t) = some b ∧
      f m = r / poleDistance s * (a / r1 - b / r2) := by
  intro r r1 r2
  unfold SrcSet.dipoleRow at h
  split at h
  · cases h
  rename_i hm
  unfold Acoular.dipoleRow at h
  simp only at h
  split at h
  · rename_i a b ha hb
    obtain ⟨x, hx, hx'⟩ := fancy_some _ _ _ _ ha m
    obtain ⟨y, hy, hy'⟩ := fancy_some _ _ _ _ hb m
    rw [index_eq, arrayGet_looped] at hx hy
    have e1 : (fun i => s.loc i + s.halfVector i) = pole s 1 := by
      funext i; unfold pole; rw [half_eq s hm]; ring
    have e2 : (fun i => s.loc i - s.halfVector i) = pole s (-1) := by
      funext i; unfold pole; rw [half_eq s hm]; ring
    unfold SrcSet.dist at hx hy hx' hy' h
    rw [e1, abs_dist] at hx hx'
    rw [e2, abs_dist] at hy hy'
    refine ⟨x, y, hx, hy, ?_⟩
    rw [← Option.some.inj h]
    simp only
    rw [hx', hy', poleDist_eq, abs_dist]
  · cases h

/-- **C149** (part): no sound in the directions orthogonal to that of the dipole. -/
theorem C149_perpendicular (s : SrcSet M) (t : ℕ) (f : Fin (M + 1) → ℝ) (h : s.dipoleRow t = some f) (m : Fin (M + 1))
    (hp : s.direction 0 * (s.mics m 0 - s.loc 0) + s.direction 1 * (s.mics m 1 - s.loc 1) +
      s.direction 2 * (s.mics m 2 - s.loc 2) = 0) : f m = 0 := by
  obtain ⟨a, b, ha, hb, hf⟩ := C149_poles_partial s t f h m
  have e : pointDist (pole s 1) (s.mics m) = pointDist (pole s (-1)) (s.mics m) := by
    unfold pointDist pole
    congr 1
    linear_combination (-(4 * (s.c / s.signal.fs / 100000 / 2))) * hp
  rw [e] at ha hf
  rw [Option.some.inj (ha.symm.trans hb)] at hf
  rw [hf]
  ring

private theorem loop_map {R S : Type*} (g : R → S) (row : ℕ → Option R) (num : ℕ) (b : Bool) (n : ℕ) : ∀ (t : ℕ) (buf : List R),
    sourceLoop (fun k => (row k).map g) num b n t (buf.map g) = (sourceLoop row num b n t buf).map (List.map g) := by
  induction n with
  | zero =>
    intro t buf
    simp only [sourceLoop, List.length_map]
    split <;> rfl
  | succ n ih =>
    intro t buf
    simp only [sourceLoop, List.length_map]
    cases row t with
    | none => simp only [Option.map_none]; split <;> rfl
    | some r =>
      simp only [Option.map_some]
      split
      · have := ih (t + 1) []
        simp only [List.map_nil] at this
        rw [this]
        simp
      · rw [← ih (t + 1)]
        simp

/-- **C149** (part): the dipole in the opposite direction makes the negative of the sound. -/
theorem C149_reverse (s : SrcSet M) (num : ℕ) :
    { s with direction := fun i => -s.direction i }.dipoleResult num =
      (s.dipoleResult num).map (List.map fun (f : Fin (M + 1) → ℝ) m => -f m) := by
  have hm : { s with direction := fun i => -s.direction i }.direcMag = s.direcMag := by
    unfold SrcSet.direcMag absVec
    simp only
    congr 1
    ring
  have hh : { s with direction := fun i => -s.direction i }.halfVector = fun i => -s.halfVector i := by
    funext i
    unfold SrcSet.halfVector SrcSet.poleDist
    rw [hm]
    simp only
    ring
  have hrow : { s with direction := fun i => -s.direction i }.dipoleRow =
      fun t => (s.dipoleRow t).map fun (f : Fin (M + 1) → ℝ) m => -f m := by
    funext t
    unfold SrcSet.dipoleRow
    rw [hm]
    split
    · rfl
    · rw [hh]
      simp only [sub_neg_eq_add, ← sub_eq_add_neg]
      unfold Acoular.dipoleRow SrcSet.poleDist SrcSet.firstIndex SrcSet.dist
      rw [hm]
      simp only
      generalize fancyRow _ (fun m => absVec fun i => s.loc i - s.halfVector i - s.mics m i) _ = A
      generalize fancyRow _ (fun m => absVec fun i => s.loc i + s.halfVector i - s.mics m i) _ = B
      cases A <;> cases B <;> simp
      funext m
      ring
  unfold SrcSet.dipoleResult
  rw [hrow]
  exact loop_map _ _ _ _ _ 0 []

private theorem near_step (x y : ℝ) (h : |x - y| < 1) : |nearestSample x - nearestSample y| ≤ 1 := by
  have key : ∀ z : ℝ, ((0 : ℝ) ≤ nearestSample z ∧ (nearestSample z : ℝ) ≤ z + 1 / 2 ∧ z + 1 / 2 < nearestSample z + 1) ∨
      ((nearestSample z : ℝ) ≤ 0 ∧ (nearestSample z : ℝ) - 1 < z + 1 / 2 ∧ z + 1 / 2 ≤ nearestSample z) := by
    intro z
    unfold nearestSample
    split
    · rename_i hz
      right
      have h1 := Int.floor_le (-(z + 1 / 2))
      have h2 := Int.lt_floor_add_one (-(z + 1 / 2))
      have h3 : (0 : ℤ) ≤ ⌊-(z + 1 / 2)⌋ := Int.floor_nonneg.2 (by linarith)
      have h3' : (0 : ℝ) ≤ (⌊-(z + 1 / 2)⌋ : ℤ) := by exact_mod_cast h3
      push_cast
      exact ⟨by linarith, by linarith, by linarith⟩
    · rename_i hz
      left
      have h1 := Int.floor_le (z + 1 / 2)
      have h2 := Int.lt_floor_add_one (z + 1 / 2)
      have h3 : (0 : ℤ) ≤ ⌊z + 1 / 2⌋ := Int.floor_nonneg.2 (by linarith)
      exact ⟨by exact_mod_cast h3, h1, h2⟩
  obtain ⟨ha, hb⟩ := abs_lt.1 h
  have h1 : ((nearestSample x - nearestSample y : ℤ) : ℝ) < 2 := by
    push_cast
    rcases key x with ⟨p, q, r⟩ | ⟨p, q, r⟩ <;> rcases key y with ⟨p', q', r'⟩ | ⟨p', q', r'⟩ <;> linarith
  have h2 : (-2 : ℝ) < ((nearestSample x - nearestSample y : ℤ) : ℝ) := by
    push_cast
    rcases key x with ⟨p, q, r⟩ | ⟨p, q, r⟩ <;> rcases key y with ⟨p', q', r'⟩ | ⟨p', q', r'⟩ <;> linarith
  have h1' : nearestSample x - nearestSample y < 2 := by exact_mod_cast h1
  have h2' : -2 < nearestSample x - nearestSample y := by exact_mod_cast h2
  rw [abs_le]
  omega

private theorem dist_norm (x y : Fin 3 → ℝ) :
    pointDist x y = ‖(WithLp.toLp 2 x : EuclideanSpace ℝ (Fin 3)) - WithLp.toLp 2 y‖ := by
  rw [EuclideanSpace.norm_eq, Fin.sum_univ_three]
  unfold pointDist
  simp

private theorem dist_triangle' (x y z : Fin 3 → ℝ) : |pointDist x z - pointDist y z| ≤ pointDist x y := by
  rw [dist_norm, dist_norm, dist_norm]
  have := abs_norm_sub_norm_le ((WithLp.toLp 2 x : EuclideanSpace ℝ (Fin 3)) - WithLp.toLp 2 z) (WithLp.toLp 2 y - WithLp.toLp 2 z)
  rwa [sub_sub_sub_cancel_right] at this

private theorem pole_gap (s : SrcSet M) (hc : 0 < s.c) (hf : 0 < s.signal.fs) :
    pointDist (pole s 1) (pole s (-1)) = poleDistance s := by
  unfold poleDistance pointDist pole
  simp only [Pi.zero_apply, sub_zero]
  rw [show ((s.loc 0 + 1 * (s.c / s.signal.fs * (s.direction 0 / 100000) / 2) - (s.loc 0 + -1 * (s.c / s.signal.fs *
      (s.direction 0 / 100000) / 2))) ^ 2 + (s.loc 1 + 1 * (s.c / s.signal.fs * (s.direction 1 / 100000) / 2) - (s.loc 1 + -1 *
      (s.c / s.signal.fs * (s.direction 1 / 100000) / 2))) ^ 2 + (s.loc 2 + 1 * (s.c / s.signal.fs * (s.direction 2 / 100000) / 2) -
      (s.loc 2 + -1 * (s.c / s.signal.fs * (s.direction 2 / 100000) / 2))) ^ 2) =
      (s.direction 0 ^ 2 + s.direction 1 ^ 2 + s.direction 2 ^ 2) * (s.c / s.signal.fs / 100000) ^ 2 by ring]
  rw [Real.sqrt_mul (by positivity), Real.sqrt_sq (by positivity)]
  ring

/-- **C149** (part): with the small pole distances that the documentation recommends, both poles read the same sample of the
signal – then there is nothing but the near field, at most the sample divided by the distance – or neighbouring samples –
then their full difference is added, divided by the distance of the poles. -/
theorem C149_far_partial (s : SrcSet M) (hc : 0 < s.c) (hf : 0 < s.signal.fs) (hup : s.up * (pointDist s.direction 0 / 100000) < 1)
    (t : ℕ) (f : Fin (M + 1) → ℝ) (h : s.dipoleRow t = some f) (m : Fin (M + 1)) :
    let r := pointDist s.loc (s.mics m)
    let r1 := pointDist (pole s 1) (s.mics m)
    let r2 := pointDist (pole s (-1)) (s.mics m)
    0 < r1 → 0 < r2 →
    ∃ a b near, loopedSample (s.signal.u s.up) (arriving s r1 t) = some a ∧
      loopedSample (s.signal.u s.up) (arriving s r2 t) = some b ∧ |near| ≤ |b| * (r / (r1 * r2)) ∧
      (arriving s r1 t = arriving s r2 t ∧ f m = near ∨
       |arriving s r1 t - arriving s r2 t| = 1 ∧ f m = near + r / r1 * ((a - b) / poleDistance s)) := by
  intro r r1 r2 h1 h2
  obtain ⟨a, b, ha, hb, hfm⟩ := C149_poles_partial s t f h m
  have hmag : 0 < poleDistance s := by
    unfold SrcSet.dipoleRow at h
    split at h
    · cases h
    rename_i hm
    have h0 : 0 ≤ pointDist s.direction 0 := Real.sqrt_nonneg _
    rw [mag_eq] at hm
    unfold poleDistance
    have : 0 < pointDist s.direction 0 / 100000 := lt_of_le_of_ne (by positivity) (Ne.symm hm)
    positivity
  have hgap : |r1 - r2| ≤ poleDistance s := by
    rw [← pole_gap s hc hf]
    exact dist_triangle' _ _ _
  have hr0 : 0 ≤ r := Real.sqrt_nonneg _
  refine ⟨a, b, b * (r * ((r2 - r1) / poleDistance s) / (r1 * r2)), ha, hb, ?_, ?_⟩
  · rw [abs_mul, abs_div, abs_mul, abs_div, abs_of_nonneg hr0, abs_of_pos hmag, abs_of_pos (mul_pos h1 h2)]
    refine mul_le_mul_of_nonneg_left ?_ (abs_nonneg b)
    refine div_le_div_of_nonneg_right ?_ (mul_pos h1 h2).le
    have : |r2 - r1| / poleDistance s ≤ 1 := by
      rw [div_le_one hmag, abs_sub_comm]
      exact hgap
    nlinarith
  · have hval : f m = b * (r * ((r2 - r1) / poleDistance s) / (r1 * r2)) + r / r1 * ((a - b) / poleDistance s) := by
      rw [hfm]
      change r / poleDistance s * (a / r1 - b / r2) = _
      have h1' := h1.ne'
      have h2' := h2.ne'
      have h3' := hmag.ne'
      field_simp
      ring
    by_cases he : arriving s r1 t = arriving s r2 t
    · left
      refine ⟨he, ?_⟩
      have hab : a = b := by
        rw [show pointDist (pole s 1) (s.mics m) = r1 from rfl] at ha
        rw [he] at ha
        exact Option.some.inj (ha.symm.trans hb)
      rw [hval, hab]
      ring
    · right
      refine ⟨?_, hval⟩
      have hle : |arriving s r1 t - arriving s r2 t| ≤ 1 := by
        refine near_step _ _ ?_
        have e : (t + (s.start - s.startT - r1 / s.c) * s.signal.fs) * (s.up : ℝ) -
            (t + (s.start - s.startT - r2 / s.c) * s.signal.fs) * (s.up : ℝ) = (r2 - r1) * (s.signal.fs / s.c * s.up) := by
          ring
        rw [e, abs_mul, abs_of_nonneg (show 0 ≤ s.signal.fs / s.c * s.up by positivity), abs_sub_comm]
        refine lt_of_le_of_lt (mul_le_mul_of_nonneg_right hgap (by positivity)) ?_
        unfold poleDistance
        have : s.c / s.signal.fs * (pointDist s.direction 0 / 100000) * (s.signal.fs / s.c * s.up) =
            s.up * (pointDist s.direction 0 / 100000) := by field_simp
        rw [this]
        exact hup
      have hpos : 0 < |arriving s r1 t - arriving s r2 t| := abs_pos.2 (sub_ne_zero.2 he)
      omega

/-! ### Violations -/

/-- A dipole in the origin on the third axis, one microphone on the axis at distance `r`; the signal is the time: sample `j`
of the upsampled signal has the value `j / (fs * up)`. -/
noncomputable def axisDipole (c fs μ r : ℝ) (up : ℕ) : SrcSet 0 :=
  ⟨fun _ => ![0, 0, r], ⟨fs, 2, fun k => (List.range (2 * k)).map fun j : ℕ => (j : ℝ) / (fs * k)⟩, 0, c, 0, 0, up, false,
    ![0, 0, μ], 1, 1, [1], false, ⟨fun _ => 0, fun _ => 0⟩, 0⟩

private theorem axis_dist (x z : ℝ) : pointDist ![0, 0, x] ![0, 0, z] = |x - z| := by
  unfold pointDist
  simp [Real.sqrt_sq_eq_abs]

private theorem axis_row (c fs μ r : ℝ) (up t : ℕ) (hc : 0 < c) (hf : 0 < fs) (hμ : 0 < μ) (k1 k2 : ℕ) (h1 : k1 < 2 * up)
    (h2 : k2 < 2 * up) (hr : c / fs * (μ / 100000) / 2 < r)
    (e1 : nearestSample ((t - (r - c / fs * (μ / 100000) / 2) / c * fs) * (up : ℝ)) = k1)
    (e2 : nearestSample ((t - (r + c / fs * (μ / 100000) / 2) / c * fs) * (up : ℝ)) = k2) :
    (axisDipole c fs μ r up).dipoleRow t = some fun _ => r / (c / fs * (μ / 100000)) *
      ((k1 / (fs * up)) / (r - c / fs * (μ / 100000) / 2) - (k2 / (fs * up)) / (r + c / fs * (μ / 100000) / 2)) := by
  set S := axisDipole c fs μ r up with hS
  have hδ : 0 < c / fs * (μ / 100000) / 2 := by positivity
  have hmu : pointDist S.direction 0 = μ := by
    rw [show (0 : Fin 3 → ℝ) = ![0, 0, 0] by funext i; fin_cases i <;> rfl]
    rw [hS]
    unfold axisDipole
    rw [axis_dist, sub_zero, abs_of_pos hμ]
  have hm : S.direcMag ≠ 0 := by
    rw [mag_eq, hmu]
    positivity
  have p1 : (fun i => S.loc i + S.halfVector i) = ![0, 0, c / fs * (μ / 100000) / 2] := by
    funext i
    rw [half_eq S hm]
    fin_cases i <;> simp [hS, axisDipole]
  have p2 : (fun i => S.loc i - S.halfVector i) = ![0, 0, -(c / fs * (μ / 100000) / 2)] := by
    funext i
    rw [half_eq S hm]
    fin_cases i <;> simp [hS, axisDipole]
  have hmic : ∀ m, S.mics m = ![0, 0, r] := fun _ => rfl
  have d0 : S.dist S.loc = fun _ => r := by
    funext m
    unfold SrcSet.dist
    rw [abs_dist, hmic, show S.loc = ![0, 0, 0] by funext i; fin_cases i <;> rfl, axis_dist, zero_sub, abs_neg,
      abs_of_pos (hδ.trans hr)]
  have d1 : (S.dist fun i => S.loc i + S.halfVector i) = fun _ => r - c / fs * (μ / 100000) / 2 := by
    funext m
    unfold SrcSet.dist
    rw [p1, abs_dist, hmic, axis_dist, abs_sub_comm, abs_of_pos (by linarith)]
  have d2 : (S.dist fun i => S.loc i - S.halfVector i) = fun _ => r + c / fs * (μ / 100000) / 2 := by
    funext m
    unfold SrcSet.dist
    rw [p2, abs_dist, hmic, axis_dist, abs_sub_comm, abs_of_pos (by linarith)]
    ring
  have hget : ∀ k : ℕ, k < 2 * up → arrayGet (S.signal.u S.up) (k : ℤ) = some ((k : ℝ) / (fs * up)) := by
    intro k hk
    unfold arrayGet
    rw [if_neg (by omega)]
    simp [hS, axisDipole, hk]
  unfold SrcSet.dipoleRow
  rw [if_neg hm]
  simp only [d0, d1, d2]
  unfold Acoular.dipoleRow
  have i1 : ∀ m, truncInt (1 / 2 + (S.firstIndex (fun _ => r - c / fs * (μ / 100000) / 2) m + t) * (S.up : ℝ)) = (k1 : ℤ) := by
    intro m
    rw [index_eq, ← e1]
    unfold arriving
    congr 1
    simp only [hS, axisDipole]
    ring
  have i2 : ∀ m, truncInt (1 / 2 + (S.firstIndex (fun _ => r + c / fs * (μ / 100000) / 2) m + t) * (S.up : ℝ)) = (k2 : ℤ) := by
    intro m
    rw [index_eq, ← e2]
    unfold arriving
    congr 1
    simp only [hS, axisDipole]
    ring
  have f1 : fancyRow (S.signal.u S.up) (fun _ : Fin 1 => r - c / fs * (μ / 100000) / 2)
      (fun m => (S.firstIndex (fun _ => r - c / fs * (μ / 100000) / 2) m + t) * (S.up : ℝ)) =
      some fun _ => (k1 / (fs * up)) / (r - c / fs * (μ / 100000) / 2) := by
    unfold fancyRow
    simp only [i1, hget k1 h1]
    simp
  have f2 : fancyRow (S.signal.u S.up) (fun _ : Fin 1 => r + c / fs * (μ / 100000) / 2)
      (fun m => (S.firstIndex (fun _ => r + c / fs * (μ / 100000) / 2) m + t) * (S.up : ℝ)) =
      some fun _ => (k2 / (fs * up)) / (r + c / fs * (μ / 100000) / 2) := by
    unfold fancyRow
    simp only [i2, hget k2 h2]
    simp
  rw [f1, f2]
  simp only
  rw [poleDist_eq]
  unfold poleDistance
  rw [hmu]
  rfl

private theorem axis_field (c r t : ℝ) (hr : 0 < r) (hc : 0 < c) :
    IsDipoleField c (fun τ => τ) 0 ![0, 0, 1] ![0, 0, r] t ((t - r / c) / r ^ 2 + 1 / (c * r)) := by
  have hd : pointDist 0 ![0, 0, r] = r := by
    rw [show (0 : Fin 3 → ℝ) = ![0, 0, 0] by funext i; fin_cases i <;> rfl, axis_dist, zero_sub, abs_neg, abs_of_pos hr]
  have := C149_field c (fun τ => τ) 1 0 ![0, 0, 1] ![0, 0, r] t (by rw [hd]; exact hr) (hasDerivAt_id _)
  simp only [hd] at this
  convert this using 1
  simp
  field_simp

/-- **C149 is violated**: for all sampling frequencies, degrees of upsampling and directions of the recommended length, there
are distances of the microphone for which the far field is missing altogether: the signal is the time, the wanted value at
the arrival of the time zero is `1 / c`, the output is zero. -/
theorem C149_far_violated (c fs μ : ℝ) (up J : ℕ) (hc : 0 < c) (hf : 0 < fs) (hμ : 0 < μ) (hup : 0 < up) (hs : up * μ < 100000)
    (hJ : 0 < J) :
    let r := c * (J / fs)
    ∃ f D, (axisDipole c fs μ r up).dipoleRow J = some f ∧
      IsDipoleField c (fun τ => τ) 0 ![0, 0, 1] ![0, 0, r] (J / fs) D ∧ r * D = 1 / c ∧ f 0 = 0 := by
  intro r
  have hJ' : (1 : ℝ) ≤ J := by exact_mod_cast hJ
  have hup' : (1 : ℝ) ≤ up := by exact_mod_cast hup
  have hr : 0 < r := by positivity
  have hμ1 : μ < 100000 := by nlinarith
  have hrow := axis_row c fs μ r up J hc hf hμ 0 0 (by omega) (by omega) (by
      have : c / fs * (μ / 100000) / 2 < c / fs * 1 := by
        have h1 : 0 < c / fs := by positivity
        nlinarith
      have h2 : c / fs * 1 ≤ r := by
        have : r = c / fs * J := by simp only [r]; ring
        rw [this]
        exact mul_le_mul_of_nonneg_left hJ' (by positivity)
      linarith) (by
      have e : ((J : ℝ) - (r - c / fs * (μ / 100000) / 2) / c * fs) * (up : ℝ) = up * μ / 200000 := by
        simp only [r]
        field_simp
        ring
      rw [e]
      unfold nearestSample
      rw [if_neg (not_lt.2 (by positivity))]
      rw [Int.floor_eq_iff]
      push_cast
      constructor
      · positivity
      · linarith) (by
      have e : ((J : ℝ) - (r + c / fs * (μ / 100000) / 2) / c * fs) * (up : ℝ) = -(up * μ / 200000) := by
        simp only [r]
        field_simp
        ring
      rw [e]
      unfold nearestSample
      rw [if_neg (not_lt.2 (by linarith))]
      rw [Int.floor_eq_iff]
      push_cast
      constructor
      · linarith
      · have : 0 < up * μ / 200000 := by positivity
        linarith)
  refine ⟨_, _, hrow, axis_field c r (J / fs) hr hc, ?_, ?_⟩
  · have : (J : ℝ) / fs - r / c = 0 := by simp only [r]; field_simp; ring
    rw [this]
    field_simp
    simp
  · simp

/-- The hypotheses are met: usual values. -/
example := C149_far_violated 343 51200 1 16 1000 (by norm_num) (by norm_num) (by norm_num) (by norm_num) (by norm_num) (by norm_num)

/-- **C149 is violated**: for other distances, the far field is too large by a factor of at least `10⁵ / (3 * up * |direction|)`,
more than two thousand with usual settings. -/
theorem C149_spike_violated (c fs μ : ℝ) (up J : ℕ) (hc : 0 < c) (hf : 0 < fs) (hμ : 0 < μ) (hup : 0 < up) (hs : up * μ < 100000)
    (hJ : 0 < J) :
    let r := c * ((J + 1 / (2 * up)) / fs)
    ∃ f D, (axisDipole c fs μ r up).dipoleRow (J + 1) = some f ∧
      IsDipoleField c (fun τ => τ) 0 ![0, 0, 1] ![0, 0, r] ((J + 1 : ℕ) / fs) D ∧ 0 < r * D ∧
      100000 / (3 * up * μ) * (r * D) ≤ f 0 := by
  intro r
  have hJ' : (1 : ℝ) ≤ J := by exact_mod_cast hJ
  have hup' : (1 : ℝ) ≤ up := by exact_mod_cast hup
  have hu0 : (0 : ℝ) < up := by linarith
  have hr : 0 < r := by positivity
  have hμ1 : μ < 100000 := by nlinarith
  have hδr : c / fs * (μ / 100000) / 2 < r := by
    have h1 : 0 < c / fs := by positivity
    have : c / fs * (μ / 100000) / 2 < c / fs * 1 := by nlinarith
    have h2 : c / fs * 1 ≤ r := by
      have : r = c / fs * (J + 1 / (2 * up)) := by simp only [r]; ring
      rw [this]
      refine mul_le_mul_of_nonneg_left ?_ h1.le
      have : (0 : ℝ) < 1 / (2 * up) := by positivity
      linarith
    linarith
  have hrow := axis_row c fs μ r up (J + 1) hc hf hμ up (up - 1) (by omega) (by omega) hδr (by
      have e : (((J + 1 : ℕ) : ℝ) - (r - c / fs * (μ / 100000) / 2) / c * fs) * (up : ℝ) = up - 1 / 2 + up * μ / 200000 := by
        simp only [r]
        push_cast
        field_simp
        ring
      rw [e]
      have hp : 0 < up * μ / 200000 := by positivity
      unfold nearestSample
      rw [if_neg (not_lt.2 (by linarith))]
      rw [Int.floor_eq_iff]
      push_cast
      constructor
      · linarith
      · linarith) (by
      have e : (((J + 1 : ℕ) : ℝ) - (r + c / fs * (μ / 100000) / 2) / c * fs) * (up : ℝ) = up - 1 / 2 - up * μ / 200000 := by
        simp only [r]
        push_cast
        field_simp
        ring
      rw [e]
      have hp : 0 < up * μ / 200000 := by positivity
      unfold nearestSample
      rw [if_neg (not_lt.2 (by linarith))]
      rw [Int.floor_eq_iff]
      have : (((up - 1 : ℕ) : ℤ) : ℝ) = up - 1 := by
        push_cast [Nat.cast_sub (show 1 ≤ up from hup)]
        ring
      rw [this]
      constructor
      · linarith
      · linarith)
  have hrD : r * ((((J + 1 : ℕ) : ℝ) / fs - r / c) / r ^ 2 + 1 / (c * r)) = (1 - 1 / (2 * up)) / (c * (J + 1 / (2 * up))) + 1 / c := by
    have e : ((J + 1 : ℕ) : ℝ) / fs - r / c = (1 - 1 / (2 * up)) / fs := by
      simp only [r]
      push_cast
      field_simp
      ring
    rw [e]
    have er : r = c * (J + 1 / (2 * up)) / fs := by simp only [r]; ring
    have hq : 0 < (J : ℝ) + 1 / (2 * up) := by positivity
    rw [er]
    generalize (J : ℝ) + 1 / (2 * up) = q at hq
    generalize 1 - 1 / (2 * (up : ℝ)) = w
    field_simp
  have hw : 0 ≤ 1 - 1 / (2 * (up : ℝ)) := by
    rw [sub_nonneg, div_le_one (by positivity)]
    linarith
  have hq : 1 ≤ (J : ℝ) + 1 / (2 * up) := by
    have : (0 : ℝ) < 1 / (2 * up) := by positivity
    linarith
  refine ⟨_, _, hrow, axis_field c r _ hr hc, ?_, ?_⟩
  · rw [hrD]
    have : 0 < 1 / c := by positivity
    have : 0 ≤ (1 - 1 / (2 * (up : ℝ))) / (c * (J + 1 / (2 * up))) := div_nonneg hw (by positivity)
    linarith
  · rw [hrD]
    have hb : (1 - 1 / (2 * (up : ℝ))) / (c * (J + 1 / (2 * up))) + 1 / c ≤ 3 / c := by
      have : (1 - 1 / (2 * (up : ℝ))) / (c * (J + 1 / (2 * up))) ≤ 1 / c := by
        rw [div_le_div_iff₀ (by positivity) hc]
        have : (0 : ℝ) < 1 / (2 * up) := by positivity
        nlinarith
      have e : 3 / c = 1 / c + 1 / c + 1 / c := by ring
      have : 0 < 1 / c := by positivity
      linarith
    refine le_trans (mul_le_mul_of_nonneg_left hb (by positivity)) ?_
    set δ := c / fs * (μ / 100000) / 2 with hδ
    have hδ0 : 0 < δ := by positivity
    have h1 : 0 < r - δ := by linarith
    have hcast : ((up - 1 : ℕ) : ℝ) = up - 1 := by
      rw [Nat.cast_sub (show 1 ≤ up from hup)]
      simp
    rw [hcast, show c / fs * (μ / 100000) = 2 * δ by rw [hδ]; ring]
    have hb0 : 0 ≤ ((up : ℝ) - 1) / (fs * up) := div_nonneg (by linarith) (by positivity)
    have hk : (up : ℝ) / (fs * up) = (up - 1) / (fs * up) + 1 / (fs * up) := by ring
    rw [hk]
    have hge : ((up : ℝ) - 1) / (fs * up) / (r + δ) ≤ (up - 1) / (fs * up) / (r - δ) :=
      div_le_div_of_nonneg_left hb0 h1 (by linarith)
    have hge2 : 1 / (fs * up) / r ≤ 1 / (fs * up) / (r - δ) :=
      div_le_div_of_nonneg_left (by positivity) h1 (by linarith)
    have hlow : 1 / (fs * up) / r ≤ ((up - 1) / (fs * up) + 1 / (fs * up)) / (r - δ) - (up - 1) / (fs * up) / (r + δ) := by
      rw [add_div]
      linarith
    refine le_trans ?_ (mul_le_mul_of_nonneg_left hlow (by positivity))
    rw [hδ]
    apply le_of_eq
    have := hr.ne'
    field_simp
    try ring

/-- The hypotheses are met: usual values. -/
example := C149_spike_violated 343 51200 1 16 1000 (by norm_num) (by norm_num) (by norm_num) (by norm_num) (by norm_num) (by norm_num)

/-- The hypotheses of `C149_far_partial` are met by the same source. -/
example : ∃ f, (axisDipole 343 51200 1 (343 * ((1000 : ℕ) / 51200)) 16).dipoleRow 1000 = some f ∧
    ∃ a b near, loopedSample ((axisDipole 343 51200 1 (343 * ((1000 : ℕ) / 51200)) 16).signal.u 16) a = some b ∧ |near| ≤ |b| ∧
      near = f 0 := by
  obtain ⟨f, D, h, -, -, h0⟩ := C149_far_violated 343 51200 1 16 1000 (by norm_num) (by norm_num) (by norm_num) (by norm_num)
    (by norm_num) (by norm_num)
  have hz : (0 : Fin 3 → ℝ) = ![0, 0, 0] := by funext i; fin_cases i <;> rfl
  obtain ⟨a, b, near, -, hb, -, -⟩ := C149_far_partial _ (by norm_num [axisDipole]) (by norm_num [axisDipole]) (by
    unfold axisDipole
    simp only
    rw [hz, axis_dist]
    norm_num) 1000 f h 0 (by
    unfold pointDist pole axisDipole
    simp only [Matrix.cons_val, Pi.zero_apply]
    norm_num) (by
    unfold pointDist pole axisDipole
    simp only [Matrix.cons_val, Pi.zero_apply]
    norm_num)
  exact ⟨f, h, _, b, f 0, hb, by rw [h0]; simp, rfl⟩

/-- **C149** (part): there is a row as long as samples of the signal are left. -/
theorem C149_rows (s : SrcSet M) (t : ℕ) (h0 : s.direction ≠ 0)
    (h : ∀ m, ∀ σ : ℝ, |σ| = 1 → (loopedSample (s.signal.u s.up) (arriving s (pointDist (pole s σ) (s.mics m)) t)).isSome) :
    ∃ f, s.dipoleRow t = some f := by
  have hm : s.direcMag ≠ 0 := by
    rw [mag_eq]
    intro hz
    apply h0
    have hz : pointDist s.direction 0 = 0 := by linarith
    rw [dist_norm, norm_eq_zero, sub_eq_zero] at hz
    exact (WithLp.toLp_injective 2) hz
  have e1 : (fun i => s.loc i + s.halfVector i) = pole s 1 := by
    funext i; unfold pole; rw [half_eq s hm]; ring
  have e2 : (fun i => s.loc i - s.halfVector i) = pole s (-1) := by
    funext i; unfold pole; rw [half_eq s hm]; ring
  have key : ∀ y : Fin 3 → ℝ, (∀ m, (loopedSample (s.signal.u s.up) (arriving s (pointDist y (s.mics m)) t)).isSome) →
      ∃ a, fancyRow (s.signal.u s.up) (s.dist y) (fun m => (s.firstIndex (s.dist y) m + t) * (s.up : ℝ)) = some a := by
    intro y hy
    unfold fancyRow
    rw [dif_pos]
    · exact ⟨_, rfl⟩
    · intro m
      rw [index_eq, arrayGet_looped]
      unfold SrcSet.dist
      rw [abs_dist]
      exact hy m
  obtain ⟨a, ha⟩ := key (pole s 1) fun m => h m 1 (by simp)
  obtain ⟨b, hb⟩ := key (pole s (-1)) fun m => h m (-1) (by simp)
  unfold SrcSet.dipoleRow
  rw [if_neg hm]
  simp only [e1, e2]
  unfold Acoular.dipoleRow
  rw [ha, hb]
  exact ⟨_, rfl⟩

/-- The hypotheses of `C149_rows`, `C149_perpendicular` and `C149_poles_partial` are met: a microphone at distance four, poles at
distance three on both sides, both at distance five from the microphone; the last sample of the signal arrives. -/
example : ∃ f, { axisDipole 1 1 1 4 1 with direction := ![600000, 0, 0] }.dipoleRow 6 = some f ∧ f 0 = 0 := by
  have hd : ∀ σ : ℝ, |σ| = 1 → pointDist (pole { axisDipole 1 1 1 4 1 with direction := ![600000, 0, 0] } σ) ![0, 0, 4] = 5 := by
    intro σ hσ
    have h2 : σ ^ 2 = 1 := by rw [← sq_abs, hσ]; norm_num
    unfold pointDist pole axisDipole
    simp only [Matrix.cons_val, Pi.zero_apply]
    rw [show ((0 + σ * (1 / 1 * (600000 / 100000) / 2) - 0) ^ 2 + (0 + σ * (1 / 1 * (0 / 100000) / 2) - 0) ^ 2 +
      (0 + σ * (1 / 1 * (0 / 100000) / 2) - 4) ^ 2 : ℝ) = 9 * σ ^ 2 + 16 by ring, h2]
    rw [show (9 * 1 + 16 : ℝ) = 5 ^ 2 by norm_num]
    exact Real.sqrt_sq (by norm_num)
  obtain ⟨f, hf⟩ := C149_rows { axisDipole 1 1 1 4 1 with direction := ![600000, 0, 0] } 6 (by
    intro h
    have := congrFun h 0
    simp at this) (by
    intro m σ hσ
    have e : arriving { axisDipole 1 1 1 4 1 with direction := ![600000, 0, 0] } 5 6 = 1 := by
      unfold arriving nearestSample axisDipole
      norm_num
    rw [show ({ axisDipole 1 1 1 4 1 with direction := ![600000, 0, 0] } : SrcSet 0).mics m = ![0, 0, 4] from rfl, hd σ hσ, e]
    simp [loopedSample, axisDipole])
  refine ⟨f, hf, C149_perpendicular _ 6 f hf 0 ?_⟩
  simp [axisDipole]

end Acoular
