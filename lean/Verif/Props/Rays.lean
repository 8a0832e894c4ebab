import Verif.Spec.Rays
import Verif.Model.Rays
import Verif.Props.FlowField
import Mathlib.Analysis.Calculus.Deriv.Prod
import Mathlib.Analysis.Calculus.Deriv.Comp
import Mathlib.Tactic.LinearCombination

/-!
# Property theorems: sound rays (C109)
-/

namespace Acoular

open Spec Real

variable (c : ℝ) (v : (Fin 3 → ℝ) → (Fin 3 → ℝ) × Matrix (Fin 3) (Fin 3) ℝ)

private theorem absVec_len (x : Fin 3 → ℝ) : absVec x = len3 x := by
  unfold absVec len3; congr 1; ring

private theorem len3_pos {s : Fin 3 → ℝ} (hs : s ≠ 0) : 0 < s 0 ^ 2 + s 1 ^ 2 + s 2 ^ 2 := by
  by_contra h
  apply hs
  funext i
  have h0 := sq_nonneg (s 0)
  have h1 := sq_nonneg (s 1)
  have h2 := sq_nonneg (s 2)
  have : s i ^ 2 = 0 := by fin_cases i <;> simp <;> nlinarith
  simpa using this

private theorem gradient_unique {f : (Fin 3 → ℝ) → ℝ} {g g' x : Fin 3 → ℝ} (h : IsGrad3 f g x) (h' : IsGrad3 f g' x) :
    g = g' := by
  funext i
  have := (h (fun j => if j = i then 1 else 0)).unique (h' _)
  unfold inner3 at this
  fin_cases i <;> simpa using this

/-- Along a ray the position moves as it should, for every flow: the derivative of the position is the gradient of the
Hamilton function with respect to the slowness (the velocity of sound plus that of the reversed flow). -/
theorem C109_position (x s : Fin 3 → ℝ) (hs : s ≠ 0) :
    IsGrad3 (fun s' => rayH c (reversedFlow fun y => (v y).1) x s') (rayVelocity c v x s) s := by
  intro h
  have hp := len3_pos hs
  have hlin : ∀ i, HasDerivAt (fun ε : ℝ => s i + ε * h i) (h i) 0 := by
    intro i
    simpa using ((hasDerivAt_id (0 : ℝ)).mul_const (h i)).const_add (s i)
  have hsq : HasDerivAt (fun ε : ℝ => (s 0 + ε * h 0) ^ 2 + (s 1 + ε * h 1) ^ 2 + (s 2 + ε * h 2) ^ 2)
      (2 * (s 0 * h 0 + s 1 * h 1 + s 2 * h 2)) 0 := by
    have := (((hlin 0).pow 2).add ((hlin 1).pow 2)).add ((hlin 2).pow 2)
    refine this.congr_deriv ?_
    simp
    ring
  have hroot := hsq.sqrt (by simpa using hp.ne')
  have hin : HasDerivAt (fun ε : ℝ => inner3 (fun i => -(v x).1 i) fun i => s i + ε * h i)
      (inner3 (fun i => -(v x).1 i) h) 0 := by
    unfold inner3
    exact (((hlin 0).const_mul _).add ((hlin 1).const_mul _)).add ((hlin 2).const_mul _)
  have := (hroot.const_mul c).add hin
  refine this.congr_deriv ?_
  have hl : √((s 0 + 0 * h 0) ^ 2 + (s 1 + 0 * h 1) ^ 2 + (s 2 + 0 * h 2) ^ 2) = len3 s := by
    unfold len3; simp
  have hl0 : len3 s ≠ 0 := (Real.sqrt_pos.2 hp).ne'
  rw [hl]
  unfold rayVelocity inner3
  rw [absVec_len]
  field_simp
  ring

/-- The hypotheses of `C109_position` are met: -/
example := C109_position 343 (fun _ => (![100, 0, 0], 0)) 0 ![0, 1, 0] (fun h => by have := congrFun h 1; simp at this)

private theorem gradient_x (x s : Fin 3 → ℝ) (J : Matrix (Fin 3) (Fin 3) ℝ) (hJ : IsJacobian (fun y => (v y).1) J x) :
    IsGrad3 (fun y => rayH c (reversedFlow fun y => (v y).1) y s) (fun i => -(∑ k, J k i * s k)) x := by
  intro h
  have hline : HasDerivAt (fun ε : ℝ => fun i => x i + ε * h i) h 0 := by
    rw [hasDerivAt_pi]
    intro i
    simpa using ((hasDerivAt_id (0 : ℝ)).mul_const (h i)).const_add (x i)
  have h0 : (fun i => x i + (0 : ℝ) * h i) = x := by funext i; simp
  have hcomp := HasFDerivAt.comp_hasDerivAt (f := fun ε : ℝ => fun i => x i + ε * h i) (0 : ℝ) (by rw [h0]; exact hJ) hline
  rw [hasDerivAt_pi] at hcomp
  have hc : ∀ k, HasDerivAt (fun ε : ℝ => -(v fun i => x i + ε * h i).1 k) (-(∑ i, J k i * h i)) 0 := by
    intro k
    have := (hcomp k).neg
    refine this.congr_deriv ?_
    simp [Matrix.toLin'_apply, Matrix.mulVec, dotProduct]
  have := ((((hc 0).mul_const (s 0)).add ((hc 1).mul_const (s 1))).add ((hc 2).mul_const (s 2))).const_add (c * len3 s)
  refine this.congr_deriv ?_
  unfold inner3
  simp only [Fin.sum_univ_three]
  ring

private theorem slowness_apply (x s : Fin 3 → ℝ) (i : Fin 3) : raySlowness v x s i = -(∑ k, (v x).2 i k * s k) := by
  unfold raySlowness
  rw [Matrix.vecMul, dotProduct, Fin.sum_univ_three, Fin.sum_univ_three]
  simp only [Matrix.neg_apply, Matrix.transpose_apply]
  ring

/-- The change of the slowness (the refraction) is right exactly where the symmetric part of the Jacobian, the rate of
strain of the flow, does not act on the slowness. -/
theorem C109_slowness_iff (x s : Fin 3 → ℝ) (hJ : IsJacobian (fun y => (v y).1) (v x).2 x) :
    IsGrad3 (fun y => rayH c (reversedFlow fun y => (v y).1) y s) (fun i => -raySlowness v x s i) x ↔
      Matrix.mulVec ((v x).2 + (v x).2.transpose) s = 0 := by
  have hg := gradient_x c v x s _ hJ
  have key : ∀ i, Matrix.mulVec ((v x).2 + (v x).2.transpose) s i = (∑ k, (v x).2 i k * s k) + ∑ k, (v x).2 k i * s k := by
    intro i
    rw [Matrix.mulVec, dotProduct, ← Finset.sum_add_distrib]
    refine Finset.sum_congr rfl fun k _ => ?_
    rw [Matrix.add_apply, Matrix.transpose_apply]; ring
  constructor
  · intro h
    have e := gradient_unique h hg
    funext i
    have := congrFun e i
    simp only [slowness_apply] at this
    rw [key, Pi.zero_apply]
    linarith
  · intro h
    have e : (fun i => -raySlowness v x s i) = fun i => -(∑ k, (v x).2 k i * s k) := by
      funext i
      have := congrFun h i
      rw [key, Pi.zero_apply] at this
      simp only [slowness_apply]
      linarith
    rw [e]
    exact hg

/-- In the rotating flow the rays are right everywhere. -/
theorem C109_rotating_partial (rps v0 : ℝ) (origin x s : Fin 3 → ℝ) :
    IsGrad3 (fun y => rayH c (reversedFlow fun y => (rotatingFlow rps v0 origin y).1) y s)
      (fun i => -raySlowness (rotatingFlow rps v0 origin) x s i) x := by
  rw [C109_slowness_iff c _ x s (C35_rotating_flow rps v0 origin x)]
  funext i
  rw [Matrix.mulVec, dotProduct, Fin.sum_univ_three]
  fin_cases i <;> simp [rotatingFlow]

/-- **C109 is violated in jets.** In the shear layer of the open jet the refraction is wrong for every ray, except for
those which run perpendicular to the flow and at constant distance from the axis. -/
theorem C109_jet_violated (v0 D l : ℝ) (origin x s : Fin 3 → ℝ) (hv : v0 ≠ 0) (hl : l ≠ 0) (hx : x 0 ≠ origin 0)
    (hr : 0 < (x 1 - origin 1) * (x 1 - origin 1) + (x 2 - origin 2) * (x 2 - origin 2))
    (hlayer : 0.5 * D < √((x 1 - origin 1) * (x 1 - origin 1) + (x 2 - origin 2) * (x 2 - origin 2)) + 0.5022 / l * (x 0 - origin 0))
    (hs : s 0 ≠ 0 ∨ (x 1 - origin 1) * s 1 + (x 2 - origin 2) * s 2 ≠ 0) :
    ¬ IsGrad3 (fun y => rayH c (reversedFlow fun y => (openJet v0 D l origin y).1) y s)
      (fun i => -raySlowness (openJet v0 D l origin) x s i) x := by
  have hor : x 1 ≠ origin 1 ∨ x 2 ≠ origin 2 := by
    by_contra h
    push Not at h
    rw [h.1, h.2] at hr
    simp at hr
  rw [C109_slowness_iff c _ x s (C35_open_jet_off_axis v0 D l origin x hl hx hor)]
  intro h
  set r := √((x 1 - origin 1) * (x 1 - origin 1) + (x 2 - origin 2) * (x 2 - origin 2)) with hrdef
  have hr0 : 0 < r := Real.sqrt_pos.2 hr
  set x1 := 0.5022 / l * (x 0 - origin 0) with hx1
  have hx10 : x1 ≠ 0 := mul_ne_zero (div_ne_zero (by norm_num) hl) (sub_ne_zero.2 hx)
  have hh : 0 < r + x1 - 0.5 * D := by linarith
  have hn : ¬ (r + x1 - 0.5 * D < 0) := not_lt.2 hh.le
  set h1 := r + x1 - 0.5 * D with hh1
  set G := -h1 * (v0 * exp (-h1 * h1 / (2 * x1 * x1))) / (x1 * x1) with hG
  have hG0 : G ≠ 0 := by
    rw [hG]
    refine div_ne_zero (mul_ne_zero (neg_ne_zero.2 hh.ne') (mul_ne_zero hv (exp_ne_zero _))) (mul_ne_zero hx10 hx10)
  have e : ∀ i k, (openJet v0 D l origin x).2 i k =
      if i = 0 then (![(openJet v0 D l origin x).2 0 0, (x 1 - origin 1) * G / r, (x 2 - origin 2) * G / r] : Fin 3 → ℝ) k else 0 := by
    intro i k
    have e1 : (openJet v0 D l origin x).2 0 1 = (x 1 - origin 1) * G / r := by
      simp only [openJet, Matrix.transpose_apply, ← hrdef, ← hx1, ← hh1]
      simp only [Matrix.of_apply, Matrix.cons_val', Matrix.cons_val_zero, Matrix.cons_val_one, if_neg hn, if_pos hr0]
      rw [hG]
    have e2 : (openJet v0 D l origin x).2 0 2 = (x 2 - origin 2) * G / r := by
      simp only [openJet, Matrix.transpose_apply, ← hrdef, ← hx1, ← hh1]
      simp only [Matrix.of_apply, Matrix.cons_val', Matrix.cons_val_zero, Matrix.cons_val, if_neg hn, if_pos hr0]
      rw [hG]
    fin_cases i <;> fin_cases k <;> first
      | rfl
      | (simp only [Fin.zero_eta, Fin.mk_one, Fin.reduceFinMk, if_true]; exact e1)
      | (simp only [Fin.zero_eta, Fin.reduceFinMk, if_true]; exact e2)
  have c0 := congrFun h 0
  have c1 := congrFun h 1
  have c2 := congrFun h 2
  rw [Matrix.mulVec, dotProduct, Fin.sum_univ_three] at c0 c1 c2
  simp only [Matrix.add_apply, Matrix.transpose_apply, Pi.zero_apply] at c0 c1 c2
  rw [e 1 0, e 0 1, e 1 1, e 1 2, e 2 1] at c1
  rw [e 2 0, e 0 2, e 2 1, e 1 2, e 2 2] at c2
  rw [e 0 1, e 1 0, e 0 2, e 2 0] at c0
  simp at c0 c1 c2
  have hs0 : s 0 = 0 := by
    rcases hor with h' | h'
    · rcases c1 with (h2 | h2) | h2
      · rcases h2 with h3 | h3
        · exact absurd h3 (sub_ne_zero.2 h')
        · exact absurd h3 hG0
      · exact absurd h2 hr0.ne'
      · exact h2
    · rcases c2 with (h2 | h2) | h2
      · rcases h2 with h3 | h3
        · exact absurd h3 (sub_ne_zero.2 h')
        · exact absurd h3 hG0
      · exact absurd h2 hr0.ne'
      · exact h2
  rcases hs with h' | h'
  · exact h' hs0
  · apply h'
    rw [hs0, mul_zero, zero_add] at c0
    have : ((x 1 - origin 1) * s 1 + (x 2 - origin 2) * s 2) * (G / r) = 0 := by
      rw [← c0]; ring
    exact (mul_eq_zero.1 this).resolve_right (div_ne_zero hG0 hr0.ne')

/-- The hypotheses are met: the jet of the default settings (`v0 = 1`, `D = 0.2`, `l = 6.2`), 1 m behind the nozzle,
1 m off the axis, a ray in the direction of the y axis. -/
example : ¬ IsGrad3 (fun y => rayH 343 (reversedFlow fun y => (openJet 1 0.2 6.2 0 y).1) y ![0, 1, 0])
    (fun i => -raySlowness (openJet 1 0.2 6.2 0) ![1, 1, 0] ![0, 1, 0] i) ![1, 1, 0] := by
  refine C109_jet_violated 343 1 0.2 6.2 0 ![1, 1, 0] ![0, 1, 0] one_ne_zero (by norm_num) (by simp) (by simp) ?_ (Or.inr (by simp))
  simp
  norm_num

/-- The length of the slowness vector has no influence on the path: with it, both derivatives scale as they must for the
multiple to be a solution, too. In particular the initial value only has to have the right direction, which it has as
long as the flow against it is slower than sound. -/
theorem C109_scale (x s : Fin 3 → ℝ) (k : ℝ) (hk : 0 < k) :
    rayVelocity c v x (k • s) = rayVelocity c v x s ∧ raySlowness v x (k • s) = k • raySlowness v x s := by
  constructor
  · funext i
    unfold rayVelocity
    have : absVec (k • s) = k * absVec s := by
      unfold absVec
      rw [show (k • s) 0 * (k • s) 0 + (k • s) 1 * (k • s) 1 + (k • s) 2 * (k • s) 2 =
        k ^ 2 * (s 0 * s 0 + s 1 * s 1 + s 2 * s 2) by simp; ring, Real.sqrt_mul (sq_nonneg k), Real.sqrt_sq hk.le]
    rw [this]
    congr 1
    rw [Pi.smul_apply, smul_eq_mul, mul_left_comm, mul_div_mul_left _ _ hk.ne']
  · unfold raySlowness
    rw [Matrix.smul_vecMul]

/-- The hypotheses of `C109_scale` are met: -/
example := C109_scale 343 (fun _ => (![100, 0, 0], 0)) 0 ![0, 1, 0] 2 (by norm_num)

/-- A ray starts at the microphone in the given direction `n0` of the wave normal: its velocity is that of sound in this
direction minus that of the flow. -/
theorem C109_start (x0 n0 : Fin 3 → ℝ) (hn : len3 n0 = 1) (hsub : 0 < c + inner3 (v x0).1 n0) :
    rayVelocity c v x0 (rayStart c v x0 n0) = fun i => c * n0 i - (v x0).1 i := by
  have e : rayStart c v x0 n0 = (1 / (c + inner3 (v x0).1 n0)) • n0 := by
    funext i
    unfold rayStart inner3
    rw [Pi.smul_apply, smul_eq_mul]
    ring
  rw [e, (C109_scale c v x0 n0 _ (by positivity)).1]
  unfold rayVelocity
  rw [absVec_len, hn]
  simp

/-- The hypotheses of `C109_start` are met: -/
example := C109_start 343 (fun _ => (![100, 0, 0], 0)) 0 ![0, 1, 0] (by simp [len3]) (by simp [inner3])

/-- In a uniform flow the rays are straight lines, and the time at which a ray passes a point is the travel time of sound
from this point to the microphone: the wave front that starts at the point and is carried with the flow has the radius
`c t` and contains the microphone. -/
theorem C109_uniform (V x0 n0 : Fin 3 → ℝ) (hn : len3 n0 = 1) (hsub : 0 < c + inner3 V n0) (hc : 0 < c) :
    let v : (Fin 3 → ℝ) → (Fin 3 → ℝ) × Matrix (Fin 3) (Fin 3) ℝ := fun _ => (V, 0)
    let s0 := rayStart c v x0 n0
    let path : ℝ → Fin 3 → ℝ := fun t i => x0 i + t * (c * n0 i - V i)
    (∀ t, HasDerivAt path (rayVelocity c v (path t) s0) t) ∧ (∀ t, raySlowness v (path t) s0 = 0) ∧ path 0 = x0 ∧
      ∀ t, 0 ≤ t → len3 (fun i => x0 i - (path t i + t * V i)) = c * t := by
  intro v s0 path
  refine ⟨?_, ?_, ?_, ?_⟩
  · intro t
    have e : rayVelocity c v (path t) s0 = fun i => c * n0 i - V i := C109_start c v x0 n0 hn hsub
    rw [e, hasDerivAt_pi]
    intro i
    exact (((hasDerivAt_id t).mul_const (c * n0 i - V i)).const_add (x0 i)).congr_deriv (by simp)
  · intro t
    simp [raySlowness, v]
  · funext i; simp [path]
  · intro t ht
    have e : (fun i => x0 i - (path t i + t * V i)) = fun i => -(c * t) * n0 i := by
      funext i; simp only [path]; ring
    rw [e]
    unfold len3 at hn ⊢
    rw [show (-(c * t) * n0 0) ^ 2 + (-(c * t) * n0 1) ^ 2 + (-(c * t) * n0 2) ^ 2 =
      (c * t) ^ 2 * (n0 0 ^ 2 + n0 1 ^ 2 + n0 2 ^ 2) by ring, Real.sqrt_mul (sq_nonneg _), hn, mul_one,
      Real.sqrt_sq (by positivity)]

/-- Whenever the refraction is right along a ray, the Hamilton function is constant on it (the frequency is kept), which
makes the rays those of a wave. -/
theorem C109_conserved_partial (x s : ℝ → Fin 3 → ℝ) (t : ℝ) (hx : HasDerivAt x (rayVelocity c v (x t) (s t)) t)
    (hs : HasDerivAt s (raySlowness v (x t) (s t)) t) (hs0 : s t ≠ 0)
    (hJ : IsJacobian (fun y => (v y).1) (v (x t)).2 (x t))
    (hright : Matrix.mulVec ((v (x t)).2 + (v (x t)).2.transpose) (s t) = 0) :
    HasDerivAt (fun t => rayH c (reversedFlow fun y => (v y).1) (x t) (s t)) 0 t := by
  have hp := len3_pos hs0
  have hxi := hasDerivAt_pi.1 hx
  have hsi := hasDerivAt_pi.1 hs
  have hsq : HasDerivAt (fun t => s t 0 ^ 2 + s t 1 ^ 2 + s t 2 ^ 2)
      (2 * (s t 0 * raySlowness v (x t) (s t) 0 + s t 1 * raySlowness v (x t) (s t) 1 + s t 2 * raySlowness v (x t) (s t) 2)) t := by
    have := (((hsi 0).pow 2).add ((hsi 1).pow 2)).add ((hsi 2).pow 2)
    refine this.congr_deriv ?_
    simp
    ring
  have hroot := (hsq.sqrt hp.ne').const_mul c
  have hcomp := HasFDerivAt.comp_hasDerivAt (f := x) t hJ hx
  rw [hasDerivAt_pi] at hcomp
  have hc : ∀ k, HasDerivAt (fun t => -(v (x t)).1 k) (-(∑ i, (v (x t)).2 k i * rayVelocity c v (x t) (s t) i)) t := by
    intro k
    have := (hcomp k).neg
    refine this.congr_deriv ?_
    simp [Matrix.toLin'_apply, Matrix.mulVec, dotProduct]
  have hin := (((hc 0).mul (hsi 0)).add ((hc 1).mul (hsi 1))).add ((hc 2).mul (hsi 2))
  have := hroot.add hin
  refine this.congr_deriv ?_
  have hl : √(s t 0 ^ 2 + s t 1 ^ 2 + s t 2 ^ 2) = len3 (s t) := rfl
  have hl0 : len3 (s t) ≠ 0 := (Real.sqrt_pos.2 hp).ne'
  rw [hl]
  have r : ∀ i, (∑ k, (v (x t)).2 k i * s t k) = raySlowness v (x t) (s t) i := by
    intro i
    have := congrFun hright i
    rw [Matrix.mulVec, dotProduct] at this
    simp only [Matrix.add_apply, Matrix.transpose_apply, Pi.zero_apply, add_mul, Finset.sum_add_distrib] at this
    rw [slowness_apply]
    linarith
  have r0 := r 0
  have r1 := r 1
  have r2 := r 2
  have x0 : rayVelocity c v (x t) (s t) 0 = c * s t 0 / len3 (s t) - (v (x t)).1 0 := by unfold rayVelocity; rw [absVec_len]
  have x1 : rayVelocity c v (x t) (s t) 1 = c * s t 1 / len3 (s t) - (v (x t)).1 1 := by unfold rayVelocity; rw [absVec_len]
  have x2 : rayVelocity c v (x t) (s t) 2 = c * s t 2 / len3 (s t) - (v (x t)).1 2 := by unfold rayVelocity; rw [absVec_len]
  rw [Fin.sum_univ_three] at r0 r1 r2
  simp only [Fin.sum_univ_three, x0, x1, x2]
  rw [← r0, ← r1, ← r2]
  field_simp
  ring

/-- The hypotheses are met by the rays in a uniform flow of 100 m/s (and by those in a rotating flow,
`C109_rotating_partial`). -/
example : let v : (Fin 3 → ℝ) → (Fin 3 → ℝ) × Matrix (Fin 3) (Fin 3) ℝ := fun _ => (![100, 0, 0], 0)
    let s0 := rayStart 343 v 0 ![0, 1, 0]
    let x : ℝ → Fin 3 → ℝ := fun t i => (0 : Fin 3 → ℝ) i + t * (343 * (![0, 1, 0] : Fin 3 → ℝ) i - (![100, 0, 0] : Fin 3 → ℝ) i)
    (∀ t, HasDerivAt x (rayVelocity 343 v (x t) s0) t) ∧ (∀ t, HasDerivAt (fun _ => s0) (raySlowness v (x t) s0) t) ∧
      s0 ≠ 0 ∧ (∀ y, IsJacobian (fun y => (v y).1) (v y).2 y) ∧
      ∀ y, Matrix.mulVec ((v y).2 + (v y).2.transpose) s0 = 0 := by
  intro v s0 x
  have h := C109_uniform 343 ![100, 0, 0] 0 ![0, 1, 0] (by simp [len3]) (by simp [inner3]) (by norm_num)
  refine ⟨h.1, fun t => ?_, ?_, fun y => ?_, fun y => by simp [v]⟩
  · rw [h.2.1 t]
    exact hasDerivAt_const t s0
  · intro h0
    have := congrFun h0 1
    simp [s0, rayStart, v] at this
  · unfold IsJacobian
    simp only [v]
    refine (hasFDerivAt_const (![100, 0, 0] : Fin 3 → ℝ) y).congr_fderiv ?_
    ext
    simp

end Acoular
