import Verif.Model.MovingFrame
import Mathlib.LinearAlgebra.Matrix.Determinant.Basic
import Mathlib.LinearAlgebra.Matrix.NonsingularInverse
import Mathlib.Tactic.Linarith
import Mathlib.Tactic.FieldSimp
import Mathlib.Tactic.Positivity
import Mathlib.Tactic.FinCases
import Mathlib.Tactic.LinearCombination

/-!
# C92: the moving grid is a rigid motion of the grid
-/

namespace Acoular

open Matrix

/-- A rotation: orthonormal columns, right handed. -/
def Spec.IsRotation (R : Matrix (Fin 3) (Fin 3) ℝ) : Prop := Rᵀ * R = 1 ∧ R.det = 1

theorem vec_sq_eq_zero (a : Fin 3 → ℝ) (h : a 0 * a 0 + a 1 * a 1 + a 2 * a 2 = 0) : a = 0 := by
  funext i
  fin_cases i <;> simp <;> nlinarith [mul_self_nonneg (a 0), mul_self_nonneg (a 1), mul_self_nonneg (a 2)]

theorem columnNorm_sq (R : Matrix (Fin 3) (Fin 3) ℝ) (j : Fin 3) :
    columnNorm R j * columnNorm R j = R 0 j * R 0 j + R 1 j * R 1 j + R 2 j * R 2 j := by
  unfold columnNorm
  rw [Real.mul_self_sqrt (Finset.sum_nonneg fun i _ => mul_self_nonneg _), Fin.sum_univ_three]

theorem columnNorm_nonneg (R : Matrix (Fin 3) (Fin 3) ℝ) (j : Fin 3) : 0 ≤ columnNorm R j := Real.sqrt_nonneg _

/-- The positions are numbers unless the reference vector is parallel to the velocity. -/
theorem columns_ne_zero (rvec v : Fin 3 → ℝ) : (∃ j, columnNorm (frameColumns rvec v) j = 0) ↔ pyCross rvec v = 0 := by
  constructor
  · rintro ⟨j, hj⟩
    have h := columnNorm_sq (frameColumns rvec v) j
    rw [hj, mul_zero] at h
    have hc : (fun i => frameColumns rvec v i j) = 0 := vec_sq_eq_zero _ h.symm
    fin_cases j
    · have hv : v = 0 := hc
      subst hv
      funext i
      fin_cases i <;> simp [pyCross]
    · exact hc
    · have hz : pyCross v (pyCross rvec v) = 0 := hc
      set d := pyCross rvec v with hd
      have hvd : v 0 * d 0 + v 1 * d 1 + v 2 * d 2 = 0 := by
        simp only [hd, pyCross]; simp; ring
      have h0 : v 1 * d 2 - v 2 * d 1 = 0 := congrFun hz 0
      have h1 : v 2 * d 0 - v 0 * d 2 = 0 := congrFun hz 1
      have h2 : v 0 * d 1 - v 1 * d 0 = 0 := congrFun hz 2
      have hp : (v 0 * v 0 + v 1 * v 1 + v 2 * v 2) * (d 0 * d 0 + d 1 * d 1 + d 2 * d 2) = 0 := by
        have : (v 0 * v 0 + v 1 * v 1 + v 2 * v 2) * (d 0 * d 0 + d 1 * d 1 + d 2 * d 2) =
            (v 0 * d 0 + v 1 * d 1 + v 2 * d 2) ^ 2 + (v 1 * d 2 - v 2 * d 1) ^ 2 + (v 2 * d 0 - v 0 * d 2) ^ 2 +
              (v 0 * d 1 - v 1 * d 0) ^ 2 := by ring
        rw [this, hvd, h0, h1, h2]; norm_num
      rcases mul_eq_zero.1 hp with h | h
      · have hv := vec_sq_eq_zero v h
        rw [hd, hv]
        funext i
        fin_cases i <;> simp [pyCross]
      · exact vec_sq_eq_zero d h
  · intro h
    refine ⟨1, ?_⟩
    have e : ∀ i, frameColumns rvec v i 1 = 0 := fun i => congrFun h i
    unfold columnNorm
    simp [e]

theorem frame_isRotation (rvec v : Fin 3 → ℝ) (h : pyCross rvec v ≠ 0) :
    Spec.IsRotation (Matrix.of fun i j => frameColumns rvec v i j / columnNorm (frameColumns rvec v) j) := by
  set R := frameColumns rvec v with hR
  have hne : ∀ j, columnNorm R j ≠ 0 := fun j hj => h ((columns_ne_zero rvec v).1 ⟨j, hj⟩)
  have hpos : ∀ j, 0 < columnNorm R j := fun j => lt_of_le_of_ne (columnNorm_nonneg R j) (hne j).symm
  have hsq := columnNorm_sq R
  set d := pyCross rvec v with hd
  have c0 : ∀ i, R i 0 = v i := fun i => rfl
  have c1 : ∀ i, R i 1 = d i := fun i => rfl
  have c20 : R 0 2 = v 1 * d 2 - v 2 * d 1 := rfl
  have c21 : R 1 2 = v 2 * d 0 - v 0 * d 2 := rfl
  have c22 : R 2 2 = v 0 * d 1 - v 1 * d 0 := rfl
  have hvd : v 0 * d 0 + v 1 * d 1 + v 2 * d 2 = 0 := by
    simp only [hd, pyCross]; simp; ring
  have s0 := hsq 0
  have s1 := hsq 1
  have s2 := hsq 2
  simp only [c0, c1, c20, c21, c22] at s0 s1 s2
  have p0 := hpos 0
  have p1 := hpos 1
  have p2 := hpos 2
  set n0 := columnNorm R 0
  set n1 := columnNorm R 1
  set n2 := columnNorm R 2
  have hn2 : n2 = n0 * n1 := by
    have : n2 * n2 = (n0 * n1) * (n0 * n1) := by
      calc n2 * n2 = (v 0 * v 0 + v 1 * v 1 + v 2 * v 2) * (d 0 * d 0 + d 1 * d 1 + d 2 * d 2) -
            (v 0 * d 0 + v 1 * d 1 + v 2 * d 2) ^ 2 := by rw [s2]; ring
        _ = (n0 * n0) * (n1 * n1) := by rw [hvd, s0, s1]; ring
        _ = _ := by ring
    exact (mul_self_inj p2.le (by positivity)).1 this
  refine ⟨?_, ?_⟩
  · ext i j
    rw [Matrix.mul_apply, Fin.sum_univ_three]
    simp only [Matrix.transpose_apply, Matrix.of_apply]
    have key : ∀ a b : Fin 3, R 0 a / columnNorm R a * (R 0 b / columnNorm R b) + R 1 a / columnNorm R a * (R 1 b / columnNorm R b) +
        R 2 a / columnNorm R a * (R 2 b / columnNorm R b) =
        (R 0 a * R 0 b + R 1 a * R 1 b + R 2 a * R 2 b) / (columnNorm R a * columnNorm R b) := by
      intro a b
      have := hne a
      have := hne b
      field_simp
    rw [key]
    by_cases hij : i = j
    · subst hij
      rw [Matrix.one_apply_eq, ← hsq i, div_self (mul_ne_zero (hne i) (hne i))]
    · rw [Matrix.one_apply_ne hij]
      have : R 0 i * R 0 j + R 1 i * R 1 j + R 2 i * R 2 j = 0 := by
        fin_cases i <;> fin_cases j <;> first
          | exact absurd rfl hij
          | (simp only [Fin.zero_eta, Fin.mk_one, Fin.reduceFinMk, c0, c1, c20, c21, c22]; linear_combination hvd)
          | (simp only [Fin.zero_eta, Fin.mk_one, Fin.reduceFinMk, c0, c1, c20, c21, c22]; ring)
      rw [this, zero_div]
  · rw [Matrix.det_fin_three]
    simp only [Matrix.of_apply]
    show R 0 0 / n0 * (R 1 1 / n1) * (R 2 2 / n2) - R 0 0 / n0 * (R 1 2 / n2) * (R 2 1 / n1) -
      R 0 1 / n1 * (R 1 0 / n0) * (R 2 2 / n2) + R 0 1 / n1 * (R 1 2 / n2) * (R 2 0 / n0) +
      R 0 2 / n2 * (R 1 0 / n0) * (R 2 1 / n1) - R 0 2 / n2 * (R 1 1 / n1) * (R 2 0 / n0) = 1
    have hdet : R 0 0 * R 1 1 * R 2 2 - R 0 0 * R 1 2 * R 2 1 - R 0 1 * R 1 0 * R 2 2 + R 0 1 * R 1 2 * R 2 0 +
        R 0 2 * R 1 0 * R 2 1 - R 0 2 * R 1 1 * R 2 0 = n2 * n2 := by
      rw [s2]; simp only [c0, c1, c20, c21, c22]; ring
    calc _ = (R 0 0 * R 1 1 * R 2 2 - R 0 0 * R 1 2 * R 2 1 - R 0 1 * R 1 0 * R 2 2 + R 0 1 * R 1 2 * R 2 0 +
        R 0 2 * R 1 0 * R 2 1 - R 0 2 * R 1 1 * R 2 0) / (n0 * n1 * n2) := by
          field_simp
      _ = 1 := by rw [hdet, hn2]; field_simp

/-- The cross product vanishes exactly for parallel vectors. -/
theorem pyCross_eq_zero (rvec v : Fin 3 → ℝ) (hr : rvec ≠ 0) : pyCross rvec v = 0 ↔ ∃ t : ℝ, v = t • rvec := by
  constructor
  · intro h
    have h0 : rvec 1 * v 2 - rvec 2 * v 1 = 0 := congrFun h 0
    have h1 : rvec 2 * v 0 - rvec 0 * v 2 = 0 := congrFun h 1
    have h2 : rvec 0 * v 1 - rvec 1 * v 0 = 0 := congrFun h 2
    have hn : rvec 0 * rvec 0 + rvec 1 * rvec 1 + rvec 2 * rvec 2 ≠ 0 := fun hz => hr (vec_sq_eq_zero rvec hz)
    refine ⟨(rvec 0 * v 0 + rvec 1 * v 1 + rvec 2 * v 2) / (rvec 0 * rvec 0 + rvec 1 * rvec 1 + rvec 2 * rvec 2), ?_⟩
    funext i
    rw [Pi.smul_apply, smul_eq_mul, div_mul_eq_mul_div, eq_div_iff hn]
    fin_cases i
    · simp only [Fin.zero_eta]; linear_combination rvec 2 * h1 - rvec 1 * h2
    · simp only [Fin.mk_one]; linear_combination rvec 0 * h2 - rvec 2 * h0
    · simp only [Fin.reduceFinMk]; linear_combination rvec 1 * h0 - rvec 0 * h1
  · rintro ⟨t, rfl⟩
    funext i
    fin_cases i <;> simp [pyCross] <;> ring

/-- **C92** With a reference vector that is not parallel to the velocity, the grid is rotated and translated: its x axis
points in the direction of motion and its y axis is perpendicular to the reference vector. -/
theorem C92_rotation {G : Type*} (rvec g v : Fin 3 → ℝ) (gpos : G → Fin 3 → ℝ) (hr : rvec ≠ 0)
    (hp : ¬∃ t : ℝ, v = t • rvec) :
    ∃ R, Spec.IsRotation R ∧ movingGpos rvec g v gpos = some (fun p => R *ᵥ gpos p + g) ∧
      (∃ s : ℝ, 0 < s ∧ R *ᵥ ![1, 0, 0] = s • v) ∧ rvec ⬝ᵥ (R *ᵥ ![0, 1, 0]) = 0 := by
  have h : pyCross rvec v ≠ 0 := fun hc => hp ((pyCross_eq_zero rvec v hr).1 hc)
  refine ⟨_, frame_isRotation rvec v h, ?_, ?_, ?_⟩
  · unfold movingGpos
    rw [if_neg hr]
    simp only
    rw [if_neg (fun hn => h ((columns_ne_zero rvec v).1 hn))]
  · have hpos : 0 < columnNorm (frameColumns rvec v) 0 :=
      lt_of_le_of_ne (columnNorm_nonneg _ _) fun hn => h ((columns_ne_zero rvec v).1 ⟨0, hn.symm⟩)
    refine ⟨(columnNorm (frameColumns rvec v) 0)⁻¹, inv_pos.2 hpos, ?_⟩
    funext i
    simp [Matrix.mulVec, dotProduct, Fin.sum_univ_three]
    have : frameColumns rvec v i 0 = v i := rfl
    rw [this, div_eq_mul_inv, mul_comm]
  · have e : ∀ i, frameColumns rvec v i 1 = pyCross rvec v i := fun i => rfl
    simp [Matrix.mulVec, dotProduct, Fin.sum_univ_three, e]
    simp [pyCross]
    ring

/-- The hypotheses of `C92_rotation` are met: -/
example := C92_rotation (G := ℕ) ![0, 0, 1] ![1, 1, 1] ![0, 1, 0] (fun p => ![p, 0, 1]) (fun h => by have := congrFun h 2; simp at this)
  (by
    rintro ⟨t, h⟩
    have := congrFun h 1
    simp at this)

/-- Without a reference vector the grid is only translated. -/
theorem C92_translation {G : Type*} (g v : Fin 3 → ℝ) (gpos : G → Fin 3 → ℝ) :
    movingGpos 0 g v gpos = some fun p => gpos p + g := by
  unfold movingGpos
  rw [if_pos rfl]

/-- Whenever the positions are numbers, all distances within the grid are those of the grid at rest. -/
theorem C92_distances {G : Type*} (rvec g v : Fin 3 → ℝ) (gpos pos : G → Fin 3 → ℝ)
    (h : movingGpos rvec g v gpos = some pos) (p q : G) :
    ∑ i, (pos p i - pos q i) ^ 2 = ∑ i, (gpos p i - gpos q i) ^ 2 := by
  by_cases hr : rvec = 0
  · subst hr
    rw [C92_translation] at h
    obtain rfl := Option.some.inj h
    simp
  · by_cases hc : pyCross rvec v = 0
    · unfold movingGpos at h
      rw [if_neg hr] at h
      simp only at h
      rw [if_pos ((columns_ne_zero rvec v).2 hc)] at h
      simp at h
    · obtain ⟨R, ⟨hR, _⟩, he, _⟩ := C92_rotation rvec g v gpos hr (fun hx => hc ((pyCross_eq_zero rvec v hr).2 hx))
      rw [he] at h
      obtain rfl := Option.some.inj h
      have hd : ∀ a : Fin 3 → ℝ, ∑ i, a i ^ 2 = a ⬝ᵥ a := fun a => Finset.sum_congr rfl fun i _ => sq (a i)
      have e1 : ∑ i, ((R *ᵥ gpos p + g) i - (R *ᵥ gpos q + g) i) ^ 2 = ∑ i, (R *ᵥ (gpos p - gpos q)) i ^ 2 := by
        refine Finset.sum_congr rfl fun i _ => ?_
        rw [Matrix.mulVec_sub]
        simp
      show ∑ i, ((R *ᵥ gpos p + g) i - (R *ᵥ gpos q + g) i) ^ 2 = ∑ i, ((gpos p - gpos q) i) ^ 2
      rw [e1, hd, hd, Matrix.dotProduct_mulVec, Matrix.vecMul_mulVec, hR, Matrix.vecMul_one]

/-- The hypotheses of `C92_distances` are met: -/
example (p q : ℕ) := C92_distances (G := ℕ) 0 ![1, 1, 1] ![0, 1, 0] (fun p => ![p, 0, 1]) _ (C92_translation _ _ _) p q

/-- The positions are not numbers exactly if there is a reference vector parallel to the velocity (or no velocity). -/
theorem C92_undefined {G : Type*} (rvec g v : Fin 3 → ℝ) (gpos : G → Fin 3 → ℝ) :
    movingGpos rvec g v gpos = none ↔ rvec ≠ 0 ∧ ∃ t : ℝ, v = t • rvec := by
  by_cases hr : rvec = 0
  · subst hr
    rw [C92_translation]
    simp
  · by_cases hc : pyCross rvec v = 0
    · unfold movingGpos
      rw [if_neg hr]
      simp only
      rw [if_pos ((columns_ne_zero rvec v).2 hc)]
      exact ⟨fun _ => ⟨hr, (pyCross_eq_zero rvec v hr).1 hc⟩, fun _ => rfl⟩
    · obtain ⟨R, _, he, _⟩ := C92_rotation rvec g v gpos hr (fun hx => hc ((pyCross_eq_zero rvec v hr).2 hx))
      rw [he]
      exact ⟨fun hx => (by simp at hx), fun hx => absurd ((pyCross_eq_zero rvec v hr).2 hx.2) hc⟩

/-- A circular motion around the z axis. -/
example : (![0, 0, 1] : Fin 3 → ℝ) ≠ 0 ∧ ¬∃ t : ℝ, (![0, 1, 0] : Fin 3 → ℝ) = t • ![0, 0, 1] := by
  refine ⟨fun h => ?_, ?_⟩
  · have := congrFun h 2
    simp at this
  · rintro ⟨t, h⟩
    have := congrFun h 1
    simp at this

end Acoular
