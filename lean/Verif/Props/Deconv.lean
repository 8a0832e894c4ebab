import Verif.Model.Deconv
import Verif.Props.Beamform

/-!
# Property theorems: DAMAS (C27), CLEAN (C28), CLEAN-SC (C29)
-/

set_option linter.unusedSectionVars false

namespace Acoular

open Spec

/-! ## C27 -/

section C27

variable {K : Type*} [Field K] [LinearOrder K] [IsStrictOrderedRing K] {g : ℕ}

private theorem step_other (A : Fin g → Fin g → K) (y : Fin g → K) (w : K) (x : Fin g → K) {i j : Fin g} (h : j ≠ i) :
    damasStep A y w x i j = x j := by
  unfold damasStep
  exact Function.update_of_ne h _ _

private theorem step_self (A : Fin g → Fin g → K) (y : Fin g → K) (w : K) (x : Fin g → K) (i : Fin g) :
    damasStep A y w x i i = max 0 ((1 - w) * x i + w * (y i - (applyPsf A x i - A i i * x i))) := by
  unfold damasStep applyPsf
  simp only [Function.update_self]
  split
  · rename_i h; rw [max_eq_right h.le]
  · rename_i h; rw [max_eq_left (not_lt.1 h)]

private theorem fold_nonneg (A : Fin g → Fin g → K) (y : Fin g → K) (w : K) (l : List (Fin g)) :
    ∀ x : Fin g → K, ∀ i, (i ∈ l ∨ 0 ≤ x i) → 0 ≤ l.foldl (damasStep A y w) x i := by
  induction l with
  | nil => intro x i h; simpa using h
  | cons j l ih =>
    intro x i h
    rw [List.foldl_cons]
    apply ih
    by_cases hij : i = j
    · subst hij
      right
      rw [step_self]; exact le_max_left _ _
    · rw [step_other _ _ _ _ hij]
      rcases h with h | h
      · left
        rcases List.mem_cons.1 h with h | h
        · exact absurd h hij
        · exact h
      · right; exact h

/-- **C27.** After the first sweep all source powers are non-negative, whatever matrix, map, relaxation and start. -/
theorem C27_nonneg (A : Fin g → Fin g → K) (y x : Fin g → K) (w : K) (nIter : ℕ) (hn : 1 ≤ nIter) (i : Fin g) :
    0 ≤ damasSolve A y nIter w x i := by
  obtain ⟨m, rfl⟩ : ∃ m, nIter = m + 1 := ⟨nIter - 1, by omega⟩
  clear hn
  induction m generalizing x with
  | zero =>
    rw [damasSolve, damasSolve]
    exact fold_nonneg A y w _ x i (Or.inl (List.mem_finRange i))
  | succ m ih => rw [damasSolve]; exact ih _

/-- The hypotheses of `C27_nonneg` are met: -/
example := C27_nonneg (K := ℚ) ![![1, 1/2], ![1/2, 1]] ![2, -5/2] ![-1, 2] 1 7 (by decide) 1

/-- **C27.** The result of `BeamformerDamas` is non-negative if the beamformer's map is (in particular with diagonal
removal, where it is clipped), for every number of iterations. -/
theorem C27_calc_nonneg (A : Fin g → Fin g → K) (y : Fin g → K) (rDiag : Bool) (nIter : ℕ) (damp : K)
    (h : rDiag = true ∨ ∀ i, 0 ≤ y i) (i : Fin g) : 0 ≤ damasCalc A y rDiag nIter damp i := by
  unfold damasCalc
  rcases Nat.eq_zero_or_pos nIter with rfl | hn
  · rw [damasSolve]
    rcases h with rfl | h
    · simp only [if_true]
      split
      · exact le_rfl
      · rename_i h; exact not_lt.1 h
    · have := h i
      split
      · split <;> simp_all
      · exact this
  · exact C27_nonneg _ _ _ _ _ hn i

/-- The hypotheses of `C27_calc_nonneg` are met: -/
example := C27_calc_nonneg (K := ℚ) ![![1, 1/2], ![1/2, 1]] ![2, -5/2] true 7 1 (.inl rfl) 1

private theorem fold_not_mem (A : Fin g → Fin g → K) (y : Fin g → K) (w : K) (l : List (Fin g)) (i : Fin g) (h : i ∉ l) :
    ∀ x : Fin g → K, l.foldl (damasStep A y w) x i = x i := by
  induction l with
  | nil => intro x; rfl
  | cons j l ih =>
    intro x
    rw [List.foldl_cons, ih (fun h' => h (List.mem_cons_of_mem _ h'))]
    exact step_other _ _ _ _ (fun hij => h (hij ▸ List.mem_cons_self))

private theorem step_fixed_iff (A : Fin g → Fin g → K) (y : Fin g → K) (w : K) (x : Fin g → K) (i : Fin g) :
    damasStep A y w x i = x ↔ damasStep A y w x i i = x i := by
  constructor
  · intro h; rw [h]
  · intro h
    funext j
    by_cases hj : j = i
    · rw [hj, h]
    · exact step_other _ _ _ _ hj

private theorem fold_fixed_iff (A : Fin g → Fin g → K) (y : Fin g → K) (w : K) (x : Fin g → K) (l : List (Fin g))
    (hl : l.Nodup) : l.foldl (damasStep A y w) x = x ↔ ∀ i ∈ l, damasStep A y w x i = x := by
  induction l with
  | nil => simp
  | cons j l ih =>
    rw [List.nodup_cons] at hl
    rw [List.foldl_cons]
    constructor
    · intro h
      have hj : damasStep A y w x j = x := by
        rw [step_fixed_iff]
        rw [← fold_not_mem A y w l j hl.1 (damasStep A y w x j), h]
      intro i hi
      rcases List.mem_cons.1 hi with rfl | hi
      · exact hj
      · rw [hj] at h
        exact (ih hl.2).1 h i hi
    · intro h
      rw [h j List.mem_cons_self]
      exact (ih hl.2).2 fun i hi => h i (List.mem_cons_of_mem _ hi)

private theorem sweep_fixed_iff (A : Fin g → Fin g → K) (y : Fin g → K) (w : K) (x : Fin g → K) :
    damasSweep A y w x = x ↔ ∀ i, damasStep A y w x i i = x i := by
  unfold damasSweep
  rw [fold_fixed_iff A y w x _ (List.nodup_finRange g)]
  simp only [List.mem_finRange, true_implies, step_fixed_iff]

private theorem applyPsf_unitDiag (A : Fin g → Fin g → K) (x : Fin g → K) (i : Fin g) :
    applyPsf (unitDiag A) x i = applyPsf A x i - A i i * x i + x i := by
  unfold applyPsf unitDiag
  have h : ∀ j, (if i = j then 1 else A i j) * x j = A i j * x j + if i = j then (1 - A i i) * x i else 0 := by
    intro j
    by_cases hij : i = j
    · subst hij; simp; ring
    · simp [hij]
  simp only [h]
  rw [Finset.sum_add_distrib]
  simp
  ring

/-- **C27.** A map is left unchanged by a sweep exactly if it satisfies the complementarity form of `A x = y` with unit
diagonal; the relaxation plays no role. -/
theorem C27_fixed_point_iff (A : Fin g → Fin g → K) (y x : Fin g → K) (w : K) (hw : 0 < w) :
    damasSweep A y w x = x ↔ Complementary (unitDiag A) y x := by
  rw [sweep_fixed_iff]
  unfold Complementary
  refine forall_congr' fun i => ?_
  rw [step_self, applyPsf_unitDiag]
  have e : (1 - w) * x i + w * (y i - (applyPsf A x i - A i i * x i)) =
      x i + w * (y i - (applyPsf A x i - A i i * x i + x i)) := by ring
  rw [e]
  generalize applyPsf A x i - A i i * x i + x i = b
  constructor
  · intro h
    have h0 : 0 ≤ x i := by rw [← h]; exact le_max_left _ _
    rcases h0.eq_or_lt with h0 | h0
    · rw [← h0, zero_add] at h
      have h1 : w * (y i - b) ≤ 0 := by
        have := le_max_right 0 (w * (y i - b)); rw [h] at this; exact this
      have h2 : y i - b ≤ 0 := by
        by_contra hc
        exact absurd (mul_pos hw (not_le.1 hc)) (not_lt.2 h1)
      exact ⟨h0.le, by linarith, Or.inl h0.symm⟩
    · have h1 : x i + w * (y i - b) = x i := by
        rcases max_choice 0 (x i + w * (y i - b)) with hm | hm
        · rw [hm] at h; exact absurd h h0.ne
        · rw [hm] at h; exact h
      have h2 : w * (y i - b) = 0 := by linarith
      have h3 : y i - b = 0 := (mul_eq_zero.1 h2).resolve_left hw.ne'
      exact ⟨h0.le, by linarith, Or.inr (by linarith)⟩
  · rintro ⟨h0, h1, h2⟩
    rcases h2 with h2 | h2
    · rw [h2, zero_add, max_eq_left]
      exact mul_nonpos_of_nonneg_of_nonpos hw.le (by linarith)
    · rw [h2, sub_self, mul_zero, add_zero, max_eq_right h0]

/-- The hypotheses of `C27_fixed_point_iff` are met: -/
example := C27_fixed_point_iff (K := ℚ) ![![1, 1/2], ![1/2, 1]] ![2, 5/2] ![1, 2] (1/2) (by norm_num)

/-- **C27.** The relaxation does not change the set of fixed points. -/
theorem C27_relaxation (A : Fin g → Fin g → K) (y x : Fin g → K) (w w' : K) (hw : 0 < w) (hw' : 0 < w') :
    damasSweep A y w x = x ↔ damasSweep A y w' x = x := by
  rw [C27_fixed_point_iff A y x w hw, C27_fixed_point_iff A y x w' hw']

/-- The hypotheses of `C27_relaxation` are met: -/
example := C27_relaxation (K := ℚ) ![![1, 1/2], ![1/2, 1]] ![2, 5/2] ![1, 2] (1/2) 1 (by norm_num) (by norm_num)

/-- **C27.** An exact non-negative solution stays, for every number of iterations. -/
theorem C27_exact_solution (A : Fin g → Fin g → K) (y x : Fin g → K) (w : K) (hA : ∀ i, A i i = 1) (hx : ∀ i, 0 ≤ x i)
    (hxy : ∀ i, applyPsf A x i = y i) (nIter : ℕ) : damasSolve A y nIter w x = x := by
  have hs : damasSweep A y w x = x := by
    rw [sweep_fixed_iff]
    intro i
    rw [step_self, hA, hxy, show (1 - w) * x i + w * (y i - (y i - 1 * x i)) = x i by ring, max_eq_right (hx i)]
  induction nIter with
  | zero => rfl
  | succ n ih => rw [damasSolve, hs, ih]

/-- Without unit diagonal an exact solution stays only where the entry of the diagonal is 1 or the source power is
0. -/
theorem C27_nonunit_diagonal (A : Fin g → Fin g → K) (y x : Fin g → K) (w : K) (hw : 0 < w) (hx : ∀ i, 0 ≤ x i)
    (hxy : ∀ i, applyPsf A x i = y i) (hs : damasSweep A y w x = x) (i : Fin g) : A i i = 1 ∨ x i = 0 := by
  have h := (C27_fixed_point_iff A y x w hw).1 hs i
  rw [applyPsf_unitDiag, hxy] at h
  rcases h.2.2 with h2 | h2
  · exact Or.inr h2
  · rcases (hx i).eq_or_lt with h0 | h0
    · exact Or.inr h0.symm
    · left
      have : (1 - A i i) * x i = 0 := by linear_combination h2
      rcases mul_eq_zero.1 this with h3 | h3
      · linear_combination -h3
      · exact absurd h3 h0.ne'

/-- The hypotheses of `C27_nonunit_diagonal` are met: -/
example := C27_nonunit_diagonal (K := ℚ) ![![1, 1/2], ![1/2, 2]] ![1, 1/2] ![1, 0] 1 (by norm_num) (by decide +kernel) (by decide +kernel)
  (by decide +kernel) 1

private theorem max_sub_abs_le (a b : K) : |max 0 a - max 0 b| ≤ |a - b| := by
  rw [max_comm 0 a, max_comm 0 b]; exact abs_max_sub_max_le_abs a b 0

private theorem fold_contract (A : Fin g → Fin g → K) (y xs : Fin g → K) (w q M : K) (hw : 0 ≤ w)
    (hw1 : w ≤ 1) (hM : 0 ≤ M) (hq1 : q ≤ 1)
    (hq : ∀ i, ∑ j ∈ Finset.univ.erase i, |A i j| ≤ q) (hfix : ∀ i, damasStep A y w xs i i = xs i) (l : List (Fin g)) :
    ∀ x : Fin g → K, (∀ j, |x j - xs j| ≤ M) →
      (∀ j, |l.foldl (damasStep A y w) x j - xs j| ≤ M) ∧
      ∀ j, (j ∈ l ∨ |x j - xs j| ≤ (1 - w + w * q) * M) → |l.foldl (damasStep A y w) x j - xs j| ≤ (1 - w + w * q) * M := by
  induction l with
  | nil => intro x h; exact ⟨h, fun j hj => by simpa using hj⟩
  | cons i l ih =>
    intro x hx
    have hstep : |damasStep A y w x i i - xs i| ≤ (1 - w + w * q) * M := by
      conv_lhs => rw [← hfix i]
      rw [step_self, step_self]
      refine (max_sub_abs_le _ _).trans ?_
      have hsum : ∀ z : Fin g → K, applyPsf A z i - A i i * z i = ∑ j ∈ Finset.univ.erase i, A i j * z j := by
        intro z
        unfold applyPsf
        rw [← Finset.add_sum_erase _ _ (Finset.mem_univ i)]
        ring
      rw [hsum, hsum]
      have e : (1 - w) * x i + w * (y i - ∑ j ∈ Finset.univ.erase i, A i j * x j) -
          ((1 - w) * xs i + w * (y i - ∑ j ∈ Finset.univ.erase i, A i j * xs j)) =
          (1 - w) * (x i - xs i) - w * ∑ j ∈ Finset.univ.erase i, A i j * (x j - xs j) := by
        have : ∑ j ∈ Finset.univ.erase i, A i j * (x j - xs j) =
            ∑ j ∈ Finset.univ.erase i, A i j * x j - ∑ j ∈ Finset.univ.erase i, A i j * xs j := by
          rw [← Finset.sum_sub_distrib]
          exact Finset.sum_congr rfl fun j _ => by ring
        rw [this]; ring
      rw [e]
      refine (abs_sub _ _).trans ?_
      rw [abs_mul, abs_mul, abs_of_nonneg (sub_nonneg.2 hw1), abs_of_nonneg hw]
      have h1 : |∑ j ∈ Finset.univ.erase i, A i j * (x j - xs j)| ≤ q * M := by
        refine (Finset.abs_sum_le_sum_abs _ _).trans ?_
        refine le_trans (Finset.sum_le_sum (g := fun j => |A i j| * M) ?_) ?_
        · intro j _
          rw [abs_mul]
          exact mul_le_mul_of_nonneg_left (hx j) (abs_nonneg _)
        · rw [← Finset.sum_mul]
          exact mul_le_mul_of_nonneg_right (hq i) hM
      have h2 := mul_le_mul_of_nonneg_left (hx i) (sub_nonneg.2 hw1)
      have h3 := mul_le_mul_of_nonneg_left h1 hw
      calc _ ≤ (1 - w) * M + w * (q * M) := add_le_add h2 h3
        _ = _ := by ring
    have hle : (1 - w + w * q) * M ≤ M := by
      have : 1 - w + w * q ≤ 1 := by nlinarith
      calc _ ≤ 1 * M := mul_le_mul_of_nonneg_right this hM
        _ = M := one_mul _
    have hx' : ∀ j, |damasStep A y w x i j - xs j| ≤ M := by
      intro j
      by_cases hj : j = i
      · subst hj; exact hstep.trans hle
      · rw [step_other _ _ _ _ hj]; exact hx j
    obtain ⟨i1, i2⟩ := ih _ hx'
    rw [List.foldl_cons]
    refine ⟨i1, fun j hj => i2 j ?_⟩
    by_cases hji : j = i
    · subst hji; exact Or.inr hstep
    · rw [step_other _ _ _ _ hji]
      rcases hj with hj | hj
      · left
        rcases List.mem_cons.1 hj with h | h
        · exact absurd h hji
        · exact h
      · exact Or.inr hj

/-- **C27.** If the point spread functions overlap little (the side values of every row sum to at most `q < 1`), the
iteration converges to the solution, with a geometric rate, from every start. -/
theorem C27_convergence (A : Fin g → Fin g → K) (y xs x : Fin g → K) (w q M : K) (hA : ∀ i, A i i = 1) (hw : 0 < w)
    (hw1 : w ≤ 1) (hq1 : q ≤ 1) (hq : ∀ i, ∑ j ∈ Finset.univ.erase i, |A i j| ≤ q) (hM : ∀ j, |x j - xs j| ≤ M)
    (hxs : Complementary A y xs) (nIter : ℕ) (i : Fin g) :
    |damasSolve A y nIter w x i - xs i| ≤ (1 - w + w * q) ^ nIter * M := by
  have hun : unitDiag A = A := by
    funext i j; unfold unitDiag; split
    · rename_i h; rw [← h, hA]
    · rfl
  have hfix := (sweep_fixed_iff A y w xs).1 ((C27_fixed_point_iff A y xs w hw).2 (hun.symm ▸ hxs))
  have hq0 : 0 ≤ q := (Finset.sum_nonneg fun j _ => abs_nonneg (A i j)).trans (hq i)
  induction nIter generalizing x M with
  | zero => rw [damasSolve, pow_zero, one_mul]; exact hM i
  | succ n ih =>
    rw [damasSolve]
    have hM0 : 0 ≤ M := (abs_nonneg _).trans (hM i)
    have h := fold_contract A y xs w q M hw.le hw1 hM0 hq1 hq hfix (List.finRange g) x hM
    have := ih (damasSweep A y w x) ((1 - w + w * q) * M) fun j => h.2 j (Or.inl (List.mem_finRange j))
    rw [pow_succ, mul_assoc]
    exact this

/-- The quadratic whose minimum over the non-negative maps is sought: `½ xᵀAx - yᵀx`. -/
def damasObjective (A : Fin g → Fin g → K) (y x : Fin g → K) : K := (∑ i, x i * applyPsf A x i) / 2 - ∑ i, y i * x i

private theorem objective_update (A : Fin g → Fin g → K) (y x : Fin g → K) (hsym : ∀ i j, A i j = A j i) (i : Fin g) (d : K) :
    damasObjective A y (Function.update x i (x i + d)) =
      damasObjective A y x + d * (applyPsf A x i - y i) + d ^ 2 * A i i / 2 := by
  have hu : ∀ j, Function.update x i (x i + d) j = x j + if j = i then d else 0 := by
    intro j
    by_cases hj : j = i
    · subst hj; simp
    · rw [Function.update_of_ne hj, if_neg hj, add_zero]
  have hap : ∀ k, applyPsf A (Function.update x i (x i + d)) k = applyPsf A x k + A k i * d := by
    intro k
    unfold applyPsf
    simp only [hu, mul_add]
    rw [Finset.sum_add_distrib]
    simp
  unfold damasObjective
  simp only [hap, hu]
  have e1 : ∑ k, (x k + if k = i then d else 0) * (applyPsf A x k + A k i * d) =
      ∑ k, x k * applyPsf A x k + d * applyPsf A x i + d * (applyPsf A x i + A i i * d) := by
    have : ∀ k, (x k + if k = i then d else 0) * (applyPsf A x k + A k i * d) =
        x k * applyPsf A x k + d * (A i k * x k) + if k = i then d * (applyPsf A x i + A i i * d) else 0 := by
      intro k
      rw [hsym i k]
      split
      · rename_i h; subst h; ring
      · ring
    simp only [this]
    rw [Finset.sum_add_distrib, Finset.sum_add_distrib, ← Finset.mul_sum]
    simp [applyPsf]
  have e2 : ∑ k, y k * (x k + if k = i then d else 0) = ∑ k, y k * x k + y i * d := by
    simp only [mul_add]
    rw [Finset.sum_add_distrib]
    simp
  rw [e1, e2]
  ring

private theorem step_objective (A : Fin g → Fin g → K) (y x : Fin g → K) (w : K) (hsym : ∀ i j, A i j = A j i)
    (hA : ∀ i, A i i = 1) (hw : 0 < w) (hw2 : w ≤ 2) (i : Fin g) (hx : 0 ≤ x i) :
    damasObjective A y (damasStep A y w x i) ≤ damasObjective A y x := by
  have hs := step_self A y w x i
  have hup : damasStep A y w x i = Function.update x i (x i + (damasStep A y w x i i - x i)) := by
    funext j
    by_cases hj : j = i
    · subst hj; simp
    · rw [step_other _ _ _ _ hj, Function.update_of_ne hj]
  rw [hup, objective_update A y x hsym, hA]
  rw [hA, show (1 - w) * x i + w * (y i - (applyPsf A x i - 1 * x i)) = x i + w * (y i - applyPsf A x i) by ring] at hs
  rw [hs]
  generalize hb : y i - applyPsf A x i = b
  rw [show applyPsf A x i - y i = -b by rw [← hb]; ring]
  rcases le_total 0 (x i + w * b) with h | h
  · rw [max_eq_right h]
    have : 0 ≤ w * b ^ 2 * (2 - w) := mul_nonneg (mul_nonneg hw.le (sq_nonneg b)) (by linarith)
    nlinarith
  · rw [max_eq_left h]
    -- d = -x, w b ≤ -x
    have hwb : w * b ≤ -x i := by linarith
    have h1 : x i * (w * b) ≤ x i * (-x i) := mul_le_mul_of_nonneg_left hwb hx
    have h2 : w * (x i) ^ 2 ≤ 2 * (x i) ^ 2 := mul_le_mul_of_nonneg_right hw2 (sq_nonneg _)
    have h3 : w * (2 * (x i * b) + (x i) ^ 2) ≤ 0 := by nlinarith
    have h4 : 2 * (x i * b) + (x i) ^ 2 ≤ 0 := by
      by_contra hc
      exact absurd (mul_pos hw (not_le.1 hc)) (not_lt.2 h3)
    nlinarith

/-- **C27.** For symmetric point spread functions with unit diagonal and a relaxation up to 2, no iteration increases the
objective of the deconvolution problem. -/
theorem C27_objective (A : Fin g → Fin g → K) (y x : Fin g → K) (w : K) (hsym : ∀ i j, A i j = A j i)
    (hA : ∀ i, A i i = 1) (hw : 0 < w) (hw2 : w ≤ 2) (hx : ∀ i, 0 ≤ x i) (nIter : ℕ) :
    damasObjective A y (damasSolve A y nIter w x) ≤ damasObjective A y x := by
  have hl : ∀ (l : List (Fin g)) (x : Fin g → K), (∀ i, 0 ≤ x i) →
      damasObjective A y (l.foldl (damasStep A y w) x) ≤ damasObjective A y x := by
    intro l
    induction l with
    | nil => intro x _; exact le_rfl
    | cons i l ih =>
      intro x hx
      rw [List.foldl_cons]
      refine (ih _ ?_).trans (step_objective A y x w hsym hA hw hw2 i (hx i))
      intro j
      have := fold_nonneg A y w [i] x j (Or.inr (hx j))
      simpa using this
  induction nIter generalizing x with
  | zero => exact le_rfl
  | succ n ih =>
    rw [damasSolve]
    exact (ih _ fun i => fold_nonneg A y w _ x i (Or.inr (hx i))).trans (hl _ x hx)

/-- Two points, overlap 1/2, true powers (1, 2). -/
example : damasSolve (K := ℚ) ![![1, 1/2], ![1/2, 1]] ![2, 5/2] 7 1 ![1, 2] = ![1, 2] :=
  C27_exact_solution _ _ _ _ (by decide +kernel) (by decide +kernel) (by decide +kernel) 7

example (i : Fin 2) : |damasSolve (K := ℚ) ![![1, 1/2], ![1/2, 1]] ![2, 5/2] 10 1 ![2, 5/2] i - ![1, 2] i| ≤ (1/2) ^ 10 := by
  have := C27_convergence (K := ℚ) ![![1, 1/2], ![1/2, 1]] ![2, 5/2] ![1, 2] ![2, 5/2] 1 (1/2) 1 (by decide +kernel) (by norm_num)
    (by norm_num) (by norm_num) (by decide +kernel) (by decide +kernel) (by unfold Complementary; decide +kernel) 10 i
  norm_num at this ⊢
  exact this

example : damasSolve (K := ℚ) ![![1, 1/2], ![1/2, 1]] ![1, 5] 2 1 ![1, 5] = ![0, 5] := by decide +kernel

end C27

/-! ## C28 -/

section C28

variable {K : Type*} [Field K] [LinearOrder K] [IsStrictOrderedRing K] {g : ℕ}

private theorem argmax_fold (x : Fin g → K) (l : List (Fin g)) : ∀ b, (b :: l).Pairwise (· < ·) →
    let r := l.foldl (fun b j => if x b < x j then j else b) b
    (∀ j ∈ b :: l, x j ≤ x r) ∧ (∀ j ∈ b :: l, j < r → x j < x r) ∧ r ∈ b :: l := by
  induction l with
  | nil =>
    intro b _
    simp
  | cons c l ih =>
    intro b hp
    have hp1 := List.pairwise_cons.1 hp
    have hbc : b < c := hp1.1 c List.mem_cons_self
    rw [List.foldl_cons]
    by_cases hlt : x b < x c
    · rw [if_pos hlt]
      obtain ⟨h1, h2, h3⟩ := ih c hp1.2
      refine ⟨?_, ?_, List.mem_cons_of_mem _ h3⟩
      · intro j hj
        rcases List.mem_cons.1 hj with rfl | hj
        · exact hlt.le.trans (h1 c List.mem_cons_self)
        · exact h1 j hj
      · intro j hj hjr
        rcases List.mem_cons.1 hj with rfl | hj
        · exact hlt.trans_le (h1 c List.mem_cons_self)
        · exact h2 j hj hjr
    · rw [if_neg hlt]
      have hp2 : (b :: l).Pairwise (· < ·) :=
        List.pairwise_cons.2 ⟨fun j hj => hp1.1 j (List.mem_cons_of_mem _ hj), (List.pairwise_cons.1 hp1.2).2⟩
      obtain ⟨h1, h2, h3⟩ := ih b hp2
      refine ⟨?_, ?_, ?_⟩
      · intro j hj
        rcases List.mem_cons.1 hj with rfl | hj
        · exact h1 j List.mem_cons_self
        · rcases List.mem_cons.1 hj with rfl | hj
          · exact (not_lt.1 hlt).trans (h1 b List.mem_cons_self)
          · exact h1 j (List.mem_cons_of_mem _ hj)
      · intro j hj hjr
        rcases List.mem_cons.1 hj with rfl | hj
        · exact h2 j List.mem_cons_self hjr
        · rcases List.mem_cons.1 hj with rfl | hj
          · exact (not_lt.1 hlt).trans_lt (h2 b List.mem_cons_self (hbc.trans hjr))
          · exact h2 j (List.mem_cons_of_mem _ hj) hjr
      · rcases List.mem_cons.1 h3 with h3 | h3
        · rw [h3]; exact List.mem_cons_self
        · exact List.mem_cons_of_mem _ (List.mem_cons_of_mem _ h3)

/-- `argmax` returns the first position of the maximum. -/
theorem argmax_isFirstMax (x : Fin (g + 1) → K) : IsFirstMax x (argmax x) := by
  have hp : (List.finRange (g + 1)).Pairwise (· < ·) := List.pairwise_lt_finRange _
  have hc : List.finRange (g + 1) = 0 :: (List.finRange g).map Fin.succ := List.finRange_succ
  unfold argmax
  rw [hc, List.foldl_cons, if_neg (lt_irrefl _)]
  have h := argmax_fold x ((List.finRange g).map Fin.succ) 0 (hc ▸ hp)
  refine ⟨fun j => h.1 j (hc ▸ List.mem_finRange j), fun j => h.2.1 j (hc ▸ List.mem_finRange j)⟩

/-- The states of the loop. -/
private def cleanIter (A : Fin (g + 1) → Fin (g + 1) → K) (damp : K) (s : CleanState K g) : ℕ → CleanState K g
  | 0 => s
  | k + 1 => cleanBody A damp (cleanIter A damp s k)

private theorem cleanIter_shift (A : Fin (g + 1) → Fin (g + 1) → K) (damp : K) (s : CleanState K g) (k : ℕ) :
    cleanIter A damp (cleanBody A damp s) k = cleanIter A damp s (k + 1) := by
  induction k with
  | zero => rfl
  | succ k ih => rw [cleanIter, ih]; rfl

private theorem cleanIter_iter (A : Fin (g + 1) → Fin (g + 1) → K) (damp : K) (s : CleanState K g) (k : ℕ) :
    (cleanIter A damp s k).iter = s.iter + k := by
  induction k with
  | zero => rfl
  | succ k ih => rw [cleanIter, cleanBody]; dsimp only; rw [ih]; omega

private theorem cleanLoop_eq (A : Fin (g + 1) → Fin (g + 1) → K) (damp : K) (nIter : ℤ) (fuel : ℕ) :
    ∀ s : CleanState K g, nIter < s.iter + fuel + 1 → 0 < fuel →
      ∃ N, 1 ≤ N ∧ cleanLoop A damp nIter fuel s = cleanIter A damp s N ∧
        (∀ k, k + 1 < N → cleanFlag nIter (cleanIter A damp s k) (cleanIter A damp s (k + 1)) = true) ∧
        cleanFlag nIter (cleanIter A damp s (N - 1)) (cleanIter A damp s N) = false := by
  induction fuel with
  | zero => intro s _ h; omega
  | succ fuel ih =>
    intro s hs _
    rw [cleanLoop]
    by_cases hf : cleanFlag nIter s (cleanBody A damp s) = true
    · rw [if_pos hf]
      have hlt : ((s.iter + 1 : ℕ) : ℤ) < nIter := by
        have := hf
        unfold cleanFlag at this
        rw [Bool.and_eq_true, Bool.and_eq_true] at this
        have h1 := of_decide_eq_true this.1.2
        exact h1
      obtain ⟨N, h1, h2, h3, h4⟩ := ih (cleanBody A damp s) (by
        show nIter < ((s.iter + 1 : ℕ) : ℤ) + fuel + 1
        push_cast at hs ⊢; omega) (by push_cast at hs hlt; omega)
      refine ⟨N + 1, by omega, ?_, ?_, ?_⟩
      · rw [h2, cleanIter_shift]
      · intro k hk
        rcases k with _ | k
        · exact hf
        · rw [← cleanIter_shift, ← cleanIter_shift]
          exact h3 k (by omega)
      · obtain ⟨M, rfl⟩ : ∃ M, N = M + 1 := ⟨N - 1, by omega⟩
        rw [Nat.add_sub_cancel] at h4 ⊢
        rw [← cleanIter_shift, ← cleanIter_shift]
        exact h4
    · rw [if_neg hf]
      exact ⟨1, le_rfl, rfl, fun k hk => by omega, Bool.eq_false_iff.2 hf⟩

/-- The dirty map that CLEAN starts from. -/
def cleanStart (rDiag : Bool) (y : Fin (g + 1) → K) (i : Fin (g + 1)) : K :=
  if rDiag then (if y i < 0 then 0 else y i) else y i

/-- **C28.** The result of CLEAN is a finite prefix of its recursion: `N ≥ 1` components, at most `n_iter` (one if
`n_iter` is less), it went on as long as the sum of the magnitudes got smaller, something positive was left and the limit
was not reached, and not longer. -/
theorem C28_run (A : Fin (g + 1) → Fin (g + 1) → K) (damp : K) (nIter : ℤ) (rDiag : Bool) (y : Fin (g + 1) → K) :
    ∃ (R : ℕ → Fin (g + 1) → K) (pos : ℕ → Fin (g + 1)) (N : ℕ),
      CleanRun A damp R pos ∧ R 0 = cleanStart rDiag y ∧ 1 ≤ N ∧ (N : ℤ) ≤ max 1 nIter ∧
      (cleanCalc A damp nIter rDiag y).iter = N ∧
      (cleanCalc A damp nIter rDiag y).dirty = R N ∧
      (∀ s, (cleanCalc A damp nIter rDiag y).clean s =
        ∑ k ∈ (Finset.range N).filter (fun k => pos k = s), damp * R k (pos k)) ∧
      (∀ k, k + 1 < N → ∑ i, |R (k + 1) i| < ∑ i, |R k i| ∧ ∃ i, 0 < R (k + 1) i) ∧
      ((N : ℤ) < nIter → ¬ (∑ i, |R N i| < ∑ i, |R (N - 1) i| ∧ ∃ i, 0 < R N i)) := by
  obtain ⟨N, h1, h2, h3, h4⟩ := cleanLoop_eq A damp nIter (nIter.toNat + 1) ⟨cleanStart rDiag y, fun _ => 0, 0⟩
    (by push_cast; omega) (by omega)
  set s0 : CleanState K g := ⟨cleanStart rDiag y, fun _ => 0, 0⟩ with hs0
  have hcalc : cleanCalc A damp nIter rDiag y = cleanIter A damp s0 N := h2
  have hflag : ∀ k, cleanFlag nIter (cleanIter A damp s0 k) (cleanIter A damp s0 (k + 1)) = true ↔
      (∑ i, |(cleanIter A damp s0 (k + 1)).dirty i| < ∑ i, |(cleanIter A damp s0 k).dirty i| ∧
        ((k + 1 : ℕ) : ℤ) < nIter ∧ ∃ i, 0 < (cleanIter A damp s0 (k + 1)).dirty i) := by
    intro k
    unfold cleanFlag
    rw [Bool.and_eq_true, Bool.and_eq_true, decide_eq_true_iff, decide_eq_true_iff, decide_eq_true_iff, cleanIter_iter]
    have hz : s0.iter = 0 := rfl
    rw [hz, Nat.zero_add, and_assoc]
    refine and_congr Iff.rfl (and_congr Iff.rfl ⟨fun h => ⟨_, h⟩, ?_⟩)
    rintro ⟨i, hi⟩
    exact hi.trans_le ((argmax_isFirstMax _).1 i)
  refine ⟨fun k => (cleanIter A damp s0 k).dirty, fun k => argmax (cleanIter A damp s0 k).dirty, N, ⟨?_, ?_⟩, rfl, h1, ?_,
    ?_, ?_, ?_, ?_, ?_⟩
  · intro k; exact argmax_isFirstMax _
  · intro k i; rfl
  · rcases Nat.lt_or_ge 1 N with hN | hN
    · have := (hflag (N - 2)).1 (by
        have := h3 (N - 2) (by omega)
        exact this)
      have h := this.2.1
      rw [show N - 2 + 1 = N - 1 by omega] at h
      omega
    · omega
  · rw [hcalc, cleanIter_iter]; simp [hs0]
  · rw [hcalc]
  · intro s
    rw [hcalc]
    clear h1 h2 h3 h4 hcalc
    induction N with
    | zero => simp [cleanIter, hs0]
    | succ N ih =>
      rw [cleanIter, cleanBody]
      dsimp only
      rw [Finset.range_add_one, Finset.filter_insert]
      by_cases hp : argmax (cleanIter A damp s0 N).dirty = s
      · rw [if_pos hp, Finset.sum_insert (by simp), ← ih]
        subst hp
        rw [Function.update_self]
        ring
      · rw [if_neg hp, Function.update_of_ne (fun h => hp h.symm), ih]
  · intro k hk
    have := (hflag k).1 (h3 k hk)
    exact ⟨this.1, this.2.2⟩
  · intro hN hc
    have hk : N - 1 + 1 = N := by omega
    have := (hflag (N - 1)).2 ⟨by rw [hk]; exact hc.1, by rw [hk]; exact hN, by rw [hk]; exact hc.2⟩
    rw [hk, h4] at this
    exact absurd this (by simp)

/-- The hypotheses of `C28_run` are met: -/
example := C28_run (K := ℚ) (g := 1) ![![1, 1/4], ![1/4, 1]] 1 100 false ![4, 2]

/-- **C28.** Residual identity: what is left is the initial map minus the point spread functions of all components,
weighted with their strengths. -/
theorem C28_residual (A : Fin (g + 1) → Fin (g + 1) → K) (damp : K) (nIter : ℤ) (rDiag : Bool) (y : Fin (g + 1) → K)
    (i : Fin (g + 1)) :
    (cleanCalc A damp nIter rDiag y).dirty i =
      cleanStart rDiag y i - applyPsf A (cleanCalc A damp nIter rDiag y).clean i := by
  obtain ⟨R, pos, N, hrun, hR0, -, -, -, hd, hc, -, -⟩ := C28_run A damp nIter rDiag y
  rw [hd]
  unfold applyPsf
  simp only [hc]
  rw [← hR0]
  clear hd hc hR0
  induction N with
  | zero => simp
  | succ N ih =>
    rw [hrun.step, ih]
    have : ∀ s, A i s * ∑ k ∈ (Finset.range (N + 1)).filter (fun k => pos k = s), damp * R k (pos k) =
        A i s * (∑ k ∈ (Finset.range N).filter (fun k => pos k = s), damp * R k (pos k)) +
          if pos N = s then A i s * (damp * R N (pos N)) else 0 := by
      intro s
      rw [Finset.range_add_one, Finset.filter_insert]
      by_cases hp : pos N = s
      · rw [if_pos hp, if_pos hp, Finset.sum_insert (by simp)]; ring
      · rw [if_neg hp, if_neg hp, add_zero]
    simp only [this]
    rw [Finset.sum_add_distrib]
    simp
    ring

/-- The hypotheses of `C28_residual` are met: -/
example := C28_residual (K := ℚ) (g := 1) ![![1, 1/4], ![1/4, 1]] 1 100 false ![4, 2] 1

/-- **C28.** At most `n_iter` components for `n_iter ≥ 1`. -/
theorem C28_limit (A : Fin (g + 1) → Fin (g + 1) → K) (damp : K) (nIter : ℤ) (h : 1 ≤ nIter) (rDiag : Bool)
    (y : Fin (g + 1) → K) : ((cleanCalc A damp nIter rDiag y).iter : ℤ) ≤ nIter := by
  obtain ⟨R, pos, N, -, -, -, hN, hi, -⟩ := C28_run A damp nIter rDiag y
  rw [hi]
  omega

/-- The hypotheses of `C28_limit` are met: -/
example := C28_limit (K := ℚ) (g := 1) ![![1, 1/4], ![1/4, 1]] 1 100 (by norm_num) false ![4, 2]

/-- With `n_iter = 0` one component is extracted nevertheless. -/
theorem C28_zero_iterations_violated :
    ∃ (A : Fin 1 → Fin 1 → ℚ) (y : Fin 1 → ℚ), (cleanCalc A 1 0 false y).iter = 1 ∧ (cleanCalc A 1 0 false y).clean 0 = 1 :=
  ⟨fun _ _ => 1, fun _ => 1, by decide +kernel⟩

/-- **C28.** Source strengths are non-negative if the initial map has a non-negative value (always with diagonal removal,
where it is clipped). -/
theorem C28_nonneg (A : Fin (g + 1) → Fin (g + 1) → K) (damp : K) (hd : 0 ≤ damp) (nIter : ℤ) (rDiag : Bool)
    (y : Fin (g + 1) → K) (hy : rDiag = true ∨ ∃ i, 0 ≤ y i) (s : Fin (g + 1)) :
    0 ≤ (cleanCalc A damp nIter rDiag y).clean s := by
  obtain ⟨R, pos, N, hrun, hR0, -, -, -, -, hc, hgo, -⟩ := C28_run A damp nIter rDiag y
  rw [hc]
  apply Finset.sum_nonneg
  intro k hk
  have hkN : k < N := Finset.mem_range.1 (Finset.mem_filter.1 hk).1
  apply mul_nonneg hd
  rcases k with _ | k
  · have : ∃ i, 0 ≤ R 0 i := by
      rw [hR0]
      rcases hy with rfl | ⟨i, hi⟩
      · refine ⟨0, ?_⟩
        simp only [cleanStart, if_true]
        split
        · exact le_rfl
        · rename_i h; exact not_lt.1 h
      · refine ⟨i, ?_⟩
        unfold cleanStart
        rw [if_neg (not_lt.2 hi)]
        simpa using hi
    obtain ⟨i, hi⟩ := this
    exact hi.trans ((hrun.pos_max 0).1 i)
  · obtain ⟨-, i, hi⟩ := hgo k hkN
    exact hi.le.trans ((hrun.pos_max (k + 1)).1 i)

/-- Two points with overlap 1/4: two components are extracted. -/
example : (cleanCalc (K := ℚ) (g := 1) ![![1, 1/4], ![1/4, 1]] 1 100 false ![4, 2]).iter = 2 ∧
    (cleanCalc (K := ℚ) (g := 1) ![![1, 1/4], ![1/4, 1]] 1 100 false ![4, 2]).clean = ![4, 1] := by decide +kernel

end C28

/-! ## C29 -/

section C29

open Matrix Complex

variable {n g : ℕ}

/-- **C29.** At least one and at most `n_iter` (or twice the number of microphones) components are extracted. -/
theorem C29_limit (geo : SteerGeo n (g + 1)) (rDiag : Bool) (normfactor damp : ℝ) (stopn nIter : ℕ)
    (csm : Matrix (Fin n) (Fin n) ℂ) :
    (cleanscCalc geo rDiag normfactor damp stopn nIter csm).powers.length ≤ (if nIter = 0 then 2 * n else nIter) ∧
    (0 < n → 0 < (cleanscCalc geo rDiag normfactor damp stopn nIter csm).powers.length) := by
  have h0 : ∀ J (s : CleanscState n g), s.powers.length ≤ (cleanscLoop geo rDiag normfactor damp stopn J s).powers.length := by
    intro J
    induction J with
    | zero => intro s; exact le_rfl
    | succ J ih =>
      intro s
      rw [cleanscLoop]
      split
      · exact Nat.le_succ _
      · exact le_trans (show s.powers.length ≤ s.powers.length + 1 from Nat.le_succ _) (ih (cleanscRemove geo rDiag normfactor damp (cleanscPick damp s)))
  have h1 : ∀ J (s : CleanscState n g), 0 < J → 0 < (cleanscLoop geo rDiag normfactor damp stopn J s).powers.length := by
    intro J s hJ
    obtain ⟨J, rfl⟩ := Nat.exists_eq_succ_of_ne_zero hJ.ne'
    rw [cleanscLoop]
    split
    · exact Nat.succ_pos _
    · exact lt_of_lt_of_le (show 0 < s.powers.length + 1 from Nat.succ_pos _)
        (h0 J (cleanscRemove geo rDiag normfactor damp (cleanscPick damp s)))
  have h : ∀ J (s : CleanscState n g), (cleanscLoop geo rDiag normfactor damp stopn J s).powers.length ≤ s.powers.length + J := by
    intro J
    induction J with
    | zero => intro s; exact le_rfl
    | succ J ih =>
      intro s
      rw [cleanscLoop]
      split
      · show s.powers.length + 1 ≤ _; omega
      · refine (ih _).trans ?_
        show s.powers.length + 1 + J ≤ _
        omega
  refine ⟨(h _ _).trans ?_, fun hn => h1 _ _ ?_⟩
  · simp only [cleanscJ, List.length_nil]
    split <;> omega
  · simp only [cleanscJ]
    split <;> omega

/-- `chron j` are the maxima of the map in the order found. The criterion of fbeamform.py:1521 for the `j`-th. -/
def CleanscStops (stopn : ℕ) (chron : List ℝ) (j : ℕ) : Prop := stopn < j ∧ chron.getD (j - stopn) 0 < chron.getD j 0

private theorem stop_iff (stopn : ℕ) (p : List ℝ) (hp : p ≠ []) :
    cleanscStop stopn p = true ↔ CleanscStops stopn p.reverse (p.length - 1) := by
  obtain ⟨a, l, rfl⟩ := List.exists_cons_of_ne_nil hp
  unfold cleanscStop CleanscStops
  simp only [Bool.and_eq_true, decide_eq_true_iff]
  constructor
  · rintro ⟨h1, h2⟩
    refine ⟨h1, ?_⟩
    simp only [List.length_cons] at h1 ⊢
    rw [List.getD_eq_getElem?_getD, List.getD_eq_getElem?_getD, List.getElem?_reverse (by simp only [List.length_cons]; omega),
      List.getElem?_reverse (by simp)]
    simp only [List.length_cons]
    rw [show l.length + 1 - 1 - (l.length + 1 - 1) = 0 by omega,
      show l.length + 1 - 1 - (l.length + 1 - 1 - stopn) = stopn by omega, ← List.getD_eq_getElem?_getD]
    exact h2
  · rintro ⟨h1, h2⟩
    refine ⟨h1, ?_⟩
    simp only [List.length_cons] at h1 h2
    rw [List.getD_eq_getElem?_getD, List.getD_eq_getElem?_getD, List.getElem?_reverse (by simp only [List.length_cons]; omega),
      List.getElem?_reverse (by simp)] at h2
    simp only [List.length_cons] at h2
    rw [show l.length + 1 - 1 - (l.length + 1 - 1) = 0 by omega,
      show l.length + 1 - 1 - (l.length + 1 - 1 - stopn) = stopn by omega, ← List.getD_eq_getElem?_getD] at h2
    exact h2

private theorem stops_prefix (stopn : ℕ) (p q : List ℝ) (j : ℕ) (hj : j < p.length) :
    CleanscStops stopn (p ++ q) j ↔ CleanscStops stopn p j := by
  unfold CleanscStops
  rw [List.getD_eq_getElem?_getD, List.getD_eq_getElem?_getD, List.getD_eq_getElem?_getD, List.getD_eq_getElem?_getD,
    List.getElem?_append_left hj, List.getElem?_append_left (by omega)]

/-- **C29.** The loop stops at the first component whose maximum exceeds the one `stopn` earlier, otherwise at the
limit. -/
theorem C29_stop (geo : SteerGeo n (g + 1)) (rDiag : Bool) (normfactor damp : ℝ) (stopn nIter : ℕ)
    (csm : Matrix (Fin n) (Fin n) ℂ) :
    let chron := (cleanscCalc geo rDiag normfactor damp stopn nIter csm).powers.reverse
    (∀ j, j + 1 < chron.length → ¬ CleanscStops stopn chron j) ∧
    (chron.length < (if nIter = 0 then 2 * n else nIter) → CleanscStops stopn chron (chron.length - 1)) := by
  have h : ∀ J (s : CleanscState n g),
      (∀ j, j < s.powers.length → ¬ CleanscStops stopn s.powers.reverse j) →
      let chron := (cleanscLoop geo rDiag normfactor damp stopn J s).powers.reverse
      (∀ j, j + 1 < chron.length → ¬ CleanscStops stopn chron j) ∧
      (chron.length < s.powers.length + J → CleanscStops stopn chron (chron.length - 1)) := by
    intro J
    induction J with
    | zero =>
      intro s hs
      refine ⟨fun j hj => hs j (by simp only [cleanscLoop, List.length_reverse] at hj; omega), fun h => ?_⟩
      simp only [cleanscLoop, List.length_reverse] at h; omega
    | succ J ih =>
      intro s hs
      rw [cleanscLoop]
      dsimp only
      have hpow : (cleanscPick damp s).powers = s.h (argmax s.h) :: s.powers := rfl
      have hne : (cleanscPick damp s).powers ≠ [] := by rw [hpow]; simp
      have hold : ∀ j, j < s.powers.length → ¬ CleanscStops stopn (cleanscPick damp s).powers.reverse j := by
        intro j hj
        rw [hpow, List.reverse_cons, stops_prefix _ _ _ _ (by simpa using hj)]
        exact hs j hj
      split
      · rename_i hst
        have hst' := (stop_iff stopn _ hne).1 hst
        refine ⟨fun j hj => hold j ?_, fun _ => by rw [List.length_reverse]; exact hst'⟩
        rw [List.length_reverse, hpow, List.length_cons] at hj; omega
      · rename_i hst
        have := ih (cleanscRemove geo rDiag normfactor damp (cleanscPick damp s)) (by
          intro j hj
          have hp2 : (cleanscRemove geo rDiag normfactor damp (cleanscPick damp s)).powers = (cleanscPick damp s).powers := rfl
          rw [hp2] at hj ⊢
          rcases Nat.lt_or_ge j s.powers.length with hlt | hge
          · exact hold j hlt
          · rw [hpow, List.length_cons] at hj
            have hj2 : j = (cleanscPick damp s).powers.length - 1 := by rw [hpow, List.length_cons]; omega
            rw [hj2, ← stop_iff stopn _ hne]
            exact hst)
        refine ⟨this.1, fun hlt => this.2 ?_⟩
        have hp2 : (cleanscRemove geo rDiag normfactor damp (cleanscPick damp s)).powers.length = s.powers.length + 1 := rfl
        rw [hp2]
        omega
  have := h (cleanscJ nIter n) ⟨fun p => fullCsmKernel geo.st rDiag normfactor (geo.r0 p) (geo.rm p) geo.k csm, csm, fun _ => 0, []⟩
    (fun j hj => by simp at hj)
  refine ⟨this.1, fun hlt => this.2 ?_⟩
  simp only [cleanscJ, List.length_nil]
  have h2 : (cleanscLoop geo rDiag normfactor damp stopn (cleanscJ nIter n)
    ⟨fun p => fullCsmKernel geo.st rDiag normfactor (geo.r0 p) (geo.rm p) geo.k csm, csm, fun _ => 0, []⟩).powers.reverse.length <
      (if nIter = 0 then 2 * n else nIter) := hlt
  rw [show (if nIter = 0 then n * 2 else nIter) = cleanscJ nIter n from rfl]
  have e : cleanscJ nIter n = if nIter = 0 then 2 * n else nIter := by unfold cleanscJ; split <;> omega
  rw [← e] at h2
  omega

private theorem scalarProdFull_sub (C D : Matrix (Fin n) (Fin n) ℂ) (d : ℝ) (rDiag : Bool) (h : Fin n → ℂ) :
    scalarProdFull (C - (d : ℂ) • D) rDiag h = scalarProdFull C rDiag h - d * scalarProdFull D rDiag h := by
  have h1 : ∀ m, (∑ m2 ∈ Finset.univ.filter (· < m), (C m2 m - (d : ℂ) * D m2 m) * (starRingEnd ℂ) (h m2)) * h m =
      (∑ m2 ∈ Finset.univ.filter (· < m), C m2 m * (starRingEnd ℂ) (h m2)) * h m -
      (d : ℂ) * ((∑ m2 ∈ Finset.univ.filter (· < m), D m2 m * (starRingEnd ℂ) (h m2)) * h m) := by
    intro m
    have : ∑ m2 ∈ Finset.univ.filter (· < m), (C m2 m - (d : ℂ) * D m2 m) * (starRingEnd ℂ) (h m2) =
      ∑ m2 ∈ Finset.univ.filter (· < m), C m2 m * (starRingEnd ℂ) (h m2) -
        (d : ℂ) * ∑ m2 ∈ Finset.univ.filter (· < m), D m2 m * (starRingEnd ℂ) (h m2) := by
      rw [Finset.mul_sum, ← Finset.sum_sub_distrib]
      exact Finset.sum_congr rfl fun _ _ => by ring
    rw [this]; ring
  have h2 : ∀ m, (C m m - (d : ℂ) * D m m) * (starRingEnd ℂ) (h m) * h m =
      C m m * (starRingEnd ℂ) (h m) * h m - (d : ℂ) * (D m m * (starRingEnd ℂ) (h m) * h m) := by
    intro m; ring
  unfold scalarProdFull
  simp only [Matrix.sub_apply, Matrix.smul_apply, smul_eq_mul]
  simp only [h1, h2, Complex.sub_re, Complex.re_ofReal_mul, mul_sub]
  rw [Finset.sum_sub_distrib]
  have e1 : ∑ m, 2 * (d * ((∑ m2 ∈ Finset.univ.filter (· < m), D m2 m * (starRingEnd ℂ) (h m2)) * h m).re) =
      d * ∑ m, 2 * ((∑ m2 ∈ Finset.univ.filter (· < m), D m2 m * (starRingEnd ℂ) (h m2)) * h m).re := by
    rw [Finset.mul_sum]; exact Finset.sum_congr rfl fun _ _ => by ring
  rw [e1]
  cases rDiag
  · simp only [Bool.false_eq_true, if_false]
    rw [Finset.sum_sub_distrib]
    have e2 : ∑ m, d * (D m m * (starRingEnd ℂ) (h m) * h m).re = d * ∑ m, (D m m * (starRingEnd ℂ) (h m) * h m).re := by
      rw [Finset.mul_sum]
    rw [e2]
    ring
  · simp only [if_true]
    ring

private theorem fullCsmKernel_sub (st : Formulation) (rDiag : Bool) (loss r0 : ℝ) (rm : Fin n → ℝ) (k d : ℝ)
    (C D : Matrix (Fin n) (Fin n) ℂ) :
    fullCsmKernel st rDiag loss r0 rm k (C - (d : ℂ) • D) =
      fullCsmKernel st rDiag loss r0 rm k C - d * fullCsmKernel st rDiag loss r0 rm k D := by
  unfold fullCsmKernel
  rw [kernelResult_eq, kernelResult_eq, kernelResult_eq, scalarProdFull_sub]
  ring

/-- **C29.** The degraded matrix stays Hermitian and the map is, after every removal, the conventional beamforming map of
the degraded matrix. -/
theorem C29_degraded (geo : SteerGeo n (g + 1)) (rDiag : Bool) (normfactor damp : ℝ) (stopn nIter : ℕ)
    (csm : Matrix (Fin n) (Fin n) ℂ) (hC : csm.IsHermitian) :
    let out := cleanscCalc geo rDiag normfactor damp stopn nIter csm
    out.csm.IsHermitian ∧
    ∀ p, out.h p = fullCsmKernel geo.st rDiag normfactor (geo.r0 p) (geo.rm p) geo.k out.csm := by
  have h : ∀ J (s : CleanscState n g), s.csm.IsHermitian →
      (∀ p, s.h p = fullCsmKernel geo.st rDiag normfactor (geo.r0 p) (geo.rm p) geo.k s.csm) →
      let out := cleanscLoop geo rDiag normfactor damp stopn J s
      out.csm.IsHermitian ∧
      ∀ p, out.h p = fullCsmKernel geo.st rDiag normfactor (geo.r0 p) (geo.rm p) geo.k out.csm := by
    intro J
    induction J with
    | zero => intro s h1 h2; exact ⟨h1, h2⟩
    | succ J ih =>
      intro s h1 h2
      rw [cleanscLoop]
      dsimp only
      split
      · exact ⟨h1, h2⟩
      · apply ih
        · unfold cleanscRemove
          dsimp only
          refine Matrix.IsHermitian.ext fun i j => ?_
          have := h1.apply i j
          simp only [cleanscPick, Matrix.sub_apply, Matrix.smul_apply, Matrix.transpose_apply, Matrix.of_apply, smul_eq_mul,
            RCLike.star_def, map_sub, map_mul, Complex.conj_ofReal, Complex.conj_conj] at this ⊢
          rw [this]
          ring
        · intro p
          unfold cleanscRemove
          dsimp only
          rw [fullCsmKernel_sub, C24_eig_kernel]
          have h2' : (cleanscPick damp s).h p = fullCsmKernel geo.st rDiag normfactor (geo.r0 p) (geo.rm p) geo.k (cleanscPick damp s).csm := h2 p
          rw [h2']
          congr 3
          ext i j
          unfold assemble
          simp only [Matrix.transpose_apply, Matrix.of_apply, Finset.univ_unique, Finset.sum_singleton, Complex.conj_conj]
          ring
  exact h _ _ hC fun p => rfl

/-- **C29.** The powers of the components, each damped, make up the result; the initial map is conventional. -/
theorem C29_result_sum (geo : SteerGeo n (g + 1)) (rDiag : Bool) (normfactor damp : ℝ) (stopn nIter : ℕ)
    (csm : Matrix (Fin n) (Fin n) ℂ) :
    let out := cleanscCalc geo rDiag normfactor damp stopn nIter csm
    ∑ p, out.result p = damp * out.powers.sum := by
  have h : ∀ J (s : CleanscState n g), ∑ p, s.result p = damp * s.powers.sum →
      let out := cleanscLoop geo rDiag normfactor damp stopn J s
      ∑ p, out.result p = damp * out.powers.sum := by
    intro J
    induction J with
    | zero => intro s h1; exact h1
    | succ J ih =>
      intro s h1
      have hpick : ∑ p, (cleanscPick damp s).result p = damp * (cleanscPick damp s).powers.sum := by
        unfold cleanscPick
        dsimp only
        rw [Finset.sum_update_of_mem (Finset.mem_univ _), List.sum_cons, mul_add, ← h1,
          ← Finset.add_sum_erase _ _ (Finset.mem_univ (argmax s.h))]
        have : ∑ x ∈ Finset.univ \ {argmax s.h}, s.result x = ∑ x ∈ Finset.univ.erase (argmax s.h), s.result x := by
          rw [Finset.sdiff_singleton_eq_erase]
        rw [this]
        ring
      rw [cleanscLoop]
      dsimp only
      split
      · exact hpick
      · exact ih _ hpick
  exact h _ _ (by simp)

/-- One microphone, two grid points. -/
example : ((cleanscCalc ⟨.trueLevel, ![1, 1], ![![1], ![2]], 3⟩ false 1 (3/5) 3 0 !![(4 : ℂ)]).csm).IsHermitian :=
  (C29_degraded (n := 1) (g := 1) ⟨.trueLevel, ![1, 1], ![![1], ![2]], 3⟩ false 1 (3/5) 3 0 !![(4 : ℂ)]
    (Matrix.IsHermitian.ext fun i j => by fin_cases i; fin_cases j; simp)).1

end C29

end Acoular
