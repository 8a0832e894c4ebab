import Verif.Props.Gib

/-!
# C123: the regularised problem of generalised inverse beamforming
-/

namespace Acoular

open Matrix Complex

variable {N n : ℕ}

/-- The weighted ridge regression problem: squared residual of `B x = e` plus `ε` times the weighted squared length of
`x`. -/
noncomputable def Spec.ridgeCost {K : ℕ} (B : Matrix (Fin n) (Fin K) ℂ) (w : Fin K → ℝ) (ε : ℝ) (e : Fin n → ℂ)
    (x : Fin K → ℂ) : ℝ :=
  ∑ i, normSq (e i - ∑ j, B i j * x j) + ε * ∑ j, normSq (x j) / w j

open Spec

/-- What `epsilon[it]` should be: `eps_perc` times the largest magnitude of the eigenvalues of the matrix to be
inverted. -/
noncomputable def Spec.intendedEps (radius : ∀ k : ℕ, Matrix (Fin k) (Fin k) ℂ → ℝ) (epsPerc : ℝ)
    (A : Matrix (Fin n) (Fin N) ℂ) (s : SuzukiState N) : ℝ :=
  let B : Matrix (Fin n) (Fin s.loc.length) ℂ := fun i j => A i (s.loc.get j)
  if n ≤ s.loc.length then
    radius n (B * Matrix.diagonal (fun j => (s.weight (s.loc.get j) : ℂ)) * Bᴴ) * epsPerc
  else radius s.loc.length (Bᴴ * B) * epsPerc

/-- Normal equations are sufficient for a minimum. -/
private theorem ridge_min {K : ℕ} (B : Matrix (Fin n) (Fin K) ℂ) (w : Fin K → ℝ) (hw : ∀ j, 0 < w j) (ε : ℝ) (hε : 0 ≤ ε)
    (e : Fin n → ℂ) (x : Fin K → ℂ)
    (h : ∀ j, ∑ i, star (B i j) * (e i - ∑ k, B i k * x k) = ε * x j / w j) (y : Fin K → ℂ) :
    ridgeCost B w ε e x ≤ ridgeCost B w ε e y := by
  unfold ridgeCost
  set r : Fin n → ℂ := fun i => e i - ∑ k, B i k * x k with hr
  set d : Fin K → ℂ := fun j => y j - x j with hd
  have hy : ∀ i, e i - ∑ j, B i j * y j = r i - ∑ j, B i j * d j := by
    intro i
    simp only [hr, hd, mul_sub, Finset.sum_sub_distrib]; ring
  have e1 : ∀ a b : ℂ, normSq (a - b) = normSq a + normSq b - 2 * (star b * a).re := by
    intro a b
    simp only [normSq_apply, sub_re, sub_im, mul_re, star_def, conj_re, conj_im]; ring
  have e2 : ∀ j, normSq (y j) = normSq (x j) + normSq (d j) + 2 * (star (d j) * x j).re := by
    intro j
    have : y j = x j + d j := by simp [hd]
    rw [this]
    simp only [normSq_apply, add_re, add_im, mul_re, star_def, conj_re, conj_im]; ring
  have cross : ∑ i, (star (∑ j, B i j * d j) * r i).re = ε * ∑ j, (star (d j) * x j).re / w j := by
    rw [← re_sum]
    have : ∑ i, star (∑ j, B i j * d j) * r i = ∑ j, star (d j) * (ε * x j / w j) := by
      simp only [← h, star_sum, star_mul', Finset.sum_mul, Finset.mul_sum]
      rw [Finset.sum_comm]
      refine Finset.sum_congr rfl fun j _ => Finset.sum_congr rfl fun i _ => ?_
      ring
    rw [this, re_sum, Finset.mul_sum]
    refine Finset.sum_congr rfl fun j _ => ?_
    have : star (d j) * (ε * x j / w j) = ((ε / w j : ℝ) : ℂ) * (star (d j) * x j) := by push_cast; ring
    rw [this, re_ofReal_mul]; ring
  have a1 : ∑ i, normSq (e i - ∑ j, B i j * y j) =
      ∑ i, normSq (r i) + ∑ i, normSq (∑ j, B i j * d j) - 2 * (ε * ∑ j, (star (d j) * x j).re / w j) := by
    rw [← cross, Finset.mul_sum, ← Finset.sum_add_distrib, ← Finset.sum_sub_distrib]
    refine Finset.sum_congr rfl fun i _ => ?_
    rw [hy, e1]
  have a2 : ∑ j, normSq (y j) / w j =
      ∑ j, normSq (x j) / w j + ∑ j, normSq (d j) / w j + 2 * ∑ j, (star (d j) * x j).re / w j := by
    rw [Finset.mul_sum, ← Finset.sum_add_distrib, ← Finset.sum_add_distrib]
    refine Finset.sum_congr rfl fun j _ => ?_
    rw [e2]; ring
  have p1 : 0 ≤ ∑ i, normSq (∑ j, B i j * d j) := Finset.sum_nonneg fun _ _ => normSq_nonneg _
  have p2 : 0 ≤ ε * ∑ j, normSq (d j) / w j :=
    mul_nonneg hε (Finset.sum_nonneg fun j _ => div_nonneg (normSq_nonneg _) (hw j).le)
  rw [a1, a2, mul_add, mul_add]
  linarith

/-- The normal equations of the first branch. -/
private theorem ridge_wide {K : ℕ} (B : Matrix (Fin n) (Fin K) ℂ) (w : Fin K → ℝ) (hw : ∀ j, 0 < w j) (ε : ℂ) (e : Fin n → ℂ)
    (W : Matrix (Fin K) (Fin K) ℂ) (hW : W = Matrix.diagonal fun j => (w j : ℂ))
    (hinv : IsUnit (B * W * Bᴴ + ε • (1 : Matrix (Fin n) (Fin n) ℂ)).det) (x : Fin K → ℂ)
    (hx : x = ((W * Bᴴ) * (B * W * Bᴴ + (1 : Matrix (Fin n) (Fin n) ℂ) * Matrix.diagonal fun _ => ε)⁻¹).mulVec e) (j : Fin K) :
    ∑ i, star (B i j) * (e i - ∑ k, B i k * x k) = ε * x j / w j := by
  have hD : (1 : Matrix (Fin n) (Fin n) ℂ) * Matrix.diagonal (fun _ => ε) = ε • 1 := by
    rw [one_mul, Matrix.smul_one_eq_diagonal]
  rw [hD] at hx
  set M := B * W * Bᴴ + ε • (1 : Matrix (Fin n) (Fin n) ℂ) with hM
  set z := M⁻¹.mulVec e with hz
  have hMz : M.mulVec z = e := by
    rw [hz, Matrix.mulVec_mulVec, Matrix.mul_nonsing_inv _ hinv, Matrix.one_mulVec]
  have hxz : x = W.mulVec (Bᴴ.mulVec z) := by
    rw [hx, hz, Matrix.mulVec_mulVec, Matrix.mulVec_mulVec]
  clear_value z
  have hr : e - B.mulVec x = ε • z := by
    have : M.mulVec z = B.mulVec x + ε • z := by
      rw [hM, Matrix.add_mulVec, Matrix.smul_mulVec, Matrix.one_mulVec, hxz, Matrix.mulVec_mulVec, Matrix.mulVec_mulVec]
    rw [← hMz, this]; simp
  have hri : ∀ i, e i - ∑ k, B i k * x k = ε * z i := fun i => by
    have := congrFun hr i
    simpa [Matrix.mulVec, dotProduct] using this
  have hxj : x j = w j * ∑ i, star (B i j) * z i := by
    rw [hxz, hW, Matrix.mulVec_diagonal]
    rfl
  have hne : (w j : ℂ) ≠ 0 := by exact_mod_cast (hw j).ne'
  simp only [hri, hxj]
  rw [mul_div_assoc, mul_div_cancel_left₀ _ hne, Finset.mul_sum]
  exact Finset.sum_congr rfl fun i _ => by ring

/-- The normal equations of the second branch. -/
private theorem ridge_tall {K : ℕ} (B : Matrix (Fin n) (Fin K) ℂ) (w : Fin K → ℝ) (hw : ∀ j, 0 < w j) (ε : ℂ) (e : Fin n → ℂ)
    (W : Matrix (Fin K) (Fin K) ℂ) (hW : W = Matrix.diagonal fun j => (w j : ℂ))
    (hinv : IsUnit (Bᴴ * B + Matrix.diagonal fun j => ε / w j).det) (x : Fin K → ℂ)
    (hx : x = ((Bᴴ * B + W⁻¹ * Matrix.diagonal fun _ => ε)⁻¹ * Bᴴ).mulVec e) (j : Fin K) :
    ∑ i, star (B i j) * (e i - ∑ k, B i k * x k) = ε * x j / w j := by
  have hne : ∀ j, (w j : ℂ) ≠ 0 := fun j => by exact_mod_cast (hw j).ne'
  have hWi : W⁻¹ * Matrix.diagonal (fun _ => ε) = Matrix.diagonal fun j => ε / w j := by
    have : W⁻¹ = Matrix.diagonal fun j => ((w j : ℂ))⁻¹ := by
      refine Matrix.inv_eq_left_inv ?_
      rw [hW, Matrix.diagonal_mul_diagonal, ← Matrix.diagonal_one]
      congr 1
      funext j
      exact inv_mul_cancel₀ (hne j)
    rw [this, Matrix.diagonal_mul_diagonal]
    congr 1
    funext j
    rw [div_eq_inv_mul]
  rw [hWi] at hx
  set M := Bᴴ * B + Matrix.diagonal fun j => ε / (w j : ℂ) with hM
  have hMx : M.mulVec x = Bᴴ.mulVec e := by
    rw [hx, Matrix.mulVec_mulVec, ← Matrix.mul_assoc, Matrix.mul_nonsing_inv _ hinv, Matrix.one_mul]
  have h := congrFun hMx j
  rw [hM, Matrix.add_mulVec, Pi.add_apply, Matrix.mulVec_diagonal, ← Matrix.mulVec_mulVec] at h
  have e1 : ∀ v : Fin n → ℂ, Bᴴ.mulVec v j = ∑ i, star (B i j) * v i := fun v => rfl
  rw [e1, e1] at h
  simp only [mul_sub, Finset.sum_sub_distrib]
  rw [← h]
  have e2 : ∑ i, star (B i j) * B.mulVec x i = ∑ i, star (B i j) * ∑ k, B i k * x k := rfl
  rw [e2]
  ring

/-- **C123** (part) In every iteration, with positive weights, the amplitudes found by method `'Suzuki'` minimise the
weighted ridge problem for the points in use – with the intended regularisation parameter *without its fraction*. -/
theorem C123_ridge_partial (radius : ∀ k : ℕ, Matrix (Fin k) (Fin k) ℂ → ℝ) (epsPerc : ℝ) (A : Matrix (Fin n) (Fin N) ℂ)
    (e : Fin n → ℂ) (s : SuzukiState N) (hw : ∀ p, 0 < s.weight p) (hε : 0 ≤ intendedEps radius epsPerc A s)
    (hinv : let B : Matrix (Fin n) (Fin s.loc.length) ℂ := fun i j => A i (s.loc.get j)
      let ε : ℂ := (⌊intendedEps radius epsPerc A s⌋ : ℤ)
      if n ≤ s.loc.length then
        IsUnit (B * Matrix.diagonal (fun j => (s.weight (s.loc.get j) : ℂ)) * Bᴴ + ε • (1 : Matrix (Fin n) (Fin n) ℂ)).det
      else IsUnit (Bᴴ * B + Matrix.diagonal (fun j => ε / s.weight (s.loc.get j))).det)
    (y : Fin s.loc.length → ℂ) :
    let cost := ridgeCost (fun i j => A i (s.loc.get j)) (fun j => s.weight (s.loc.get j)) ⌊intendedEps radius epsPerc A s⌋ e
    cost (suzukiSolve radius epsPerc A e s) ≤ cost y := by
  intro cost
  refine ridge_min _ _ (fun j => hw _) _ (by exact_mod_cast Int.floor_nonneg.2 hε) e _ ?_ y
  unfold intendedEps at *
  unfold suzukiSolve
  by_cases hc : n ≤ s.loc.length
  · simp only [if_pos hc] at *
    intro j
    have := ridge_wide (fun i j => A i (s.loc.get j)) (fun j => s.weight (s.loc.get j)) (fun j => hw _) _ e _ rfl hinv _ rfl j
    rw [Complex.ofReal_intCast]
    exact this
  · simp only [if_neg hc] at *
    intro j
    have := ridge_tall (fun i j => A i (s.loc.get j)) (fun j => s.weight (s.loc.get j)) (fun j => hw _) _ e _ rfl hinv _ rfl j
    rw [Complex.ofReal_intCast]
    exact this

/-- In particular the amplitudes do minimise the intended problem if `epsilon` is a whole number. -/
theorem C123_whole_partial (radius : ∀ k : ℕ, Matrix (Fin k) (Fin k) ℂ → ℝ) (epsPerc : ℝ) (A : Matrix (Fin n) (Fin N) ℂ)
    (e : Fin n → ℂ) (s : SuzukiState N) (hw : ∀ p, 0 < s.weight p) (k : ℕ) (hk : intendedEps radius epsPerc A s = k)
    (hinv : let B : Matrix (Fin n) (Fin s.loc.length) ℂ := fun i j => A i (s.loc.get j)
      if n ≤ s.loc.length then
        IsUnit (B * Matrix.diagonal (fun j => (s.weight (s.loc.get j) : ℂ)) * Bᴴ + (k : ℂ) • (1 : Matrix (Fin n) (Fin n) ℂ)).det
      else IsUnit (Bᴴ * B + Matrix.diagonal (fun j => (k : ℂ) / s.weight (s.loc.get j))).det)
    (y : Fin s.loc.length → ℂ) :
    let cost := ridgeCost (fun i j => A i (s.loc.get j)) (fun j => s.weight (s.loc.get j)) (intendedEps radius epsPerc A s) e
    cost (suzukiSolve radius epsPerc A e s) ≤ cost y := by
  have hf : ⌊intendedEps radius epsPerc A s⌋ = (k : ℤ) := by rw [hk]; exact Int.floor_natCast k
  have := C123_ridge_partial radius epsPerc A e s hw (by rw [hk]; positivity) (by rw [hf]; exact hinv) y
  rw [hf] at this
  rw [hk]
  simpa using this

private theorem ridgeEx : IsUnit ((Matrix.of (fun (_ : Fin 1) (_ : Fin 2) => (1 : ℂ)) * Matrix.diagonal (fun _ => ((1 : ℝ) : ℂ)) *
    (Matrix.of (fun (_ : Fin 1) (_ : Fin 2) => (1 : ℂ)))ᴴ + ((1 : ℤ) : ℂ) • (1 : Matrix (Fin 1) (Fin 1) ℂ)).det) := by
  rw [Matrix.det_fin_one, Matrix.add_apply, Matrix.mul_apply, Fin.sum_univ_two, Matrix.mul_diagonal, Matrix.mul_diagonal]
  simp
  norm_num

/-- The hypotheses of `C123_whole_partial` are met: -/
example := C123_whole_partial (n := 1) (N := 2) (fun _ _ => 2) (1 / 2) (Matrix.of fun _ _ => 1) (fun _ => 1) ⟨fun _ => 0, [0, 1], fun _ => 1⟩
  (fun _ => one_pos) 1 (by simp [intendedEps]) (by
    simp only [List.length_cons, List.length_nil, Nat.reduceAdd, Nat.reduceLeDiff, if_true]
    have := ridgeEx
    rw [Int.cast_one] at this
    rw [Nat.cast_one]
    exact this)

/-- The hypotheses of `C123_ridge_partial` are met: -/
example := C123_ridge_partial (n := 1) (N := 2) (fun _ _ => 2) (3 / 4) (Matrix.of fun _ _ => 1) (fun _ => 1) ⟨fun _ => 0, [0, 1], fun _ => 1⟩
  (fun _ => one_pos) (by norm_num [intendedEps]) (by
    have : (⌊(2 : ℝ) * (3 / 4)⌋ : ℤ) = 1 := by rw [Int.floor_eq_iff]; norm_num
    simp only [List.length_cons, List.length_nil, Nat.reduceAdd, Nat.reduceLeDiff, if_true, intendedEps, this]
    exact ridgeEx)

/-- **C123 is violated** The array that takes the regularisation parameters holds whole numbers: as long as the intended
value is below 1 – transfer functions of sources a metre or more away have magnitudes below 1, `eps_perc` is 0.05 by default –
the result is that without any regularisation. -/
theorem C123_epsilon_violated (radius : ∀ k : ℕ, Matrix (Fin k) (Fin k) ℂ → ℝ) (epsPerc : ℝ) (A : Matrix (Fin n) (Fin N) ℂ)
    (e : Fin n → ℂ) (s : SuzukiState N) (h0 : 0 ≤ intendedEps radius epsPerc A s) (h1 : intendedEps radius epsPerc A s < 1) :
    suzukiSolve radius epsPerc A e s = suzukiSolve radius 0 A e s := by
  have hf : ⌊intendedEps radius epsPerc A s⌋ = 0 := Int.floor_eq_zero_iff.2 ⟨h0, h1⟩
  unfold intendedEps at hf
  unfold suzukiSolve
  by_cases hc : n ≤ s.loc.length
  · simp only [if_pos hc, mul_zero, Int.floor_zero] at *
    have : ⌊radius n (gibColumns A s.loc * Matrix.diagonal (fun j => (s.weight (s.loc.get j) : ℂ)) * (gibColumns A s.loc)ᴴ) *
      epsPerc⌋ = 0 := hf
    rw [this]
  · simp only [if_neg hc, mul_zero, Int.floor_zero] at *
    have : ⌊radius s.loc.length ((gibColumns A s.loc)ᴴ * gibColumns A s.loc) * epsPerc⌋ = 0 := hf
    rw [this]

/-- So the amplitudes do not minimise the intended problem in general: one channel, one point, transfer function 1. -/
theorem C123_minimum_violated (radius : ∀ k : ℕ, Matrix (Fin k) (Fin k) ℂ → ℝ)
    (hr : ∀ M : Matrix (Fin 1) (Fin 1) ℂ, radius 1 M = ‖M 0 0‖) :
    ∃ (A : Matrix (Fin 1) (Fin 1) ℂ) (e : Fin 1 → ℂ) (s : SuzukiState 1), (∀ p, 0 < s.weight p) ∧
      intendedEps radius 0.05 A s = 0.05 ∧
      ∃ y, ridgeCost (fun i j => A i (s.loc.get j)) (fun j => s.weight (s.loc.get j)) (intendedEps radius 0.05 A s) e y <
        ridgeCost (fun i j => A i (s.loc.get j)) (fun j => s.weight (s.loc.get j)) (intendedEps radius 0.05 A s) e
          (suzukiSolve radius 0.05 A e s) := by
  set s : SuzukiState 1 := ⟨fun _ => 0, [0], fun _ => 1⟩ with hs
  set A : Matrix (Fin 1) (Fin 1) ℂ := fun _ _ => 1 with hA
  have hB : gibColumns A s.loc = (1 : Matrix (Fin 1) (Fin 1) ℂ) := by
    ext i k
    have : i = k := Subsingleton.elim (α := Fin 1) i k
    subst this
    simp [gibColumns, hA]
  have hW : (Matrix.diagonal fun k : Fin s.loc.length => (s.weight (s.loc.get k) : ℂ)) = (1 : Matrix (Fin 1) (Fin 1) ℂ) := by
    ext i k
    have : i = k := Subsingleton.elim (α := Fin 1) i k
    subst this
    rw [Matrix.diagonal_apply_eq]
    simp [hs]
  have h1 : intendedEps radius 0.05 A s = 0.05 := by
    have : intendedEps radius 0.05 A s = radius 1 (gibColumns A s.loc *
      (Matrix.diagonal fun k : Fin s.loc.length => (s.weight (s.loc.get k) : ℂ)) * (gibColumns A s.loc)ᴴ) * 0.05 := by
      unfold intendedEps
      exact if_pos (le_refl 1)
    rw [this, hB, hW, hr]
    simp
  refine ⟨A, fun _ => 1, s, fun p => by simp [hs], h1, fun _ => 20 / 21, ?_⟩
  have hsol : suzukiSolve radius 0.05 A (fun _ => 1) s = fun _ => 1 := by
    rw [C123_epsilon_violated _ _ _ _ _ (by rw [h1]; norm_num) (by rw [h1]; norm_num)]
    funext j
    unfold suzukiSolve
    have hl : s.loc.length = 1 := rfl
    rw [if_pos (by rw [hl]), hB, hW]
    have hj : j = (0 : Fin 1) := Subsingleton.elim (α := Fin 1) j 0
    subst hj
    simp [Matrix.mulVec, dotProduct]
  rw [hsol, h1]
  show ∑ i : Fin 1, normSq (1 - ∑ j : Fin 1, 1 * (20 / 21)) + (0.05 : ℝ) * ∑ j : Fin 1, normSq (20 / 21) / 1 <
    ∑ i : Fin 1, normSq (1 - ∑ j : Fin 1, 1 * 1) + (0.05 : ℝ) * ∑ j : Fin 1, normSq 1 / 1
  simp only [Fin.sum_univ_one, one_mul, sub_self, map_zero, map_one, div_one]
  have e1 : normSq (1 - 20 / 21) = 1 / 441 := by
    have : (1 - 20 / 21 : ℂ) = ((1 / 21 : ℝ) : ℂ) := by push_cast; norm_num
    rw [this, normSq_ofReal]; norm_num
  have e2 : normSq (20 / 21) = 400 / 441 := by
    have : (20 / 21 : ℂ) = ((20 / 21 : ℝ) : ℂ) := by push_cast; rfl
    rw [this, normSq_ofReal]; norm_num
  rw [e1, e2]
  norm_num

end Acoular
