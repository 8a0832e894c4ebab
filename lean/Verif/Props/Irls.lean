import Verif.Model.Irls
import Mathlib.Analysis.MeanInequalities
import Mathlib.LinearAlgebra.Matrix.ToLinearEquiv
import Mathlib.LinearAlgebra.Dimension.Constructions
import Mathlib.LinearAlgebra.Matrix.Notation

/-!
# C151 (and C85): generalised inverse beamforming with method `'InverseIRLS'`
-/

namespace Acoular

open Matrix

/-- `q` explains the eigenmode `e` with the smallest sum of `r`-th powers of the magnitudes among all amplitudes that do. -/
structure Spec.LeastNorm {n N : ℕ} (r : ℝ) (A : Matrix (Fin n) (Fin N) ℂ) (e : Fin n → ℂ) (q : Fin N → ℂ) : Prop where
  /-- the eigenmode is explained -/
  exact : ∀ i, ∑ p, A i p * q p = e i
  /-- no other explanation has a smaller sum -/
  least : ∀ z : Fin N → ℂ, (∀ i, ∑ p, A i p * z p = e i) → ∑ p, ‖q p‖ ^ r ≤ ∑ p, ‖z p‖ ^ r

open Spec

variable {n N : ℕ}

private theorem gram_det {A : Matrix (Fin n) (Fin N) ℂ} (hA : LinearIndependent ℂ A.row) {d : Fin N → ℝ} (hd : ∀ i, 0 < d i) :
    (A * (Matrix.diagonal (fun i => (d i : ℂ)) * Aᴴ)).det ≠ 0 := by
  intro h0
  obtain ⟨v, hv, h⟩ := Matrix.exists_mulVec_eq_zero_iff.2 h0
  have h1 : (star v) ⬝ᵥ ((A * (Matrix.diagonal (fun i => (d i : ℂ)) * Aᴴ)) *ᵥ v) = 0 := by rw [h]; simp
  rw [← Matrix.mulVec_mulVec, Matrix.dotProduct_mulVec, ← Matrix.mulVec_mulVec] at h1
  have h2 : star v ᵥ* A = star (Aᴴ *ᵥ v) := by rw [Matrix.star_mulVec, conjTranspose_conjTranspose]
  rw [h2] at h1
  have h3 : ∑ i, d i * ‖(Aᴴ *ᵥ v) i‖ ^ 2 = 0 := by
    have : ((∑ i, d i * ‖(Aᴴ *ᵥ v) i‖ ^ 2 : ℝ) : ℂ) = 0 := by
      rw [← h1, dotProduct]
      push_cast
      refine Finset.sum_congr rfl fun i _ => ?_
      rw [Matrix.mulVec_diagonal, Pi.star_apply, ← Complex.mul_conj']
      simp only [RCLike.star_def]
      ring
    exact_mod_cast this
  have h4 : Aᴴ *ᵥ v = 0 := by
    funext i
    have := (Finset.sum_eq_zero_iff_of_nonneg (fun i _ => mul_nonneg (hd i).le (sq_nonneg _))).1 h3 i (Finset.mem_univ i)
    have := (mul_eq_zero.1 this).resolve_left (hd i).ne'
    simpa using this
  have h5 := Matrix.vecMul_injective_iff.2 hA
  have h6 : star v ᵥ* A = 0 := by rw [h2, h4]; simp
  have : star v = 0 := h5 (by simpa using h6)
  exact hv (star_eq_zero.1 this)

private theorem irlsSolve_ok {A : Matrix (Fin n) (Fin N) ℂ} {e : Fin n → ℂ} {w : Fin N → ℝ} {q : Fin N → ℂ}
    (h : irlsSolve A e w = .ok q) :
    n ≤ N ∧ (∀ i, w i ≠ 0) ∧ A *ᵥ q = e ∧ ∃ l : Fin n → ℂ, ∀ i, ((w i ^ 2 : ℝ) : ℂ) * q i = (Aᴴ *ᵥ l) i := by
  unfold irlsSolve at h
  dsimp only at h
  split_ifs at h with h1 h2 h3
  push Not at h2
  have hq := (Except.ok.inj h).symm
  refine ⟨h1, h2, ?_, (A * ((Matrix.diagonal fun i => ((w i * w i : ℝ) : ℂ)⁻¹) * Aᴴ))⁻¹.mulVec e, ?_⟩
  · rw [hq, Matrix.mulVec_mulVec, Matrix.mulVec_mulVec, Matrix.mul_nonsing_inv _ (Ne.isUnit h3), Matrix.one_mulVec]
  · intro i
    have hw : ((w i : ℝ) : ℂ) ≠ 0 := by exact_mod_cast h2 i
    rw [hq, ← Matrix.mulVec_mulVec, Matrix.mulVec_diagonal]
    push_cast
    field_simp

private theorem irlsSolve_runs {A : Matrix (Fin n) (Fin N) ℂ} (e : Fin n → ℂ) (hA : LinearIndependent ℂ A.row) {w : Fin N → ℝ}
    (hw : ∀ i, w i ≠ 0) : ∃ q, irlsSolve A e w = .ok q := by
  have hn : n ≤ N := by simpa using hA.fintype_card_le_finrank
  have hd := gram_det hA (d := fun i => (w i * w i)⁻¹) fun i => inv_pos.2 (mul_self_pos.2 (hw i))
  unfold irlsSolve
  rw [if_pos hn, if_neg (by push Not; exact hw)]
  rw [if_neg]
  · exact ⟨_, rfl⟩
  · simpa using hd

private theorem irlsLoop_succ (p : ℝ) (A : Matrix (Fin n) (Fin N) ℂ) (e : Fin n → ℂ) (k : ℕ) (w : Fin N → ℝ) (q0 : Fin N → ℂ) :
    irlsLoop p A e (k + 2) w q0 =
      match irlsLoop p A e (k + 1) w q0 with
      | .error x => .error x
      | .ok q => irlsSolve A e (irlsWeights p q) := by
  induction k generalizing w q0 with
  | zero =>
    simp only [irlsLoop]
    cases irlsSolve A e w with
    | error x => rfl
    | ok q => dsimp only; cases irlsSolve A e (irlsWeights p q) <;> rfl
  | succ k ih =>
    rw [irlsLoop, irlsLoop]
    cases irlsSolve A e w with
    | error x => rfl
    | ok q => dsimp only; rw [ih]

private theorem irlsMode_one (p : ℝ) (A : Matrix (Fin n) (Fin N) ℂ) (e : Fin n → ℂ) :
    irlsMode p 1 A e = irlsSolve A e fun _ => 1 := by
  simp only [irlsMode, irlsLoop]
  cases irlsSolve A e fun _ => 1 <;> rfl

private theorem irlsMode_succ (p : ℝ) (A : Matrix (Fin n) (Fin N) ℂ) (e : Fin n → ℂ) (k : ℕ) :
    irlsMode p (k + 2) A e =
      match irlsMode p (k + 1) A e with
      | .error x => .error x
      | .ok q => irlsSolve A e (irlsWeights p q) := irlsLoop_succ p A e k _ _

/-- The last step that led to a result. -/
private theorem irlsMode_last {p : ℝ} {A : Matrix (Fin n) (Fin N) ℂ} {e : Fin n → ℂ} {k : ℕ} {q : Fin N → ℂ}
    (h : irlsMode p (k + 1) A e = .ok q) : ∃ w, irlsSolve A e w = .ok q ∧
      ((k = 0 ∧ w = fun _ => 1) ∨ ∃ j q', k = j + 1 ∧ irlsMode p (j + 1) A e = .ok q' ∧ w = irlsWeights p q') := by
  cases k with
  | zero => exact ⟨_, irlsMode_one p A e ▸ h, .inl ⟨rfl, rfl⟩⟩
  | succ j =>
    rw [irlsMode_succ] at h
    cases hj : irlsMode p (j + 1) A e with
    | error x => rw [hj] at h; cases h
    | ok q' => rw [hj] at h; exact ⟨_, h, .inr ⟨j, q', rfl, hj, rfl⟩⟩

/-- **C151** (the eigenmode is explained): whatever the norm and whatever the number of iterations, the amplitudes that
come out reproduce the eigenmode exactly. -/
theorem C151_exact (pnorm : ℝ) (nIter : ℕ) (hk : 0 < nIter) (A : Matrix (Fin n) (Fin N) ℂ) (e : Fin n → ℂ) (q : Fin N → ℂ)
    (h : irlsMode pnorm nIter A e = .ok q) (i : Fin n) : ∑ p, A i p * q p = e i := by
  obtain ⟨k, rfl⟩ := Nat.exists_eq_succ_of_ne_zero hk.ne'
  obtain ⟨w, hw, -⟩ := irlsMode_last h
  exact congrFun (irlsSolve_ok hw).2.2.1 i

/-- Stationary points of a convex sum of powers are least. -/
private theorem least_of_stationary {r : ℝ} (hr : 2 ≤ r) {A : Matrix (Fin n) (Fin N) ℂ} {e : Fin n → ℂ} {q : Fin N → ℂ}
    (hq : A *ᵥ q = e) (l : Fin n → ℂ) (hl : ∀ i, ((‖q i‖ ^ (r - 2) : ℝ) : ℂ) * q i = (Aᴴ *ᵥ l) i) : LeastNorm r A e q := by
  refine ⟨fun i => congrFun hq i, fun z hz => ?_⟩
  have hz' : A *ᵥ z = e := funext hz
  have key : ∀ i, ‖q i‖ ^ r + r * ((starRingEnd ℂ) (((‖q i‖ ^ (r - 2) : ℝ) : ℂ) * q i) * (z i - q i)).re ≤ ‖z i‖ ^ r := by
    intro i
    rcases eq_or_ne (q i) 0 with h0 | h0
    · rw [h0]
      simp only [norm_zero, mul_zero, map_zero, zero_mul, Complex.zero_re, add_zero]
      rw [Real.zero_rpow (by linarith)]
      positivity
    · have hp : 0 < ‖q i‖ := norm_pos_iff.2 h0
      have e1 : ((starRingEnd ℂ) (((‖q i‖ ^ (r - 2) : ℝ) : ℂ) * q i) * (z i - q i)).re =
          ‖q i‖ ^ (r - 2) * ((starRingEnd ℂ) (q i) * z i).re - ‖q i‖ ^ r := by
        rw [map_mul, Complex.conj_ofReal, mul_assoc, Complex.re_ofReal_mul, mul_sub, Complex.sub_re, mul_sub]
        congr 1
        have : ((starRingEnd ℂ) (q i) * q i).re = ‖q i‖ ^ (2 : ℝ) := by
          rw [mul_comm, Complex.mul_conj']
          norm_cast
        rw [this, ← Real.rpow_add hp]
        congr 1
        ring
      have e2 : ((starRingEnd ℂ) (q i) * z i).re ≤ ‖q i‖ * ‖z i‖ := by
        refine (Complex.re_le_norm _).trans ?_
        rw [norm_mul, RCLike.norm_conj]
      have hc : (r / (r - 1)).HolderConjugate r := by
        have := Real.HolderConjugate.conjExponent (p := r) (by linarith)
        exact this.symm
      have y := Real.young_inequality_of_nonneg (a := ‖q i‖ ^ (r - 1)) (b := ‖z i‖) (by positivity) (norm_nonneg _) hc
      have e3 : (‖q i‖ ^ (r - 1)) ^ (r / (r - 1)) = ‖q i‖ ^ r := by
        rw [← Real.rpow_mul (norm_nonneg _)]
        congr 1
        have : r - 1 ≠ 0 := by linarith
        field_simp
      have e4 : ‖q i‖ ^ (r - 2) * ‖q i‖ = ‖q i‖ ^ (r - 1) := by
        rw [← Real.rpow_add_one hp.ne']
        congr 1
        ring
      rw [e3] at y
      have y2 : r * (‖q i‖ ^ (r - 1) * ‖z i‖) ≤ (r - 1) * ‖q i‖ ^ r + ‖z i‖ ^ r := by
        have := mul_le_mul_of_nonneg_left y (by linarith : (0 : ℝ) ≤ r)
        refine this.trans (le_of_eq ?_)
        have : r - 1 ≠ 0 := by linarith
        have : r ≠ 0 := by linarith
        field_simp
      have y3 : r * (‖q i‖ ^ (r - 2) * ((starRingEnd ℂ) (q i) * z i).re) ≤ r * (‖q i‖ ^ (r - 1) * ‖z i‖) := by
        refine mul_le_mul_of_nonneg_left ?_ (by linarith)
        rw [← e4, mul_assoc]
        exact mul_le_mul_of_nonneg_left e2 (by positivity)
      rw [e1]
      nlinarith
  have hsum : ∑ i, ((starRingEnd ℂ) (((‖q i‖ ^ (r - 2) : ℝ) : ℂ) * q i) * (z i - q i)).re = 0 := by
    rw [← Complex.re_sum]
    have : ∑ i, (starRingEnd ℂ) (((‖q i‖ ^ (r - 2) : ℝ) : ℂ) * q i) * (z i - q i) = star (Aᴴ *ᵥ l) ⬝ᵥ (z - q) := by
      refine Finset.sum_congr rfl fun i _ => ?_
      rw [hl i]
      rfl
    rw [this, Matrix.star_mulVec, conjTranspose_conjTranspose, ← Matrix.dotProduct_mulVec, Matrix.mulVec_sub, hz', hq]
    simp
  have := Finset.sum_le_sum fun i (_ : i ∈ Finset.univ) => key i
  rw [Finset.sum_add_distrib, ← Finset.mul_sum, hsum, mul_zero, add_zero] at this
  exact this

/-- **C151** (what the iteration converges to): if one more iteration changes nothing, the amplitudes have the least sum of
powers `4 - pnorm` — not `pnorm` — among all that explain the eigenmode. -/
theorem C151_converged (pnorm : ℝ) (hp : pnorm ≤ 2) (nIter : ℕ) (hk : 0 < nIter) (A : Matrix (Fin n) (Fin N) ℂ) (e : Fin n → ℂ)
    (q : Fin N → ℂ) (h : irlsMode pnorm nIter A e = .ok q) (h' : irlsMode pnorm (nIter + 1) A e = .ok q) :
    LeastNorm (4 - pnorm) A e q := by
  obtain ⟨k, rfl⟩ := Nat.exists_eq_succ_of_ne_zero hk.ne'
  rw [irlsMode_succ, h] at h'
  obtain ⟨-, hw, hq, l, hl⟩ := irlsSolve_ok h'
  set S := ∑ j, ‖q j‖ ^ ((2 - pnorm) / 2) with hS
  refine least_of_stationary (by linarith) hq (fun i => (S ^ 2 : ℝ) * l i) fun i => ?_
  have h1 := hl i
  have hs : S ≠ 0 := by
    intro h0
    apply hw i
    rw [irlsWeights, ← hS, h0, div_zero]
  have h2 : irlsWeights pnorm q i ^ 2 = ‖q i‖ ^ (4 - pnorm - 2) / S ^ 2 := by
    rw [irlsWeights, div_pow, ← hS, ← Real.rpow_natCast, ← Real.rpow_mul (norm_nonneg _)]
    congr 2
    push_cast
    ring
  rw [h2] at h1
  have h3 : (Aᴴ *ᵥ fun i => ((S ^ 2 : ℝ) : ℂ) * l i) i = ((S ^ 2 : ℝ) : ℂ) * (Aᴴ *ᵥ l) i := by
    have := congrFun (Matrix.mulVec_smul Aᴴ ((S ^ 2 : ℝ) : ℂ) l) i
    simpa [Pi.smul_def] using this
  rw [h3, ← h1]
  have : (S : ℂ) ≠ 0 := by exact_mod_cast hs
  push_cast
  field_simp

/-- **C151** for `pnorm = 2`: after any number of iterations the amplitudes have the least sum of squares. -/
theorem C151_norm_partial (nIter : ℕ) (hk : 0 < nIter) (A : Matrix (Fin n) (Fin N) ℂ) (e : Fin n → ℂ) (q : Fin N → ℂ)
    (h : irlsMode 2 nIter A e = .ok q) : LeastNorm 2 A e q := by
  obtain ⟨k, rfl⟩ := Nat.exists_eq_succ_of_ne_zero hk.ne'
  obtain ⟨w, hw, hw'⟩ := irlsMode_last h
  obtain ⟨-, h0, hq, l, hl⟩ := irlsSolve_ok hw
  have hc : ∃ c : ℝ, ∀ i, w i = c := by
    rcases hw' with ⟨-, rfl⟩ | ⟨j, q', -, -, rfl⟩
    · exact ⟨1, fun _ => rfl⟩
    · exact ⟨1 / ∑ _j : Fin N, (1 : ℝ), fun i => by simp [irlsWeights]⟩
  obtain ⟨c, hc⟩ := hc
  refine least_of_stationary le_rfl hq (fun i => ((c ^ 2 : ℝ) : ℂ)⁻¹ * l i) fun i => ?_
  have h3 : (Aᴴ *ᵥ fun i => ((c ^ 2 : ℝ) : ℂ)⁻¹ * l i) i = ((c ^ 2 : ℝ) : ℂ)⁻¹ * (Aᴴ *ᵥ l) i := by
    have := congrFun (Matrix.mulVec_smul Aᴴ ((c ^ 2 : ℝ) : ℂ)⁻¹ l) i
    simpa [Pi.smul_def] using this
  have h4 := hl i
  have h5 := h0 i
  rw [hc i] at h4 h5
  have : (c : ℂ) ≠ 0 := by exact_mod_cast h5
  rw [h3, ← h4]
  simp only [sub_self, Real.rpow_zero]
  push_cast
  field_simp

/-- **C151** (when there is a result): for independent rows of the transfer matrix, the iteration fails only after an
amplitude became exactly zero. -/
theorem C151_runs_partial (pnorm : ℝ) (nIter : ℕ) (A : Matrix (Fin n) (Fin N) ℂ) (hA : LinearIndependent ℂ A.row)
    (e : Fin n → ℂ) (x : PyErr) (h : irlsMode pnorm nIter A e = .error x) :
    ∃ k q i, 0 < k ∧ k < nIter ∧ irlsMode pnorm k A e = .ok q ∧ q i = 0 := by
  induction nIter with
  | zero => cases h
  | succ k ih =>
    cases k with
    | zero =>
      rw [irlsMode_one] at h
      obtain ⟨q, hq⟩ := irlsSolve_runs e hA (w := fun _ => 1) fun _ => one_ne_zero
      rw [hq] at h; cases h
    | succ k =>
      cases hk : irlsMode pnorm (k + 1) A e with
      | error y =>
        rw [irlsMode_succ, hk] at h
        obtain ⟨j, q, i, h1, h2, h3⟩ := ih (by rw [hk]; exact h)
        exact ⟨j, q, i, h1, by omega, h3⟩
      | ok q =>
        rw [irlsMode_succ, hk] at h
        by_contra hcon
        push Not at hcon
        have hq : ∀ i, q i ≠ 0 := fun i => hcon (k + 1) q i (by omega) (by omega) hk
        obtain ⟨q', hq'⟩ := irlsSolve_runs e hA (w := irlsWeights pnorm q) (by
          intro i
          have hpos : ∀ j, 0 < ‖q j‖ ^ ((2 - pnorm) / 2) := fun j => Real.rpow_pos_of_pos (norm_pos_iff.2 (hq j)) _
          exact (div_pos (hpos i) (Finset.sum_pos (fun j _ => hpos j) ⟨i, Finset.mem_univ i⟩)).ne')
        simp only [hq'] at h
        cases h

/-- **C151** fails for more channels than points: any iteration raises `AttributeError`. -/
theorem C151_channels_violated (pnorm : ℝ) (nIter : ℕ) (hk : 0 < nIter) (hn : N < n) (A : Matrix (Fin n) (Fin N) ℂ)
    (e : Fin n → ℂ) : irlsMode pnorm nIter A e = .error .attributeError := by
  obtain ⟨k, rfl⟩ := Nat.exists_eq_succ_of_ne_zero hk.ne'
  rw [irlsMode, irlsLoop, irlsSolve, if_neg (by omega)]

/-- **C85** for method `'InverseIRLS'`: a phase factor of the eigenvector only becomes a phase factor of the amplitudes. -/
theorem C85_phase_irls (pnorm : ℝ) (nIter : ℕ) (A : Matrix (Fin n) (Fin N) ℂ) (e : Fin n → ℂ) (c : ℂ) (hc : ‖c‖ = 1) :
    irlsMode pnorm nIter A (fun i => c * e i) =
      match irlsMode pnorm nIter A e with
      | .error x => .error x
      | .ok q => .ok fun p => c * q p := by
  have solve : ∀ w, irlsSolve A (fun i => c * e i) w =
      match irlsSolve A e w with
      | .error x => .error x
      | .ok q => .ok fun p => c * q p := by
    intro w
    unfold irlsSolve
    dsimp only
    split_ifs
    · rfl
    · rfl
    · show Except.ok _ = Except.ok _
      have : (fun i => c * e i) = c • e := rfl
      rw [this, Matrix.mulVec_smul, Matrix.mulVec_smul]
      rfl
    · rfl
  cases nIter with
  | zero => simp [irlsMode, irlsLoop]
  | succ k =>
    induction k with
    | zero => rw [irlsMode_one, irlsMode_one, solve]
    | succ k ih =>
      rw [irlsMode_succ, irlsMode_succ, ih]
      cases irlsMode pnorm (k + 1) A e with
      | error x => rfl
      | ok q =>
        have : irlsWeights pnorm (fun p => c * q p) = irlsWeights pnorm q := by
          funext i
          simp [irlsWeights, hc]
        simp only [this]
        exact solve _

/-! ### Two points, one channel -/

/-- The rows of a transfer matrix of one channel that is not zero are independent. -/
private theorem one_row : LinearIndependent ℂ (!![1, 2] : Matrix (Fin 1) (Fin 2) ℂ).row := by
  rw [linearIndependent_unique_iff]
  intro h
  have := congrFun h 0
  simp [Matrix.row] at this

private theorem two_points (w : Fin 2 → ℝ) (hw : ∀ i, w i ≠ 0) :
    irlsSolve (!![1, 2] : Matrix (Fin 1) (Fin 2) ℂ) ![1] w =
      .ok ![((w 1 ^ 2 / (w 1 ^ 2 + 4 * w 0 ^ 2) : ℝ) : ℂ), ((2 * w 0 ^ 2 / (w 1 ^ 2 + 4 * w 0 ^ 2) : ℝ) : ℂ)] := by
  obtain ⟨q, hq⟩ := irlsSolve_runs ![1] one_row hw
  rw [hq]
  obtain ⟨-, -, h1, l, hl⟩ := irlsSolve_ok hq
  have e0 := hl 0
  have e1 := hl 1
  have e2 := congrFun h1 0
  simp [Matrix.mulVec, dotProduct, Matrix.conjTranspose] at e0 e1 e2
  rw [show (starRingEnd ℂ) 2 = 2 from Complex.conj_ofNat 2] at e1
  have a2 : ((w 1 : ℝ) : ℂ) ^ 2 + 4 * (w 0 : ℂ) ^ 2 ≠ 0 := by
    have h0 := hw 0
    have : w 1 ^ 2 + 4 * w 0 ^ 2 ≠ 0 := by positivity
    exact_mod_cast this
  congr 1
  have b0 : q 0 * ((w 1 : ℂ) ^ 2 + 4 * (w 0 : ℂ) ^ 2) = (w 1 : ℂ) ^ 2 := by
    linear_combination (w 1 : ℂ) ^ 2 * e2 + 4 * e0 - 2 * e1
  have b1 : q 1 * ((w 1 : ℂ) ^ 2 + 4 * (w 0 : ℂ) ^ 2) = 2 * (w 0 : ℂ) ^ 2 := by
    linear_combination 2 * (w 0 : ℂ) ^ 2 * e2 - 2 * e0 + e1
  funext i
  fin_cases i
  · simp only [Fin.zero_eta, Matrix.cons_val_zero]
    push_cast
    rw [eq_div_iff a2]
    exact b0
  · simp only [Fin.mk_one, Matrix.cons_val_one]
    push_cast
    rw [eq_div_iff a2]
    exact b1

private theorem half_sq (x : ℝ) (hx : 0 ≤ x) : (x ^ ((2 - 1 : ℝ) / 2)) ^ 2 = x := by
  rw [← Real.rpow_natCast, ← Real.rpow_mul hx]
  norm_num

private theorem two_step (a b : ℝ) (ha : 0 < a) (hb : 0 < b) :
    irlsSolve (!![1, 2] : Matrix (Fin 1) (Fin 2) ℂ) ![1] (irlsWeights 1 ![(a : ℂ), (b : ℂ)]) =
      .ok ![((b / (b + 4 * a) : ℝ) : ℂ), ((2 * a / (b + 4 * a) : ℝ) : ℂ)] := by
  have na : ‖(a : ℂ)‖ = a := by rw [Complex.norm_real, Real.norm_of_nonneg ha.le]
  have nb : ‖(b : ℂ)‖ = b := by rw [Complex.norm_real, Real.norm_of_nonneg hb.le]
  have pa : 0 < a ^ ((2 - 1 : ℝ) / 2) := Real.rpow_pos_of_pos ha _
  have pb : 0 < b ^ ((2 - 1 : ℝ) / 2) := Real.rpow_pos_of_pos hb _
  set S := a ^ ((2 - 1 : ℝ) / 2) + b ^ ((2 - 1 : ℝ) / 2) with hS
  have hSp : 0 < S := by positivity
  have w0 : irlsWeights 1 ![(a : ℂ), (b : ℂ)] 0 = a ^ ((2 - 1 : ℝ) / 2) / S := by
    rw [irlsWeights, Fin.sum_univ_two]
    simp only [Matrix.cons_val_zero, Matrix.cons_val_one, na, nb, hS]
  have w1 : irlsWeights 1 ![(a : ℂ), (b : ℂ)] 1 = b ^ ((2 - 1 : ℝ) / 2) / S := by
    rw [irlsWeights, Fin.sum_univ_two]
    simp only [Matrix.cons_val_zero, Matrix.cons_val_one, na, nb, hS]
  rw [two_points]
  · rw [w0, w1, div_pow, div_pow, half_sq a ha.le, half_sq b hb.le]
    have h1 : b / S ^ 2 / (b / S ^ 2 + 4 * (a / S ^ 2)) = b / (b + 4 * a) := by field_simp
    have h2 : 2 * (a / S ^ 2) / (b / S ^ 2 + 4 * (a / S ^ 2)) = 2 * a / (b + 4 * a) := by field_simp
    rw [h1, h2]
  · intro i
    fin_cases i
    · exact w0 ▸ (by positivity)
    · exact w1 ▸ (by positivity)

/-- Odd and even numbers of iterations give two different results for ever. -/
private theorem two_cycle (k : ℕ) :
    irlsMode 1 (2 * k + 1) (!![1, 2] : Matrix (Fin 1) (Fin 2) ℂ) ![1] = .ok ![((1 / 5 : ℝ) : ℂ), ((2 / 5 : ℝ) : ℂ)] ∧
    irlsMode 1 (2 * k + 2) (!![1, 2] : Matrix (Fin 1) (Fin 2) ℂ) ![1] = .ok ![((1 / 3 : ℝ) : ℂ), ((1 / 3 : ℝ) : ℂ)] := by
  have step : ∀ j, irlsMode 1 (j + 1) (!![1, 2] : Matrix (Fin 1) (Fin 2) ℂ) ![1] = .ok ![((1 / 5 : ℝ) : ℂ), ((2 / 5 : ℝ) : ℂ)] →
      irlsMode 1 (j + 2) (!![1, 2] : Matrix (Fin 1) (Fin 2) ℂ) ![1] = .ok ![((1 / 3 : ℝ) : ℂ), ((1 / 3 : ℝ) : ℂ)] := by
    intro j h
    rw [irlsMode_succ, h]
    show irlsSolve _ _ _ = _
    rw [two_step _ _ (by norm_num) (by norm_num)]
    norm_num
  induction k with
  | zero =>
    have h : irlsMode 1 (2 * 0 + 1) (!![1, 2] : Matrix (Fin 1) (Fin 2) ℂ) ![1] = .ok ![((1 / 5 : ℝ) : ℂ), ((2 / 5 : ℝ) : ℂ)] := by
      rw [irlsMode_one, two_points _ fun _ => one_ne_zero]
      norm_num
    exact ⟨h, step 0 h⟩
  | succ k ih =>
    have h : irlsMode 1 (2 * (k + 1) + 1) (!![1, 2] : Matrix (Fin 1) (Fin 2) ℂ) ![1] = .ok ![((1 / 5 : ℝ) : ℂ), ((2 / 5 : ℝ) : ℂ)] := by
      rw [show 2 * (k + 1) + 1 = 2 * k + 1 + 2 by ring, irlsMode_succ, ih.2]
      show irlsSolve _ _ _ = _
      rw [two_step _ _ (by norm_num) (by norm_num)]
      norm_num
    exact ⟨h, step _ h⟩

/-- **C151** fails for the default `pnorm = 1`: with one channel and two points no number of iterations gives amplitudes
with the least sum of magnitudes (this sum does not even come near: 1/2 would be possible, 3/5 or 2/3 come out), and the
result changes with every further iteration. -/
theorem C151_norm_violated : ∃ (A : Matrix (Fin 1) (Fin 2) ℂ) (e : Fin 1 → ℂ), ∀ nIter, 0 < nIter →
    ∃ q, irlsMode 1 nIter A e = .ok q ∧ ¬LeastNorm 1 A e q ∧ 3 / 5 ≤ ∑ p, ‖q p‖ ∧
      irlsMode 1 (nIter + 1) A e ≠ .ok q ∧ ∃ z : Fin 2 → ℂ, (∀ i, ∑ p, A i p * z p = e i) ∧ ∑ p, ‖z p‖ = 1 / 2 := by
  refine ⟨!![1, 2], ![1], fun m hm => ?_⟩
  have hz : (∀ i, ∑ p, (!![1, 2] : Matrix (Fin 1) (Fin 2) ℂ) i p * (![0, 1 / 2] : Fin 2 → ℂ) p = (![1] : Fin 1 → ℂ) i) ∧
      ∑ p, ‖(![0, 1 / 2] : Fin 2 → ℂ) p‖ = 1 / 2 := by
    constructor
    · intro i
      fin_cases i
      simp
    · simp
  have main : ∃ q, irlsMode 1 m (!![1, 2] : Matrix (Fin 1) (Fin 2) ℂ) ![1] = .ok q ∧ 3 / 5 ≤ ∑ p, ‖q p‖ ∧
      irlsMode 1 (m + 1) (!![1, 2] : Matrix (Fin 1) (Fin 2) ℂ) ![1] ≠ .ok q := by
    have ne : (![((1 / 5 : ℝ) : ℂ), ((2 / 5 : ℝ) : ℂ)] : Fin 2 → ℂ) ≠ ![((1 / 3 : ℝ) : ℂ), ((1 / 3 : ℝ) : ℂ)] := by
      intro h
      have := congrFun h 0
      simp only [Matrix.cons_val_zero] at this
      have := Complex.ofReal_injective this
      norm_num at this
    rcases Nat.even_or_odd' m with ⟨k, rfl | rfl⟩
    · obtain ⟨j, rfl⟩ : ∃ j, k = j + 1 := ⟨k - 1, by omega⟩
      refine ⟨_, (two_cycle j).2, ?_, ?_⟩
      · rw [Fin.sum_univ_two]
        simp only [Matrix.cons_val_zero, Matrix.cons_val_one, Complex.norm_real]
        norm_num
      · rw [(two_cycle (j + 1)).1]
        exact fun h => ne (Except.ok.inj h)
    · refine ⟨_, (two_cycle k).1, ?_, ?_⟩
      · rw [Fin.sum_univ_two]
        simp only [Matrix.cons_val_zero, Matrix.cons_val_one, Complex.norm_real]
        norm_num
      · rw [(two_cycle k).2]
        exact fun h => ne (Except.ok.inj h).symm
  obtain ⟨q, h1, h2, h3⟩ := main
  refine ⟨q, h1, fun h => ?_, h2, h3, _, hz⟩
  have := h.least _ hz.1
  simp only [Real.rpow_one] at this
  rw [hz.2] at this
  linarith

/-- **C151** fails once an amplitude is exactly zero: two channels that see one point each, and only the first hears
anything. From the second iteration on there is no result. -/
theorem C151_zero_violated : ∃ (A : Matrix (Fin 2) (Fin 2) ℂ) (e : Fin 2 → ℂ), LinearIndependent ℂ A.row ∧
    irlsMode 1 1 A e = .ok ![1, 0] ∧ ∀ nIter, 2 ≤ nIter → irlsMode 1 nIter A e = .error .valueError := by
  have hA : LinearIndependent ℂ (1 : Matrix (Fin 2) (Fin 2) ℂ).row := by
    rw [← Matrix.vecMul_injective_iff]
    intro a b h
    simpa using h
  have h1 : irlsMode 1 1 (1 : Matrix (Fin 2) (Fin 2) ℂ) ![1, 0] = .ok ![1, 0] := by
    rw [irlsMode_one]
    obtain ⟨q, hq⟩ := irlsSolve_runs ![1, 0] hA (w := fun _ => 1) fun _ => one_ne_zero
    rw [hq]
    have := (irlsSolve_ok hq).2.2.1
    rw [Matrix.one_mulVec] at this
    rw [this]
  have h2 : irlsMode 1 2 (1 : Matrix (Fin 2) (Fin 2) ℂ) ![1, 0] = .error .valueError := by
    rw [irlsMode_succ, h1]
    show irlsSolve _ _ _ = _
    rw [irlsSolve, if_pos le_rfl, if_pos ⟨1, by simp [irlsWeights]; norm_num⟩]
  refine ⟨1, ![1, 0], hA, h1, fun m hm => ?_⟩
  obtain ⟨k, rfl⟩ := Nat.exists_eq_add_of_le hm
  induction k with
  | zero => exact h2
  | succ k ih =>
    rw [show 2 + (k + 1) = (1 + k) + 2 by ring, irlsMode_succ, show 1 + k + 1 = 2 + k by ring, ih (by omega)]

/-! ### The hypotheses are met -/

/-- The hypotheses of `C151_exact` are met: -/
example := C151_exact 1 5 (by decide) _ _ _ (two_cycle 2).1

/-- The hypotheses of `C151_norm_partial` are met by any independent rows, for instance -/
example : ∃ q, irlsMode 2 1 (!![1, 2] : Matrix (Fin 1) (Fin 2) ℂ) ![1] = .ok q ∧ LeastNorm 2 !![1, 2] ![1] q := by
  obtain ⟨q, hq⟩ := irlsSolve_runs (w := fun _ => 1) ![1] one_row fun _ => one_ne_zero
  exact ⟨q, (irlsMode_one _ _ _).trans hq, C151_norm_partial 1 one_pos _ _ _ ((irlsMode_one _ _ _).trans hq)⟩

/-- The hypotheses of `C151_converged` are met: two channels, two points. -/
example : LeastNorm (4 - 1) (1 : Matrix (Fin 2) (Fin 2) ℂ) ![1, 2] ![1, 2] := by
  have hA : LinearIndependent ℂ (1 : Matrix (Fin 2) (Fin 2) ℂ).row := by
    rw [← Matrix.vecMul_injective_iff]
    intro a b h
    simpa using h
  have s : ∀ w : Fin 2 → ℝ, (∀ i, w i ≠ 0) → irlsSolve (1 : Matrix (Fin 2) (Fin 2) ℂ) ![1, 2] w = .ok ![1, 2] := by
    intro w hw
    obtain ⟨q, hq⟩ := irlsSolve_runs ![1, 2] hA hw
    have := (irlsSolve_ok hq).2.2.1
    rw [Matrix.one_mulVec] at this
    rw [hq, this]
  have h1 : irlsMode 1 1 (1 : Matrix (Fin 2) (Fin 2) ℂ) ![1, 2] = .ok ![1, 2] := (irlsMode_one _ _ _).trans (s _ fun _ => one_ne_zero)
  refine C151_converged 1 (by norm_num) 1 one_pos _ _ _ h1 ?_
  rw [irlsMode_succ, h1]
  refine s _ fun i => ?_
  have hpos : ∀ j : Fin 2, 0 < ‖(![1, 2] : Fin 2 → ℂ) j‖ ^ ((2 - 1 : ℝ) / 2) := by
    intro j
    refine Real.rpow_pos_of_pos (norm_pos_iff.2 ?_) _
    fin_cases j <;> simp
  exact (div_pos (hpos i) (Finset.sum_pos (fun j _ => hpos j) ⟨i, Finset.mem_univ i⟩)).ne'

/-- The hypotheses of `C151_runs_partial` and `C151_zero_violated` are met together: -/
example : ∃ k q i, 0 < k ∧ k < 2 ∧ irlsMode 1 k C151_zero_violated.choose C151_zero_violated.choose_spec.choose = .ok q ∧ q i = 0 :=
  C151_runs_partial 1 2 _ C151_zero_violated.choose_spec.choose_spec.1 _ .valueError
    (C151_zero_violated.choose_spec.choose_spec.2.2 2 le_rfl)

/-- The hypotheses of `C151_channels_violated` are met: three channels, two points. -/
example := C151_channels_violated 1 10 (by decide) (by decide : 2 < 3) (fun _ _ => 1) ![1, 0, Complex.I]

/-- The hypotheses of `C85_phase_irls` are met: -/
example := C85_phase_irls 1 10 (!![1, 2] : Matrix (Fin 1) (Fin 2) ℂ) ![1] Complex.I Complex.norm_I

end Acoular
