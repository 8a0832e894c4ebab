import Verif.Props.SingleSource
import Mathlib.Data.List.OfFn

/-!
# What does not depend on the choice of the eigenvectors
-/

namespace Acoular

open Matrix Spec

variable {n : ℕ}

private theorem assemble_eq (eva : Fin n → ℝ) (eve : Fin n → Fin n → ℂ) :
    assemble eva eve = Matrix.of eve * diagonal (fun l => (eva l : ℂ)) * (Matrix.of eve)ᴴ := by
  ext i j
  rw [Matrix.mul_apply]
  unfold assemble
  refine Finset.sum_congr rfl fun l _ => ?_
  rw [Matrix.mul_diagonal, Matrix.conjTranspose_apply, RCLike.star_def]
  simp only [Matrix.of_apply]
  ring

/-- Functions of a matrix do not depend on the eigenvectors chosen. -/
theorem eigh_fun {A : Matrix (Fin n) (Fin n) ℂ} {eva eva' : Fin n → ℝ} {eve eve' : Fin n → Fin n → ℂ} (h : IsEigh A (eva, Matrix.of eve))
    (h' : IsEigh A (eva', Matrix.of eve')) (f : ℝ → ℝ) : assemble (fun l => f (eva l)) eve = assemble (fun l => f (eva' l)) eve' := by
  obtain ⟨-, hV, hA⟩ := h
  obtain ⟨-, hW, hB⟩ := h'
  simp only at hV hA hW hB
  have hV' : Matrix.of eve * (Matrix.of eve)ᴴ = 1 := mul_eq_one_comm.1 hV
  have hW' : Matrix.of eve' * (Matrix.of eve')ᴴ = 1 := mul_eq_one_comm.1 hW
  rw [assemble_eq, assemble_eq]
  set V : Matrix (Fin n) (Fin n) ℂ := Matrix.of eve
  set W : Matrix (Fin n) (Fin n) ℂ := Matrix.of eve'
  have hc : diagonal (fun l => (eva' l : ℂ)) * (Wᴴ * V) = (Wᴴ * V) * diagonal (fun l => (eva l : ℂ)) := by
    have e1 : Wᴴ * A * V = diagonal (fun l => (eva' l : ℂ)) * (Wᴴ * V) := by
      rw [hB]; simp only [← Matrix.mul_assoc]; rw [hW, Matrix.one_mul]
    have e2 : Wᴴ * A * V = (Wᴴ * V) * diagonal (fun l => (eva l : ℂ)) := by
      rw [hA]; simp only [Matrix.mul_assoc]; rw [hV, Matrix.mul_one]
    rw [← e1, e2]
  have hf : diagonal (fun l => (f (eva' l) : ℂ)) * (Wᴴ * V) = (Wᴴ * V) * diagonal (fun l => (f (eva l) : ℂ)) := by
    ext i j
    have e := congrFun (congrFun hc i) j
    rw [diagonal_mul, mul_diagonal] at e ⊢
    by_cases hz : (Wᴴ * V) i j = 0
    · rw [hz]; ring
    · have : (eva' i : ℂ) = eva j := mul_right_cancel₀ hz (by rw [e, mul_comm])
      rw [Complex.ofReal_inj.1 this, mul_comm]
  calc V * diagonal (fun l => (f (eva l) : ℂ)) * Vᴴ
      = (W * Wᴴ) * (V * diagonal (fun l => (f (eva l) : ℂ)) * Vᴴ) := by rw [hW', Matrix.one_mul]
    _ = W * ((Wᴴ * V) * diagonal (fun l => (f (eva l) : ℂ))) * Vᴴ := by simp only [Matrix.mul_assoc]
    _ = W * diagonal (fun l => (f (eva' l) : ℂ)) * Wᴴ * (V * Vᴴ) := by rw [← hf]; simp only [Matrix.mul_assoc]
    _ = W * diagonal (fun l => (f (eva' l) : ℂ)) * Wᴴ := by rw [hV', Matrix.mul_one]

private theorem eigh_trace {A : Matrix (Fin n) (Fin n) ℂ} {eva : Fin n → ℝ} {eve : Fin n → Fin n → ℂ} (h : IsEigh A (eva, Matrix.of eve))
    (f : ℝ → ℝ) : (assemble (fun l => f (eva l)) eve).trace = ((∑ l, f (eva l) : ℝ) : ℂ) := by
  obtain ⟨-, hV, -⟩ := h
  simp only at hV
  rw [assemble_eq, Matrix.mul_assoc, Matrix.trace_mul_comm, Matrix.mul_assoc, hV, Matrix.mul_one, trace_diagonal]
  push_cast
  rfl

/-- The eigenvalues, in ascending order, are determined by the matrix. -/
theorem eigh_values {A : Matrix (Fin n) (Fin n) ℂ} {eva eva' : Fin n → ℝ} {eve eve' : Fin n → Fin n → ℂ} (h : IsEigh A (eva, Matrix.of eve))
    (h' : IsEigh A (eva', Matrix.of eve')) : eva = eva' := by
  classical
  have hs : ∀ f : ℝ → ℝ, ∑ l, f (eva l) = ∑ l, f (eva' l) := fun f => by
    have := congrArg Matrix.trace (eigh_fun h h' f)
    rw [eigh_trace h, eigh_trace h'] at this
    exact_mod_cast this
  have hp : (List.ofFn eva).Perm (List.ofFn eva') := by
    rw [List.perm_iff_count]
    intro x
    have hcount : ∀ v : Fin n → ℝ, ((List.ofFn v).count x : ℝ) = ∑ l, if v l = x then (1 : ℝ) else 0 := by
      intro v
      rw [Finset.sum_boole]
      norm_cast
      rw [List.count_eq_length_filter, List.ofFn_eq_map, List.filter_map, List.length_map, ← List.countP_eq_length_filter]
      rw [Finset.card_def]
      simp [Finset.filter, List.countP_eq_length_filter, Function.comp_def, Fin.univ_val_map]
      rfl
    have := hs fun y => if y = x then 1 else 0
    rw [← hcount, ← hcount] at this
    exact_mod_cast this
  have ho : ∀ v : Fin n → ℝ, Monotone v → (List.ofFn v).Pairwise (· ≤ ·) := fun v hv => by
    rw [List.pairwise_ofFn]
    exact fun i j hij => hv hij.le
  exact List.ofFn_injective (hp.eq_of_pairwise (fun a b _ _ => le_antisymm) (ho _ h.1) (ho _ h'.1))

/-- The part of a simple eigenvalue. -/
theorem eigh_simple {A : Matrix (Fin n) (Fin n) ℂ} {eva eva' : Fin n → ℝ} {eve eve' : Fin n → Fin n → ℂ} (h : IsEigh A (eva, Matrix.of eve))
    (h' : IsEigh A (eva', Matrix.of eve')) {l : Fin n} (hl : ∀ j, j ≠ l → eva j ≠ eva l) (x : ℝ) :
    assemble (fun _ : Fin 1 => x) (fun m _ => eve m l) = assemble (fun _ : Fin 1 => x) (fun m _ => eve' m l) := by
  have he := eigh_values h h'
  subst he
  have e := eigh_fun h h' fun y => if y = eva l then x else 0
  have key : ∀ w : Fin n → Fin n → ℂ, assemble (fun j => if eva j = eva l then x else 0) w = assemble (fun _ : Fin 1 => x) (fun m _ => w m l) := by
    intro w
    ext i j
    unfold assemble
    rw [Finset.sum_eq_single l]
    · simp
    · intro b _ hb
      simp only [if_neg (hl b hb)]
      simp
    · simp
  rw [← key, ← key]
  exact e

/-- The eigenvalues below a gap. -/
theorem eigh_below {A : Matrix (Fin n) (Fin n) ℂ} {eva eva' : Fin n → ℝ} {eve eve' : Fin n → Fin n → ℂ} (h : IsEigh A (eva, Matrix.of eve))
    (h' : IsEigh A (eva', Matrix.of eve')) (keep : Fin n → Prop) [DecidablePred keep] (hk : ∀ i j, keep i → ¬ keep j → eva i < eva j) :
    assemble (fun l => if keep l then eva l else 0) eve = assemble (fun l => if keep l then eva' l else 0) eve' := by
  classical
  have he := eigh_values h h'
  subst he
  have e := eigh_fun h h' fun y => if ∃ i, keep i ∧ y = eva i then y else 0
  have key : ∀ l, (if ∃ i, keep i ∧ eva l = eva i then eva l else 0) = if keep l then eva l else 0 := by
    intro l
    by_cases hl : keep l
    · rw [if_pos ⟨l, hl, rfl⟩, if_pos hl]
    · rw [if_neg hl, if_neg]
      rintro ⟨i, hi, e⟩
      exact absurd (hk i l hi hl) (by rw [e]; exact lt_irrefl _)
  simp only [key] at e
  exact e

/-- Positive multiples. -/
theorem eigh_smul {A : Matrix (Fin n) (Fin n) ℂ} {eva : Fin n → ℝ} {eve : Fin n → Fin n → ℂ} (h : IsEigh A (eva, Matrix.of eve)) {a : ℝ} (ha : 0 ≤ a) :
    IsEigh ((a : ℂ) • A) (fun l => a * eva l, Matrix.of eve) := by
  obtain ⟨h1, h2, h3⟩ := h
  refine ⟨fun i j hij => mul_le_mul_of_nonneg_left (h1 hij) ha, h2, ?_⟩
  simp only at h3 ⊢
  rw [h3, show diagonal (fun l => ((a * eva l : ℝ) : ℂ)) = (a : ℂ) • diagonal (fun l => (eva l : ℂ)) by
    ext i j; by_cases hij : i = j <;> simp [hij]]
  rw [Matrix.mul_smul, Matrix.smul_mul]

/-- Another numbering. -/
theorem eigh_perm {A : Matrix (Fin n) (Fin n) ℂ} {eva : Fin n → ℝ} {eve : Fin n → Fin n → ℂ} (h : IsEigh A (eva, Matrix.of eve)) (σ : Equiv.Perm (Fin n)) :
    IsEigh (A.submatrix σ σ) (eva, Matrix.of fun m l => eve (σ m) l) := by
  obtain ⟨h1, h2, h3⟩ := h
  simp only at h2 h3
  have e : (Matrix.of fun m l => eve (σ m) l) = (Matrix.of eve).submatrix σ id := rfl
  refine ⟨h1, ?_, ?_⟩
  · simp only
    rw [e, conjTranspose_submatrix, submatrix_mul_equiv _ _ id σ id, h2, submatrix_id_id]
  · simp only
    rw [e, conjTranspose_submatrix, h3]
    rfl

end Acoular
