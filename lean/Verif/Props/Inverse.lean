import Verif.Model.Inverse
import Mathlib.Analysis.Calculus.Deriv.Pow
import Mathlib.Analysis.Calculus.Deriv.Mul
import Mathlib.Analysis.Calculus.Deriv.Add
import Mathlib.Tactic.Linarith
import Mathlib.Tactic.Ring
import Mathlib.Tactic.FieldSimp
import Mathlib.Tactic.FinCases
import Mathlib.Tactic.Positivity

/-!
# C81 – C85: inverse methods
-/

namespace Acoular

open Spec Matrix Complex

variable {N n : ℕ}

/-! ## C81: the derivative handed to the optimiser of SODIX -/

theorem hasDerivAt_normSq_quadratic (Q L K : ℂ) :
    HasDerivAt (fun s : ℝ => ‖Q - s * L - (s : ℂ) ^ 2 * K‖ ^ 2) (-2 * (star Q * L).re) 0 := by
  have h1 : ∀ a b c : ℝ, HasDerivAt (fun s : ℝ => (a - s * b - s ^ 2 * c) ^ 2) (-2 * (a * b)) 0 := by
    intro a b c
    have h := ((((hasDerivAt_id (0 : ℝ)).mul_const b).const_sub a).sub (((hasDerivAt_id (0 : ℝ)).pow 2).mul_const c)).pow 2
    refine (h.congr_deriv ?_).congr_of_eventuallyEq (Filter.Eventually.of_forall fun s => ?_)
    · simp; ring
    · simp
  have h := (h1 Q.re L.re K.re).add (h1 Q.im L.im K.im)
  refine (h.congr_deriv ?_).congr_of_eventuallyEq (Filter.Eventually.of_forall fun s => ?_)
  · simp; ring
  · show ‖Q - s * L - (s : ℂ) ^ 2 * K‖ ^ 2 = (Q.re - s * L.re - s ^ 2 * K.re) ^ 2 + (Q.im - s * L.im - s ^ 2 * K.im) ^ 2
    rw [Complex.sq_norm, Complex.normSq_apply]
    have e : (s : ℂ) ^ 2 = ((s ^ 2 : ℝ) : ℂ) := by push_cast; rfl
    rw [e]
    simp only [Complex.sub_re, Complex.sub_im, Complex.re_ofReal_mul, Complex.im_ofReal_mul]
    ring

/-- First order term of the modelled cross spectral matrix along a direction. -/
noncomputable def sodixLin (t : Fin N → Fin n → ℂ) (D E : Fin N → Fin n → ℝ) (m l : Fin n) : ℂ :=
  ∑ r, ((t r m * E r m) * star (t r l * D r l) + (t r m * D r m) * star (t r l * E r l))

theorem directedCsm_add (t : Fin N → Fin n → ℂ) (D E : Fin N → Fin n → ℝ) (s : ℝ) (m l : Fin n) :
    directedCsm t (fun r k => D r k + s * E r k) m l =
      directedCsm t D m l + s * sodixLin t D E m l + (s : ℂ) ^ 2 * directedCsm t E m l := by
  unfold directedCsm sodixLin
  rw [Finset.mul_sum, Finset.mul_sum, ← Finset.sum_add_distrib, ← Finset.sum_add_distrib]
  refine Finset.sum_congr rfl fun r _ => ?_
  simp only [star_mul', Complex.ofReal_add, Complex.ofReal_mul, star_add, Complex.star_def, Complex.conj_ofReal]
  ring

/-- **C81** For every Hermitian cross spectral matrix, the derivative that SODIX hands to the optimiser is the gradient
of the squared distance between the cross spectral matrix and the one modelled. -/
theorem C81_gradient (t : Fin N → Fin n → ℂ) (csm : Matrix (Fin n) (Fin n) ℂ) (h : csm.IsHermitian)
    (d : Fin N × Fin n → ℝ) :
    IsGradient (fun d => ∑ m, ∑ l, ‖csm m l - directedCsm t (fun r k => d (r, k)) m l‖ ^ 2)
      (fun i => sodixDer t csm (fun r k => d (r, k)) i.1 i.2) d := by
  intro e
  set D : Fin N → Fin n → ℝ := fun r k => d (r, k) with hD
  set E : Fin N → Fin n → ℝ := fun r k => e (r, k) with hE
  have hd : ∀ m l, HasDerivAt (fun s : ℝ => ‖csm m l - directedCsm t (fun r k => D r k + s * E r k) m l‖ ^ 2)
      (-2 * (star (csm m l - directedCsm t D m l) * sodixLin t D E m l).re) 0 := by
    intro m l
    refine (hasDerivAt_normSq_quadratic (csm m l - directedCsm t D m l) (sodixLin t D E m l)
      (directedCsm t E m l)).congr_of_eventuallyEq (Filter.Eventually.of_forall fun s => ?_)
    show ‖_‖ ^ 2 = ‖_‖ ^ 2
    rw [directedCsm_add]
    congr 2
    ring
  have hs := HasDerivAt.fun_sum (u := Finset.univ) fun m (_ : m ∈ Finset.univ) =>
    HasDerivAt.fun_sum (u := Finset.univ) fun l (_ : l ∈ Finset.univ) => hd m l
  refine hs.congr_deriv ?_
  have hQ : ∀ m l, star (sodixQ t csm D m l) = sodixQ t csm D l m := by
    intro m l
    unfold sodixQ sodixMod
    rw [star_sub, star_sum, ← h.apply l m]
    congr 1
    refine Finset.sum_congr rfl fun r _ => ?_
    rw [star_mul', star_star, mul_comm]
  have hq : ∀ m l, csm m l - directedCsm t D m l = sodixQ t csm D m l := fun _ _ => rfl
  have hterm : ∀ m l, -2 * (star (csm m l - directedCsm t D m l) * sodixLin t D E m l).re =
      ∑ r, (-2 * (E r m * (t r m * (star (t r l) * D r l) * sodixQ t csm D l m).re) +
        -2 * (E r l * (t r l * (star (t r m) * D r m) * sodixQ t csm D m l).re)) := by
    intro m l
    rw [hq, sodixLin, Finset.mul_sum, Complex.re_sum, Finset.mul_sum]
    refine Finset.sum_congr rfl fun r _ => ?_
    rw [mul_add, Complex.add_re, mul_add]
    congr 2
    · rw [hQ, ← Complex.re_ofReal_mul]
      congr 1
      simp only [star_mul', Complex.star_def, Complex.conj_ofReal]
      ring
    · rw [← Complex.re_ofReal_mul, ← Complex.conj_re, ← Complex.star_def]
      congr 1
      simp only [star_mul', Complex.star_def, Complex.conj_ofReal, Complex.conj_conj]
      ring
  simp only [hterm, Finset.sum_add_distrib]
  have hA : ∑ m, ∑ l, ∑ r, -2 * (E r m * (t r m * (star (t r l) * D r l) * sodixQ t csm D l m).re) =
      ∑ m, ∑ l, ∑ r, -2 * (E r l * (t r l * (star (t r m) * D r m) * sodixQ t csm D m l).re) := Finset.sum_comm
  rw [hA, Fintype.sum_prod_type]
  have hB : ∑ m, ∑ l, ∑ r, -2 * (E r l * (t r l * (star (t r m) * D r m) * sodixQ t csm D m l).re) =
      ∑ r, ∑ l, ∑ m, -2 * (E r l * (t r l * (star (t r m) * D r m) * sodixQ t csm D m l).re) := by
    rw [Finset.sum_comm]
    rw [show (∑ l, ∑ m, ∑ r, -2 * (E r l * (t r l * (star (t r m) * D r m) * sodixQ t csm D m l).re)) =
      ∑ l, ∑ r, ∑ m, -2 * (E r l * (t r l * (star (t r m) * D r m) * sodixQ t csm D m l).re) from
      Finset.sum_congr rfl fun l _ => Finset.sum_comm]
    exact Finset.sum_comm
  rw [hB, ← Finset.sum_add_distrib]
  refine Finset.sum_congr rfl fun r _ => ?_
  rw [← Finset.sum_add_distrib]
  refine Finset.sum_congr rfl fun l _ => ?_
  unfold sodixDer
  rw [Complex.re_sum, ← Finset.mul_sum, ← Finset.mul_sum]
  show _ = _ * E r l
  ring

/-- The hypotheses of `C81_gradient` are met: -/
example := C81_gradient (fun (_ : Fin 1) (m : Fin 2) => if m = 0 then 1 else I) 1 Matrix.isHermitian_one fun _ => 2

/-- The hypothesis cannot be dropped: for a matrix that is not Hermitian (imported cross spectra are not checked) the
derivative is not the gradient. -/
theorem C81_not_hermitian_violated : ∃ (t : Fin 1 → Fin 2 → ℂ) (csm : Matrix (Fin 2) (Fin 2) ℂ) (d : Fin 1 × Fin 2 → ℝ),
    ¬ IsGradient (fun d => ∑ m, ∑ l, ‖csm m l - directedCsm t (fun r k => d (r, k)) m l‖ ^ 2)
      (fun i => sodixDer t csm (fun r k => d (r, k)) i.1 i.2) d := by
  refine ⟨fun _ _ => 1, !![0, 1; 0, 0], fun _ => 1, fun h => ?_⟩
  have h1 := h fun i => if i.2 = 0 then 1 else 0
  have h2 : HasDerivAt (fun s : ℝ => (1 + s) ^ 4 + s ^ 2 + (1 + s) ^ 2 + 1) 6 0 := by
    have := ((((hasDerivAt_id (0 : ℝ)).const_add 1).pow 4).add ((hasDerivAt_id (0 : ℝ)).pow 2)).add
      (((hasDerivAt_id (0 : ℝ)).const_add 1).pow 2) |>.add_const 1
    refine (this.congr_deriv ?_).congr_of_eventuallyEq (Filter.Eventually.of_forall fun s => ?_)
    · norm_num
    · simp
  have h3 := h1.unique (h2.congr_of_eventuallyEq (Filter.Eventually.of_forall fun s => ?_))
  · simp [sodixDer, sodixQ, sodixMod, Fintype.sum_prod_type] at h3
    norm_num at h3
  · have e : ∀ z : ℂ, ‖z‖ ^ 2 = z.re * z.re + z.im * z.im := fun z => by rw [Complex.sq_norm, Complex.normSq_apply]
    simp [directedCsm, e]
    ring

/-- The value that goes with it is the squared distance. -/
theorem C81_value (t : Fin N → Fin n → ℂ) (csm : Matrix (Fin n) (Fin n) ℂ) (D : Fin N → Fin n → ℝ) :
    sodixFunc t csm D = ∑ m, ∑ l, ‖csm m l - directedCsm t D m l‖ ^ 2 := rfl

/-- A Hermitian matrix and a source with different amplitudes towards two microphones. -/
example : (!![2, I; -I, 3] : Matrix (Fin 2) (Fin 2) ℂ).IsHermitian := by
  ext i j
  fin_cases i <;> fin_cases j <;> simp [Matrix.conjTranspose_apply]

/-! ## C82: covariance matrix fitting -/

theorem cmfA_sum (rDiag : Bool) (t : Fin N → Fin n → ℂ) (x : Fin N → ℝ) (i : CmfRow n rDiag) :
    ∑ p, cmfA rDiag t i p * x p =
      if i.1.2.2 then (sourceCsm t x i.1.2.1 i.1.1).im else (sourceCsm t x i.1.2.1 i.1.1).re := by
  unfold cmfA cmfAc sourceCsm
  split
  · rw [Complex.im_sum]
    exact Finset.sum_congr rfl fun p _ => by rw [Complex.im_ofReal_mul, mul_comm]
  · rw [Complex.re_sum]
    exact Finset.sum_congr rfl fun p _ => by rw [Complex.re_ofReal_mul, mul_comm]

theorem cmfR_unit (rDiag : Bool) (csm : Matrix (Fin n) (Fin n) ℂ) (unit : ℝ) (i : CmfRow n rDiag) :
    cmfR rDiag csm unit i = cmfR rDiag csm 1 i * unit := by
  unfold cmfR; rw [mul_one]

theorem sourceCsm_div (t : Fin N → Fin n → ℂ) (x : Fin N → ℝ) (u : ℝ) (m l : Fin n) :
    sourceCsm t (fun p => x p / u) m l = sourceCsm t x m l / u := by
  unfold sourceCsm
  rw [div_eq_mul_inv, Finset.sum_mul]
  refine Finset.sum_congr rfl fun p _ => ?_
  push_cast
  ring

/-- **C82** What is minimised: the sum of the squared deviations of the matrix above the main diagonal, and of the
(real) main diagonal unless it is removed, times the square of the unit. -/
theorem C82_residual (rDiag : Bool) (t : Fin N → Fin n → ℂ) (csm : Matrix (Fin n) (Fin n) ℂ) (unit : ℝ) (hu : unit ≠ 0)
    (x : Fin N → ℝ) :
    ∑ i, (∑ p, cmfA rDiag t i p * x p - cmfR rDiag csm unit i) ^ 2 =
      unit ^ 2 * ((∑ l, ∑ m, if m < l then ‖csm m l - sourceCsm t (fun p => x p / unit) m l‖ ^ 2 else 0) +
        if rDiag then 0 else ∑ m, (csm m m - sourceCsm t (fun p => x p / unit) m m).re ^ 2) := by
  set y : Fin N → ℝ := fun p => x p / unit with hy
  set G : CmfIndex n → ℝ := fun i =>
    (if i.2.2 then (csm i.2.1 i.1 - sourceCsm t y i.2.1 i.1).im else (csm i.2.1 i.1 - sourceCsm t y i.2.1 i.1).re) ^ 2 with hG
  have h1 : ∀ i : CmfRow n rDiag,
      (∑ p, cmfA rDiag t i p * x p - cmfR rDiag csm unit i) ^ 2 = unit ^ 2 * G i.1 := by
    intro i
    rw [cmfA_sum, hG]
    have hx : ∀ m l, sourceCsm t x m l = unit * sourceCsm t y m l := by
      intro m l
      rw [hy, sourceCsm_div, mul_div_cancel₀]
      exact_mod_cast hu
    unfold cmfR
    rw [hx]
    by_cases hb : i.1.2.2 = true
    · simp only [hb, if_true, Complex.im_ofReal_mul, Complex.sub_im]; ring
    · simp only [hb, Complex.re_ofReal_mul, Complex.sub_re]; simp; ring
  rw [Finset.sum_congr rfl fun i _ => h1 i, ← Finset.mul_sum]
  congr 1
  rw [← Finset.sum_subtype (Finset.univ.filter (cmfKeep rDiag)) (by simp) G, Finset.sum_filter, Fintype.sum_prod_type]
  have h2 : ∀ l : Fin n, (∑ mb : Fin n × Bool, if cmfKeep rDiag (l, mb) then G (l, mb) else 0) =
      (∑ m, if m < l then ‖csm m l - sourceCsm t y m l‖ ^ 2 else 0) +
        if rDiag then 0 else (csm l l - sourceCsm t y l l).re ^ 2 := by
    intro l
    rw [Fintype.sum_prod_type]
    have h3 : ∀ m, (∑ b : Bool, if cmfKeep rDiag (l, m, b) then G (l, m, b) else 0) =
        (if m < l then ‖csm m l - sourceCsm t y m l‖ ^ 2 else 0) +
          if m = l then (if rDiag then 0 else (csm l l - sourceCsm t y l l).re ^ 2) else 0 := by
      intro m
      rw [Fintype.sum_bool]
      rcases lt_trichotomy m l with h | h | h
      · rw [if_pos h, if_neg h.ne, if_pos, if_pos, Complex.sq_norm, Complex.normSq_apply]
        · show (csm m l - sourceCsm t y m l).im ^ 2 + (csm m l - sourceCsm t y m l).re ^ 2 = _
          ring
        · exact ⟨h.le, by split <;> [exact h.ne'; trivial]⟩
        · exact ⟨h.le, by split <;> [exact h.ne'; trivial]⟩
      · subst h
        rw [if_neg (lt_irrefl _), if_pos rfl]
        cases rDiag <;> simp [cmfKeep, hG]
      · rw [if_neg h.le.not_gt, if_neg h.ne', if_neg, if_neg]
        · exact fun k => absurd k.1 (not_le.2 h)
        · exact fun k => absurd k.1 (not_le.2 h)
    rw [Finset.sum_congr rfl fun m _ => h3 m, Finset.sum_add_distrib, Finset.sum_ite_eq' Finset.univ l]
    simp
  rw [Finset.sum_congr rfl fun l _ => h2 l, Finset.sum_add_distrib]
  congr 1
  cases rDiag <;> simp

/-- The hypotheses of `C82_residual` are met: -/
example := C82_residual true (fun (_ : Fin 1) (m : Fin 2) => if m = 0 then 1 else I) 1 1000 (by norm_num) fun _ => 2

theorem sourceCsm_star (t : Fin N → Fin n → ℂ) (x : Fin N → ℝ) (m l : Fin n) :
    star (sourceCsm t x m l) = sourceCsm t x l m := by
  unfold sourceCsm
  rw [star_sum]
  refine Finset.sum_congr rfl fun p _ => ?_
  simp only [star_mul', Complex.star_def, Complex.conj_ofReal, Complex.conj_conj]
  ring

/-- Nothing is left over exactly if the sources cause the measured matrix (outside the main diagonal, if that is
removed). -/
theorem C82_exact (rDiag : Bool) (t : Fin N → Fin n → ℂ) (csm : Matrix (Fin n) (Fin n) ℂ) (hc : csm.IsHermitian)
    (unit : ℝ) (hu : unit ≠ 0) (x : Fin N → ℝ) :
    (∀ i, ∑ p, cmfA rDiag t i p * x p = cmfR rDiag csm unit i) ↔
      ∀ m l, m ≠ l ∨ rDiag = false → csm m l = sourceCsm t (fun p => x p / unit) m l := by
  have hx : ∀ m l, sourceCsm t x m l = unit * sourceCsm t (fun p => x p / unit) m l := by
    intro m l
    rw [sourceCsm_div, mul_div_cancel₀]
    exact_mod_cast hu
  have hs : ∀ m l, csm m l = sourceCsm t (fun p => x p / unit) m l → csm l m = sourceCsm t (fun p => x p / unit) l m := by
    intro m l h
    rw [← hc.apply l m, h, sourceCsm_star]
  constructor
  · intro h
    have hup : ∀ m l, m < l → csm m l = sourceCsm t (fun p => x p / unit) m l := by
      intro m l hml
      have h1 := h ⟨(l, m, false), hml.le, by split <;> [exact hml.ne'; trivial]⟩
      have h2 := h ⟨(l, m, true), hml.le, by split <;> [exact hml.ne'; trivial]⟩
      rw [cmfA_sum, hx] at h1 h2
      simp only [cmfR, Complex.re_ofReal_mul, Complex.im_ofReal_mul, if_true, Bool.false_eq_true, if_false] at h1 h2
      apply Complex.ext
      · have := mul_left_cancel₀ hu (h1.trans (mul_comm _ _)); exact this.symm
      · have := mul_left_cancel₀ hu (h2.trans (mul_comm _ _)); exact this.symm
    intro m l hd
    rcases lt_trichotomy m l with hml | hml | hml
    · exact hup m l hml
    · subst hml
      have hr : rDiag = false := hd.resolve_left fun k => k rfl
      subst hr
      have h1 := h ⟨(m, m, false), le_rfl, by simp⟩
      rw [cmfA_sum, hx] at h1
      simp only [cmfR, Complex.re_ofReal_mul, Bool.false_eq_true, if_false] at h1
      apply Complex.ext
      · have := mul_left_cancel₀ hu (h1.trans (mul_comm _ _)); exact this.symm
      · have e1 : (csm m m).im = 0 := by
          have := congrArg Complex.im (hc.apply m m)
          simp at this; linarith
        have e2 : (sourceCsm t (fun p => x p / unit) m m).im = 0 := by
          have := congrArg Complex.im (sourceCsm_star t (fun p => x p / unit) m m)
          simp at this; linarith
        rw [e1, e2]
    · exact hs l m (hup l m hml)
  · rintro h ⟨⟨l, m, b⟩, hk⟩
    rw [cmfA_sum, hx]
    have hml : csm m l = sourceCsm t (fun p => x p / unit) m l ∨ (b = false ∧ m = l ∧ rDiag = true) ∨ m ≠ m := by
      by_cases e : m = l
      · cases rDiag
        · exact .inl (h m l (.inr rfl))
        · exfalso
          have := hk.2
          simp only [Bool.or_true, if_true] at this
          exact this e.symm
      · exact .inl (h m l (.inl e))
    have hml : csm m l = sourceCsm t (fun p => x p / unit) m l := by
      rcases hml with h | ⟨_, e, hr⟩ | h
      · exact h
      · exfalso
        have := hk.2
        rw [hr] at this
        simp only [Bool.or_true, if_true] at this
        exact this e.symm
      · exact absurd rfl h
    simp only [cmfR, hml, Complex.re_ofReal_mul, Complex.im_ofReal_mul]
    split <;> ring

/-- The hypotheses of `C82_exact` are met: -/
example := C82_exact true (fun (_ : Fin 1) (m : Fin 2) => if m = 0 then 1 else I) 1 Matrix.isHermitian_one 1000 (by norm_num) fun _ => 2

theorem fitObjective_nonneg_zero {ι : Type} [Fintype ι] (A : ι → Fin N → ℝ) (y : ι → ℝ) (x : Fin N → ℝ) (b : ℝ)
    (h : fitObjective 0 A y x b ≤ 0) (i : ι) : ∑ p, A i p * x p + b = y i := by
  unfold fitObjective at h
  have hc : 0 < (Fintype.card ι : ℝ) := by exact_mod_cast Fintype.card_pos_iff.2 ⟨i⟩
  have h1 : ∑ i, (∑ p, A i p * x p + b - y i) ^ 2 ≤ 0 := by
    by_contra hn
    have : 0 < (∑ i, (∑ p, A i p * x p + b - y i) ^ 2) / (2 * Fintype.card ι) := div_pos (not_le.1 hn) (by linarith)
    linarith
  have h2 := (Finset.sum_eq_zero_iff_of_nonneg fun i _ => sq_nonneg (∑ p, A i p * x p + b - y i)).1
    (le_antisymm h1 (Finset.sum_nonneg fun i _ => sq_nonneg _)) i (Finset.mem_univ i)
  have := pow_eq_zero_iff (two_ne_zero) |>.1 h2
  linarith

theorem fitObjective_exact {ι : Type} [Fintype ι] (A : ι → Fin N → ℝ) (y : ι → ℝ) (x : Fin N → ℝ)
    (h : ∀ i, ∑ p, A i p * x p = y i) : fitObjective 0 A y x 0 = 0 := by
  unfold fitObjective
  rw [Finset.sum_congr rfl fun i _ => by rw [h i, add_zero, sub_self]]
  simp

/-- The measured matrix of uncorrelated sources on the grid is explained by these sources: if no other strengths cause
the same matrix, every best fit without offset (`'fmin_l_bfgs_b'`) returns them. -/
theorem C82_recovered (rDiag : Bool) (t : Fin N → Fin n → ℂ) (x0 : Fin N → ℝ) (h0 : ∀ p, 0 ≤ x0 p)
    (csm : Matrix (Fin n) (Fin n) ℂ) (hc : csm.IsHermitian)
    (hs : ∀ m l, m ≠ l ∨ rDiag = false → csm m l = sourceCsm t x0 m l) (unit : ℝ) (hu : 0 < unit)
    (hi : Identifiable false (cmfA rDiag t)) (x : Fin N → ℝ)
    (hx : NnlsResult unit (cmfA rDiag t) (cmfR rDiag csm 1) x) : x = x0 := by
  obtain ⟨c, ⟨hc0, b, hb, hmin⟩, rfl⟩ := hx
  have he : ∀ i, ∑ p, cmfA rDiag t i p * (x0 p * unit) = cmfR rDiag csm 1 i * unit := by
    intro i
    have := (C82_exact rDiag t csm hc 1 one_ne_zero x0).2 (by simpa using hs) i
    rw [← this, Finset.sum_mul]
    exact Finset.sum_congr rfl fun p _ => by ring
  have h1 := hmin (fun p => x0 p * unit) 0 (fun p => mul_nonneg (h0 p) hu.le) (fun _ => rfl)
  rw [fitObjective_exact _ _ _ he] at h1
  have h2 := hi c (fun p => x0 p * unit) b hc0 (fun p => mul_nonneg (h0 p) hu.le) hb fun i => by
    rw [fitObjective_nonneg_zero _ _ _ _ h1 i, he i]
  funext p
  rw [h2]
  field_simp

/-- With the estimators of scikit-learn (`'NNLS'`; without penalty) the same holds if no other strengths together with a
constant in all equations cause the same matrix. -/
theorem C82_recovered_offset_partial (rDiag : Bool) (t : Fin N → Fin n → ℂ) (x0 : Fin N → ℝ) (h0 : ∀ p, 0 ≤ x0 p)
    (csm : Matrix (Fin n) (Fin n) ℂ) (hc : csm.IsHermitian)
    (hs : ∀ m l, m ≠ l ∨ rDiag = false → csm m l = sourceCsm t x0 m l) (unit : ℝ) (hu : 0 < unit)
    (norms : Fin N → ℝ) (hn : ∀ p, 0 < norms p) (hi : Identifiable true (cmfA rDiag t)) (x : Fin N → ℝ)
    (hx : SklearnResult 0 unit norms (cmfA rDiag t) (cmfR rDiag csm 1) x) : x = x0 := by
  obtain ⟨c, ⟨hc0, b, hb, hmin⟩, rfl⟩ := hx
  have he : ∀ i, ∑ p, cmfA rDiag t i p / norms p * (x0 p * unit * norms p) = cmfR rDiag csm 1 i * unit := by
    intro i
    have := (C82_exact rDiag t csm hc 1 one_ne_zero x0).2 (by simpa using hs) i
    rw [← this, Finset.sum_mul]
    exact Finset.sum_congr rfl fun p _ => by have := (hn p).ne'; field_simp
  rw [zero_mul] at hmin
  have h1 := hmin (fun p => x0 p * unit * norms p) 0 (fun p => mul_nonneg (mul_nonneg (h0 p) hu.le) (hn p).le)
    (fun _ => rfl)
  rw [fitObjective_exact _ _ _ he] at h1
  have h2 := hi (fun p => c p / norms p) (fun p => x0 p * unit) b (fun p => div_nonneg (hc0 p) (hn p).le)
    (fun p => mul_nonneg (h0 p) hu.le) (by simp) fun i => by
      have e1 := fitObjective_nonneg_zero _ _ _ _ h1 i
      have e2 := he i
      rw [← e2] at e1
      calc ∑ p, cmfA rDiag t i p * (c p / norms p) + b = ∑ p, cmfA rDiag t i p / norms p * c p + b := by
            congr 1; exact Finset.sum_congr rfl fun p _ => by ring
        _ = ∑ p, cmfA rDiag t i p / norms p * (x0 p * unit * norms p) := e1
        _ = _ := Finset.sum_congr rfl fun p _ => by have := (hn p).ne'; field_simp
  funext p
  have : c p / norms p = x0 p * unit := congrFun h2 p
  rw [this]
  field_simp

private theorem idEx (o : Bool) : Identifiable o (cmfA true (fun (_ : Fin 1) (m : Fin 2) => if m = 0 then 1 else I)) := by
  intro x x' b _ _ _ he
  have h1 := he ⟨(1, 0, false), by simp [cmfKeep]⟩
  have h2 := he ⟨(1, 0, true), by simp [cmfKeep]⟩
  simp [cmfA, cmfAc] at h1 h2
  funext p
  rw [Subsingleton.elim p 0]
  linarith

private theorem srcEx : Matrix.IsHermitian (α := ℂ) (Matrix.of (sourceCsm (fun (_ : Fin 1) (m : Fin 2) => if m = 0 then (1 : ℂ) else I) fun _ => 3)) := by
  ext i j
  rw [Matrix.conjTranspose_apply, Matrix.of_apply, Matrix.of_apply]
  fin_cases i <;> fin_cases j <;> simp [sourceCsm]

/-- The hypotheses of `C82_recovered` are met: -/
example := C82_recovered true (fun (_ : Fin 1) (m : Fin 2) => if m = 0 then 1 else I) (fun _ => 3) (by norm_num) _ srcEx (fun _ _ _ => rfl) 1000
  (by norm_num) (idEx _)

/-- The hypotheses of `C82_recovered_offset_partial` are met: -/
example := C82_recovered_offset_partial true (fun (_ : Fin 1) (m : Fin 2) => if m = 0 then 1 else I) (fun _ => 3) (by norm_num) _ srcEx
  (fun _ _ _ => rfl) 1000 (by norm_num) (fun _ => 2) (by norm_num) (idEx _)

/-- The offset can hide a source: here the matrix determines the strength 1 of the only source, but 0 is among the best
fits. -/
theorem C82_offset_violated : ∃ (t : Fin 1 → Fin 2 → ℂ) (csm : Matrix (Fin 2) (Fin 2) ℂ),
    csm.IsHermitian ∧ (∀ m l, csm m l = sourceCsm t (fun _ => 1) m l) ∧ Identifiable false (cmfA true t) ∧
    ∀ unit > 0, ∀ norms : Fin 1 → ℝ, SklearnResult 0 unit norms (cmfA true t) (cmfR true csm 1) fun _ => 0 := by
  set t : Fin 1 → Fin 2 → ℂ := fun _ m => if m = 0 then 1 else 1 - I with ht
  have hA : ∀ i p, cmfA true t i p = 1 := by
    rintro ⟨⟨l, m, b⟩, hk⟩ p
    have h1 : l ≠ m := by simpa [cmfKeep] using hk.2
    have h2 := hk.1
    simp only at h2
    have hl : l = 1 := by omega
    have hm : m = 0 := by omega
    subst hl hm
    cases b <;> simp [cmfA, cmfAc, ht]
  refine ⟨t, fun m l => sourceCsm t (fun _ => 1) m l, ?_, fun _ _ => rfl, ?_, ?_⟩
  · refine Matrix.ext fun m l => ?_
    exact (Matrix.conjTranspose_apply _ _ _).trans (sourceCsm_star t (fun _ => 1) l m)
  · intro x x' b hx hx' hb he
    have := he ⟨(1, 0, false), by simp [cmfKeep]⟩
    simp [hA, hb rfl] at this
    funext p
    rw [Subsingleton.elim p 0, this]
  · intro unit hu norms
    have hR : ∀ i, cmfR true (fun m l => sourceCsm t (fun _ => 1) m l) 1 i = 1 := by
      intro i
      have h1 := cmfA_sum true t (fun _ => 1) i
      simp only [hA] at h1
      unfold cmfR
      rw [mul_one, ← h1]
      simp
    refine ⟨fun _ => 0, ⟨fun _ => le_rfl, unit, by simp, fun x' b' _ _ => ?_⟩, by simp⟩
    have : fitObjective (0 * unit) (fun i p => cmfA true t i p / norms p)
        (fun i => cmfR true (fun m l => sourceCsm t (fun _ => 1) m l) 1 i * unit) (fun _ => 0) unit = 0 := by
      simp [fitObjective, hR]
    rw [this]
    unfold fitObjective
    rw [zero_mul, zero_mul, add_zero]
    exact div_nonneg (Finset.sum_nonneg fun i _ => sq_nonneg _) (by positivity)

theorem cmfFunc_eq {ι : Type} [Fintype ι] (A : ι → Fin N → ℝ) (R : ι → ℝ) (x : Fin N → ℝ) :
    cmfFunc A R x = ∑ i, (∑ p, A i p * x p - R i) ^ 2 := by
  have h : ∀ i, (∑ p, A i p * x p - R i) ^ 2 =
      (∑ p, ∑ q, x q * (A i q * A i p) * x p) - 2 * (∑ p, R i * A i p * x p) + R i * R i := by
    intro i
    have h1 : ∑ p, ∑ q, x q * (A i q * A i p) * x p = (∑ p, A i p * x p) * (∑ p, A i p * x p) := by
      rw [Finset.sum_mul_sum, Finset.sum_comm]
      exact Finset.sum_congr rfl fun p _ => Finset.sum_congr rfl fun q _ => by ring
    have h2 : ∑ p, R i * A i p * x p = R i * ∑ p, A i p * x p := by
      rw [Finset.mul_sum]; exact Finset.sum_congr rfl fun p _ => by ring
    rw [h1, h2]; ring
  rw [Finset.sum_congr rfl fun i _ => h i, Finset.sum_add_distrib, Finset.sum_sub_distrib, ← Finset.mul_sum]
  unfold cmfFunc
  congr 2
  · rw [Finset.sum_comm]
    refine Finset.sum_congr rfl fun p _ => ?_
    rw [Finset.sum_mul, Finset.sum_comm]
    refine Finset.sum_congr rfl fun q _ => ?_
    rw [Finset.mul_sum, Finset.sum_mul]
  · rw [Finset.sum_comm]
    refine congrArg (2 * ·) (Finset.sum_congr rfl fun p _ => ?_)
    rw [Finset.sum_mul]

/-- The function and the derivative handed to `fmin_l_bfgs_b` are the sum of the squared deviations and its gradient. -/
theorem C82_gradient {ι : Type} [Fintype ι] (A : ι → Fin N → ℝ) (R : ι → ℝ) (x : Fin N → ℝ) :
    cmfFunc A R x = ∑ i, (∑ p, A i p * x p - R i) ^ 2 ∧
      IsGradient (fun x => ∑ i, (∑ p, A i p * x p - R i) ^ 2) (cmfDer A R x) x := by
  refine ⟨cmfFunc_eq A R x, fun e => ?_⟩
  have hd : ∀ i : ι, HasDerivAt (fun s : ℝ => (∑ p, A i p * (x p + s * e p) - R i) ^ 2)
      (2 * ((∑ p, A i p * x p - R i) * ∑ p, A i p * e p)) 0 := by
    intro i
    have h := ((((hasDerivAt_id (0 : ℝ)).mul_const (∑ p, A i p * e p)).const_add (∑ p, A i p * x p - R i)).pow 2)
    refine (h.congr_deriv ?_).congr_of_eventuallyEq (Filter.Eventually.of_forall fun s => ?_)
    · simp; ring
    · have : ∑ p, A i p * (x p + s * e p) = ∑ p, A i p * x p + s * ∑ p, A i p * e p := by
        rw [Finset.mul_sum, ← Finset.sum_add_distrib]
        exact Finset.sum_congr rfl fun p _ => by ring
      simp only [this]
      simp; ring
  refine (HasDerivAt.fun_sum (u := Finset.univ) fun i _ => hd i).congr_deriv ?_
  unfold cmfDer
  have h1 : ∀ i, 2 * ((∑ p, A i p * x p - R i) * ∑ p, A i p * e p) =
      ∑ p, (2 * ((∑ q, A i p * A i q * x q) * e p) - 2 * (A i p * R i * e p)) := by
    intro i
    rw [Finset.mul_sum, Finset.mul_sum]
    refine Finset.sum_congr rfl fun p _ => ?_
    have : ∑ q, A i p * A i q * x q = A i p * ∑ q, A i q * x q := by
      rw [Finset.mul_sum]; exact Finset.sum_congr rfl fun q _ => by ring
    rw [this]; ring
  rw [Finset.sum_congr rfl fun i _ => h1 i, Finset.sum_comm]
  refine Finset.sum_congr rfl fun p _ => ?_
  rw [Finset.sum_sub_distrib, sub_mul, ← Finset.mul_sum, ← Finset.mul_sum, ← Finset.sum_mul, ← Finset.sum_mul,
    Finset.sum_comm]
  congr 1
  · rw [mul_assoc]
    congr 2
    exact Finset.sum_congr rfl fun q _ => by rw [Finset.sum_mul]
  · ring

/-- A system that is identifiable even with an offset: one source that reaches two microphones with a phase difference
of 90°. -/
example : Identifiable true (cmfA true (fun (_ : Fin 1) (m : Fin 2) => if m = 0 then 1 else I)) := by
  intro x x' b _ _ _ he
  have h1 := he ⟨(1, 0, false), by simp [cmfKeep]⟩
  have h2 := he ⟨(1, 0, true), by simp [cmfKeep]⟩
  simp [cmfA, cmfAc] at h1 h2
  funext p
  rw [Subsingleton.elim p 0]
  linarith

/-! ## C84: the unit multiplier -/

theorem fitObjective_unit {ι : Type} [Fintype ι] (pen u : ℝ) (hu : u ≠ 0) (A : ι → Fin N → ℝ) (y : ι → ℝ)
    (x : Fin N → ℝ) (b : ℝ) :
    fitObjective (pen * u) A (fun i => y i * u) x b = u ^ 2 * fitObjective pen A y (fun p => x p / u) (b / u) := by
  unfold fitObjective
  have h1 : ∀ i, (∑ p, A i p * x p + b - y i * u) ^ 2 = u ^ 2 * (∑ p, A i p * (x p / u) + b / u - y i) ^ 2 := by
    intro i
    have : ∑ p, A i p * (x p / u) = (∑ p, A i p * x p) / u := by
      rw [div_eq_mul_inv, Finset.sum_mul]; exact Finset.sum_congr rfl fun p _ => by ring
    rw [this]; field_simp
  have h2 : ∑ p, x p / u = (∑ p, x p) / u := by
    rw [div_eq_mul_inv, Finset.sum_mul]; rfl
  rw [Finset.sum_congr rfl fun i _ => h1 i, ← Finset.mul_sum, h2]
  field_simp

theorem IsFit_unit {ι : Type} [Fintype ι] (off : Bool) (pen u : ℝ) (hu : 0 < u) (A : ι → Fin N → ℝ) (y : ι → ℝ)
    (x : Fin N → ℝ) : IsFit off (pen * u) A (fun i => y i * u) x ↔ IsFit off pen A y fun p => x p / u := by
  have hu' := hu.ne'
  constructor
  · rintro ⟨h0, b, hb, hm⟩
    refine ⟨fun p => div_nonneg (h0 p) hu.le, b / u, fun h => by rw [hb h, zero_div], fun x' b' h0' hb' => ?_⟩
    have := hm (fun p => x' p * u) (b' * u) (fun p => mul_nonneg (h0' p) hu.le) fun h => by rw [hb' h, zero_mul]
    rw [fitObjective_unit _ _ hu', fitObjective_unit _ _ hu'] at this
    have h3 := le_of_mul_le_mul_left this (by positivity)
    simpa [hu'] using h3
  · rintro ⟨h0, b, hb, hm⟩
    have hx : ∀ p, 0 ≤ x p := fun p => by have := mul_nonneg (h0 p) hu.le; rwa [div_mul_cancel₀ _ hu'] at this
    refine ⟨hx, b * u, fun h => by rw [hb h, zero_mul], fun x' b' h0' hb' => ?_⟩
    have := hm (fun p => x' p / u) (b' / u) (fun p => div_nonneg (h0' p) hu.le) fun h => by rw [hb' h, zero_div]
    rw [fitObjective_unit _ _ hu', fitObjective_unit _ _ hu', mul_div_cancel_right₀ _ hu']
    exact mul_le_mul_of_nonneg_left this (by positivity)

/-- **C84** Methods whose problem is solved by scikit-learn with a penalty `alpha` (none for `'NNLS'`): the possible
results do not depend on the unit multiplier. -/
theorem C84_unit_sklearn {ι : Type} [Fintype ι] (alpha u v : ℝ) (hu : 0 < u) (hv : 0 < v) (norms : Fin N → ℝ)
    (A : ι → Fin N → ℝ) (y : ι → ℝ) (x : Fin N → ℝ) :
    SklearnResult alpha u norms A y x ↔ SklearnResult alpha v norms A y x := by
  have key : ∀ u v : ℝ, 0 < u → 0 < v → SklearnResult alpha u norms A y x → SklearnResult alpha v norms A y x := by
    rintro u v hu hv ⟨c, hc, rfl⟩
    refine ⟨fun p => c p / u * v, ?_, ?_⟩
    · rw [IsFit_unit _ _ _ hv]
      rw [IsFit_unit _ _ _ hu] at hc
      simpa [hv.ne'] using hc
    · funext p
      have := hu.ne'; have := hv.ne'
      field_simp
  exact ⟨key u v hu hv, key v u hv hu⟩

/-- The hypotheses of `C84_unit_sklearn` are met: -/
example := C84_unit_sklearn (N := 1) (ι := Fin 2) (1/2) 1000 1 (by norm_num) (by norm_num) (fun _ => 1) (fun i _ => i.val) (fun _ => 3) fun _ => 3

/-- … and so for `nnls` (DAMAS+) and `fmin_l_bfgs_b` (CMF). -/
theorem C84_unit_nnls {ι : Type} [Fintype ι] (u v : ℝ) (hu : 0 < u) (hv : 0 < v) (A : ι → Fin N → ℝ) (y : ι → ℝ)
    (x : Fin N → ℝ) : NnlsResult u A y x ↔ NnlsResult v A y x := by
  have key : ∀ u v : ℝ, 0 < u → 0 < v → NnlsResult u A y x → NnlsResult v A y x := by
    rintro u v hu hv ⟨c, hc, rfl⟩
    refine ⟨fun p => c p / u * v, ?_, ?_⟩
    · rw [← zero_mul v, IsFit_unit _ _ _ hv]
      rw [← zero_mul u, IsFit_unit _ _ _ hu] at hc
      simpa [hv.ne'] using hc
    · funext p
      have := hv.ne'
      field_simp
  exact ⟨key u v hu hv, key v u hv hu⟩

/-- The hypotheses of `C84_unit_nnls` are met: -/
example := C84_unit_nnls (N := 1) (ι := Fin 2) 1000 1 (by norm_num) (by norm_num) (fun i _ => i.val) (fun _ => 3) fun _ => 3

theorem fista_one (u : ℝ) (hu : 1 / 2 ≤ u) (x : Fin 1 → ℝ) :
    FistaResult 1 u (fun (_ : Unit) _ => 1) (fun _ => 1) x ↔ x = fun _ => (u - 1 / 2) / u := by
  constructor
  · rintro ⟨c, hc, rfl⟩
    have := hc fun _ => u - 1 / 2
    simp only [Finset.univ_unique, Finset.sum_singleton, one_mul] at this
    rw [abs_of_nonneg (by linarith : 0 ≤ u - 1 / 2)] at this
    have h0 := le_abs_self (c default)
    have h1 : (c default - (u - 1 / 2)) ^ 2 ≤ 0 := by nlinarith
    have h2 : c default = u - 1 / 2 := by
      have := pow_eq_zero_iff two_ne_zero |>.1 (le_antisymm h1 (sq_nonneg _)); linarith
    funext p
    rw [Subsingleton.elim p default, h2]
  · rintro rfl
    refine ⟨fun _ => u - 1 / 2, fun c => ?_, rfl⟩
    simp only [Finset.univ_unique, Finset.sum_singleton, one_mul]
    rw [abs_of_nonneg (by linarith : 0 ≤ u - 1 / 2)]
    have h0 := le_abs_self (c default)
    nlinarith [sq_nonneg (c default - (u - 1 / 2))]

/-- With `'FISTA'` the penalty is not adapted to the unit, and the result depends on it. -/
theorem C84_unit_fista_violated : ∃ (A : Unit → Fin 1 → ℝ) (y : Unit → ℝ) (x x' : Fin 1 → ℝ),
    (∀ z, FistaResult 1 1 A y z ↔ z = x) ∧ (∀ z, FistaResult 1 2 A y z ↔ z = x') ∧ x ≠ x' := by
  refine ⟨fun _ _ => 1, fun _ => 1, _, _, fista_one 1 (by norm_num), fista_one 2 (by norm_num), fun h => ?_⟩
  have := congrFun h 0
  norm_num at this

/-- The same with `'Split_Bregman'`. -/
theorem C84_unit_bregman_violated : ∃ (A : Unit → Fin 1 → ℝ) (y : Unit → ℝ) (x x' : Fin 1 → ℝ),
    (∀ z, BregmanResult (1 / 2) 1 A y z ↔ z = x) ∧ (∀ z, BregmanResult (1 / 2) 2 A y z ↔ z = x') ∧ x ≠ x' := by
  have h : ∀ (u : ℝ) (A : Unit → Fin 1 → ℝ) (y : Unit → ℝ) (z : Fin 1 → ℝ), BregmanResult (1 / 2) u A y z ↔ FistaResult 1 u A y z := by
    intro u A y z
    have e : ∀ c : Fin 1 → ℝ, ∑ p, |1 / 2 * c p| = 1 / 2 * ∑ p, |c p| := fun c => by
      rw [Finset.mul_sum]
      exact Finset.sum_congr rfl fun p _ => by rw [abs_mul, abs_of_pos (by norm_num : (0 : ℝ) < 1 / 2)]
    unfold BregmanResult FistaResult
    simp only [e, ← mul_add, one_mul]
    refine exists_congr fun c => and_congr_left fun _ => forall_congr' fun c' => ?_
    constructor <;> intro h <;> linarith
  obtain ⟨A, y, x, x', h1, h2, h3⟩ := C84_unit_fista_violated
  exact ⟨A, y, x, x', fun z => (h 1 A y z).trans (h1 z), fun z => (h 2 A y z).trans (h2 z), h3⟩

/-- A fit that has a result: data of one source of strength 3. -/
example : NnlsResult 1000 (fun (i : Fin 2) (_ : Fin 1) => if i = 0 then 1 else 2) (fun i => if i = 0 then 3 else 6)
    fun _ => 3 := by
  refine ⟨fun _ => 3000, ⟨fun _ => by norm_num, 0, fun _ => rfl, fun x' b' _ _ => ?_⟩, by norm_num⟩
  rw [fitObjective_exact]
  · unfold fitObjective
    rw [zero_mul, add_zero]
    exact div_nonneg (Finset.sum_nonneg fun i _ => sq_nonneg _) (by positivity)
  · intro i
    fin_cases i <;> norm_num

end Acoular
