import Verif.Props.ExactSources

/-!
# Property theorems: CLEAN-SC and a single source (C129)

The component that CLEAN-SC subtracts is the limit of an inner iteration, stopped after 20 passes. The iteration leaves out
the diagonal of the matrix whether or not `r_diag` is set.
-/

namespace Acoular

open Matrix Complex Spec
open scoped ComplexConjugate

variable {n g : ℕ}

/-- Right hand side of the inner iteration (fbeamform.py:1525) with matrix `C`, conjugate steering vector `w` and power `hmax`. -/
noncomputable def cleanscD1 (C : Matrix (Fin n) (Fin n) ℂ) (w : Fin n → ℂ) (hmax : ℝ) (i : Fin n) : ℂ :=
  (∑ l, (C l i - if i = l then C i i else 0) * w l) / (hmax : ℂ)

private theorem d1_eq (C : Matrix (Fin n) (Fin n) ℂ) (w : Fin n → ℂ) (hmax : ℝ) (i : Fin n) :
    cleanscD1 C w hmax i = (∑ l, C l i * w l - C i i * w i) / hmax := by
  unfold cleanscD1
  congr 1
  simp only [sub_mul, ite_mul, zero_mul, Finset.sum_sub_distrib, Finset.sum_ite_eq, Finset.mem_univ, if_true]

private theorem inner_succ (D1 w hh : Fin n → ℂ) (m : ℕ) :
    cleanscInner D1 w (m + 1) hh = cleanscInner D1 w m (cleanscInner D1 w 1 hh) := rfl

private theorem inner_one (D1 w hh : Fin n → ℂ) (i : Fin n) : cleanscInner D1 w 1 hh i =
    (D1 i + conj (hh i) * hh i * w i) / (√(1 + ∑ l, ‖w l‖ ^ 2 * ‖hh l‖ ^ 2) : ℂ) := by
  simp only [cleanscInner]
  congr 3
  rw [Complex.add_re, Complex.one_re, Complex.re_sum]
  congr 2
  funext l
  have : ∀ z : ℂ, conj z * z = ((‖z‖ ^ 2 : ℝ) : ℂ) := fun z => by
    rw [mul_comm, Complex.mul_conj, Complex.normSq_eq_norm_sq]
  rw [this, this, ← Complex.ofReal_mul, Complex.ofReal_re]

private theorem inner_fixed (D1 w hh : Fin n → ℂ) (h : cleanscInner D1 w 1 hh = hh) (m : ℕ) :
    cleanscInner D1 w m hh = hh := by
  induction m with
  | zero => rfl
  | succ m ih => rw [inner_succ, h, ih]

/-- **C129.** With the power that the map has with diagonal removal, the component that reproduces the matrix of a single
source exactly is a fixed point of the inner iteration, for every source and steering vector. -/
theorem C129_fixed_point (a w : Fin n → ℂ) (x hmax : ℝ) (hx : 0 < x) (hpos : 0 < hmax)
    (hmap : hmax = x * (‖∑ l, a l * w l‖ ^ 2 - ∑ l, ‖w l‖ ^ 2 * ‖a l‖ ^ 2)) :
    ∃ hh : Fin n → ℂ, (∀ m, cleanscInner (cleanscD1 ((x : ℂ) • outer a) w hmax) w m hh = hh) ∧
      (Matrix.of fun i j => (hmax : ℂ) * (hh i * conj (hh j)))ᵀ = (x : ℂ) • outer a := by
  obtain ⟨z, hz⟩ : ∃ z, z = ∑ l, a l * w l := ⟨_, rfl⟩
  obtain ⟨S, hS⟩ : ∃ S, S = ∑ l, ‖w l‖ ^ 2 * ‖a l‖ ^ 2 := ⟨_, rfl⟩
  rw [← hz, ← hS] at hmap
  obtain ⟨D, hD⟩ : ∃ D, D = ‖z‖ ^ 2 - S := ⟨_, rfl⟩
  rw [← hD] at hmap
  have hD0 : 0 < D := by
    by_contra h
    have := mul_nonpos_of_nonneg_of_nonpos hx.le (not_lt.1 h)
    linarith
  have hS0 : 0 ≤ S := by rw [hS]; positivity
  have hz0 : 0 < ‖z‖ := by
    rcases (norm_nonneg z).eq_or_lt with h | h
    · rw [← h] at hD; nlinarith
    · exact h
  have hxc : (x : ℂ) ≠ 0 := by exact_mod_cast hx.ne'
  have hDc : (D : ℂ) ≠ 0 := by exact_mod_cast hD0.ne'
  have hzc : ((‖z‖ : ℝ) : ℂ) ≠ 0 := by exact_mod_cast hz0.ne'
  have hrD : 0 < √D := Real.sqrt_pos.2 hD0
  have hrDc : ((√D : ℝ) : ℂ) ≠ 0 := by exact_mod_cast hrD.ne'
  have hsqc : ((√D : ℝ) : ℂ) * ((√D : ℝ) : ℂ) = D := by rw [← Complex.ofReal_mul, Real.mul_self_sqrt hD0.le]
  have hzz : z * conj z = ((‖z‖ : ℝ) : ℂ) * ((‖z‖ : ℝ) : ℂ) := by
    rw [Complex.mul_conj, Complex.normSq_eq_norm_sq, sq, Complex.ofReal_mul]
  let hh : Fin n → ℂ := fun i => conj (a i) * (z / ((‖z‖ : ℝ) : ℂ)) / ((√D : ℝ) : ℂ)
  have hprod : ∀ i j, hh i * conj (hh j) = conj (a i) * a j / D := by
    intro i j
    show conj (a i) * (z / ((‖z‖ : ℝ) : ℂ)) / ((√D : ℝ) : ℂ) * conj (conj (a j) * (z / ((‖z‖ : ℝ) : ℂ)) / ((√D : ℝ) : ℂ)) = _
    rw [map_div₀, map_mul, map_div₀, Complex.conj_conj, Complex.conj_ofReal, Complex.conj_ofReal, ← hsqc]
    field_simp
    linear_combination conj (a i) * a j * hzz
  have hnorm : ∀ l, ‖hh l‖ ^ 2 = ‖a l‖ ^ 2 / D := by
    intro l
    have := hprod l l
    rw [Complex.mul_conj, Complex.normSq_eq_norm_sq, mul_comm (conj (a l)), Complex.mul_conj, Complex.normSq_eq_norm_sq] at this
    exact_mod_cast this
  have hroot : √(1 + ∑ l, ‖w l‖ ^ 2 * ‖hh l‖ ^ 2) = ‖z‖ / √D := by
    have : 1 + ∑ l, ‖w l‖ ^ 2 * ‖hh l‖ ^ 2 = ‖z‖ ^ 2 / D := by
      rw [Finset.sum_congr rfl fun l _ => by rw [hnorm l, ← mul_div_assoc], ← Finset.sum_div, ← hS, eq_div_iff hD0.ne', add_mul,
        div_mul_cancel₀ _ hD0.ne']
      linarith
    rw [this, Real.sqrt_div' _ hD0.le, Real.sqrt_sq hz0.le]
  refine ⟨hh, fun m => inner_fixed _ _ _ (funext fun i => ?_) m, ?_⟩
  · rw [inner_one, hroot, mul_comm (conj (hh i)), hprod, d1_eq]
    have h1 : ∑ l, ((x : ℂ) • outer a) l i * w l = x * conj (a i) * z := by
      rw [hz, Finset.mul_sum]
      apply Finset.sum_congr rfl
      intro l _
      simp only [Matrix.smul_apply, outer, smul_eq_mul]
      ring
    rw [h1, hmap]
    simp only [Matrix.smul_apply, outer, smul_eq_mul]
    show _ = conj (a i) * (z / ((‖z‖ : ℝ) : ℂ)) / ((√D : ℝ) : ℂ)
    push_cast
    rw [← hsqc]
    field_simp
    ring
  · ext i j
    simp only [Matrix.transpose_apply, Matrix.of_apply, Matrix.smul_apply, outer, smul_eq_mul, hprod]
    rw [hmap]
    push_cast
    field_simp

/-- **C129.** With the power that the map has without diagonal removal, no component that reproduces the matrix is a fixed
point of the inner iteration, whatever the matrix. -/
theorem C129_no_fixed_point (C : Matrix (Fin n) (Fin n) ℂ) (w : Fin n → ℂ) (hmax : ℝ) (hpos : 0 < hmax)
    (hmap : (hmax : ℂ) = ∑ i, ∑ l, conj (w i) * C l i * w l) (hh : Fin n → ℂ)
    (hC : (Matrix.of fun i j => (hmax : ℂ) * (hh i * conj (hh j)))ᵀ = C) :
    cleanscInner (cleanscD1 C w hmax) w 1 hh ≠ hh := by
  intro hfix
  have hm : (hmax : ℂ) ≠ 0 := by exact_mod_cast hpos.ne'
  obtain ⟨v, hv⟩ : ∃ v, v = ∑ l, conj (hh l) * w l := ⟨_, rfl⟩
  have hent : ∀ l i, C l i = hmax * (hh i * conj (hh l)) := by
    intro l i; rw [← hC]; rfl
  have hsum : ∀ i, ∑ l, C l i * w l = hmax * hh i * v := by
    intro i
    rw [hv, Finset.mul_sum]
    apply Finset.sum_congr rfl
    intro l _
    rw [hent]; ring
  have hvv : conj v * v = 1 := by
    have h1 : (hmax : ℂ) = hmax * (conj v * v) := by
      conv_lhs => rw [hmap]
      have : ∀ i, ∑ l, conj (w i) * C l i * w l = conj (w i) * (hmax * hh i * v) := by
        intro i
        rw [← hsum, Finset.mul_sum]
        exact Finset.sum_congr rfl fun l _ => by ring
      simp only [this]
      rw [show conj v = ∑ l, hh l * conj (w l) by rw [hv, map_sum]; simp, Finset.sum_mul, Finset.mul_sum]
      exact Finset.sum_congr rfl fun l _ => by ring
    exact (mul_left_cancel₀ hm (by rw [mul_one]; exact h1)).symm
  have hv1 : ‖v‖ ^ 2 = 1 := by
    rw [mul_comm, Complex.mul_conj, Complex.normSq_eq_norm_sq] at hvv
    exact_mod_cast hvv
  set T := ∑ l, ‖w l‖ ^ 2 * ‖hh l‖ ^ 2 with hT
  have hT0 : 0 ≤ T := Finset.sum_nonneg fun l _ => by positivity
  have hR : 0 < √(1 + T) := Real.sqrt_pos.2 (by linarith)
  have hRc : ((√(1 + T) : ℝ) : ℂ) ≠ 0 := by exact_mod_cast hR.ne'
  have hstep : ∀ i, hh i * v = hh i * ((√(1 + T) : ℝ) : ℂ) := by
    intro i
    have h1 := congrFun hfix i
    rw [inner_one, d1_eq, hsum, hent, div_eq_iff hRc] at h1
    rw [← h1]
    field_simp
    ring
  obtain ⟨i, hi⟩ : ∃ i, hh i ≠ 0 := by
    by_contra hno
    push Not at hno
    have : v = 0 := by rw [hv]; exact Finset.sum_eq_zero fun l _ => by rw [hno]; simp
    rw [this] at hv1
    norm_num at hv1
  have hvR : v = ((√(1 + T) : ℝ) : ℂ) := mul_left_cancel₀ hi (hstep i)
  have hT1 : T = 0 := by
    rw [hvR, Complex.norm_real, Real.norm_eq_abs, sq_abs, Real.sq_sqrt (by linarith)] at hv1
    linarith
  have hz : ∀ l, conj (hh l) * w l = 0 := by
    intro l
    have := (Finset.sum_eq_zero_iff_of_nonneg (fun l _ => by positivity)).1 (hT.symm.trans hT1) l (Finset.mem_univ l)
    rcases mul_eq_zero.1 this with h | h
    · rw [norm_eq_zero.1 (pow_eq_zero_iff two_ne_zero |>.1 h), mul_zero]
    · rw [norm_eq_zero.1 (pow_eq_zero_iff two_ne_zero |>.1 h), map_zero, zero_mul]
  have : v = 0 := by rw [hv]; exact Finset.sum_eq_zero fun l _ => hz l
  rw [this] at hv1
  norm_num at hv1

/-! ### A source at equal distance from all microphones and the reference -/

/-- The source `s` is at distance `d` from the reference and all microphones. -/
structure Spec.Central (geo : SteerGeo n (g + 1)) (s : Fin (g + 1)) (d : ℝ) : Prop where
  pos : 0 < d
  r0 : geo.r0 s = d
  rm : ∀ m, geo.rm s m = d

private theorem monopole_one {geo : SteerGeo n (g + 1)} {s : Fin (g + 1)} {d : ℝ} (h : Central geo s d) :
    monopoles geo s = fun _ => 1 := by
  funext m
  simp only [monopoles, monopole]
  rw [h.r0, h.rm, div_self h.pos.ne']
  simp

private theorem steer_one {geo : SteerGeo n (g + 1)} {s : Fin (g + 1)} {d : ℝ} (hn : 0 < n) (h : Central geo s d) :
    steer geo.st (geo.r0 s) (geo.rm s) geo.k = fun _ => (1 / n : ℂ) := by
  have hn' : (n : ℝ) ≠ 0 := by exact_mod_cast hn.ne'
  have hd := h.pos
  have hS : ∑ l, 1 / (geo.rm s l) ^ 2 = n / d ^ 2 := by
    simp only [h.rm, Finset.sum_const, Finset.card_univ, Fintype.card_fin, nsmul_eq_mul]
    ring
  have hamp : ∀ m, steerAmp geo.st (geo.r0 s) (geo.rm s) m = 1 / n := by
    intro m
    unfold steerAmp
    rw [hS, h.r0, h.rm]
    cases geo.st <;> simp only
    · field_simp
    · field_simp
    · rw [show (n : ℝ) * (n / d ^ 2) = (n / d) ^ 2 by ring, Real.sqrt_sq (by positivity)]
      field_simp
  funext m
  unfold steer
  rw [hamp, h.r0, h.rm]
  simp

/-- One pass of the inner iteration for constant vectors. -/
noncomputable def innerScalar (n : ℕ) (b c : ℝ) : ℝ := b * (n - 1 + c ^ 2) / √(1 + n * (b ^ 2 * c ^ 2))

private theorem inner_scalar (b : ℝ) (m : ℕ) : ∀ c : ℝ,
    cleanscInner (fun _ : Fin n => (((n - 1) * b : ℝ) : ℂ)) (fun _ => (b : ℂ)) m (fun _ => (c : ℂ)) =
      fun _ => (((innerScalar n b)^[m] c : ℝ) : ℂ) := by
  induction m with
  | zero => intro c; rfl
  | succ m ih =>
    intro c
    rw [inner_succ, Function.iterate_succ_apply, ← ih]
    congr 1
    funext i
    rw [inner_one]
    unfold innerScalar
    simp only [Complex.norm_real, Real.norm_eq_abs, sq_abs, Finset.sum_const, Finset.card_univ, Fintype.card_fin, nsmul_eq_mul,
      Complex.conj_ofReal]
    push_cast
    ring

private theorem scalarProd_smul (z : ℝ) (C : Matrix (Fin n) (Fin n) ℂ) (rDiag : Bool) (h : Fin n → ℂ) :
    scalarProdFull ((z : ℂ) • C) rDiag h = z * scalarProdFull C rDiag h := by
  unfold scalarProdFull
  rw [mul_add, Finset.mul_sum]
  congr 1
  · apply Finset.sum_congr rfl
    intro m _
    rw [show (∑ m2 ∈ Finset.univ.filter (· < m), ((z : ℂ) • C) m2 m * conj (h m2)) * h m =
      (z : ℂ) * ((∑ m2 ∈ Finset.univ.filter (· < m), C m2 m * conj (h m2)) * h m) by
        rw [← mul_assoc, Finset.mul_sum]
        congr 1
        exact Finset.sum_congr rfl fun m2 _ => by simp only [Matrix.smul_apply, smul_eq_mul]; ring,
      Complex.re_ofReal_mul]
    ring
  · cases rDiag
    · simp only [Bool.false_eq_true, if_false]
      rw [Finset.mul_sum]
      apply Finset.sum_congr rfl
      intro m _
      rw [← Complex.re_ofReal_mul]
      simp only [Matrix.smul_apply, smul_eq_mul]
      congr 1
      ring
    · simp

private theorem kernel_smul (st : Formulation) (rDiag : Bool) (loss r0 : ℝ) (rm : Fin n → ℝ) (k z : ℝ)
    (C : Matrix (Fin n) (Fin n) ℂ) :
    fullCsmKernel st rDiag loss r0 rm k ((z : ℂ) • C) = z * fullCsmKernel st rDiag loss r0 rm k C := by
  unfold fullCsmKernel
  rw [kernelResult_eq, kernelResult_eq, scalarProd_smul]
  ring

private theorem outer_herm (a : Fin n → ℂ) : (outer a).IsHermitian := by
  unfold Matrix.IsHermitian
  ext i j
  simp only [Matrix.conjTranspose_apply, outer, star_mul', Complex.star_def, Complex.conj_conj]
  ring

/-- Value of the map at a central source of unit power, with and without the diagonal. -/
private theorem map_central {geo : SteerGeo n (g + 1)} {s : Fin (g + 1)} {d : ℝ} (h : Central geo s d) (rDiag : Bool)
    (hn : if rDiag then 2 ≤ n else 1 ≤ n) :
    fullCsmKernel geo.st rDiag (sigLossNorm rDiag 0 n) (geo.r0 s) (geo.rm s) geo.k (outer fun _ => 1) = 1 := by
  have hn1 : 0 < n := by cases rDiag <;> simp at hn <;> omega
  have hnc : (n : ℂ) ≠ 0 := by exact_mod_cast hn1.ne'
  apply Complex.ofReal_injective
  rw [C23_kernel_quadratic_form _ _ _ _ _ _ (by rw [h.r0]; exact h.pos) (fun m => by rw [h.rm]; exact h.pos) _ (outer_herm _),
    steer_one hn1 h, quadForm_eq_sum]
  cases rDiag
  · simp [sigLossNorm, outer]
    field_simp
  · simp only [if_true] at hn ⊢
    have hn2 : ((n : ℂ) - 1) ≠ 0 := by
      intro h0
      have h1 : (n : ℂ) = ((1 : ℕ) : ℂ) := by rw [Nat.cast_one]; exact sub_eq_zero.1 h0
      have : n = 1 := by exact_mod_cast h1
      omega
    have hsum : ∀ i : Fin n, ∑ j : Fin n, (if i = j then (0 : ℂ) else 1) = n - 1 := by
      intro i
      have : ∀ j : Fin n, (if i = j then (0 : ℂ) else 1) = 1 - if i = j then 1 else 0 := by
        intro j; split <;> simp
      simp only [this, Finset.sum_sub_distrib]
      simp
    have hterm : ∀ i j : Fin n, conj (1 / (n : ℂ)) * removeDiag (outer fun _ => 1) i j * (1 / (n : ℂ)) =
        (1 / (n : ℂ)) * (1 / n) * if i = j then (0 : ℂ) else 1 := by
      intro i j
      simp only [removeDiag, outer, map_div₀, map_one, map_natCast]
      split <;> ring
    rw [Finset.sum_comm]
    simp only [hterm, ← Finset.mul_sum, hsum]
    simp [sigLossNorm]
    field_simp

private theorem cleanscHh_eq (geo : SteerGeo n (g + 1)) (nf : ℝ) (C : Matrix (Fin n) (Fin n) ℂ) (s : Fin (g + 1)) (y : ℝ) :
    cleanscHh geo nf C s y =
      cleanscInner (cleanscD1 C (fun i => conj (steerVector geo.st (geo.r0 s) (geo.rm s) geo.k i * (√nf : ℂ))) y)
        (fun i => conj (steerVector geo.st (geo.r0 s) (geo.rm s) geo.k i * (√nf : ℂ))) 20
        (fun i => conj (steerVector geo.st (geo.r0 s) (geo.rm s) geo.k i * (√nf : ℂ))) := by
  unfold cleanscHh
  dsimp only
  congr 1

private theorem hh_central {geo : SteerGeo n (g + 1)} {s : Fin (g + 1)} {d : ℝ} (hn : 0 < n) (h : Central geo s d) (nf y : ℝ)
    (hy : 0 < y) :
    cleanscHh geo nf ((y : ℂ) • outer fun _ => 1) s y =
      fun _ => (((innerScalar n (√nf / n))^[20] (√nf / n) : ℝ) : ℂ) := by
  have hyc : (y : ℂ) ≠ 0 := by exact_mod_cast hy.ne'
  have hw : (fun i => conj (steerVector geo.st (geo.r0 s) (geo.rm s) geo.k i * (√nf : ℂ))) = fun _ => ((√nf / n : ℝ) : ℂ) := by
    funext i
    rw [C25_steer_vector _ _ _ _ (by rw [h.r0]; exact h.pos) (fun m => by rw [h.rm]; exact h.pos), steer_one hn h]
    simp only [map_mul, map_div₀, map_one, map_natCast, Complex.conj_ofReal]
    push_cast
    ring
  have hD : cleanscD1 ((y : ℂ) • outer fun _ => 1) (fun _ : Fin n => ((√nf / n : ℝ) : ℂ)) y =
      fun _ => (((n - 1) * (√nf / n) : ℝ) : ℂ) := by
    funext i
    rw [d1_eq]
    simp only [Matrix.smul_apply, outer, smul_eq_mul, map_one, mul_one, Finset.sum_const, Finset.card_univ, Fintype.card_fin,
      nsmul_eq_mul]
    push_cast
    field_simp
  rw [cleanscHh_eq, hw, hD, inner_scalar]

private theorem first_max_unique {K : Type*} [Field K] [LinearOrder K] {x : Fin g → K} {p q : Fin g} (hp : IsFirstMax x p)
    (hq : IsFirstMax x q) : p = q := by
  rcases lt_trichotomy p q with h | h | h
  · exact absurd (hq.2 p h) (not_lt.2 (hp.1 q))
  · exact h
  · exact absurd (hp.2 q h) (not_lt.2 (hq.1 p))

private theorem remove_central {geo : SteerGeo n (g + 1)} {s : Fin (g + 1)} {d : ℝ} (hn : 0 < n) (h : Central geo s d)
    (rDiag : Bool) (nf damp y c : ℝ) (hy : 0 < y) (hc : c = (innerScalar n (√nf / n))^[20] (√nf / n)) (h0 : Fin (g + 1) → ℝ)
    (hh0 : h0 = fun p => fullCsmKernel geo.st rDiag nf (geo.r0 p) (geo.rm p) geo.k (outer fun _ => 1)) (h1 : h0 s = 1)
    (hmax : IsFirstMax h0 s) (res : Fin (g + 1) → ℝ) (pw : List ℝ) :
    cleanscRemove geo rDiag nf damp ⟨fun p => y * h0 p, (y : ℂ) • outer fun _ => 1, res, pw⟩ =
      ⟨fun p => y * (1 - damp * c ^ 2) * h0 p, ((y * (1 - damp * c ^ 2) : ℝ) : ℂ) • outer fun _ => 1, res, pw⟩ := by
  have harg : argmax (fun p => y * h0 p) = s := by
    apply first_max_unique (argmax_isFirstMax _)
    exact ⟨fun j => mul_le_mul_of_nonneg_left (hmax.1 j) hy.le, fun j hj => mul_lt_mul_of_pos_left (hmax.2 j hj) hy⟩
  unfold cleanscRemove
  simp only [harg, h1, mul_one]
  rw [hh_central hn h nf y hy, ← hc]
  have hass : assemble (fun _ : Fin 1 => y) (fun (_ : Fin n) (_ : Fin 1) => conj (c : ℂ)) =
      ((y * c ^ 2 : ℝ) : ℂ) • outer fun _ => 1 := by
    ext i j
    simp only [assemble, Finset.univ_unique, Finset.sum_singleton, Matrix.smul_apply, outer, smul_eq_mul, map_one, mul_one,
      Complex.conj_ofReal]
    push_cast
    ring
  congr 1
  · funext p
    rw [C24_eig_kernel, hass, kernel_smul, hh0]
    ring
  · ext i j
    simp only [Matrix.sub_apply, Matrix.smul_apply, Matrix.transpose_apply, Matrix.of_apply, outer, smul_eq_mul, map_one, mul_one,
      Complex.conj_ofReal]
    push_cast
    ring

private theorem loop_central {geo : SteerGeo n (g + 1)} {s : Fin (g + 1)} {d : ℝ} (hn : 0 < n) (h : Central geo s d)
    (rDiag : Bool) (nf damp c : ℝ) (hc : c = (innerScalar n (√nf / n))^[20] (√nf / n)) (hr0 : 0 < 1 - damp * c ^ 2)
    (hr1 : 1 - damp * c ^ 2 ≤ 1) (h0 : Fin (g + 1) → ℝ)
    (hh0 : h0 = fun p => fullCsmKernel geo.st rDiag nf (geo.r0 p) (geo.rm p) geo.k (outer fun _ => 1)) (h1 : h0 s = 1)
    (hmax : IsFirstMax h0 s) (stopn : ℕ) (J : ℕ) : ∀ (y : ℝ) (res : Fin (g + 1) → ℝ) (pw : List ℝ), 0 < y → (∀ v ∈ pw, y ≤ v) →
    (cleanscLoop geo rDiag nf damp stopn J ⟨fun p => y * h0 p, (y : ℂ) • outer fun _ => 1, res, pw⟩).result =
      Function.update res s (res s + damp * y * ∑ k ∈ Finset.range J, (1 - damp * c ^ 2) ^ k) := by
  induction J with
  | zero => intro y res pw _ _; simp [cleanscLoop]
  | succ J ih =>
    intro y res pw hy hpw
    have harg : argmax (fun p => y * h0 p) = s := by
      apply first_max_unique (argmax_isFirstMax _)
      exact ⟨fun j => mul_le_mul_of_nonneg_left (hmax.1 j) hy.le, fun j hj => mul_lt_mul_of_pos_left (hmax.2 j hj) hy⟩
    have hpick : cleanscPick damp ⟨fun p => y * h0 p, (y : ℂ) • outer fun _ => 1, res, pw⟩ =
        (⟨fun p => y * h0 p, (y : ℂ) • outer fun _ => 1, Function.update res s (res s + damp * y), y :: pw⟩ :
          CleanscState n g) := by
      unfold cleanscPick
      simp only [harg, h1, mul_one]
    have hns : cleanscStop stopn (y :: pw) = false := by
      simp only [cleanscStop, Bool.and_eq_false_iff, decide_eq_false_iff_not, List.length_cons, Nat.add_sub_cancel]
      by_cases hl : pw.length > stopn
      · right
        rw [not_lt]
        have hlt : stopn < (y :: pw).length := by rw [List.length_cons]; omega
        rw [List.getD_eq_getElem?_getD, List.getElem?_eq_getElem hlt, Option.getD_some]
        rcases List.mem_cons.1 (List.getElem_mem hlt) with h | h
        · rw [h]
        · exact hpw _ h
      · exact Or.inl hl
    rw [cleanscLoop, hpick]
    simp only [hns, Bool.false_eq_true, if_false]
    rw [remove_central hn h rDiag nf damp y c hy hc h0 hh0 h1 hmax]
    have hle : y * (1 - damp * c ^ 2) ≤ y := by nlinarith
    rw [ih (y * (1 - damp * c ^ 2)) _ _ (mul_pos hy hr0)]
    · rw [Function.update_idem, Function.update_self]
      congr 1
      rw [Finset.sum_range_succ', pow_zero]
      simp only [pow_succ]
      rw [← Finset.sum_mul]
      ring
    · intro v hv
      rcases List.mem_cons.1 hv with rfl | hv
      · exact hle
      · exact hle.trans (hpw v hv)

private theorem calc_central {geo : SteerGeo n (g + 1)} {s : Fin (g + 1)} {d : ℝ} (h : Central geo s d) (rDiag : Bool)
    (hn : if rDiag then 2 ≤ n else 1 ≤ n) (hmax : IsFirstMax (fun p => fullCsmKernel geo.st rDiag (sigLossNorm rDiag 0 n) (geo.r0 p)
      (geo.rm p) geo.k (outer (monopoles geo s))) s) (x : ℝ) (hx : 0 < x) (damp : ℝ) (hd : 0 < damp) (hd1 : damp ≤ 1)
    (stopn nIter : ℕ) (c : ℝ)
    (hc : c = (innerScalar n (√(sigLossNorm rDiag 0 n) / n))^[20] (√(sigLossNorm rDiag 0 n) / n)) (hc0 : 0 < c ^ 2) (hc1 : c ^ 2 < 1) :
    (cleanscCalc geo rDiag (sigLossNorm rDiag 0 n) damp stopn nIter ((x : ℂ) • outer (monopoles geo s))).result =
      Pi.single s (x * (1 - (1 - damp * c ^ 2) ^ cleanscJ nIter n) / c ^ 2) := by
  have hn1 : 0 < n := by cases rDiag <;> simp at hn <;> omega
  rw [monopole_one h] at hmax ⊢
  have hr0 : 0 < 1 - damp * c ^ 2 := by nlinarith
  have hr1 : 1 - damp * c ^ 2 ≤ 1 := by nlinarith
  have h1 := loop_central hn1 h rDiag (sigLossNorm rDiag 0 n) damp c hc hr0 hr1 _ rfl (map_central h rDiag hn) hmax stopn
    (cleanscJ nIter n) x (fun _ => 0) [] hx (by simp)
  unfold cleanscCalc
  simp only [kernel_smul]
  rw [h1, zero_add]
  have hg : damp * x * ∑ k ∈ Finset.range (cleanscJ nIter n), (1 - damp * c ^ 2) ^ k =
      x * (1 - (1 - damp * c ^ 2) ^ cleanscJ nIter n) / c ^ 2 := by
    rw [eq_div_iff hc0.ne']
    have : 1 - (1 - damp * c ^ 2) ^ cleanscJ nIter n =
        damp * c ^ 2 * ∑ k ∈ Finset.range (cleanscJ nIter n), (1 - damp * c ^ 2) ^ k := by
      have := mul_neg_geom_sum (1 - damp * c ^ 2) (cleanscJ nIter n)
      rw [← this]; ring
    rw [this]; ring
  rw [hg]
  rfl

/-! with diagonal removal -/

private theorem scalar_rdiag (hn : 2 ≤ n) (b : ℝ) (hb : b = √((n : ℝ) / (n - 1)) / n) (c : ℝ) :
    (innerScalar n b c) ^ 2 = (n - 1 + c ^ 2) / n := by
  have hn' : (2 : ℝ) ≤ n := by exact_mod_cast hn
  have h1 : (0 : ℝ) < n - 1 := by linarith
  have hb2 : b ^ 2 = 1 / (n * (n - 1)) := by
    rw [hb, div_pow, Real.sq_sqrt (by positivity)]
    field_simp
  have hpos : (0 : ℝ) < 1 + n * (b ^ 2 * c ^ 2) := by positivity
  unfold innerScalar
  rw [div_pow, mul_pow, Real.sq_sqrt hpos.le, hb2]
  have h2 : (n : ℝ) - 1 + c ^ 2 ≠ 0 := by positivity
  have h3 : 1 + (n : ℝ) * (1 / (n * (n - 1)) * c ^ 2) = (n - 1 + c ^ 2) / (n - 1) := by field_simp
  rw [h3]
  field_simp

private theorem iterate_rdiag (hn : 2 ≤ n) (b : ℝ) (hb : b = √((n : ℝ) / (n - 1)) / n) (c : ℝ) (m : ℕ) :
    1 - ((innerScalar n b)^[m] c) ^ 2 = (1 - c ^ 2) / n ^ m := by
  have hn' : (n : ℝ) ≠ 0 := by have : 0 < n := by omega
                               exact_mod_cast this.ne'
  induction m generalizing c with
  | zero => simp
  | succ m ih =>
    rw [Function.iterate_succ_apply, ih, scalar_rdiag hn b hb]
    field_simp
    ring

/-- **C129.** A single source of power `x` at equal distance from all microphones and the reference, diagonal removal (and
its default normalisation): CLEAN-SC finds power at the source only, and of the power of the source all but
`(1 - damp γ)^J`, up to the factor `1/γ` where `1 - γ` is less than `1/n^20`. Missing: other positions of the source, for which
only the fixed point is shown (`C129_fixed_point`). -/
theorem C129_rdiag_partial (geo : SteerGeo n (g + 1)) (s : Fin (g + 1)) (d : ℝ) (h : Central geo s d) (hn : 2 ≤ n)
    (hmax : IsFirstMax (fun p => fullCsmKernel geo.st true (n / (n - 1)) (geo.r0 p) (geo.rm p) geo.k (outer (monopoles geo s))) s)
    (x : ℝ) (hx : 0 < x) (damp : ℝ) (hd : 0 < damp) (hd1 : damp ≤ 1) (stopn nIter : ℕ) :
    let γ : ℝ := 1 - (1 - 1 / (n * (n - 1))) / n ^ 20
    (cleanscCalc geo true (sigLossNorm true 0 n) damp stopn nIter ((x : ℂ) • outer (monopoles geo s))).result =
      Pi.single s (x * (1 - (1 - damp * γ) ^ (if nIter = 0 then n * 2 else nIter)) / γ) := by
  intro γ
  have hn' : (2 : ℝ) ≤ n := by exact_mod_cast hn
  have h1 : (0 : ℝ) < n - 1 := by linarith
  have hnorm : sigLossNorm true 0 n = (n : ℝ) / (n - 1) := by simp [sigLossNorm]
  have hit := iterate_rdiag hn _ rfl (√((n : ℝ) / (n - 1)) / n) 20
  have hb2 : (√((n : ℝ) / (n - 1)) / n) ^ 2 = 1 / (n * (n - 1)) := by
    rw [div_pow, Real.sq_sqrt (by positivity)]
    field_simp
  rw [hb2] at hit
  have hγ : ((innerScalar n (√((n : ℝ) / (n - 1)) / n))^[20] (√((n : ℝ) / (n - 1)) / n)) ^ 2 = γ := by
    show _ = 1 - _
    rw [← hit]; ring
  have hq : (1 : ℝ) / (n * (n - 1)) ≤ 1 / 2 := by
    apply one_div_le_one_div_of_le (by norm_num)
    nlinarith
  have hq0 : (0 : ℝ) < 1 / (n * (n - 1)) := by positivity
  have hp : (1 : ℝ) ≤ (n : ℝ) ^ 20 := one_le_pow₀ (by linarith)
  have hf : (1 - 1 / ((n : ℝ) * (n - 1))) / n ^ 20 ≤ 1 - 1 / ((n : ℝ) * (n - 1)) := div_le_self (by linarith) hp
  have hf0 : 0 < (1 - 1 / ((n : ℝ) * (n - 1))) / n ^ 20 := by
    apply div_pos <;> linarith
  have hγ0 : 0 < γ := by show 0 < 1 - _; linarith
  have hγ1 : γ < 1 := by show 1 - _ < _; linarith
  have := calc_central h true (by simpa using hn) (by rw [hnorm]; exact hmax) x hx damp hd hd1 stopn nIter _ rfl
    (by rw [hnorm, hγ]; exact hγ0) (by rw [hnorm, hγ]; exact hγ1)
  rw [this, hnorm, hγ]
  rfl

/-! without diagonal removal -/

private theorem scalar_full (hn : 1 ≤ n) (c : ℝ) (hc : 0 < c) (hc1 : c ^ 2 ≤ 1) :
    0 < innerScalar n (√1 / n) c ∧ (innerScalar n (√1 / n) c) ^ 2 ≤ n / (n + 1) := by
  have hn' : (1 : ℝ) ≤ n := by exact_mod_cast hn
  have hpos : (0 : ℝ) < 1 + n * ((√1 / n) ^ 2 * c ^ 2) := by positivity
  constructor
  · unfold innerScalar
    have h2 : 0 < (n : ℝ) - 1 + c ^ 2 := by positivity
    rw [Real.sqrt_one]
    rw [Real.sqrt_one] at hpos
    have := Real.sqrt_pos.2 hpos
    positivity
  · unfold innerScalar
    rw [div_pow, mul_pow, Real.sq_sqrt hpos.le, Real.sqrt_one]
    have h3 : 1 + (n : ℝ) * ((1 / n) ^ 2 * c ^ 2) = (n + c ^ 2) / n := by field_simp
    have h4 : 0 < (n : ℝ) + c ^ 2 := by positivity
    rw [h3, show (1 / (n : ℝ)) ^ 2 * (n - 1 + c ^ 2) ^ 2 / ((n + c ^ 2) / n) = (n - 1 + c ^ 2) ^ 2 / (n * (n + c ^ 2)) by field_simp,
      div_le_div_iff₀ (by positivity) (by positivity)]
    obtain ⟨v, hv⟩ : ∃ v, v = 1 - c ^ 2 := ⟨_, rfl⟩
    have hv0 : 0 ≤ v := by linarith
    have hv1 : v ≤ 1 := by have := sq_nonneg c; linarith
    rw [show c ^ 2 = 1 - v by linarith]
    have : 0 ≤ v * ((n : ℝ) ^ 2 + 2 * n - v * (n + 1)) := by
      apply mul_nonneg hv0
      nlinarith
    nlinarith

private theorem iterate_full (hn : 1 ≤ n) (m : ℕ) : ∀ (c : ℝ), 0 < c → c ^ 2 ≤ 1 →
    0 < (innerScalar n (√1 / n))^[m + 1] c ∧ ((innerScalar n (√1 / n))^[m + 1] c) ^ 2 ≤ n / (n + 1) := by
  induction m with
  | zero => intro c h h1; exact scalar_full hn c h h1
  | succ m ih =>
    intro c h h1
    rw [Function.iterate_succ_apply]
    obtain ⟨h2, h3⟩ := scalar_full hn c h h1
    apply ih _ h2 (h3.trans _)
    rw [div_le_one (by positivity)]
    linarith

/-- **C129.** The same source without diagonal removal: the component that is subtracted has at most the part
`n / (n + 1)` of the power of the source, so the source is found again and again. -/
theorem C129_full (geo : SteerGeo n (g + 1)) (s : Fin (g + 1)) (d : ℝ) (h : Central geo s d) (hn : 1 ≤ n)
    (hmax : IsFirstMax (fun p => fullCsmKernel geo.st false 1 (geo.r0 p) (geo.rm p) geo.k (outer (monopoles geo s))) s)
    (x : ℝ) (hx : 0 < x) (damp : ℝ) (hd : 0 < damp) (hd1 : damp ≤ 1) (stopn nIter : ℕ) :
    ∃ γ : ℝ, 0 < γ ∧ γ ≤ n / (n + 1) ∧
      (cleanscCalc geo false (sigLossNorm false 0 n) damp stopn nIter ((x : ℂ) • outer (monopoles geo s))).result =
        Pi.single s (x * (1 - (1 - damp * γ) ^ (if nIter = 0 then n * 2 else nIter)) / γ) := by
  have hn' : (1 : ℝ) ≤ n := by exact_mod_cast hn
  have hnorm : sigLossNorm false 0 n = 1 := by simp [sigLossNorm]
  have hb : (0 : ℝ) < √1 / n := by rw [Real.sqrt_one]; positivity
  have hb1 : (√1 / (n : ℝ)) ^ 2 ≤ 1 := by
    rw [Real.sqrt_one, div_pow, one_pow, div_le_one (by positivity)]
    nlinarith
  obtain ⟨h1, h2⟩ := iterate_full hn 19 (√1 / n) hb hb1
  refine ⟨((innerScalar n (√1 / n))^[20] (√1 / n)) ^ 2, by positivity, h2, ?_⟩
  have := calc_central h false (by simpa using hn) (by rw [hnorm]; exact hmax) x hx damp hd hd1 stopn nIter _ rfl
    (by rw [hnorm]; positivity) (by rw [hnorm]; refine h2.trans_lt ?_; rw [div_lt_one (by positivity)]; linarith)
  rw [this, hnorm]
  rfl

/-- **C129.** So CLEAN-SC without diagonal removal (`damp = 1`, at least two iterations) reports a power that exceeds
that of the source by at least the part `1 / (n + 1)`. -/
theorem C129_overestimated_violated (geo : SteerGeo n (g + 1)) (s : Fin (g + 1)) (d : ℝ) (h : Central geo s d) (hn : 1 ≤ n)
    (hmax : IsFirstMax (fun p => fullCsmKernel geo.st false 1 (geo.r0 p) (geo.rm p) geo.k (outer (monopoles geo s))) s)
    (x : ℝ) (hx : 0 < x) (stopn nIter : ℕ) (hJ : nIter ≠ 1) :
    x * (1 + 1 / (n + 1)) ≤
      (cleanscCalc geo false (sigLossNorm false 0 n) 1 stopn nIter ((x : ℂ) • outer (monopoles geo s))).result s := by
  obtain ⟨γ, h0, h1, h2⟩ := C129_full geo s d h hn hmax x hx 1 one_pos le_rfl stopn nIter
  rw [h2, Pi.single_eq_same, mul_div_assoc]
  apply mul_le_mul_of_nonneg_left _ hx.le
  rw [le_div_iff₀ h0, one_mul]
  have hn' : (1 : ℝ) ≤ n := by exact_mod_cast hn
  have hg1 : γ ≤ 1 := h1.trans (by rw [div_le_one (by positivity)]; linarith)
  have hJ2 : 2 ≤ (if nIter = 0 then n * 2 else nIter) := by split <;> omega
  have hp : (1 - γ) ^ (if nIter = 0 then n * 2 else nIter) ≤ (1 - γ) ^ 2 :=
    pow_le_pow_of_le_one (by linarith) (by linarith) hJ2
  have h3 : (1 : ℝ) / (n + 1) ≤ 1 - γ := by
    have : (1 : ℝ) / (n + 1) = 1 - n / (n + 1) := by field_simp; ring
    linarith
  nlinarith

/-- The hypotheses of the theorems are met, for the two points of `twoPoints` and the first as source, with and without the diagonal. -/
private theorem twoPoints_single : Central (twoPoints .trueLocation) 0 1 ∧
    IsFirstMax (fun p => fullCsmKernel (twoPoints .trueLocation).st false 1 ((twoPoints .trueLocation).r0 p)
      ((twoPoints .trueLocation).rm p) (twoPoints .trueLocation).k (outer (monopoles (twoPoints .trueLocation) 0))) 0 ∧
    IsFirstMax (fun p => fullCsmKernel (twoPoints .trueLocation).st true ((2 : ℕ) / ((2 : ℕ) - 1)) ((twoPoints .trueLocation).r0 p)
      ((twoPoints .trueLocation).rm p) (twoPoints .trueLocation).k (outer (monopoles (twoPoints .trueLocation) 0))) 0 := by
  have hc : Central (twoPoints .trueLocation) 0 1 := ⟨one_pos, rfl, fun m => by simp [twoPoints]⟩
  have h1 : ∀ (f : Fin 2 → ℝ), f 1 ≤ f 0 → IsFirstMax f 0 := by
    intro f h
    refine ⟨fun j => ?_, fun j hj => absurd hj (Nat.not_lt_zero _)⟩
    fin_cases j
    · exact le_rfl
    · exact h
  refine ⟨hc, h1 _ ?_, h1 _ ?_⟩
  all_goals
    rw [monopole_one hc]
    have hp2 : phase (Real.pi * 2) = 1 := by simp [phase, mul_comm Real.pi 2]
    simp [fullCsmKernel, kernelResult, scalarProdFull, helpNormalize, kernelSteer, outer, Fin.sum_univ_two, twoPoints,
      Finset.sum_filter, hp2, phase_pi]
    norm_num
    have hcard : (0 : ℝ) ≤ (Finset.univ.filter fun x : Fin 2 => x = 0).card := Nat.cast_nonneg _
    linarith

/-- The hypotheses of `C129_rdiag_partial` are met: -/
example := C129_rdiag_partial (twoPoints .trueLocation) 0 1 twoPoints_single.1 (by decide) twoPoints_single.2.2 3 (by norm_num) (3 / 5)
  (by norm_num) (by norm_num) 3 0

/-- The hypotheses of `C129_full` are met: -/
example := C129_full (twoPoints .trueLocation) 0 1 twoPoints_single.1 (by decide) twoPoints_single.2.1 3 (by norm_num) (3 / 5)
  (by norm_num) (by norm_num) 3 0

/-- The hypotheses of `C129_fixed_point` are met: -/
example := C129_fixed_point ![1, 1] ![1, 1] 3 6 (by norm_num) (by norm_num) (by simp [Fin.sum_univ_two]; norm_num)

/-- The hypotheses of `C129_no_fixed_point` are met: -/
example := C129_no_fixed_point !![4] ![1] 4 (by norm_num) (by simp) ![1] (by ext i j; fin_cases i; fin_cases j; simp)

end Acoular
