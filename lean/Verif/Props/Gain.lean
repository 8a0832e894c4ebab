import Verif.Lemmas.Spectral
import Verif.Lemmas.Eigh
import Verif.Props.Csm
import Verif.Model.Level

/-!
# Property theorems: louder signals (C158)
-/

namespace Acoular

open Spec Matrix Complex
open scoped ComplexConjugate ComplexOrder

variable {n g e : ℕ}

/-- Specification: all powers are `a` times as large. -/
noncomputable def Spec.louder (a : ℝ) (s : BfSet n g) : BfSet n g := { s with csm := fun i => (a : ℂ) • s.csm i }

/-- Specification: the routine returns eigenvalues in ascending order and orthonormal eigenvectors of every Hermitian matrix. -/
def Spec.Diagonalises (rt : BfRoutines n g) : Prop :=
  ∀ A : Matrix (Fin n) (Fin n) ℂ, A.IsHermitian → IsEigh A ((rt.eigh A).1, Matrix.of (rt.eigh A).2)

/-- Specification: the map `w` is the map `v` with `a` times the power. -/
def Spec.TimesMap (a : ℝ) (v w : BfRow g) : Prop := ∃ x : Fin (g + 1) → ℝ, v = .map x ∧ w = .map fun p => a * x p

private theorem full_smul (st : Formulation) (rDiag : Bool) (loss r0 : ℝ) (rm : Fin n → ℝ) (k a : ℝ) (C : Matrix (Fin n) (Fin n) ℂ) :
    fullCsmKernel st rDiag loss r0 rm k ((a : ℂ) • C) = a * fullCsmKernel st rDiag loss r0 rm k C := by
  have h : ∀ h : Fin n → ℂ, scalarProdFull ((a : ℂ) • C) rDiag h = a * scalarProdFull C rDiag h := by
    intro h
    unfold scalarProdFull
    rw [mul_add, Finset.mul_sum]
    congr 1
    · refine Finset.sum_congr rfl fun m _ => ?_
      have : (∑ m2 ∈ Finset.univ.filter (· < m), ((a : ℂ) • C) m2 m * conj (h m2)) * h m =
          (a : ℂ) * ((∑ m2 ∈ Finset.univ.filter (· < m), C m2 m * conj (h m2)) * h m) := by
        simp only [Matrix.smul_apply, smul_eq_mul, mul_assoc, ← Finset.mul_sum]
      rw [this, Complex.re_ofReal_mul]
      ring
    · cases rDiag
      · simp only [Bool.false_eq_true, if_false]
        rw [Finset.mul_sum]
        refine Finset.sum_congr rfl fun m _ => ?_
        rw [Matrix.smul_apply, smul_eq_mul, mul_assoc, mul_assoc, Complex.re_ofReal_mul, mul_assoc]
      · simp
  unfold fullCsmKernel
  rw [h]
  cases st <;> simp only [kernelResult] <;> ring

private theorem eig_mul (st : Formulation) (rDiag : Bool) (loss r0 : ℝ) (rm : Fin n → ℝ) (k a : ℝ) (eva : Fin e → ℝ) (eve : Fin n → Fin e → ℂ) :
    eigKernel st rDiag loss r0 rm k (fun l => a * eva l) eve = a * eigKernel st rDiag loss r0 rm k eva eve := by
  rw [C24_eig_kernel, C24_eig_kernel, ← full_smul]
  congr 1
  ext i j
  simp only [assemble, Matrix.smul_apply, smul_eq_mul, Finset.mul_sum]
  exact Finset.sum_congr rfl fun l _ => by push_cast; ring

private theorem clip_mul {a : ℝ} (ha : 0 < a) (b : Bool) (x : ℝ) :
    (if b then (if a * x < 0 then 0 else a * x) else a * x) = a * if b then (if x < 0 then 0 else x) else x := by
  have : a * x < 0 ↔ x < 0 := by
    constructor
    · exact fun h => by by_contra hx; exact absurd (mul_nonneg ha.le (not_lt.1 hx)) (not_le.2 h)
    · exact fun h => mul_neg_of_pos_of_neg ha h
  cases b
  · rfl
  · simp only [if_true, this]
    split_ifs
    · simp
    · rfl

private theorem dirty_louder {a : ℝ} (ha : 0 < a) (s : BfSet n g) (i : ℕ) : (louder a s).dirty i = fun p => a * s.dirty i p := by
  funext p
  unfold BfSet.dirty bfCalcPoint
  dsimp only
  rw [show (louder a s).geo i = s.geo i from rfl, show (louder a s).csm i = (a : ℂ) • s.csm i from rfl, show (louder a s).form = s.form from rfl,
    show (louder a s).rDiag = s.rDiag from rfl, show (louder a s).rDiagNorm = s.rDiagNorm from rfl, full_smul, clip_mul ha]

private theorem argmax_mul {a : ℝ} (ha : 0 < a) (x : Fin (g + 1) → ℝ) : argmax (fun p => a * x p) = argmax x := by
  unfold argmax
  simp only [mul_lt_mul_iff_right₀ ha]

/-! ### DAMAS -/

private theorem damasStep_mul {a : ℝ} (ha : 0 < a) (A : Fin e → Fin e → ℝ) (y x : Fin e → ℝ) (relax : ℝ) (i : Fin e) :
    damasStep A (fun p => a * y p) relax (fun p => a * x p) i = fun p => a * damasStep A y relax x i p := by
  unfold damasStep
  dsimp only
  have : (1 - relax) * (a * x i) + relax * (a * y i - (∑ j, A i j * (a * x j) - A i i * (a * x i))) =
      a * ((1 - relax) * x i + relax * (y i - (∑ j, A i j * x j - A i i * x i))) := by
    rw [show ∑ j, A i j * (a * x j) = a * ∑ j, A i j * x j by rw [Finset.mul_sum]; exact Finset.sum_congr rfl fun j _ => by ring]
    ring
  rw [this]
  funext p
  by_cases hp : p = i
  · subst hp
    simp only [Function.update_self, mul_pos_iff_of_pos_left ha]
    split_ifs
    · rfl
    · simp
  · rw [Function.update_of_ne hp, Function.update_of_ne hp]

private theorem damasSweep_mul {a : ℝ} (ha : 0 < a) (A : Fin e → Fin e → ℝ) (y : Fin e → ℝ) (relax : ℝ) (l : List (Fin e)) (x : Fin e → ℝ) :
    l.foldl (damasStep A (fun p => a * y p) relax) (fun p => a * x p) = fun p => a * l.foldl (damasStep A y relax) x p := by
  induction l generalizing x with
  | nil => rfl
  | cons i is ih => rw [List.foldl_cons, List.foldl_cons, damasStep_mul ha, ih]

private theorem damasSolve_mul {a : ℝ} (ha : 0 < a) (A : Fin e → Fin e → ℝ) (y : Fin e → ℝ) (relax : ℝ) (N : ℕ) (x : Fin e → ℝ) :
    damasSolve A (fun p => a * y p) N relax (fun p => a * x p) = fun p => a * damasSolve A y N relax x p := by
  induction N generalizing x with
  | zero => rfl
  | succ N ih => rw [damasSolve, damasSolve, damasSweep, damasSweep_mul ha, ih]; rfl

private theorem damasCalc_mul {a : ℝ} (ha : 0 < a) (A : Fin e → Fin e → ℝ) (y : Fin e → ℝ) (b : Bool) (N : ℕ) (damp : ℝ) :
    damasCalc A (fun p => a * y p) b N damp = fun p => a * damasCalc A y b N damp p := by
  unfold damasCalc
  simp only [clip_mul ha]
  exact damasSolve_mul ha A _ damp N _

/-! ### CLEAN -/

/-- state with all powers times `a` -/
private def cleanMul (a : ℝ) (s : CleanState ℝ g) : CleanState ℝ g := ⟨fun i => a * s.dirty i, fun i => a * s.clean i, s.iter⟩

private theorem cleanBody_mul {a : ℝ} (ha : 0 < a) (A : Fin (g + 1) → Fin (g + 1) → ℝ) (damp : ℝ) (s : CleanState ℝ g) :
    cleanBody A damp (cleanMul a s) = cleanMul a (cleanBody A damp s) := by
  unfold cleanBody cleanMul
  simp only [argmax_mul ha, CleanState.mk.injEq, and_true]
  refine ⟨funext fun i => by ring, funext fun i => ?_⟩
  by_cases hi : i = argmax s.dirty
  · subst hi; simp only [Function.update_self]; ring
  · simp only [Function.update_of_ne hi]

private theorem cleanFlag_mul {a : ℝ} (ha : 0 < a) (N : ℤ) (s t : CleanState ℝ g) :
    cleanFlag N (cleanMul a s) (cleanMul a t) = cleanFlag N s t := by
  unfold cleanFlag cleanMul
  simp only [argmax_mul ha, abs_mul, abs_of_pos ha, ← Finset.mul_sum, gt_iff_lt, mul_lt_mul_iff_right₀ ha, mul_pos_iff_of_pos_left ha]

private theorem cleanLoop_mul {a : ℝ} (ha : 0 < a) (A : Fin (g + 1) → Fin (g + 1) → ℝ) (damp : ℝ) (N : ℤ) (f : ℕ) (s : CleanState ℝ g) :
    cleanLoop A damp N f (cleanMul a s) = cleanMul a (cleanLoop A damp N f s) := by
  induction f generalizing s with
  | zero => rfl
  | succ f ih =>
    unfold cleanLoop
    dsimp only
    rw [cleanBody_mul ha, cleanFlag_mul ha]
    split_ifs
    · exact ih _
    · rfl

private theorem cleanCalc_mul {a : ℝ} (ha : 0 < a) (A : Fin (g + 1) → Fin (g + 1) → ℝ) (damp : ℝ) (N : ℤ) (b : Bool) (y : Fin (g + 1) → ℝ) :
    (cleanCalc A damp N b fun p => a * y p).clean = fun p => a * (cleanCalc A damp N b y).clean p := by
  unfold cleanCalc
  simp only [clip_mul ha]
  have := cleanLoop_mul ha A damp N (N.toNat + 1) ⟨fun i => if b then (if y i < 0 then 0 else y i) else y i, fun _ => 0, 0⟩
  unfold cleanMul at this
  simp only [mul_zero] at this
  rw [this]

/-! ### CLEAN-SC -/

private noncomputable def scMul (a : ℝ) (s : CleanscState n g) : CleanscState n g :=
  ⟨fun i => a * s.h i, (a : ℂ) • s.csm, fun i => a * s.result i, s.powers.map (a * ·)⟩

private theorem pick_mul {a : ℝ} (ha : 0 < a) (damp : ℝ) (s : CleanscState n g) : cleanscPick damp (scMul a s) = scMul a (cleanscPick damp s) := by
  unfold cleanscPick scMul
  simp only [argmax_mul ha, List.map_cons, CleanscState.mk.injEq, and_true, true_and]
  funext i
  by_cases hi : i = argmax s.h
  · subst hi; simp only [Function.update_self]; ring
  · simp only [Function.update_of_ne hi]

private theorem stop_mul {a : ℝ} (ha : 0 < a) (stopn : ℕ) (p : List ℝ) : cleanscStop stopn (p.map (a * ·)) = cleanscStop stopn p := by
  cases p with
  | nil => rfl
  | cons x xs =>
    unfold cleanscStop
    simp only [List.map_cons, List.length_cons, List.length_map]
    congr 1
    have : (a * x :: xs.map (a * ·)).getD stopn 0 = a * (x :: xs).getD stopn 0 := by
      rw [← List.map_cons (f := (a * ·)), List.getD_eq_getElem?_getD, List.getD_eq_getElem?_getD, List.getElem?_map]
      cases (x :: xs)[stopn]? <;> simp
    rw [this]
    simp only [gt_iff_lt, mul_lt_mul_iff_right₀ ha]

private theorem hh_mul {a : ℝ} (ha : 0 < a) (geo : SteerGeo n (g + 1)) (nf : ℝ) (C : Matrix (Fin n) (Fin n) ℂ) (q : Fin (g + 1)) (h : ℝ) :
    cleanscHh geo nf ((a : ℂ) • C) q (a * h) = cleanscHh geo nf C q h := by
  unfold cleanscHh
  dsimp only
  congr 1
  funext i
  have : ∀ l, ((a : ℂ) • C) l i - (if i = l then ((a : ℂ) • C) i i else 0) = (a : ℂ) * (C l i - if i = l then C i i else 0) := by
    intro l
    split_ifs <;> simp only [Matrix.smul_apply, smul_eq_mul] <;> ring
  simp only [this, mul_assoc, ← Finset.mul_sum]
  push_cast
  rw [mul_div_mul_left _ _ (Complex.ofReal_ne_zero.2 ha.ne')]

private theorem remove_mul {a : ℝ} (ha : 0 < a) (geo : SteerGeo n (g + 1)) (b : Bool) (nf damp : ℝ) (s : CleanscState n g) :
    cleanscRemove geo b nf damp (scMul a s) = scMul a (cleanscRemove geo b nf damp s) := by
  unfold cleanscRemove scMul
  simp only [argmax_mul ha, hh_mul ha, CleanscState.mk.injEq, and_true]
  constructor
  · funext p
    rw [eig_mul]
    ring
  · ext i j
    simp only [Matrix.sub_apply, Matrix.smul_apply, Matrix.transpose_apply, Matrix.of_apply, smul_eq_mul]
    push_cast
    ring

private theorem loop_mul {a : ℝ} (ha : 0 < a) (geo : SteerGeo n (g + 1)) (b : Bool) (nf damp : ℝ) (stopn : ℕ) (J : ℕ) (s : CleanscState n g) :
    cleanscLoop geo b nf damp stopn J (scMul a s) = scMul a (cleanscLoop geo b nf damp stopn J s) := by
  induction J generalizing s with
  | zero => rfl
  | succ J ih =>
    unfold cleanscLoop
    dsimp only
    rw [pick_mul ha, show (scMul a (cleanscPick damp s)).powers = (cleanscPick damp s).powers.map (a * ·) from rfl, stop_mul ha]
    split_ifs
    · rfl
    · rw [remove_mul ha, ih]

private theorem cleansc_mul {a : ℝ} (ha : 0 < a) (geo : SteerGeo n (g + 1)) (b : Bool) (nf damp : ℝ) (stopn N : ℕ) (C : Matrix (Fin n) (Fin n) ℂ) :
    (cleanscCalc geo b nf damp stopn N ((a : ℂ) • C)).result = fun p => a * (cleanscCalc geo b nf damp stopn N C).result p := by
  unfold cleanscCalc
  have := loop_mul ha geo b nf damp stopn (cleanscJ N n)
    ⟨fun p => fullCsmKernel geo.st b nf (geo.r0 p) (geo.rm p) geo.k C, C, fun _ => 0, []⟩
  unfold scMul at this
  simp only [mul_zero, List.map_nil] at this
  simp only [full_smul, this]

/-- **C158** (linear in the power) If all signal powers are multiplied by `a`, the maps of the conventional beamformer, DAMAS, CLEAN and CLEAN-SC are multiplied
by `a`, whatever the settings; those of Capon, if the matrix is regular. -/
theorem C158_linear (rt : BfRoutines n g) {a : ℝ} (ha : 0 < a) (s : BfSet n g) (F i : ℕ) :
    (∀ k ∈ [BfClass.base, .damas, .clean, .cleansc], TimesMap a (s.row rt F i k) ((louder a s).row rt F i k)) ∧
    (IsUnit (s.csm i).det → TimesMap a (s.row rt F i .capon) ((louder a s).row rt F i .capon)) := by
  have hp : (louder a s).psf i = s.psf i := rfl
  constructor
  · intro k hk
    fin_cases hk
    · exact ⟨_, rfl, by simp only [BfSet.row, dirty_louder ha]⟩
    · exact ⟨_, rfl, by simp only [BfSet.row, dirty_louder ha, hp]; rw [damasCalc_mul ha]; rfl⟩
    · exact ⟨_, rfl, by simp only [BfSet.row, dirty_louder ha, hp]; rw [cleanCalc_mul ha]; rfl⟩
    · exact ⟨_, rfl, by
        simp only [BfSet.row]
        rw [show (louder a s).csm i = (a : ℂ) • s.csm i from rfl, cleansc_mul ha]; rfl⟩
  · intro hu
    refine ⟨_, rfl, ?_⟩
    simp only [BfSet.row]
    congr 1
    funext p
    rw [show (louder a s).csm i = (a : ℂ) • s.csm i from rfl]
    unfold caponPoint
    have ha' : (a : ℂ) ≠ 0 := Complex.ofReal_ne_zero.2 ha.ne'
    have hi : ((a : ℂ) • s.csm i)⁻¹ = ((a⁻¹ : ℝ) : ℂ) • (s.csm i)⁻¹ := by
      have := Matrix.inv_smul' (s.csm i) (Units.mk0 _ ha') hu
      rw [Units.smul_def, Units.smul_def, Units.val_inv_eq_inv_val, Units.val_mk0] at this
      push_cast
      exact this
    rw [hi, full_smul]
    show 1 / (a⁻¹ * fullCsmKernel s.form _ _ _ _ _ _) = a * (1 / fullCsmKernel s.form _ _ _ _ _ _)
    rw [one_div, mul_inv, inv_inv, one_div]
    rfl

/-! ### Beamformers with eigenvalues -/

private theorem eigh_louder {rt : BfRoutines n g} (hrt : Diagonalises rt) {a : ℝ} (ha : 0 < a) {C : Matrix (Fin n) (Fin n) ℂ} (hC : C.IsHermitian) :
    IsEigh C ((rt.eigh C).1, Matrix.of (rt.eigh C).2) ∧
    IsEigh ((a : ℂ) • C) (fun l => a * (rt.eigh C).1 l, Matrix.of (rt.eigh C).2) ∧
    IsEigh ((a : ℂ) • C) ((rt.eigh ((a : ℂ) • C)).1, Matrix.of (rt.eigh ((a : ℂ) • C)).2) := by
  refine ⟨hrt C hC, eigh_smul (hrt C hC) ha.le, hrt _ ?_⟩
  rw [Matrix.IsHermitian, conjTranspose_smul, hC.eq, RCLike.star_def, Complex.conj_ofReal]

private theorem values_louder {rt : BfRoutines n g} (hrt : Diagonalises rt) {a : ℝ} (ha : 0 < a) {C : Matrix (Fin n) (Fin n) ℂ} (hC : C.IsHermitian) :
    (rt.eigh ((a : ℂ) • C)).1 = fun l => a * (rt.eigh C).1 l :=
  (eigh_values (eigh_louder hrt ha hC).2.1 (eigh_louder hrt ha hC).2.2).symm

/-- Specification: eigenvalue number `l` occurs once. -/
def Spec.SimpleValue (eva : Fin n → ℝ) (l : Fin n) : Prop := ∀ j, j ≠ l → eva j ≠ eva l

private theorem eig_louder {rt : BfRoutines n g} (hrt : Diagonalises rt) {a : ℝ} (ha : 0 < a) {C : Matrix (Fin n) (Fin n) ℂ} (hC : C.IsHermitian)
    {l : Fin n} (hl : SimpleValue (rt.eigh C).1 l) (st : Formulation) (b : Bool) (loss r0 : ℝ) (rm : Fin n → ℝ) (k x : ℝ) :
    eigKernel (e := 1) st b loss r0 rm k (fun _ => x) (fun m _ => (rt.eigh ((a : ℂ) • C)).2 m l) =
      eigKernel (e := 1) st b loss r0 rm k (fun _ => x) (fun m _ => (rt.eigh C).2 m l) := by
  rw [C24_eig_kernel, C24_eig_kernel]
  congr 1
  refine (eigh_simple (eigh_louder hrt ha hC).2.1 (eigh_louder hrt ha hC).2.2 (fun j hj => ?_) x).symm
  intro h
  exact hl j hj (mul_left_cancel₀ ha.ne' h)

private theorem kernelResult_nonneg (st : Formulation) {r0 : ℝ} (rm : Fin n → ℝ) {loss x : ℝ} (hl : 0 ≤ loss) (hx : 0 ≤ x) : 0 ≤ kernelResult st r0 rm loss x := by
  have : 0 ≤ helpNormalize .trueLocation rm := by
    unfold helpNormalize
    exact Finset.sum_nonneg fun m _ => by have := mul_self_nonneg (rm m); positivity
  cases st <;> simp only [kernelResult] <;> refine mul_nonneg (div_nonneg hx ?_) hl
  · positivity
  · exact mul_self_nonneg _
  · exact mul_self_nonneg _
  · positivity

private theorem kernelNorm_nonneg (st : Formulation) (r0 : ℝ) (rm : Fin n → ℝ) : 0 ≤ kernelNorm st r0 rm := by
  have h1 : 0 ≤ helpNormalize .inverse rm := Finset.sum_nonneg fun m _ => mul_self_nonneg _
  have h2 : 0 ≤ helpNormalize .trueLevel rm := by
    unfold helpNormalize
    exact Finset.sum_nonneg fun m _ => by have := mul_self_nonneg (rm m); positivity
  cases st <;> simp only [kernelNorm]
  · positivity
  · exact div_nonneg h1 (mul_self_nonneg _)
  · exact div_nonneg (div_nonneg zero_le_one (mul_self_nonneg _)) h2
  · positivity

private theorem eigKernel_nonneg (st : Formulation) {loss : ℝ} (hl : 0 ≤ loss) (r0 : ℝ) (rm : Fin n → ℝ) (k : ℝ) {eva : Fin e → ℝ} (he : ∀ l, 0 ≤ eva l)
    (eve : Fin n → Fin e → ℂ) : 0 ≤ eigKernel st false loss r0 rm k eva eve := by
  refine kernelResult_nonneg st rm hl ?_
  unfold scalarProdEig
  refine Finset.sum_nonneg fun l _ => mul_nonneg ?_ (he l)
  simp only [Bool.false_eq_true, if_false]
  rw [Complex.mul_conj, Complex.ofReal_re]
  exact Complex.normSq_nonneg _

private theorem values_nonneg {rt : BfRoutines n g} (hrt : Diagonalises rt) {C : Matrix (Fin n) (Fin n) ℂ} (hC : C.PosSemidef) (l : Fin n) : 0 ≤ (rt.eigh C).1 l := by
  obtain ⟨-, h2, h3⟩ := hrt C hC.1
  simp only at h2 h3
  have hd : (Matrix.of (rt.eigh C).2)ᴴ * C * Matrix.of (rt.eigh C).2 = diagonal (fun l => ((rt.eigh C).1 l : ℂ)) := by
    generalize Matrix.of (rt.eigh C).2 = V at h2 h3 ⊢
    generalize diagonal (fun l => ((rt.eigh C).1 l : ℂ)) = D at h3 ⊢
    subst h3
    simp only [← Matrix.mul_assoc]
    rw [h2, Matrix.one_mul, Matrix.mul_assoc, h2, Matrix.mul_one]
  have := (hC.conjTranspose_mul_mul_same (Matrix.of (rt.eigh C).2))
  rw [hd] at this
  have h := this.diag_nonneg (i := l)
  rw [diagonal_apply_eq] at h
  exact_mod_cast h

private theorem orth_mul (geo : SteerGeo n (g + 1)) (b : Bool) (nf a : ℝ) (eva : Fin n → ℝ) (eve eve' : Fin n → Fin n → ℂ) :
    ∀ (is : List ℤ) (ac : Fin (g + 1) → ℝ), (∀ i ∈ is, ∀ l, pyIndex n i = some l → ∀ p,
        eigKernel (e := 1) geo.st b nf (geo.r0 p) (geo.rm p) geo.k (fun _ => 1) (fun m _ => eve' m l) =
        eigKernel (e := 1) geo.st b nf (geo.r0 p) (geo.rm p) geo.k (fun _ => 1) (fun m _ => eve m l)) →
      orthCalc geo b nf (fun l => a * eva l) eve' is (fun p => a * ac p) = (orthCalc geo b nf eva eve is ac).map fun v p => a * v p
  | [], _, _ => rfl
  | i :: is, ac, h => by
    unfold orthCalc
    cases hi : pyIndex n i with
    | none => rfl
    | some l =>
      simp only [h i List.mem_cons_self l hi]
      rw [← orth_mul geo b nf a eva eve eve' is _ fun j hj => h j (List.mem_cons_of_mem _ hj)]
      congr 1
      funext p
      by_cases hp : p = argmax fun p => eigKernel (e := 1) geo.st b nf (geo.r0 p) (geo.rm p) geo.k (fun _ => 1) fun m _ => eve m l
      · rw [hp]; simp only [Function.update_self]; ring
      · simp only [Function.update_of_ne hp]

/-- **C158** (eigenvalues) With a routine that diagonalises Hermitian matrices: the map of functional beamforming (no negative eigenvalues, exponent not zero), of the
beamformer for one component and of orthogonal beamforming (the eigenvalues in question occur once) is multiplied by `a`; whether there is an `IndexError` does not change. -/
theorem C158_eigenvalues {rt : BfRoutines n g} (hrt : Diagonalises rt) {a : ℝ} (ha : 0 < a) (s : BfSet n g) (F i : ℕ) (hC : (s.csm i).IsHermitian) :
    ((s.csm i).PosSemidef → s.gamma ≠ 0 → TimesMap a (s.row rt F i .functional) ((louder a s).row rt F i .functional)) ∧
    (∀ l, pyIndex n (eigNa n s.comps) = some l → SimpleValue (rt.eigh (s.csm i)).1 l → TimesMap a (s.row rt F i .eig) ((louder a s).row rt F i .eig)) ∧
    ((∀ j ∈ s.evaList, ∃ l, pyIndex n j = some l ∧ SimpleValue (rt.eigh (s.csm i)).1 l) →
      TimesMap a (s.row rt F i .orth) ((louder a s).row rt F i .orth)) := by
  have hcsm : (louder a s).csm i = (a : ℂ) • s.csm i := rfl
  refine ⟨fun hpos hγ => ⟨_, rfl, ?_⟩, fun l hl hs => ?_, fun hs => ?_⟩
  · simp only [BfSet.row]
    congr 1
    funext p
    rw [hcsm]
    show functionalPoint s.form s.gamma _ _ _ _ _ = a * functionalPoint s.form s.gamma _ _ _ _ _
    unfold functionalPoint
    dsimp only
    have hev := values_nonneg hrt hpos
    have e1 : ∀ p, eigKernel s.form false 1 ((s.geo i).r0 p) ((s.geo i).rm p) (s.geo i).k (fun l => (rt.eigh ((a : ℂ) • s.csm i)).1 l ^ (1 / s.gamma))
        (rt.eigh ((a : ℂ) • s.csm i)).2 = a ^ (1 / s.gamma) * eigKernel s.form false 1 ((s.geo i).r0 p) ((s.geo i).rm p) (s.geo i).k
          (fun l => (rt.eigh (s.csm i)).1 l ^ (1 / s.gamma)) (rt.eigh (s.csm i)).2 := by
      intro p
      rw [← eig_mul, C24_eig_kernel, C24_eig_kernel]
      congr 1
      have := eigh_fun (eigh_louder hrt ha hC).2.1 (eigh_louder hrt ha hC).2.2 fun y => y ^ (1 / s.gamma)
      rw [← this]
      congr 1
      funext l
      exact Real.mul_rpow ha.le (hev l)
    rw [show (louder a s).geo i = s.geo i from rfl, e1]
    have h0 : 0 ≤ eigKernel s.form false 1 ((s.geo i).r0 p) ((s.geo i).rm p) (s.geo i).k (fun l => (rt.eigh (s.csm i)).1 l ^ (1 / s.gamma))
        (rt.eigh (s.csm i)).2 / kernelNorm s.form ((s.geo i).r0 p) ((s.geo i).rm p) :=
      div_nonneg (eigKernel_nonneg _ zero_le_one _ _ _ (fun l => Real.rpow_nonneg (hev l) _) _) (kernelNorm_nonneg _ _ _)
    rw [mul_div_assoc, Real.mul_rpow (Real.rpow_nonneg ha.le _) h0, ← Real.rpow_mul ha.le, one_div, inv_mul_cancel₀ hγ, Real.rpow_one]
    ring
  · refine ⟨_, by simp only [BfSet.row, hl]; rfl, ?_⟩
    simp only [BfSet.row]
    rw [show (louder a s).comps = s.comps from rfl, hl]
    dsimp only
    congr 1
    funext p
    rw [hcsm, values_louder hrt ha hC]
    rw [eig_louder hrt ha hC hs, show (louder a s).geo i = s.geo i from rfl, show (louder a s).rDiag = s.rDiag from rfl,
      show (louder a s).rDiagNorm = s.rDiagNorm from rfl, show (louder a s).form = s.form from rfl]
    rw [eig_mul, clip_mul ha]
  · have hsome : ∀ (is : List ℤ) (ac : Fin (g + 1) → ℝ), (∀ j ∈ is, ∃ l, pyIndex n j = some l) → ∃ v, orthCalc (s.geo i) s.rDiag
        (sigLossNorm s.rDiag s.rDiagNorm n) (rt.eigh (s.csm i)).1 (rt.eigh (s.csm i)).2 is ac = some v := by
      intro is
      induction is with
      | nil => exact fun ac _ => ⟨ac, rfl⟩
      | cons j js ih =>
        intro ac h
        obtain ⟨l, hl⟩ := h j List.mem_cons_self
        unfold orthCalc
        rw [hl]
        exact ih _ fun k hk => h k (List.mem_cons_of_mem _ hk)
    obtain ⟨v, hv⟩ := hsome s.evaList (fun _ => 0) fun j hj => (hs j hj).imp fun l h => h.1
    refine ⟨v, by simp only [BfSet.row, hv], ?_⟩
    have := orth_mul (s.geo i) s.rDiag (sigLossNorm s.rDiag s.rDiagNorm n) a (rt.eigh (s.csm i)).1 (rt.eigh (s.csm i)).2 (rt.eigh ((a : ℂ) • s.csm i)).2
      s.evaList (fun _ => 0) fun j hj l hl p => by
        obtain ⟨l', h1, h2⟩ := hs j hj
        rw [hl, Option.some_inj] at h1
        subst h1
        exact eig_louder hrt ha hC h2 _ _ _ _ _ _ _
    rw [hv] at this
    simp only [mul_zero, Option.map_some] at this
    simp only [BfSet.row]
    rw [hcsm, values_louder hrt ha hC]
    show (match orthCalc (s.geo i) s.rDiag (sigLossNorm s.rDiag s.rDiagNorm n) (fun l => a * (rt.eigh (s.csm i)).1 l) (rt.eigh ((a : ℂ) • s.csm i)).2 s.evaList
      (fun _ => 0) with
      | none => BfRow.indexError
      | some v => .map v) = _
    rw [this]

private theorem musicMap_mul {a : ℝ} (ha : 0 < a) (x : Fin (g + 1) → ℝ) : musicMap (fun p => a * x p) = musicMap x := by
  funext p
  unfold musicMap
  have hm : argmax (fun i => -(a * x i)) = argmax fun i => -x i := by
    rw [← argmax_mul ha fun i => -x i]
    congr 1
    funext i
    ring
  rw [hm]
  simp only [neg_neg]
  rw [← mul_assoc, mul_comm _ a, mul_assoc, mul_div_mul_left _ _ ha.ne']

/-- **C158** (MUSIC) The map of MUSIC does not depend on the power, if the eigenvalues that are used are smaller than the others. -/
theorem C158_music {rt : BfRoutines n g} (hrt : Diagonalises rt) {a : ℝ} (ha : 0 < a) (s : BfSet n g) (F i : ℕ) (hC : (s.csm i).IsHermitian)
    (hgap : ∀ j l : Fin n, (j : ℤ) < n - eigNa n s.comps → (n : ℤ) - eigNa n s.comps ≤ l → (rt.eigh (s.csm i)).1 j < (rt.eigh (s.csm i)).1 l) :
    (louder a s).row rt F i .music = s.row rt F i .music := by
  simp only [BfSet.row]
  rw [show (louder a s).csm i = (a : ℂ) • s.csm i from rfl, show (louder a s).geo i = s.geo i from rfl, show (louder a s).comps = s.comps from rfl,
    show (louder a s).form = s.form from rfl]
  congr 1
  have hk : ∀ p, eigKernel s.form false ((n : ℝ) ^ 2) ((s.geo i).r0 p) ((s.geo i).rm p) (s.geo i).k
        (fun l => if (l : ℤ) < n - eigNa n s.comps then (rt.eigh ((a : ℂ) • s.csm i)).1 l else 0) (rt.eigh ((a : ℂ) • s.csm i)).2 =
      a * eigKernel s.form false ((n : ℝ) ^ 2) ((s.geo i).r0 p) ((s.geo i).rm p) (s.geo i).k
        (fun l => if (l : ℤ) < n - eigNa n s.comps then (rt.eigh (s.csm i)).1 l else 0) (rt.eigh (s.csm i)).2 := by
    intro p
    rw [← eig_mul, C24_eig_kernel, C24_eig_kernel]
    congr 1
    have := eigh_below (eigh_louder hrt ha hC).2.1 (eigh_louder hrt ha hC).2.2 (fun l => (l : ℤ) < n - eigNa n s.comps)
      fun j l hj hl => mul_lt_mul_of_pos_left (hgap j l hj (not_lt.1 hl)) ha
    rw [← this]
    congr 1
    funext l
    split_ifs <;> simp
  funext p
  simp only [hk]
  exact congrFun (musicMap_mul ha _) p

/-! ### From the signals to the levels -/

/-- **C158** (signals) Signals `α` times as large give `α ^ 2` times the cross spectral matrix. -/
theorem C158_csm (scale α : ℝ) (spectra : List (Fin n → ℂ)) :
    calcCsmLine scale (spectra.map fun x m => (α : ℂ) * x m) = ((α ^ 2 : ℝ) : ℂ) • calcCsmLine scale spectra := by
  rw [C15_csm_eq, C15_csm_eq, averagedCsm, averagedCsm, smul_comm, List.map_map]
  congr 1
  induction spectra with
  | nil => simp
  | cons x xs ih =>
    rw [List.map_cons, List.map_cons, List.sum_cons, List.sum_cons, smul_add, ih]
    congr 1
    ext i j
    simp only [Function.comp, outer, Matrix.smul_apply, smul_eq_mul, map_mul, Complex.conj_ofReal]
    push_cast
    ring

/-- **C158** (levels) A map with `a` times the power has levels `10 log10 a` dB higher, for all points whose level is above the lower limit of `L_p`
before and after. -/
theorem C158_level {a x : ℝ} (ha : 0 < a) (h1 : 1e-35 ≤ x / 4e-10) (h2 : 1e-35 ≤ a * x / 4e-10) :
    levelDb (a * x) = levelDb x + 10 * Real.logb 10 a := by
  unfold levelDb
  rw [max_eq_left h1, max_eq_left h2, mul_div_assoc, Real.logb_mul ha.ne' (by
    intro h; rw [h] at h1; norm_num at h1)]
  ring

/-! ### Solvers -/

private theorem fitObjective_mul {ι : Type} [Fintype ι] (a pen : ℝ) {N : ℕ} (A : ι → Fin N → ℝ) (y : ι → ℝ) (x : Fin N → ℝ) (b : ℝ) :
    fitObjective (a * pen) A (fun i => a * y i) (fun p => a * x p) (a * b) = a ^ 2 * fitObjective pen A y x b := by
  unfold fitObjective
  have : ∀ i, ∑ p, A i p * (a * x p) + a * b - a * y i = a * (∑ p, A i p * x p + b - y i) := by
    intro i
    rw [show ∑ p, A i p * (a * x p) = a * ∑ p, A i p * x p by rw [Finset.mul_sum]; exact Finset.sum_congr rfl fun p _ => by ring]
    ring
  simp only [this, mul_pow, ← Finset.mul_sum]
  ring

private theorem isFit_mul {ι : Type} [Fintype ι] {a : ℝ} (ha : 0 < a) {o : Bool} {pen : ℝ} {N : ℕ} {A : ι → Fin N → ℝ} {y : ι → ℝ} {x : Fin N → ℝ}
    (h : IsFit o pen A y x) : IsFit o (a * pen) A (fun i => a * y i) (fun p => a * x p) := by
  obtain ⟨h1, b, h2, h3⟩ := h
  refine ⟨fun p => mul_nonneg ha.le (h1 p), a * b, fun ho => by rw [h2 ho, mul_zero], fun x' b' hx hb => ?_⟩
  have e := fitObjective_mul a pen A y (fun p => a⁻¹ * x' p) (a⁻¹ * b')
  simp only [mul_inv_cancel_left₀ ha.ne'] at e
  rw [fitObjective_mul, e]
  exact mul_le_mul_of_nonneg_left (h3 _ _ (fun p => mul_nonneg (inv_nonneg.2 ha.le) (hx p)) fun ho => by rw [hb ho, mul_zero]) (sq_nonneg a)

/-- **C158** (inverse methods) DAMAS+ and CMF hand `a` times the data to the solver. -/
theorem C158_inverse (rt : BfRoutines n g) {a : ℝ} (ha : 0 < a) (s : BfSet n g) (F i : ℕ) :
    ((∀ y, rt.psfSolve s.method s.alpha s.nIter s.unitMult (s.psf i) (fun p => a * y p) = fun p => a * rt.psfSolve s.method s.alpha s.nIter s.unitMult (s.psf i) y p) →
      TimesMap a (s.row rt F i .damasPlus) ((louder a s).row rt F i .damasPlus)) ∧
    ((∀ A y, rt.cmfSolve s.rDiag s.method s.alpha s.nIter s.unitMult A (fun r => a * y r) = fun p => a * rt.cmfSolve s.rDiag s.method s.alpha s.nIter s.unitMult A y p) →
      TimesMap a (s.row rt F i .cmf) ((louder a s).row rt F i .cmf)) := by
  refine ⟨fun h => ⟨_, rfl, ?_⟩, fun h => ⟨_, rfl, ?_⟩⟩
  · simp only [BfSet.row]
    rw [dirty_louder ha]
    congr 1
    exact h _
  · simp only [BfSet.row]
    congr 1
    have : cmfR s.rDiag ((louder a s).csm i) s.unitMult = fun r => a * cmfR s.rDiag (s.csm i) s.unitMult r := by
      funext r
      unfold cmfR
      rw [show (louder a s).csm i = (a : ℂ) • s.csm i from rfl]
      split_ifs <;> simp only [Matrix.smul_apply, smul_eq_mul, Complex.im_ofReal_mul, Complex.re_ofReal_mul] <;> ring
    rw [← h]
    exact congrArg _ this

/-- **C158** (solvers) If `x` is a result of the solver for the data `y`, then `a x` is one for the data `a y`: for non negative least squares and linear programming, and for
the methods with a penalty (`alpha`) if the penalty is multiplied by `a`, too. -/
theorem C158_solvers {ι : Type} [Fintype ι] {a : ℝ} (ha : 0 < a) {N : ℕ} (unit : ℝ) (A : ι → Fin N → ℝ) (y : ι → ℝ) (x : Fin N → ℝ) :
    (NnlsResult unit A y x → NnlsResult unit A (fun i => a * y i) fun p => a * x p) ∧
    (∀ psf z, LpResult unit psf z x → LpResult unit psf (fun p => a * z p) fun p => a * x p) ∧
    (∀ alpha norms, SklearnResult alpha unit norms A y x → SklearnResult (a * alpha) unit norms A (fun i => a * y i) fun p => a * x p) ∧
    (∀ alpha, FistaResult alpha unit A y x → FistaResult (a * alpha) unit A (fun i => a * y i) fun p => a * x p) ∧
    (∀ alpha, BregmanResult alpha unit A y x → BregmanResult (a * alpha) unit A (fun i => a * y i) fun p => a * x p) := by
  have hres : ∀ c : Fin N → ℝ, ∑ i, (a * y i * unit - ∑ p, A i p * c p) ^ 2 = a ^ 2 * ∑ i, (y i * unit - ∑ p, A i p * (a⁻¹ * c p)) ^ 2 := by
    intro c
    rw [Finset.mul_sum]
    refine Finset.sum_congr rfl fun i _ => ?_
    rw [show ∑ p, A i p * (a⁻¹ * c p) = a⁻¹ * ∑ p, A i p * c p by rw [Finset.mul_sum]; exact Finset.sum_congr rfl fun p _ => by ring]
    field_simp
  have habs : ∀ c : Fin N → ℝ, ∑ p, |c p| = a * ∑ p, |a⁻¹ * c p| := by
    intro c
    rw [Finset.mul_sum]
    refine Finset.sum_congr rfl fun p _ => ?_
    rw [abs_mul, abs_of_pos (inv_pos.2 ha), mul_inv_cancel_left₀ ha.ne']
  have habs' : ∀ (alpha : ℝ) (c : Fin N → ℝ), ∑ p, |a * alpha * c p| = a ^ 2 * ∑ p, |alpha * (a⁻¹ * c p)| := by
    intro alpha c
    rw [Finset.mul_sum]
    refine Finset.sum_congr rfl fun p _ => ?_
    rw [abs_mul, abs_mul, abs_mul, abs_mul, abs_of_pos (inv_pos.2 ha), abs_of_pos ha]
    field_simp
  refine ⟨?_, ?_, ?_, ?_, ?_⟩
  · rintro ⟨c, h, rfl⟩
    refine ⟨fun p => a * c p, ?_, by funext p; ring⟩
    have := isFit_mul ha h
    simpa only [mul_zero, mul_assoc] using this
  · rintro psf z ⟨c, ⟨h1, h2⟩, h3, rfl⟩
    have hrow : ∀ (c : Fin N → ℝ) i, ∑ p, psf i p * (a * c p) = a * ∑ p, psf i p * c p := fun c i => by
      rw [Finset.mul_sum]; exact Finset.sum_congr rfl fun p _ => by ring
    refine ⟨fun p => a * c p, ⟨fun p => mul_nonneg ha.le (h1 p), fun i => ?_⟩, fun z' hz1 hz2 => ?_, by funext p; ring⟩
    · rw [hrow, mul_assoc]
      exact mul_le_mul_of_nonneg_left (h2 i) ha.le
    · have := h3 (fun p => a⁻¹ * z' p) (fun p => mul_nonneg (inv_nonneg.2 ha.le) (hz1 p)) fun i => by
        have := hz2 i
        rw [show ∑ p, psf i p * z' p = ∑ p, psf i p * (a * (a⁻¹ * z' p)) by simp only [mul_inv_cancel_left₀ ha.ne'], hrow, mul_assoc] at this
        exact le_of_mul_le_mul_left this ha
      have := mul_le_mul_of_nonneg_left this ha.le
      rw [Finset.mul_sum, Finset.mul_sum] at this
      refine le_trans (le_of_eq ?_) (this.trans (le_of_eq ?_))
      · exact Finset.sum_congr rfl fun p _ => by ring
      · exact Finset.sum_congr rfl fun p _ => by field_simp
  · rintro alpha norms ⟨c, h, rfl⟩
    refine ⟨fun p => a * c p, ?_, by funext p; ring⟩
    have := isFit_mul ha h
    simpa only [mul_assoc] using this
  · rintro alpha ⟨c, h, rfl⟩
    refine ⟨fun p => a * c p, fun c' => ?_, by funext p; ring⟩
    rw [hres, hres, habs, habs c']
    simp only [inv_mul_cancel_left₀ ha.ne']
    have := mul_le_mul_of_nonneg_left (h fun p => a⁻¹ * c' p) (sq_nonneg a)
    nlinarith [this]
  · rintro alpha ⟨c, h, rfl⟩
    refine ⟨fun p => a * c p, fun c' => ?_, by funext p; ring⟩
    rw [hres, hres, habs', habs']
    simp only [inv_mul_cancel_left₀ ha.ne']
    have := mul_le_mul_of_nonneg_left (h fun p => a⁻¹ * c' p) (sq_nonneg a)
    nlinarith [this]

/-- **C158** (penalty) With the same penalty for louder signals this is not so: one grid point, one entry; twice the data give three times the result. -/
theorem C158_penalty : FistaResult (ι := Fin 1) (N := 1) 1 1 (fun _ _ => 1) (fun _ => 1) (fun _ => 1 / 2) ∧
    (∀ x, FistaResult (ι := Fin 1) (N := 1) 1 1 (fun _ _ => 1) (fun _ => 2) x → x = fun _ => 3 / 2) := by
  constructor
  · refine ⟨fun _ => 1 / 2, fun c => ?_, by funext p; norm_num⟩
    simp only [Finset.univ_unique, Finset.sum_singleton, Fin.default_eq_zero, one_mul, mul_one]
    rw [abs_of_pos (by norm_num : (0 : ℝ) < 1 / 2)]
    nlinarith [le_abs_self (c 0), sq_nonneg (c 0 - 1 / 2)]
  · rintro x ⟨c, h, rfl⟩
    have := h fun _ => 3 / 2
    simp only [Finset.univ_unique, Finset.sum_singleton, Fin.default_eq_zero, one_mul, mul_one] at this
    rw [abs_of_pos (by norm_num : (0 : ℝ) < 3 / 2)] at this
    have hc : c 0 = 3 / 2 := by nlinarith [le_abs_self (c 0), sq_nonneg (c 0 - 3 / 2)]
    funext p
    rw [Fin.fin_one_eq_zero p, hc]
    norm_num

/-! ### The hypotheses are met -/

/-- There is such a routine. -/
theorem exists_diagonalises (n g : ℕ) : ∃ rt : BfRoutines n g, Diagonalises rt := by
  classical
  choose f hf using fun A : Matrix (Fin n) (Fin n) ℂ => fun h : A.IsHermitian => exists_isEigh A h
  refine ⟨⟨fun A => if h : A.IsHermitian then ((f A h).1, (f A h).2) else (0, 0), fun _ _ _ _ _ _ => 0, fun _ _ _ _ _ _ _ => 0,
    fun _ _ _ _ _ _ _ _ _ _ => ⟨fun _ => 0, []⟩, fun _ _ _ => 0⟩, fun A h => ?_⟩
  simp only [dif_pos h]
  exact hf A h

private theorem oneEx_outer (f : Formulation) (x σ : ℝ) : (oneEx f x σ).csm 0 = (x : ℂ) • outer (fun m => pressure 1000 343 1 ![0, 0, 4] ((![![3, 0, 0], ![-3, 0, 0]] : Fin 2 → Fin 3 → ℝ) m)) + (σ : ℂ) • 1 := rfl

theorem oneEx_psd (f : Formulation) {x σ : ℝ} (hx : 0 ≤ x) (hσ : 0 ≤ σ) : ((oneEx f x σ).csm 0).PosSemidef := by
  rw [oneEx_outer]
  refine PosSemidef.add (PosSemidef.smul ?_ (by exact_mod_cast hx)) (PosSemidef.smul PosSemidef.one (by exact_mod_cast hσ))
  exact posSemidef_vecMulVec_self_star _

theorem oneEx_values {rt : BfRoutines 2 1} (hrt : Diagonalises rt) (f : Formulation) : (rt.eigh ((oneEx f 3 0).csm 0)).1 = ![0, 3 * (2 / 25)] :=
  eigh_values (hrt _ (oneEx_psd f (by norm_num) le_rfl).1) (eighOne_isEigh f 3 (by norm_num))

theorem oneEx_simple {rt : BfRoutines 2 1} (hrt : Diagonalises rt) (f : Formulation) (l : Fin 2) : SimpleValue (rt.eigh ((oneEx f 3 0).csm 0)).1 l := by
  rw [oneEx_values hrt]
  intro j hj
  match j, l with
  | 0, 0 => exact absurd rfl hj
  | 0, 1 => norm_num
  | 1, 0 => norm_num
  | 1, 1 => exact absurd rfl hj

example (rt : BfRoutines 2 1) := (C158_linear rt (a := 4) (by norm_num) (oneEx .trueLevel 3 1) 1 0).1 .cleansc (by simp)

example (rt : BfRoutines 2 1) : TimesMap 4 ((oneEx .trueLevel 3 1).row rt 1 0 .capon) ((louder 4 (oneEx .trueLevel 3 1)).row rt 1 0 .capon) := by
  refine (C158_linear rt (by norm_num) _ 1 0).2 ?_
  have : ((oneEx .trueLevel 3 1).csm 0).PosDef := by
    rw [oneEx_outer]
    refine PosDef.posSemidef_add (PosSemidef.smul (posSemidef_vecMulVec_self_star _) (by norm_num)) ?_
    simpa using PosDef.one
  exact this.isUnit.map Matrix.detMonoidHom

example {rt : BfRoutines 2 1} (hrt : Diagonalises rt) :
    TimesMap 4 ((oneEx .trueLevel 3 0).row rt 1 0 .functional) ((louder 4 (oneEx .trueLevel 3 0)).row rt 1 0 .functional) ∧
    TimesMap 4 ((oneEx .trueLevel 3 0).row rt 1 0 .eig) ((louder 4 (oneEx .trueLevel 3 0)).row rt 1 0 .eig) ∧
    TimesMap 4 ((oneEx .trueLevel 3 0).row rt 1 0 .orth) ((louder 4 (oneEx .trueLevel 3 0)).row rt 1 0 .orth) := by
  have h := C158_eigenvalues hrt (a := 4) (by norm_num) (oneEx .trueLevel 3 0) 1 0 (oneEx_psd _ (by norm_num) le_rfl).1
  refine ⟨h.1 (oneEx_psd _ (by norm_num) le_rfl) (by norm_num [oneEx]), h.2.1 1 (by decide) (oneEx_simple hrt _ _), h.2.2 fun j hj => ⟨1, ?_, oneEx_simple hrt _ _⟩⟩
  rw [show j = -1 by simpa [oneEx] using hj]
  decide

example {rt : BfRoutines 2 1} (hrt : Diagonalises rt) :
    (louder 4 (oneEx .trueLevel 3 0)).row rt 1 0 .music = (oneEx .trueLevel 3 0).row rt 1 0 .music := by
  refine C158_music hrt (by norm_num) _ 1 0 (oneEx_psd _ (by norm_num) le_rfl).1 fun j l hj hl => ?_
  rw [show (((2 : ℕ) : ℤ) - eigNa (2 : ℕ) (oneEx .trueLevel 3 0).comps) = 1 by decide] at hj hl
  rw [oneEx_values hrt]
  match j, l with
  | 0, 1 => norm_num
  | 0, 0 => simp at hl
  | 1, _ => simp at hj

/-- Ten times the power: 10 dB. -/
example : levelDb (10 * 1) = levelDb 1 + 10 := by
  rw [C158_level (by norm_num) (by norm_num) (by norm_num), Real.logb_self_eq_one (by norm_num), mul_one]

/-- A solver that is linear. -/
example (s : BfSet 2 1) : TimesMap 4 (s.row ⟨fun _ => (0, 0), fun _ _ _ _ _ y => y, fun _ _ _ _ _ _ _ _ => 0, fun _ _ _ _ _ _ _ _ _ _ => ⟨fun _ => 0, []⟩, fun _ _ _ => 0⟩ 1 0 .damasPlus)
    ((louder 4 s).row ⟨fun _ => (0, 0), fun _ _ _ _ _ y => y, fun _ _ _ _ _ _ _ _ => 0, fun _ _ _ _ _ _ _ _ _ _ => ⟨fun _ => 0, []⟩, fun _ _ _ => 0⟩ 1 0 .damasPlus) :=
  (C158_inverse _ (by norm_num) s 1 0).1 fun _ => rfl

example : FistaResult (ι := Fin 1) (N := 1) (2 * 1) 1 (fun _ _ => 1) (fun _ => 2 * 1) (fun _ => 2 * (1 / 2)) :=
  (C158_solvers (by norm_num) 1 _ _ _).2.2.2.1 1 C158_penalty.1

end Acoular
