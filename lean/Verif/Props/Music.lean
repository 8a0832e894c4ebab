import Verif.Props.SingleSource
import Mathlib.LinearAlgebra.Dimension.Constructions
import Mathlib.LinearAlgebra.FiniteDimensional.Lemmas

/-!
# Property theorems: MUSIC finds the sources (C156)
-/

namespace Acoular

open Matrix Complex Spec
open scoped ComplexConjugate

variable {n g k : ℕ}

/-- Specification: cross spectral matrix of uncorrelated sources with fields `b` and powers `x`, and of noise of power `σ` in every channel. -/
noncomputable def Spec.noisySources (b : Fin k → Fin n → ℂ) (x : Fin k → ℝ) (σ : ℝ) : Matrix (Fin n) (Fin n) ℂ :=
  ∑ j, (x j : ℂ) • outer (b j) + (σ : ℂ) • 1

/-- Specification: `D` is the square of the distance of `h` from the combinations of the fields `b`. -/
def Spec.IsDistance (b : Fin k → Fin n → ℂ) (h : Fin n → ℂ) (D : ℝ) : Prop :=
  IsLeast {e | ∃ c : Fin k → ℂ, e = energy fun m => h m - ∑ j, c j * b j m} D

/-- `vᴴ h`. -/
private noncomputable def ip (v h : Fin n → ℂ) : ℂ := ∑ m, conj (v m) * h m

private theorem ip_conj (v h : Fin n → ℂ) : conj (ip v h) = ip h v := by
  unfold ip
  rw [map_sum]
  exact Finset.sum_congr rfl fun m _ => by rw [map_mul, Complex.conj_conj, mul_comm]

private theorem ip_sub (v h h' : Fin n → ℂ) : ip v (fun m => h m - h' m) = ip v h - ip v h' := by
  simp [ip, mul_sub, Finset.sum_sub_distrib]

private theorem ip_sum {ι : Type} (s : Finset ι) (v : Fin n → ℂ) (c : ι → ℂ) (b : ι → Fin n → ℂ) :
    ip v (fun m => ∑ j ∈ s, c j * b j m) = ∑ j ∈ s, c j * ip v (b j) := by
  simp only [ip, Finset.mul_sum]
  rw [Finset.sum_comm]
  exact Finset.sum_congr rfl fun j _ => Finset.sum_congr rfl fun m _ => by ring

private theorem ip_add (v h h' : Fin n → ℂ) : ip v (fun m => h m + h' m) = ip v h + ip v h' := by
  simp [ip, mul_add, Finset.sum_add_distrib]

private theorem ip_smul (v h : Fin n → ℂ) (c : ℂ) : ip v (fun m => c * h m) = c * ip v h := by
  rw [ip, ip, Finset.mul_sum]
  exact Finset.sum_congr rfl fun m _ => by ring

section Eig

variable {eva : Fin n → ℝ} {eve : Fin n → Fin n → ℂ}

/-- column -/
private def col (eve : Fin n → Fin n → ℂ) (l : Fin n) : Fin n → ℂ := fun m => eve m l

private theorem orthonormal {A : Matrix (Fin n) (Fin n) ℂ} (h : IsEigh A (eva, Matrix.of eve)) (l l' : Fin n) :
    ip (col eve l) (col eve l') = if l = l' then 1 else 0 := by
  have := congrFun (congrFun h.2.1 l) l'
  rw [Matrix.mul_apply, Matrix.one_apply] at this
  exact this

private theorem expand {A : Matrix (Fin n) (Fin n) ℂ} (h : IsEigh A (eva, Matrix.of eve)) (y : Fin n → ℂ) :
    y = fun m => ∑ l, ip (col eve l) y * col eve l m := by
  have hu : Matrix.of eve * (Matrix.of eve)ᴴ = 1 := mul_eq_one_comm.1 h.2.1
  funext m
  have := congrFun (congrArg (fun M => M *ᵥ y) hu) m
  simp only [one_mulVec] at this
  rw [← this, ← mulVec_mulVec]
  simp only [mulVec, dotProduct]
  refine Finset.sum_congr rfl fun l _ => ?_
  rw [mul_comm]
  rfl

private theorem parseval {A : Matrix (Fin n) (Fin n) ℂ} (h : IsEigh A (eva, Matrix.of eve)) (y : Fin n → ℂ) :
    energy y = ∑ l, ‖ip (col eve l) y‖ ^ 2 := by
  have e : (energy y : ℂ) = ip y y := energy_cast y
  have : ip y y = ∑ l, ip (col eve l) y * ip y (col eve l) := by
    conv_lhs => rw [show ip y y = ip y (fun m => ∑ l, ip (col eve l) y * col eve l m) by rw [← expand h y]]
    exact ip_sum _ _ _ _
  rw [this] at e
  have e2 : (energy y : ℂ) = ((∑ l, ‖ip (col eve l) y‖ ^ 2 : ℝ) : ℂ) := by
    rw [e]
    push_cast
    refine Finset.sum_congr rfl fun l _ => ?_
    rw [← ip_conj (col eve l) y, Complex.mul_conj, Complex.normSq_eq_norm_sq]
    push_cast
    rfl
  exact_mod_cast e2

private theorem apply_col {b : Fin k → Fin n → ℂ} {x : Fin k → ℝ} {σ : ℝ} (h : IsEigh (noisySources b x σ) (eva, Matrix.of eve)) (l : Fin n) (m : Fin n) :
    ∑ j, (x j : ℂ) * ip (b j) (col eve l) * b j m + σ * col eve l m = eva l * col eve l m := by
  obtain ⟨-, hu, e⟩ := h
  have hcv : noisySources b x σ * Matrix.of eve = Matrix.of eve * diagonal (fun l => (eva l : ℂ)) := by
    rw [e, Matrix.mul_assoc, hu, Matrix.mul_one]
  have := congrFun (congrFun hcv m) l
  rw [Matrix.mul_diagonal] at this
  rw [mul_comm (eva l : ℂ)]
  refine Eq.trans ?_ this
  rw [noisySources, Matrix.add_mul, Matrix.add_apply, Matrix.sum_mul, Matrix.sum_apply, Matrix.smul_mul, Matrix.one_mul, Matrix.smul_apply]
  congr 1
  refine Finset.sum_congr rfl fun j _ => ?_
  rw [Matrix.smul_mul, Matrix.smul_apply, Matrix.mul_apply, smul_eq_mul, mul_assoc]
  congr 1
  rw [ip, Finset.sum_mul]
  refine Finset.sum_congr rfl fun i _ => ?_
  simp only [outer, col, Matrix.of_apply]
  ring

private theorem eva_eq {b : Fin k → Fin n → ℂ} {x : Fin k → ℝ} {σ : ℝ} (h : IsEigh (noisySources b x σ) (eva, Matrix.of eve)) (l : Fin n) :
    eva l = σ + ∑ j, x j * ‖ip (b j) (col eve l)‖ ^ 2 := by
  have h1 : ip (col eve l) (fun m => ∑ j, (x j : ℂ) * ip (b j) (col eve l) * b j m + σ * col eve l m) =
      ip (col eve l) fun m => eva l * col eve l m := by
    congr 1; funext m; exact apply_col h l m
  have h0 := orthonormal h l l
  rw [if_pos rfl] at h0
  rw [ip_add, ip_smul, ip_smul, h0, ip_sum, mul_one, mul_one] at h1
  have e : ((σ + ∑ j, x j * ‖ip (b j) (col eve l)‖ ^ 2 : ℝ) : ℂ) = (eva l : ℂ) := by
    rw [← h1]
    push_cast
    rw [add_comm]
    congr 1
    refine Finset.sum_congr rfl fun j _ => ?_
    rw [mul_assoc, ← ip_conj (b j) (col eve l), Complex.mul_conj, Complex.normSq_eq_norm_sq]
    push_cast
    rfl
  exact (Complex.ofReal_injective e).symm

/-- An eigenvector with more than the noise power is a combination of the fields. -/
private theorem mem_span {b : Fin k → Fin n → ℂ} {x : Fin k → ℝ} {σ : ℝ} (h : IsEigh (noisySources b x σ) (eva, Matrix.of eve)) {l : Fin n}
    (hl : eva l ≠ σ) : col eve l ∈ Submodule.span ℂ (Set.range b) := by
  have hne : (eva l : ℂ) - σ ≠ 0 := by
    rw [← Complex.ofReal_sub]
    exact_mod_cast sub_ne_zero.2 hl
  have : col eve l = ∑ j, (((eva l : ℂ) - σ)⁻¹ * (x j * ip (b j) (col eve l))) • b j := by
    funext m
    have := apply_col h l m
    rw [Finset.sum_apply]
    simp only [Pi.smul_apply, smul_eq_mul, mul_assoc, ← Finset.mul_sum]
    rw [eq_inv_mul_iff_mul_eq₀ hne, sub_mul, ← this]
    simp only [mul_assoc]
    ring
  rw [this]
  exact Submodule.sum_mem _ fun j _ => Submodule.smul_mem _ _ (Submodule.subset_span ⟨j, rfl⟩)

private theorem independent {A : Matrix (Fin n) (Fin n) ℂ} (h : IsEigh A (eva, Matrix.of eve)) : LinearIndependent ℂ (col eve) := by
  rw [Fintype.linearIndependent_iff]
  intro c hc l
  have : ip (col eve l) (fun m => ∑ l', c l' * col eve l' m) = 0 := by
    have e : (fun m => ∑ l', c l' * col eve l' m) = 0 := by
      rw [← hc]; funext m; simp
    rw [e]; simp [ip]
  rw [ip_sum] at this
  simpa [orthonormal h] using this

/-- The smallest `n - k` eigenvalues are the noise power, their eigenvectors are orthogonal to all fields. -/
private theorem noise_space {b : Fin k → Fin n → ℂ} {x : Fin k → ℝ} (hx : ∀ j, 0 < x j) {σ : ℝ}
    (h : IsEigh (noisySources b x σ) (eva, Matrix.of eve)) {l : Fin n} (hl : (l : ℕ) + k < n) :
    eva l = σ ∧ ∀ j, ip (col eve l) (b j) = 0 := by
  have hle : ∀ l, σ ≤ eva l := fun l => by
    rw [eva_eq h l]
    have : 0 ≤ ∑ j, x j * ‖ip (b j) (col eve l)‖ ^ 2 := Finset.sum_nonneg fun j _ => mul_nonneg (hx j).le (sq_nonneg _)
    linarith
  have he : eva l = σ := by
    by_contra hne
    have hlt : σ < eva l := lt_of_le_of_ne (hle l) (Ne.symm hne)
    let f : Fin (n - l) → Fin n := fun i => ⟨l + i, by omega⟩
    have hf : Function.Injective f := fun i j hij => by
      have := congrArg Fin.val hij
      simp only [f] at this
      exact Fin.ext (by omega)
    have hmem : ∀ i, col eve (f i) ∈ Submodule.span ℂ (Set.range b) := fun i => by
      refine mem_span h ?_
      have : eva l ≤ eva (f i) := h.1 (by rw [Fin.le_def]; simp [f])
      exact (lt_of_lt_of_le hlt this).ne'
    have hli := (independent h).comp f hf
    have hli' : LinearIndependent ℂ (fun i => (⟨col eve (f i), hmem i⟩ : Submodule.span ℂ (Set.range b))) :=
      LinearIndependent.of_comp (Submodule.subtype _) hli
    have h1 := hli'.fintype_card_le_finrank
    have h2 := finrank_range_le_card (R := ℂ) b
    rw [Set.finrank] at h2
    simp only [Fintype.card_fin] at h1 h2
    omega
  refine ⟨he, fun j => ?_⟩
  have := eva_eq h l
  rw [he] at this
  have h0 : ∑ j, x j * ‖ip (b j) (col eve l)‖ ^ 2 = 0 := by linarith
  rw [Finset.sum_eq_zero_iff_of_nonneg fun j _ => mul_nonneg (hx j).le (sq_nonneg _)] at h0
  have h1 := h0 j (Finset.mem_univ _)
  have h2 : ip (b j) (col eve l) = 0 := by
    have := (mul_eq_zero.1 h1).resolve_left (hx j).ne'
    simpa using this
  rw [← ip_conj, h2, map_zero]

/-- The energy in the noise subspace is the square of the distance from the fields. -/
private theorem noise_distance {b : Fin k → Fin n → ℂ} (hb : LinearIndependent ℂ b) {x : Fin k → ℝ} (hx : ∀ j, 0 < x j) {σ : ℝ}
    (h : IsEigh (noisySources b x σ) (eva, Matrix.of eve)) (y : Fin n → ℂ) :
    IsDistance b y (∑ l : Fin n, if (l : ℕ) + k < n then ‖ip (col eve l) y‖ ^ 2 else 0) := by
  have hkn : k ≤ n := by
    have := hb.fintype_card_le_finrank
    simpa using this
  have horth : ∀ l : Fin n, (l : ℕ) + k < n → ∀ c : Fin k → ℂ, ip (col eve l) (fun m => ∑ j, c j * b j m) = 0 := by
    intro l hl c
    rw [ip_sum]
    exact Finset.sum_eq_zero fun j _ => by rw [(noise_space hx h hl).2 j, mul_zero]
  -- the signal eigenvectors span the fields
  let f : Fin k → Fin n := fun i => ⟨n - k + i, by omega⟩
  have hf : Function.Injective f := fun i j hij => by
    have := congrArg Fin.val hij
    simp only [f] at this
    exact Fin.ext (by omega)
  have hsub : Submodule.span ℂ (Set.range b) ≤ Submodule.span ℂ (Set.range (col eve ∘ f)) := by
    rw [Submodule.span_le]
    rintro _ ⟨j, rfl⟩
    have e : b j = ∑ l, ip (col eve l) (b j) • col eve l := by
      conv_lhs => rw [expand h (b j)]
      funext m; simp
    rw [e]
    refine Submodule.sum_mem _ fun l _ => ?_
    by_cases hl : (l : ℕ) + k < n
    · rw [(noise_space hx h hl).2 j, zero_smul]; exact Submodule.zero_mem _
    · refine Submodule.smul_mem _ _ (Submodule.subset_span ⟨⟨l - (n - k), by omega⟩, ?_⟩)
      simp only [Function.comp, f]
      congr 1
      exact Fin.ext (by simp; omega)
  have heq : Submodule.span ℂ (Set.range b) = Submodule.span ℂ (Set.range (col eve ∘ f)) := by
    refine Submodule.eq_of_le_of_finrank_eq hsub ?_
    rw [finrank_span_eq_card hb, finrank_span_eq_card ((independent h).comp f hf)]
  constructor
  · have hw : (∑ l : Fin n, (if (l : ℕ) + k < n then 0 else ip (col eve l) y) • col eve l) ∈ Submodule.span ℂ (Set.range b) := by
      rw [heq]
      refine Submodule.sum_mem _ fun l _ => ?_
      split_ifs with hl
      · rw [zero_smul]; exact Submodule.zero_mem _
      · refine Submodule.smul_mem _ _ (Submodule.subset_span ⟨⟨l - (n - k), by omega⟩, ?_⟩)
        simp only [Function.comp, f]
        congr 1
        exact Fin.ext (by simp; omega)
    obtain ⟨c, hc⟩ := (Submodule.mem_span_range_iff_exists_fun ℂ).1 hw
    refine ⟨c, ?_⟩
    rw [parseval h]
    refine Finset.sum_congr rfl fun l _ => ?_
    rw [ip_sub]
    have e : (fun m => ∑ j, c j * b j m) = fun m => ∑ l : Fin n, (if (l : ℕ) + k < n then 0 else ip (col eve l) y) * col eve l m := by
      funext m
      have := congrFun hc m
      simpa only [Finset.sum_apply, Pi.smul_apply, smul_eq_mul] using this
    rw [e, ip_sum]
    simp only [orthonormal h, mul_ite, mul_one, mul_zero, Finset.sum_ite_eq, Finset.mem_univ, if_true]
    split_ifs <;> simp
  · rintro _ ⟨c, rfl⟩
    rw [parseval h]
    refine Finset.sum_le_sum fun l _ => ?_
    split_ifs with hl
    · rw [ip_sub, horth l hl, sub_zero]
    · positivity

end Eig

private theorem na_eq {m : ℕ} (hm : m < n) : eigNa n m = m := by
  unfold eigNa
  simp only
  rw [if_neg (by omega)]
  omega

private theorem music_out (rt : BfRoutines n g) {s : BfSet n g} (h : ProperArray s) (F i : ℕ) {na : ℕ} (hc : s.comps = na) (hn : na < n) :
    ∃ out, s.row rt F i .music = .map (musicMap out) ∧ ∀ p, out p = (n : ℝ) ^ 2 * ∑ l : Fin n, if (l : ℕ) + na < n then
      (rt.eigh (s.csm i)).1 l * ‖ip (col (rt.eigh (s.csm i)).2 l) (steerOf s i p)‖ ^ 2 else 0 := by
  refine ⟨_, rfl, fun p => ?_⟩
  have ha := apart_of h i
  simp only
  rw [hc, na_eq hn, C24_eig_kernel]
  have := C23_kernel_quadratic_form s.form false ((n : ℝ) ^ 2) _ _ (s.geo i).k (ha.r0 p) (ha.rm p) _ (assemble_isHermitian
    (fun l : Fin n => if (l : ℤ) < n - na then (rt.eigh (s.csm i)).1 l else 0) (rt.eigh (s.csm i)).2)
  rw [if_neg (by simp), quadForm_assemble, ← steerOf_eq] at this
  apply Complex.ofReal_injective
  rw [this]
  push_cast
  congr 1
  refine Finset.sum_congr rfl fun l _ => ?_
  rw [Complex.mul_conj, Complex.normSq_eq_norm_sq]
  by_cases hl : (l : ℕ) + na < n
  · rw [if_pos (by omega), if_pos hl]
    push_cast
    rfl
  · rw [if_neg (by omega), if_neg hl]
    simp

private theorem music_eq (out : Fin (g + 1) → ℝ) : ∃ q, (∀ p, out q ≤ out p) ∧ ∀ p, musicMap out p = 4 / 10 ^ 10 * (out q / out p) := by
  have hm := (argmax_isFirstMax fun i => - out i).1
  refine ⟨argmax fun i => - out i, fun p => by have := hm p; dsimp only at this; linarith, fun p => ?_⟩
  unfold musicMap; dsimp only; rw [neg_neg]; ring

/-- **C156** (formula) Any number `k` of uncorrelated sources with independent fields, noise of equal power in all channels, `n = k`: the map shows, relative
to 4e-10, the smallest squared distance of a steering vector from the fields of the sources, divided by that of the grid point.  (Where the
distance is zero the code divides by zero.) -/
theorem C156_map (rt : BfRoutines n g) {s : BfSet n g} (h : ProperArray s) (F i : ℕ) (hk : k < n) (hc : s.comps = k) {b : Fin k → Fin n → ℂ}
    (hb : LinearIndependent ℂ b) {x : Fin k → ℝ} (hx : ∀ j, 0 < x j) {σ : ℝ} (hσ : 0 < σ) (hC : s.csm i = noisySources b x σ)
    (he : IsEigh (s.csm i) ((rt.eigh (s.csm i)).1, Matrix.of (rt.eigh (s.csm i)).2)) :
    ∃ (v D : Fin (g + 1) → ℝ), s.row rt F i .music = .map v ∧ (∀ p, IsDistance b (steerOf s i p) (D p)) ∧
      ∃ q, (∀ p, D q ≤ D p) ∧ ∀ p, 0 < D p → v p = 4 / 10 ^ 10 * (D q / D p) := by
  obtain ⟨out, h1, h2⟩ := music_out rt h F i hc hk
  rw [hC] at he
  have hn0 : (0 : ℝ) < n := by exact_mod_cast h.mics
  let D : Fin (g + 1) → ℝ := fun p => ∑ l : Fin n, if (l : ℕ) + k < n then ‖ip (col (rt.eigh (s.csm i)).2 l) (steerOf s i p)‖ ^ 2 else 0
  have hD : ∀ p, out p = (n : ℝ) ^ 2 * σ * D p := by
    intro p
    rw [h2, mul_assoc]
    congr 1
    rw [Finset.mul_sum]
    refine Finset.sum_congr rfl fun l _ => ?_
    split_ifs with hl
    · rw [hC, (noise_space hx he hl).1]
    · rw [mul_zero]
  obtain ⟨q, hq, hm⟩ := music_eq out
  refine ⟨_, D, h1, fun p => ?_, q, fun p => ?_, fun p hp => ?_⟩
  · have := noise_distance hb hx he (steerOf s i p)
    simpa only [D, hC] using this
  · have := hq p
    rw [hD, hD] at this
    exact le_of_mul_le_mul_left this (by positivity)
  · rw [hm, hD, hD, mul_div_mul_left _ _ (by positivity)]

/-- **C156** (sources) The number of sources is not taken too small (`k ≤ n`) and source `j` is at grid point `q`: with 'true level' and 'true location' the
noise subspace does not respond there, so the map has its peak at every source.  If the number of sources is exact, there is no response at a
grid point only if its steering vector is a combination of the fields of the sources. -/
theorem C156_sources (rt : BfRoutines n g) {s : BfSet n g} (h : ProperArray s) (F i : ℕ) {na : ℕ} (hk : k ≤ na) (hn : na < n) (hc : s.comps = na)
    {b : Fin k → Fin n → ℂ} {x : Fin k → ℝ} (hx : ∀ j, 0 < x j) {σ : ℝ} (hσ : 0 < σ) (hC : s.csm i = noisySources b x σ)
    (he : IsEigh (s.csm i) ((rt.eigh (s.csm i)).1, Matrix.of (rt.eigh (s.csm i)).2)) :
    ∃ out, s.row rt F i .music = .map (musicMap out) ∧ (∀ p, 0 ≤ out p) ∧
      (s.form = .trueLevel ∨ s.form = .trueLocation → ∀ j q, b j = field s i q → out q = 0) ∧
      (na = k → LinearIndependent ℂ b → ∀ p, out p = 0 → ∃ c : Fin k → ℂ, ∀ m, steerOf s i p m = ∑ j, c j * b j m) := by
  obtain ⟨out, h1, h2⟩ := music_out rt h F i hc hn
  rw [hC] at he
  have hn0 : (0 : ℝ) < n := by exact_mod_cast h.mics
  have hD : ∀ p, out p = (n : ℝ) ^ 2 * σ * ∑ l : Fin n, if (l : ℕ) + na < n then ‖ip (col (rt.eigh (noisySources b x σ)).2 l) (steerOf s i p)‖ ^ 2 else 0 := by
    intro p
    rw [h2, hC, mul_assoc]
    congr 1
    rw [Finset.mul_sum]
    refine Finset.sum_congr rfl fun l _ => ?_
    split_ifs with hl
    · rw [(noise_space hx he (l := l) (by omega)).1]
    · rw [mul_zero]
  refine ⟨out, h1, fun p => ?_, fun hf j q hq => ?_, fun hnk hb p hp => ?_⟩
  · rw [hD]
    refine mul_nonneg (by positivity) (Finset.sum_nonneg fun l _ => ?_)
    split_ifs <;> positivity
  · rw [hD]
    have key : ∃ κ : ℂ, steerOf s i q = fun m => κ * field s i q m := by
      rcases hf with hf | hf
      · exact ⟨_, (steer_field h i q).1 hf⟩
      · exact ⟨_, (steer_field h i q).2 hf⟩
    obtain ⟨κ, hκ⟩ := key
    rw [hκ]
    refine mul_eq_zero_of_right _ (Finset.sum_eq_zero fun l _ => ?_)
    split_ifs with hl
    · rw [ip_smul, ← hq, (noise_space hx he (l := l) (by omega)).2 j]
      simp
    · rfl
  · subst hnk
    have hd := noise_distance hb hx he (steerOf s i p)
    have h0 : (∑ l : Fin n, if (l : ℕ) + na < n then ‖ip (col (rt.eigh (noisySources b x σ)).2 l) (steerOf s i p)‖ ^ 2 else 0) = 0 := by
      have := hD p
      rw [hp] at this
      exact (mul_eq_zero.1 this.symm).resolve_left (by positivity)
    rw [h0] at hd
    obtain ⟨c, hc'⟩ := hd.1
    refine ⟨c, fun m => ?_⟩
    unfold energy at hc'
    have := (Finset.sum_eq_zero_iff_of_nonneg fun m _ => sq_nonneg _).1 hc'.symm m (Finset.mem_univ _)
    exact sub_eq_zero.1 (by simpa using this)

/-- **C156** (one source) With one source and `n = 1`, also for the formulation 'classic', the noise subspace responds least at the place of the source; if it
responds at all, the map has its maximum 4e-10 there. -/
theorem C156_single (rt : BfRoutines n g) {s : BfSet n g} (h : ProperArray s) (F i : ℕ) (hn : 1 < n) (hc : s.comps = 1) (q : Fin (g + 1)) {x σ : ℝ}
    (hx : 0 < x) (hσ : 0 < σ) (hC : s.csm i = noisySources (fun _ : Fin 1 => field s i q) (fun _ => x) σ)
    (hf : s.form = .classic ∨ s.form = .trueLocation)
    (he : IsEigh (s.csm i) ((rt.eigh (s.csm i)).1, Matrix.of (rt.eigh (s.csm i)).2)) :
    ∃ out, s.row rt F i .music = .map (musicMap out) ∧ (∀ p, out q ≤ out p) ∧ (out q ≠ 0 → musicMap out q = 4 / 10 ^ 10) ∧
      ∀ p, out p = n * σ * (1 - coherence (steerOf s i p) (field s i q)) := by
  obtain ⟨out, h1, h2⟩ := music_out rt h F i (na := 1) (by exact_mod_cast hc) hn
  rw [hC] at he
  have hn0 : (0 : ℝ) < n := by exact_mod_cast h.mics
  have hA := energy_field h i q
  have hD : ∀ p, out p = n * σ * (1 - coherence (steerOf s i p) (field s i q)) := by
    intro p
    have hS := energy_steer_pos h i p
    have hE := (coherence_source h i q).2.2 hf p
    let t : Fin n := ⟨n - 1, by omega⟩
    have ht : ∀ l : Fin n, l ≠ t → (l : ℕ) + 1 < n := fun l hl => by
      have : (l : ℕ) ≠ n - 1 := fun e => hl (Fin.ext e)
      omega
    set V := (rt.eigh (noisySources (fun _ : Fin 1 => field s i q) (fun _ => x) σ)).2 with hV
    have e1 : out p = (n : ℝ) ^ 2 * σ * (energy (steerOf s i p) - ‖ip (col V t) (steerOf s i p)‖ ^ 2) := by
      rw [h2, hC, mul_assoc, parseval he (steerOf s i p), ← Finset.sum_erase_eq_sub (Finset.mem_univ t)]
      congr 1
      rw [Finset.mul_sum, ← Finset.add_sum_erase _ _ (Finset.mem_univ t), if_neg (by simp [t]; omega), zero_add]
      refine Finset.sum_congr rfl fun l hl => ?_
      have := ht l (Finset.ne_of_mem_erase hl)
      rw [if_pos this, (noise_space (fun _ => hx) he this).1]
    have e2 : field s i q = fun m => ip (col V t) (field s i q) * col V t m := by
      conv_lhs => rw [expand he (field s i q)]
      funext m
      rw [← Finset.add_sum_erase _ _ (Finset.mem_univ t)]
      refine add_eq_left.2 (Finset.sum_eq_zero fun l hl => ?_)
      have := ht l (Finset.ne_of_mem_erase hl)
      rw [(noise_space (fun _ => hx) he this).2 0, zero_mul]
    have e3 : energy (field s i q) = ‖ip (col V t) (field s i q)‖ ^ 2 := by
      rw [parseval he (field s i q), ← Finset.add_sum_erase _ _ (Finset.mem_univ t)]
      refine add_eq_left.2 (Finset.sum_eq_zero fun l hl => ?_)
      have := ht l (Finset.ne_of_mem_erase hl)
      rw [(noise_space (fun _ => hx) he this).2 0]
      simp
    have e4 : ‖∑ m, conj (steerOf s i p m) * field s i q m‖ ^ 2 = energy (field s i q) * ‖ip (col V t) (steerOf s i p)‖ ^ 2 := by
      have : ∑ m, conj (steerOf s i p m) * field s i q m = ip (col V t) (field s i q) * ip (steerOf s i p) (col V t) := by
        rw [← ip_smul, ← e2]; rfl
      rw [this, norm_mul, mul_pow, e3, ← ip_conj (col V t) (steerOf s i p), RCLike.norm_conj]
    rw [e1, coherence, e4, hE]
    have := hA.ne'
    field_simp
  have hle : ∀ p, out q ≤ out p := by
    intro p
    rw [hD, hD]
    have := coherence_max h i q hf p
    exact mul_le_mul_of_nonneg_left (by linarith) (by positivity)
  refine ⟨out, h1, hle, fun h0 => ?_, hD⟩
  obtain ⟨r, hr, hm⟩ := music_eq out
  rw [hm, le_antisymm (hr q) (hle r), div_self h0, mul_one]

/-- **C156 is violated** without noise: the powers of the noise, which are zero, are factors of the response of the noise subspace, so this is zero at *all*
grid points, and the code divides zero by zero (or what rounding leaves of it). -/
theorem C156_noiseless_violated (rt : BfRoutines n g) {s : BfSet n g} (h : ProperArray s) (F i : ℕ) {na : ℕ} (hk : k ≤ na) (hn : na < n) (hc : s.comps = na)
    {b : Fin k → Fin n → ℂ} {x : Fin k → ℝ} (hx : ∀ j, 0 < x j) (hC : s.csm i = noisySources b x 0)
    (he : IsEigh (s.csm i) ((rt.eigh (s.csm i)).1, Matrix.of (rt.eigh (s.csm i)).2)) :
    ∃ out, s.row rt F i .music = .map (musicMap out) ∧ ∀ p, out p = 0 := by
  obtain ⟨out, h1, h2⟩ := music_out rt h F i hc hn
  refine ⟨out, h1, fun p => ?_⟩
  rw [hC] at he
  rw [h2, hC]
  refine mul_eq_zero_of_right _ (Finset.sum_eq_zero fun l _ => ?_)
  split_ifs with hl
  · rw [(noise_space hx he (l := l) (by omega)).1, zero_mul]
  · rfl

/-! ### The hypotheses are met -/

private theorem noisy_herm (b : Fin k → Fin n → ℂ) (x : Fin k → ℝ) (σ : ℝ) : (noisySources b x σ).IsHermitian := by
  refine Matrix.IsHermitian.ext fun i j => ?_
  simp only [noisySources, Matrix.add_apply, Matrix.sum_apply, Matrix.smul_apply, smul_eq_mul, outer, RCLike.star_def, map_add, map_sum, map_mul,
    Complex.conj_ofReal, Complex.conj_conj, Matrix.one_apply]
  congr 1
  · exact Finset.sum_congr rfl fun _ _ => by ring
  · split_ifs <;> simp_all

/-- One source at the first of two grid points, two microphones, one assumed source. -/
private noncomputable def musicEx (f : Formulation) (σ : ℝ) : BfSet 2 1 :=
  { oneEx f 3 0 with
    csm := fun _ => noisySources (fun _ : Fin 1 => field (oneEx f 3 0) 0 0) (fun _ => 3) σ
    comps := 1 }

private theorem musicEx_proper (f : Formulation) (σ : ℝ) : ProperArray (musicEx f σ) :=
  have hp := oneEx_sensible f 3 0
  ⟨hp.mics, hp.ref, hp.apart, hp.full⟩

/-- Any routine `eigh` that does what it promises for this matrix. -/
private theorem musicEx_eigh (f : Formulation) (σ : ℝ) : ∃ rt : BfRoutines 2 1,
    IsEigh ((musicEx f σ).csm 0) ((rt.eigh ((musicEx f σ).csm 0)).1, Matrix.of (rt.eigh ((musicEx f σ).csm 0)).2) := by
  obtain ⟨r, hr⟩ := exists_isEigh ((musicEx f σ).csm 0) (noisy_herm _ _ _)
  exact ⟨{ rtOne 1 with eigh := fun _ => (r.1, r.2) }, hr⟩

private theorem musicEx_independent (f : Formulation) : LinearIndependent ℂ (fun _ : Fin 1 => field (oneEx f 3 0) 0 0) := by
  rw [linearIndependent_unique_iff]
  intro e
  have := energy_field (oneEx_sensible f 3 0) 0 0
  rw [show field (oneEx f 3 0) 0 0 = 0 from e] at this
  simp [energy] at this

example : ∃ (rt : BfRoutines 2 1) (v D : Fin 2 → ℝ), (musicEx .classic 1).row rt 1 0 .music = .map v ∧
    ∃ q, ∀ p, 0 < D p → v p = 4 / 10 ^ 10 * (D q / D p) := by
  obtain ⟨rt, he⟩ := musicEx_eigh .classic 1
  obtain ⟨v, D, h1, -, q, -, h2⟩ := C156_map rt (musicEx_proper .classic 1) 1 0 (k := 1) (by norm_num) rfl (musicEx_independent .classic)
    (x := fun _ => 3) (fun _ => by norm_num) one_pos rfl he
  exact ⟨rt, v, D, h1, q, h2⟩

example : ∃ (rt : BfRoutines 2 1) (out : Fin 2 → ℝ), (musicEx .trueLevel 1).row rt 1 0 .music = .map (musicMap out) ∧ out 0 = 0 := by
  obtain ⟨rt, he⟩ := musicEx_eigh .trueLevel 1
  obtain ⟨out, h1, -, h2, -⟩ := C156_sources rt (musicEx_proper .trueLevel 1) 1 0 (k := 1) le_rfl (by norm_num) rfl
    (x := fun _ => 3) (fun _ => by norm_num) one_pos rfl he
  exact ⟨rt, out, h1, h2 (.inl rfl) 0 0 rfl⟩

example : ∃ (rt : BfRoutines 2 1) (out : Fin 2 → ℝ), (musicEx .classic 1).row rt 1 0 .music = .map (musicMap out) ∧ ∀ p, out 0 ≤ out p := by
  obtain ⟨rt, he⟩ := musicEx_eigh .classic 1
  obtain ⟨out, h1, h2, -⟩ := C156_single rt (musicEx_proper .classic 1) 1 0 (by norm_num) rfl 0 (x := 3) (by norm_num) one_pos rfl (.inl rfl) he
  exact ⟨rt, out, h1, h2⟩

example : ∃ (rt : BfRoutines 2 1) (out : Fin 2 → ℝ), (musicEx .trueLevel 0).row rt 1 0 .music = .map (musicMap out) ∧ ∀ p, out p = 0 := by
  obtain ⟨rt, he⟩ := musicEx_eigh .trueLevel 0
  obtain ⟨out, h⟩ := C156_noiseless_violated rt (musicEx_proper .trueLevel 0) 1 0 (k := 1) le_rfl (by norm_num) rfl
    (x := fun _ => 3) (fun _ => by norm_num) rfl he
  exact ⟨rt, out, h⟩

end Acoular
