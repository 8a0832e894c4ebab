import Verif.Spec.Env
import Verif.Model.Env
import Mathlib.Tactic.Linarith
import Mathlib.Tactic.FieldSimp
import Mathlib.Tactic.Positivity
import Mathlib.Tactic.LinearCombination
import Mathlib.Tactic.FinCases
import Mathlib.Tactic.NormNum

/-!
# Property theorems: propagation distances, coordinates, ray directions (C34, C36, C37, C47)
-/

namespace Acoular

open Spec Real

/-! ### Uniform flow -/

private theorem sumsq_pos {v : Fin 3 → ℝ} (h : v ≠ 0) : 0 < v 0 ^ 2 + v 1 ^ 2 + v 2 ^ 2 := by
  by_contra hc
  apply h
  have h0 := sq_nonneg (v 0)
  have h1 := sq_nonneg (v 1)
  have h2 := sq_nonneg (v 2)
  have e0 : v 0 = 0 := by rw [← sq_eq_zero_iff]; linarith
  have e1 : v 1 = 0 := by rw [← sq_eq_zero_iff]; linarith
  have e2 : v 2 = 0 := by rw [← sq_eq_zero_iff]; linarith
  funext i; fin_cases i <;> simp [e0, e1, e2]

private theorem len3_pos {v : Fin 3 → ℝ} (h : v ≠ 0) : 0 < len3 v := Real.sqrt_pos.2 (sumsq_pos h)

private theorem len3_sq (v : Fin 3 → ℝ) : len3 v ^ 2 = v 0 ^ 2 + v 1 ^ 2 + v 2 ^ 2 :=
  Real.sq_sqrt (by positivity)

private theorem len3_nonneg (v : Fin 3 → ℝ) : 0 ≤ len3 v := Real.sqrt_nonneg _

private theorem unit3_sq {v : Fin 3 → ℝ} (h : v ≠ 0) : unit3 v 0 ^ 2 + unit3 v 1 ^ 2 + unit3 v 2 ^ 2 = 1 := by
  have h1 := len3_pos h
  have h2 := len3_sq v
  unfold unit3
  field_simp
  linarith

private theorem normalize_eq (v : Fin 3 → ℝ) : normalize v = unit3 v := by
  funext i
  unfold normalize unit3 len3
  simp only [pow_two]

/-- the scalar core: `R` distance, `s` component along the flow -/
private theorem flow_scalar {M R s : ℝ} (hM : |M| < 1) (hR : 0 < R) :
    let mct := M * s / R
    let d := R * (1 / (-mct + √(mct * mct - M * M + 1)))
    0 < d ∧ (1 - M ^ 2) * d ^ 2 - 2 * M * s * d - R ^ 2 = 0 ∧
      (∀ d', 0 ≤ d' → (1 - M ^ 2) * d' ^ 2 - 2 * M * s * d' - R ^ 2 = 0 → d' = d) := by
  intro mct d
  have hM2 : M ^ 2 < 1 := by
    have := abs_nonneg M
    rw [← sq_abs]; nlinarith
  have h1 : 0 < mct * mct - M * M + 1 := by nlinarith [mul_self_nonneg mct]
  set q := √(mct * mct - M * M + 1) with hq
  have hq2 : q ^ 2 = mct * mct - M * M + 1 := Real.sq_sqrt h1.le
  have hq0 : 0 < q := Real.sqrt_pos.2 h1
  have hgt : |mct| < q := by
    rw [← abs_of_pos hq0, ← sq_lt_sq, hq2]; nlinarith
  have hden : 0 < -mct + q := by have := le_abs_self mct; linarith
  have hden2 : 0 < mct + q := by have := neg_abs_le mct; linarith
  have hd : d = R / (-mct + q) := by simp only [d]; rw [mul_one_div]
  have hdpos : 0 < d := by rw [hd]; positivity
  have hms : mct * R = M * s := by simp only [mct]; field_simp
  have hdR : d * (-mct + q) = R := by rw [hd]; field_simp
  have hprod : (-mct + q) * (mct + q) = 1 - M ^ 2 := by linear_combination hq2
  have heq : (1 - M ^ 2) * d ^ 2 - 2 * M * s * d - R ^ 2 = 0 := by
    rw [← hprod]
    have : R ^ 2 = R * (d * (-mct + q)) := by rw [hdR]; ring
    rw [this, mul_assoc 2 M s, ← hms]
    linear_combination (mct + q) * d * hdR
  refine ⟨hdpos, heq, fun d' hd' heq' => ?_⟩
  -- the sum of two distinct roots and their product: the other root is negative
  by_contra hne
  have hsub : (d' - d) * ((1 - M ^ 2) * (d' + d) - 2 * M * s) = 0 := by linear_combination heq' - heq
  have h2 : (1 - M ^ 2) * (d' + d) - 2 * M * s = 0 := (mul_eq_zero.1 hsub).resolve_left (sub_ne_zero.2 hne)
  have h3 : (1 - M ^ 2) * (d' * d) + R ^ 2 = 0 := by linear_combination d * h2 - heq
  have : 0 ≤ (1 - M ^ 2) * (d' * d) := mul_nonneg (by linarith) (mul_nonneg hd' hdpos.le)
  nlinarith [sq_pos_of_pos hR]

private theorem cauchy3 (a e : Fin 3 → ℝ) (he : e 0 ^ 2 + e 1 ^ 2 + e 2 ^ 2 = 1) :
    inner3 a e ^ 2 ≤ len3 a ^ 2 := by
  rw [len3_sq]
  have h : (a 0 ^ 2 + a 1 ^ 2 + a 2 ^ 2) * (e 0 ^ 2 + e 1 ^ 2 + e 2 ^ 2) - inner3 a e ^ 2 =
      (a 0 * e 1 - a 1 * e 0) ^ 2 + (a 0 * e 2 - a 2 * e 0) ^ 2 + (a 1 * e 2 - a 2 * e 1) ^ 2 := by
    unfold inner3; ring
  rw [he, mul_one] at h
  nlinarith [sq_nonneg (a 0 * e 1 - a 1 * e 0), sq_nonneg (a 0 * e 2 - a 2 * e 0), sq_nonneg (a 1 * e 2 - a 2 * e 1)]

private theorem reaches_iff {M : ℝ} {e g m : Fin 3 → ℝ} (he : e 0 ^ 2 + e 1 ^ 2 + e 2 ^ 2 = 1) {d : ℝ} (hd : 0 ≤ d) :
    Reaches M e g m d ↔ (1 - M ^ 2) * d ^ 2 - 2 * M * inner3 (fun i => g i - m i) e * d -
      len3 (fun i => g i - m i) ^ 2 = 0 := by
  unfold Reaches
  have h1 : len3 (fun i => m i - (g i + M * d * e i)) = d ↔ len3 (fun i => m i - (g i + M * d * e i)) ^ 2 = d ^ 2 :=
    ⟨fun h => by rw [h], fun h => (pow_left_inj₀ (len3_nonneg _) hd two_ne_zero).1 h⟩
  rw [h1, len3_sq, len3_sq]
  unfold inner3
  constructor
  · rintro ⟨-, h⟩
    linear_combination -h + M ^ 2 * d ^ 2 * he
  · intro h
    exact ⟨hd, by linear_combination -h + M ^ 2 * d ^ 2 * he⟩

private theorem flowEntry_eq (M : ℝ) (f g m : Fin 3 → ℝ) :
    flowEntry M f g m =
      (let R := len3 (fun i => g i - m i)
       let mct := M * inner3 (fun i => g i - m i) (unit3 f) / R
       R * (1 / (-mct + √(mct * mct - M * M + 1)))) := by
  have e1 : ∀ v : Fin 3 → ℝ, √(v 0 * v 0 + v 1 * v 1 + v 2 * v 2) = len3 v := fun v => by
    unfold len3; simp only [pow_two]
  unfold flowEntry inner3
  simp only [e1, unit3]
  have e2 := e1 (fun i => g i - m i)
  rw [e2]

/-- In a subsonic uniform flow the distance returned for two distinct points is positive and is the only solution of
the convected propagation equation. -/
theorem C34_uniform_flow (M : ℝ) (f g m : Fin 3 → ℝ) (hM : |M| < 1) (hf : f ≠ 0) (hgm : g ≠ m) :
    0 < flowEntry M f g m ∧ Reaches M (unit3 f) g m (flowEntry M f g m) ∧
      ∀ d, Reaches M (unit3 f) g m d → d = flowEntry M f g m := by
  have hr : (fun i => g i - m i) ≠ 0 := fun h => hgm (funext fun i => by have := congrFun h i; simp at this; linarith)
  have hu := unit3_sq hf
  have := flow_scalar (s := inner3 (fun i => g i - m i) (unit3 f)) hM (len3_pos hr)
  rw [flowEntry_eq]
  simp only at this ⊢
  obtain ⟨h1, h2, h3⟩ := this
  refine ⟨h1, (reaches_iff hu h1.le).2 h2, fun d hd => h3 d hd.1 ((reaches_iff hu hd.1).1 hd)⟩

/-- The hypotheses are met by a Mach number and two points off axis. -/
example : |(1 / 4 : ℝ)| < 1 ∧ (![1, 1, 0] : Fin 3 → ℝ) ≠ 0 ∧ (![0, 0, 0] : Fin 3 → ℝ) ≠ ![1, 2, 3] := by
  refine ⟨by rw [abs_of_pos] <;> norm_num, fun h => ?_, fun h => ?_⟩
  · have := congrFun h 0; simp at this
  · have := congrFun h 0; simp at this

/-- Without flow the distance is the geometric one, for every direction given. -/
theorem C34_no_flow (f g m : Fin 3 → ℝ) : flowEntry 0 f g m = distEntry g m := by
  rw [flowEntry_eq]
  unfold distEntry len3
  simp

/-- The hypotheses of `C34_no_flow` are met: -/
example := C34_no_flow ![1, 1, 0] 0 ![1, 2, 3]

/-- The geometric distance: positive exactly for distinct points, and the length of the connecting vector. -/
theorem C34_geometric (g m : Fin 3 → ℝ) :
    distEntry g m = len3 (fun i => m i - g i) ∧ (0 < distEntry g m ↔ g ≠ m) := by
  have h : distEntry g m = len3 (fun i => m i - g i) := by
    unfold distEntry len3; congr 1; ring
  refine ⟨h, ?_⟩
  rw [h]
  constructor
  · rintro h1 rfl
    simp [len3] at h1
  · intro hne
    refine len3_pos fun h0 => hne (funext fun i => ?_)
    have := congrFun h0 i; simp at this; linarith

/-- The hypotheses of `C34_geometric` are met: -/
example := C34_geometric 0 ![1, 2, 3]

/-- A microphone straight downstream at the distance `s` is reached after `s/(1+M)`, straight upstream after
`s/(1-M)`. -/
theorem C34_stream_direction (M s : ℝ) (f g : Fin 3 → ℝ) (hM : |M| < 1) (hf : f ≠ 0) (hs : 0 < s) :
    flowEntry M f g (fun i => g i + s * unit3 f i) = s / (1 + M) ∧
      flowEntry M f g (fun i => g i - s * unit3 f i) = s / (1 - M) := by
  have hu := unit3_sq hf
  have hM' := abs_lt.1 hM
  have hne : unit3 f ≠ 0 := by intro h; rw [h] at hu; simp at hu
  have key : ∀ σ : ℝ, σ ≠ 0 → g ≠ fun i => g i + σ * unit3 f i := by
    intro σ hσ h
    apply hne
    funext i
    have := congrFun h i
    have : σ * unit3 f i = 0 := by linarith
    exact (mul_eq_zero.1 this).resolve_left hσ
  have reach : ∀ σ d : ℝ, 0 ≤ d → σ ^ 2 - 2 * σ * M * d + M ^ 2 * d ^ 2 = d ^ 2 →
      Reaches M (unit3 f) g (fun i => g i + σ * unit3 f i) d := by
    intro σ d hd h
    rw [reaches_iff hu hd, len3_sq]
    unfold inner3
    linear_combination (2 * M * σ * d - σ ^ 2) * hu - h
  constructor
  · refine ((C34_uniform_flow M f g _ hM hf (key s hs.ne')).2.2 _ (reach s _ ?_ ?_)).symm
    · exact div_nonneg hs.le (by linarith)
    · have : 1 + M ≠ 0 := by linarith
      field_simp
      ring
  · have e : (fun i => g i - s * unit3 f i) = fun i => g i + (-s) * unit3 f i := by funext i; ring
    rw [e]
    refine ((C34_uniform_flow M f g _ hM hf (key (-s) (by linarith))).2.2 _ (reach (-s) _ ?_ ?_)).symm
    · exact div_nonneg hs.le (by linarith)
    · have : 1 - M ≠ 0 := by linarith
      field_simp
      ring

/-- The hypotheses of `C34_stream_direction` are met: -/
example := C34_stream_direction (1 / 4) 2 ![1, 1, 0] 0 (by rw [abs_of_pos] <;> norm_num) (fun h => by have := congrFun h 0; simp at this) (by norm_num)

/-- The flow changes the distance at most by the factors `1/(1+|M|)` and `1/(1-|M|)`. -/
theorem C34_bounds (M : ℝ) (f g m : Fin 3 → ℝ) (hM : |M| < 1) (hf : f ≠ 0) (hgm : g ≠ m) :
    distEntry g m / (1 + |M|) ≤ flowEntry M f g m ∧ flowEntry M f g m ≤ distEntry g m / (1 - |M|) := by
  obtain ⟨hpos, hr, -⟩ := C34_uniform_flow M f g m hM hf hgm
  have hu := unit3_sq hf
  have hq := (reaches_iff hu hpos.le).1 hr
  have hc := cauchy3 (fun i => g i - m i) (unit3 f) hu
  have hR := (C34_geometric g m).1
  have hR' : distEntry g m = len3 (fun i => g i - m i) := rfl
  rw [← hR'] at hq hc
  have hRpos : 0 < distEntry g m := (C34_geometric g m).2.2 hgm
  set R := distEntry g m
  set d := flowEntry M f g m
  set s := inner3 (fun i => g i - m i) (unit3 f)
  have habs : |s| ≤ R := by rw [← abs_of_pos hRpos]; exact sq_le_sq.1 hc
  have hMs : |M * s| ≤ |M| * R := by rw [abs_mul]; exact mul_le_mul_of_nonneg_left habs (abs_nonneg M)
  have h1 := abs_le.1 hMs
  have hM0 := abs_nonneg M
  have hMM : M ^ 2 = |M| ^ 2 := (sq_abs M).symm
  rw [hMM] at hq
  constructor
  · rw [div_le_iff₀ (by linarith)]
    -- R ≤ d (1+|M|): otherwise the quadratic is negative
    by_contra hlt
    push Not at hlt
    have : ((1 + |M|) * d - R) * ((1 - |M|) * d + R) < 0 :=
      mul_neg_of_neg_of_pos (by linarith) (by have := mul_nonneg (sub_nonneg.2 hM.le) hpos.le; linarith)
    nlinarith [mul_nonneg (show 0 ≤ M * s + |M| * R by linarith) hpos.le]
  · rw [le_div_iff₀ (by linarith)]
    by_contra hlt
    push Not at hlt
    have : 0 < ((1 - |M|) * d - R) * ((1 + |M|) * d + R) :=
      mul_pos (by linarith) (by have := mul_nonneg (show 0 ≤ 1 + |M| by linarith) hpos.le; linarith)
    nlinarith [mul_nonneg (show 0 ≤ |M| * R - M * s by linarith) hpos.le]

/-- The hypotheses of `C34_bounds` are met: -/
example := C34_bounds (1 / 4) ![1, 1, 0] 0 ![1, 2, 3] (by rw [abs_of_pos] <;> norm_num) (fun h => by have := congrFun h 0; simp at this)
  (fun h => by have := congrFun h 0; simp at this)

/-- The table: entry (n, m) belongs to grid point n and microphone m; with a single microphone (or none given: the
origin) it is flat. -/
theorem C34_table (entry : (Fin 3 → ℝ) → (Fin 3 → ℝ) → ℝ) (gpos mpos : List (Fin 3 → ℝ)) (g : Fin 3 → ℝ) (n : ℕ)
    (hg : gpos[n]? = some g) :
    (mpos.length ≠ 1 → ∃ t row, distTable entry gpos (some mpos) = .mat t ∧ t.length = gpos.length ∧ t[n]? = some row ∧
        row.length = mpos.length ∧ ∀ (k : ℕ) (m : Fin 3 → ℝ), mpos[k]? = some m → row[k]? = some (entry g m)) ∧
      (∀ m, mpos = [m] → ∃ t, distTable entry gpos (some mpos) = .vec t ∧ t.length = gpos.length ∧ t[n]? = some (entry g m)) ∧
      ∃ t, distTable entry gpos none = .vec t ∧ t.length = gpos.length ∧ t[n]? = some (entry g 0) := by
  refine ⟨fun h => ?_, ?_, ?_⟩
  · refine ⟨_, mpos.map fun m => entry g m, by unfold distTable; simp only [Option.getD_some, if_neg h]; rfl, by simp, ?_, by simp, ?_⟩
    · rw [List.getElem?_map, hg]; rfl
    · intro k m hk; rw [List.getElem?_map, hk]; rfl
  · rintro m rfl
    refine ⟨_, by unfold distTable; simp only [Option.getD_some, List.length_singleton, if_true]; rfl, by simp, ?_⟩
    rw [List.getElem?_map, List.getElem?_map, hg]; rfl
  · refine ⟨_, by unfold distTable; simp only [Option.getD_none, List.length_singleton, if_true]; rfl, by simp, ?_⟩
    rw [List.getElem?_map, List.getElem?_map, hg]; rfl

/-- The hypotheses of `C34_table` are met: -/
example := C34_table (fun _ _ => 1) [0, ![1, 2, 3]] [0, 0] ![1, 2, 3] 1 rfl

/-- The whole table without flow: the length of the vector between grid point `n` and microphone `k`. -/
theorem C34_env_table (gpos mpos : List (Fin 3 → ℝ)) (n k : ℕ) (g m : Fin 3 → ℝ) (hg : gpos[n]? = some g)
    (hm : mpos[k]? = some m) (h1 : mpos.length ≠ 1) :
    ∃ t row, envR gpos (some mpos) = .mat t ∧ t[n]? = some row ∧ row[k]? = some (len3 fun i => m i - g i) := by
  obtain ⟨t, row, e1, -, e2, -, e3⟩ := (C34_table distEntry gpos mpos g n hg).1 h1
  exact ⟨t, row, e1, e2, by rw [e3 k m hm, (C34_geometric g m).1]⟩

/-- The hypotheses of `C34_env_table` are met: -/
example := C34_env_table [0, ![1, 2, 3]] [0, ![0, 0, 1]] 1 1 ![1, 2, 3] ![0, 0, 1] rfl rfl (by decide)

/-- The whole table with uniform flow: the solution of the convected propagation equation. -/
theorem C34_flow_table (M : ℝ) (f : Fin 3 → ℝ) (hM : |M| < 1) (hf : f ≠ 0) (gpos mpos : List (Fin 3 → ℝ)) (n k : ℕ)
    (g m : Fin 3 → ℝ) (hg : gpos[n]? = some g) (hm : mpos[k]? = some m) (h1 : mpos.length ≠ 1) (hgm : g ≠ m) :
    ∃ t row d, uniformFlowR M f gpos (some mpos) = .mat t ∧ t[n]? = some row ∧ row[k]? = some d ∧ 0 < d ∧
      ∀ d', Reaches M (unit3 f) g m d' ↔ d' = d := by
  obtain ⟨t, row, e1, -, e2, -, e3⟩ := (C34_table (flowEntry M f) gpos mpos g n hg).1 h1
  obtain ⟨h0, hr, hu⟩ := C34_uniform_flow M f g m hM hf hgm
  exact ⟨t, row, _, e1, e2, e3 k m hm, h0, fun d' => ⟨hu d', fun h => h ▸ hr⟩⟩

/-- The hypotheses of `C34_flow_table` are met: -/
example := C34_flow_table (1 / 4) ![1, 1, 0] (by rw [abs_of_pos] <;> norm_num) (fun h => by have := congrFun h 0; simp at this)
  [0, ![1, 2, 3]] [0, ![0, 0, 1]] 1 1 ![1, 2, 3] ![0, 0, 1] rfl rfl (by decide) (fun h => by have := congrFun h 0; simp at this)

/-! ### Cylindrical coordinates -/

private theorem polar (x y : ℝ) : √(x ^ 2 + y ^ 2) * cos (arctan2 y x) = x ∧ √(x ^ 2 + y ^ 2) * sin (arctan2 y x) = y := by
  have hn : ‖(⟨x, y⟩ : ℂ)‖ = √(x ^ 2 + y ^ 2) := by
    rw [Complex.norm_def, Complex.normSq_mk]; simp only [pow_two]
  have h1 := Complex.norm_mul_cos_arg ⟨x, y⟩
  have h2 := Complex.norm_mul_sin_arg ⟨x, y⟩
  rw [hn] at h1 h2
  exact ⟨h1, h2⟩

/-- The conversion to cylindrical coordinates and back exchanges x and y; height and distance from the axis are kept. -/
theorem C36_round_trip_partial (x : Fin 3 → ℝ) :
    cylToCart (cartToCyl x) = ![x 1, x 0, x 2] := by
  obtain ⟨h1, h2⟩ := polar (x 0) (x 1)
  unfold cylToCart cartToCyl
  simp [h1, h2]

/-- The hypotheses of `C36_round_trip_partial` are met: -/
example := C36_round_trip_partial ![1, 2, 3]

/-- So the round trip fails exactly off the diagonal plane. -/
theorem C36_round_trip_violated (x : Fin 3 → ℝ) : cylToCart (cartToCyl x) = x ↔ x 0 = x 1 := by
  rw [C36_round_trip_partial]
  constructor
  · intro h; have := congrFun h 0; simpa using this.symm
  · intro h; funext i; fin_cases i <;> simp [h]

/-- The cylindrical coordinates themselves are right. -/
theorem C36_cylindrical (x : Fin 3 → ℝ) :
    cartToCyl x 1 * cos (cartToCyl x 0) = x 0 ∧ cartToCyl x 1 * sin (cartToCyl x 0) = x 1 ∧ cartToCyl x 2 = x 2 ∧
      0 ≤ cartToCyl x 1 ∧ cartToCyl x 0 ∈ Set.Ioc (-π) π := by
  obtain ⟨h1, h2⟩ := polar (x 0) (x 1)
  unfold cartToCyl
  simp only [Matrix.cons_val_zero, Matrix.cons_val_one, Matrix.cons_val]
  exact ⟨h1, h2, trivial, Real.sqrt_nonneg _, Complex.arg_mem_Ioc _⟩

/-- The hypotheses of `C36_cylindrical` are met: -/
example := C36_cylindrical ![1, 2, 3]

/-! ### Directions of rays -/

private theorem dotp_eq (a b : Fin 3 → ℝ) : dotp a b = inner3 a b := rfl

private theorem inner3_comm (a b : Fin 3 → ℝ) : inner3 a b = inner3 b a := by unfold inner3; ring

private theorem spiral_unit (N : ℕ) (Om : ℝ) (k : ℕ) : inner3 (spiralPoint N Om k) (spiralPoint N Om k) = 1 := by
  unfold spiralPoint inner3
  simp only [Matrix.cons_val_zero, Matrix.cons_val_one, Matrix.cons_val]
  generalize arccos (spiralH N Om k) = t
  generalize spiralPhi N Om k = p
  have h1 := Real.sin_sq_add_cos_sq t
  have h2 := Real.sin_sq_add_cos_sq p
  linear_combination h1 + sin t ^ 2 * h2

private theorem spiral_zero (N : ℕ) (Om : ℝ) : spiralPoint N Om 0 = ![0, 0, -1] := by
  unfold spiralPoint spiralH
  simp [spiralPhi]

private theorem spiral_two (N : ℕ) (Om : ℝ) (k : ℕ) (h0 : -1 ≤ spiralH N Om k) (h1 : spiralH N Om k ≤ 1) :
    spiralPoint N Om k 2 = spiralH N Om k := by
  unfold spiralPoint
  simp only [Matrix.cons_val]
  exact Real.cos_arccos h0 h1

private theorem h_range {N : ℕ} {Om : ℝ} {k : ℕ} (hO : 0 < Om) (hO4 : Om < 4 * π) (hk : k < N) :
    -1 ≤ spiralH N Om k ∧ spiralH N Om k ≤ -1 + Om / (2 * π) := by
  have hpi := Real.pi_pos
  have ho : 1 < 4 * π / Om := by rw [lt_div_iff₀ hO]; linarith
  have hN : (1 : ℝ) ≤ N := by exact_mod_cast (by omega : 1 ≤ N)
  have hk1 : (k : ℝ) ≤ N - 1 := by
    have : (k : ℝ) + 1 ≤ N := by exact_mod_cast hk
    linarith
  have hk0 : (0 : ℝ) ≤ k := Nat.cast_nonneg k
  have hden : 0 < N * (4 * π / Om) - 1 := by nlinarith
  unfold spiralH
  constructor
  · have : 0 ≤ 2 * (k : ℝ) / (N * (4 * π / Om) - 1) := div_nonneg (by linarith) hden.le
    linarith
  · have : 2 * (k : ℝ) / (N * (4 * π / Om) - 1) ≤ Om / (2 * π) := by
      rw [div_le_iff₀ hden]
      have e : Om / (2 * π) * (N * (4 * π / Om) - 1) = 2 * N - Om / (2 * π) := by field_simp; ring
      rw [e]
      have : Om / (2 * π) < 2 := by rw [div_lt_iff₀ (by positivity)]; linarith
      linarith
    linarith

/-- the mirror matrix on unit vectors -/
private theorem mirror_mul (a b v : Fin 3 → ℝ) :
    (mirror a b).mulVec v = fun i => v i - (a i - b i) * (inner3 (fun i => a i - b i) v / inner3 (fun i => a i - b i) a) := by
  funext i
  unfold mirror Matrix.mulVec dotProduct
  simp only [Matrix.of_apply, Fin.sum_univ_three, dotp_eq]
  unfold inner3
  fin_cases i <;> simp <;> ring

private theorem mirror_isometry (a b v w : Fin 3 → ℝ) (ha : inner3 a a = 1) (hb : inner3 b b = 1)
    (hab : inner3 (fun i => a i - b i) a ≠ 0) :
    inner3 ((mirror a b).mulVec v) ((mirror a b).mulVec w) = inner3 v w := by
  rw [mirror_mul, mirror_mul]
  set c : Fin 3 → ℝ := fun i => a i - b i with hc
  have hcc : inner3 c c = 2 * inner3 c a := by
    simp only [hc]; unfold inner3 at *; linear_combination hb - ha
  set s := inner3 c v / inner3 c a with hs
  set t := inner3 c w / inner3 c a with ht
  have e1 : s * inner3 c a = inner3 c v := by rw [hs]; field_simp
  have e2 : t * inner3 c a = inner3 c w := by rw [ht]; field_simp
  have expand : inner3 (fun i => v i - c i * s) (fun i => w i - c i * t) =
      inner3 v w - t * inner3 c v - s * inner3 c w + s * t * inner3 c c := by unfold inner3; ring
  have : (fun i => v i - (a i - b i) * s) = fun i => v i - c i * s := rfl
  rw [this]
  have : (fun i => w i - (a i - b i) * t) = fun i => w i - c i * t := rfl
  rw [this, expand, hcc, ← e1, ← e2]
  ring

private theorem mirror_axis (a b : Fin 3 → ℝ) (hab : inner3 (fun i => a i - b i) a ≠ 0) : (mirror a b).mulVec a = b := by
  rw [mirror_mul, div_self hab]
  funext i; ring

/-- The mirror matrix is orthogonal and exchanges the unit vectors `a` and `b`. -/
theorem C37_mirror (a b : Fin 3 → ℝ) (ha : inner3 a a = 1) (hb : inner3 b b = 1) (hab : a ≠ b) :
    (mirror a b).transpose * mirror a b = 1 ∧ (mirror a b).mulVec a = b ∧ (mirror a b).mulVec b = a := by
  have hne : inner3 (fun i => a i - b i) a ≠ 0 := by
    intro h
    apply hab
    have hcc : inner3 (fun i => a i - b i) (fun i => a i - b i) = 0 := by
      have : inner3 (fun i => a i - b i) (fun i => a i - b i) = 2 * inner3 (fun i => a i - b i) a := by
        unfold inner3 at *; linear_combination hb - ha
      rw [this, h, mul_zero]
    by_contra hne
    have := sumsq_pos (v := fun i => a i - b i) (fun h0 => hne (funext fun i => by have := congrFun h0 i; simp at this; linarith))
    unfold inner3 at hcc
    simp only at this hcc
    nlinarith
  have hax := mirror_axis a b hne
  refine ⟨?_, hax, ?_⟩
  · have iso := fun v w => mirror_isometry a b v w ha hb hne
    ext i j
    have h := iso (Pi.single i 1) (Pi.single j 1)
    have e : ∀ k l, (mirror a b).mulVec (Pi.single k 1) l = mirror a b l k := fun k l => by
      rw [Matrix.mulVec_single_one]; rfl
    unfold inner3 at h
    simp only [e] at h
    rw [Matrix.mul_apply, Fin.sum_univ_three]
    simp only [Matrix.transpose_apply]
    rw [h]
    fin_cases i <;> fin_cases j <;> simp
  · have sym : ∀ v w, inner3 ((mirror a b).mulVec v) w = inner3 v ((mirror a b).mulVec w) := by
      intro v w
      rw [mirror_mul, mirror_mul]
      unfold inner3
      ring
    have iso := fun v w => mirror_isometry a b v w ha hb hne
    -- H b = H (H a) = a
    have h2 : ∀ w, inner3 ((mirror a b).mulVec b) w = inner3 a w := by
      intro w
      have h := iso a w
      rw [hax] at h
      rw [sym]; exact h
    funext i
    have := h2 (Pi.single i 1)
    unfold inner3 at this
    fin_cases i <;> simpa [Pi.single_apply] using this

/-- The hypotheses of `C37_mirror` are met: -/
example := C37_mirror ![1, 0, 0] ![0, 1, 0] (by simp [inner3]) (by simp [inner3]) (fun h => by have := congrFun h 0; simp at this)

/-- The directions: `N` unit vectors, all within the cone of the solid angle `Om` around `b`, the first one along `b`
(up to 1e-10 where the code omits the mirroring). -/
theorem C37_directions (N : ℕ) (Om : ℝ) (b : Fin 3 → ℝ) (hO : 0 < Om) (hO4 : Om < 4 * π) (hb : b ≠ 0) :
    (spiralSphere N Om b).length = N ∧
      (∀ v ∈ spiralSphere N Om b, len3 v = 1) ∧
      (∀ v, (spiralSphere N Om b)[0]? = some v → v = unit3 b ∨ len3 (fun i => v i - unit3 b i) < 1e-10) ∧
      ∀ v ∈ spiralSphere N Om b, ∀ a, (spiralSphere N Om b)[0]? = some a → 1 - Om / (2 * π) ≤ inner3 v a := by
  have hbu : inner3 (unit3 b) (unit3 b) = 1 := by
    have := unit3_sq hb; unfold inner3; linarith
  have hlen1 : ∀ v : Fin 3 → ℝ, inner3 v v = 1 → len3 v = 1 := by
    intro v h
    unfold len3
    rw [Real.sqrt_eq_one]
    unfold inner3 at h; linarith
  have hcap : ∀ k < N, 1 - Om / (2 * π) ≤ inner3 (spiralPoint N Om k) (spiralPoint N Om 0) := by
    intro k hk
    obtain ⟨h0, h1⟩ := h_range hO hO4 hk
    have hle : spiralH N Om k ≤ 1 := by
      have : Om / (2 * π) < 2 := by rw [div_lt_iff₀ (by positivity)]; linarith
      linarith
    rw [spiral_zero]
    unfold inner3
    simp only [Matrix.cons_val_zero, Matrix.cons_val_one, Matrix.cons_val]
    rw [spiral_two N Om k h0 hle]
    linarith
  have e10 : √(dotp (fun i => spiralPoint N Om 0 i - normalize b i) (fun i => spiralPoint N Om 0 i - normalize b i)) =
      len3 (fun i => spiralPoint N Om 0 i - unit3 b i) := by
    rw [normalize_eq]; unfold len3 dotp; simp only [pow_two]
  unfold spiralSphere
  simp only
  rw [e10]
  split
  · rename_i hlt
    refine ⟨by simp, ?_, ?_, ?_⟩
    · intro v hv
      obtain ⟨k, -, rfl⟩ := List.mem_map.1 hv
      exact hlen1 _ (spiral_unit N Om k)
    · intro v hv
      rw [List.getElem?_map] at hv
      cases N with
      | zero => simp at hv
      | succ N =>
        rw [List.getElem?_range (by omega)] at hv
        cases hv
        exact .inr hlt
    · intro v hv a ha
      obtain ⟨k, hk, rfl⟩ := List.mem_map.1 hv
      have hk := List.mem_range.1 hk
      rw [List.getElem?_map, List.getElem?_range (by omega)] at ha
      cases ha
      exact hcap k hk
  · rename_i hge
    rw [normalize_eq]
    set a := spiralPoint N Om 0 with ha0
    have haa : inner3 a a = 1 := spiral_unit N Om 0
    have hne : a ≠ unit3 b := by
      intro h
      apply hge
      have : (fun i => a i - unit3 b i) = fun _ => 0 := by funext i; rw [h]; ring
      rw [this]
      simp only [len3]
      norm_num
    have hax := (C37_mirror a (unit3 b) haa hbu hne).2.1
    have hnz : inner3 (fun i => a i - unit3 b i) a ≠ 0 := by
      intro h
      rw [mirror_mul, h, div_zero] at hax
      apply hne
      rw [← hax]; funext i; ring
    refine ⟨by simp, ?_, ?_, ?_⟩
    · intro v hv
      obtain ⟨u, hu, rfl⟩ := List.mem_map.1 hv
      obtain ⟨k, -, rfl⟩ := List.mem_map.1 hu
      apply hlen1
      rw [mirror_isometry _ _ _ _ haa hbu hnz]
      exact spiral_unit N Om k
    · intro v hv
      rw [List.getElem?_map, List.getElem?_map] at hv
      cases N with
      | zero => simp at hv
      | succ N =>
        rw [List.getElem?_range (by omega)] at hv
        simp only [Option.map_some, Option.some.injEq] at hv
        rw [← ha0] at hv
        exact .inl (hv.symm.trans hax)
    · intro v hv a' ha'
      obtain ⟨u, hu, rfl⟩ := List.mem_map.1 hv
      obtain ⟨k, hk, rfl⟩ := List.mem_map.1 hu
      have hk := List.mem_range.1 hk
      rw [List.getElem?_map, List.getElem?_map, List.getElem?_range (by omega)] at ha'
      simp only [Option.map_some, Option.some.injEq] at ha'
      rw [← ha', mirror_isometry _ _ _ _ haa hbu hnz]
      exact hcap k hk

example : (0 : ℝ) < π ∧ π < 4 * π ∧ (![1, 2, 0] : Fin 3 → ℝ) ≠ 0 :=
  ⟨pi_pos, by linarith [pi_pos], fun h => by have := congrFun h 0; simp at this⟩

private theorem sphere_inner (N : ℕ) (Om : ℝ) {b : Fin 3 → ℝ} (hb : b ≠ 0) {k l : ℕ} {v w : Fin 3 → ℝ} (hv : (spiralSphere N Om b)[k]? = some v)
    (hw : (spiralSphere N Om b)[l]? = some w) : k < N ∧ l < N ∧ inner3 v w = inner3 (spiralPoint N Om k) (spiralPoint N Om l) := by
  have hbu : inner3 (unit3 b) (unit3 b) = 1 := by
    have := unit3_sq hb; unfold inner3; linarith
  have e10 : √(dotp (fun i => spiralPoint N Om 0 i - normalize b i) (fun i => spiralPoint N Om 0 i - normalize b i)) =
      len3 (fun i => spiralPoint N Om 0 i - unit3 b i) := by
    rw [normalize_eq]; unfold len3 dotp; simp only [pow_two]
  unfold spiralSphere at hv hw
  simp only at hv hw
  rw [e10] at hv hw
  by_cases hlt : len3 (fun i => spiralPoint N Om 0 i - unit3 b i) < 1e-10
  · rw [if_pos hlt] at hv hw
    rw [List.getElem?_map, Option.map_eq_some_iff] at hv hw
    obtain ⟨k', hk, rfl⟩ := hv
    obtain ⟨l', hl, rfl⟩ := hw
    obtain ⟨hk1, hk2⟩ := List.getElem?_eq_some_iff.1 hk
    obtain ⟨hl1, hl2⟩ := List.getElem?_eq_some_iff.1 hl
    simp only [List.getElem_range] at hk2 hl2
    subst hk2 hl2
    exact ⟨by simpa using hk1, by simpa using hl1, rfl⟩
  · rw [if_neg hlt, normalize_eq] at hv hw
    have hne : spiralPoint N Om 0 ≠ unit3 b := by
      intro h
      apply hlt
      rw [h]
      have : (fun i => unit3 b i - unit3 b i) = fun _ => (0 : ℝ) := by funext i; ring
      rw [this]
      simp only [len3]
      norm_num
    have haa : inner3 (spiralPoint N Om 0) (spiralPoint N Om 0) = 1 := spiral_unit N Om 0
    have hax := (C37_mirror _ (unit3 b) haa hbu hne).2.1
    have hnz : inner3 (fun i => spiralPoint N Om 0 i - unit3 b i) (spiralPoint N Om 0) ≠ 0 := by
      intro h
      rw [mirror_mul, h, div_zero] at hax
      apply hne
      rw [← hax]; funext i; ring
    rw [List.getElem?_map, List.getElem?_map, Option.map_eq_some_iff] at hv hw
    obtain ⟨v', hv, rfl⟩ := hv
    obtain ⟨w', hw, rfl⟩ := hw
    rw [Option.map_eq_some_iff] at hv hw
    obtain ⟨k', hk, rfl⟩ := hv
    obtain ⟨l', hl, rfl⟩ := hw
    obtain ⟨hk1, hk2⟩ := List.getElem?_eq_some_iff.1 hk
    obtain ⟨hl1, hl2⟩ := List.getElem?_eq_some_iff.1 hl
    simp only [List.getElem_range] at hk2 hl2
    subst hk2 hl2
    exact ⟨by simpa using hk1, by simpa using hl1, mirror_isometry _ _ _ _ haa hbu hnz⟩

private theorem cos_fmod (p x : ℝ) : cos (p + fmod x (2 * π)) = cos (p + x) ∧ sin (p + fmod x (2 * π)) = sin (p + x) := by
  unfold fmod
  rw [show p + (x - 2 * π * ⌊x / (2 * π)⌋) = p + x - ⌊x / (2 * π)⌋ * (2 * π) by ring]
  exact ⟨Real.cos_sub_int_mul_two_pi _ _, Real.sin_sub_int_mul_two_pi _ _⟩

/-- The directions cover the cone evenly: measured along the axis they advance in equal steps (bands of equal area of the sphere), no two are equal, and
each turns about the axis by `3.6 / √(N o (1 - h²))`, `o = 4 π / Om`, against the one before. -/
theorem C37_spacing (N : ℕ) (Om : ℝ) (b : Fin 3 → ℝ) (hO : 0 < Om) (hO4 : Om < 4 * π) (hb : b ≠ 0) {a : Fin 3 → ℝ}
    (ha : (spiralSphere N Om b)[0]? = some a) :
    (∀ (k : ℕ) v, (spiralSphere N Om b)[k]? = some v → inner3 v a = 1 - 2 * k / (N * (4 * π / Om) - 1)) ∧
    (∀ (k l : ℕ) v, (spiralSphere N Om b)[k]? = some v → (spiralSphere N Om b)[l]? = some v → k = l) ∧
    ∀ (k : ℕ) v w, (spiralSphere N Om b)[k]? = some v → (spiralSphere N Om b)[k + 1]? = some w →
      inner3 v w = inner3 v a * inner3 w a + √(1 - inner3 v a ^ 2) * √(1 - inner3 w a ^ 2) * cos (3.6 / √(N * (4 * π / Om) * (1 - inner3 w a ^ 2))) := by
  have hle : ∀ {k}, k < N → -1 ≤ spiralH N Om k ∧ spiralH N Om k ≤ 1 := fun {k} hk => by
    obtain ⟨h0, h1⟩ := h_range hO hO4 hk
    have : Om / (2 * π) < 2 := by rw [div_lt_iff₀ (by positivity)]; linarith
    exact ⟨h0, by linarith⟩
  have h1 : ∀ (k : ℕ) v, (spiralSphere N Om b)[k]? = some v → k < N ∧ inner3 v a = -spiralH N Om k := by
    intro k v hv
    obtain ⟨hk, -, e⟩ := sphere_inner N Om hb hv ha
    refine ⟨hk, ?_⟩
    rw [e, spiral_zero]
    unfold inner3
    simp only [Matrix.cons_val_zero, Matrix.cons_val_one, Matrix.cons_val]
    rw [spiral_two N Om k (hle hk).1 (hle hk).2]
    ring
  have h2 : ∀ (k : ℕ) v, (spiralSphere N Om b)[k]? = some v → inner3 v a = 1 - 2 * k / (N * (4 * π / Om) - 1) := fun k v hv => by
    rw [(h1 k v hv).2]; unfold spiralH; ring
  refine ⟨h2, fun k l v hk hl => ?_, fun k v w hv hw => ?_⟩
  · have hN : (1 : ℝ) ≤ N := by
      have := (h1 k v hk).1
      exact_mod_cast (by omega : 1 ≤ N)
    have ho : 1 < 4 * π / Om := by rw [lt_div_iff₀ hO]; linarith
    have hden : 0 < N * (4 * π / Om) - 1 := by nlinarith
    have e := (h2 k v hk).symm.trans (h2 l v hl)
    have e' : 2 * (k : ℝ) / (N * (4 * π / Om) - 1) = 2 * l / (N * (4 * π / Om) - 1) := by linarith
    rw [div_left_inj' hden.ne'] at e'
    exact_mod_cast (by linarith : (k : ℝ) = l)
  · obtain ⟨hk, hk', e⟩ := sphere_inner N Om hb hv hw
    rw [e, (h1 k v hv).2, (h1 (k + 1) w hw).2, neg_sq, neg_sq, neg_mul_neg]
    unfold spiralPoint inner3
    simp only [Matrix.cons_val_zero, Matrix.cons_val_one, Matrix.cons_val]
    rw [Real.cos_arccos (hle hk).1 (hle hk).2, Real.cos_arccos (hle hk').1 (hle hk').2, Real.sin_arccos, Real.sin_arccos]
    rw [show spiralPhi N Om (k + 1) = spiralPhi N Om k + fmod (3.6 / √(N * (4 * π / Om) * (1 - spiralH N Om (k + 1) * spiralH N Om (k + 1)))) (2 * π) from rfl,
      (cos_fmod _ _).1, (cos_fmod _ _).2, ← pow_two, Real.cos_add, Real.sin_add]
    generalize 3.6 / √(N * (4 * π / Om) * (1 - spiralH N Om (k + 1) ^ 2)) = x
    have hs := Real.sin_sq_add_cos_sq (spiralPhi N Om k)
    linear_combination (√(1 - spiralH N Om k ^ 2) * √(1 - spiralH N Om (k + 1) ^ 2) * cos x) * hs

/-- The hypotheses of `C37_spacing` are met: -/
example : ∃ a, (spiralSphere 3 π ![1, 2, 0])[0]? = some a ∧ ∀ (k : ℕ) v, (spiralSphere 3 π ![1, 2, 0])[k]? = some v → inner3 v a = 1 - 2 * k / (3 * (4 * π / π) - 1) := by
  have hb : (![1, 2, 0] : Fin 3 → ℝ) ≠ 0 := fun h => by have := congrFun h 0; simp at this
  have hl := (C37_directions 3 π ![1, 2, 0] pi_pos (by linarith [pi_pos]) hb).1
  refine ⟨_, List.getElem?_eq_getElem (by rw [hl]; norm_num), fun k v hv => ?_⟩
  have := (C37_spacing 3 π ![1, 2, 0] pi_pos (by linarith [pi_pos]) hb (List.getElem?_eq_getElem (by rw [hl]; norm_num))).1 k v hv
  exact_mod_cast this

/-! ### The table of interpolators -/

section
variable {P Roi Mic : Type*} [DecidableEq Mic]

/-- As long as neither parameters nor region change, every query uses interpolators computed for the current
parameters, for the region given or the grid of the first query of that microphone. -/
theorem C47_current_partial (p : P) (r : Option Roi) (h : List (Roi × List Mic)) (gpos : Roi) (mpos : List Mic) :
    ∀ li ∈ (flowQuery (flowHistory (FlowEnv.fresh p r) (h.map fun q => FlowAct.query q.1 q.2)) gpos mpos).2,
      li.1 = p ∧ (∀ R, r = some R → li.2 = R) := by
  let Inv : FlowEnv P Roi Mic → Prop := fun e => e.params = p ∧ e.roi = r ∧
    ∀ kv ∈ e.idict, kv.2.1 = p ∧ ∀ R, r = some R → kv.2.2 = R
  have look : ∀ (e : FlowEnv P Roi Mic) (g : Roi) (x : Mic), Inv e →
      Inv (flowLookup e g x).1 ∧ (flowLookup e g x).2.1 = p ∧ ∀ R, r = some R → (flowLookup e g x).2.2 = R := by
    rintro e g x ⟨h1, h2, h3⟩
    unfold flowLookup
    split
    · rename_i li hl
      have hmem : (x, li) ∈ e.idict := by
        rw [List.lookup_eq_some_iff] at hl
        obtain ⟨l1, l2, h', -⟩ := hl
        rw [h']; simp
      exact ⟨⟨h1, h2, h3⟩, h3 _ hmem⟩
    · have hnew : (e.params, e.roi.getD g).1 = p ∧ ∀ R, r = some R → (e.params, e.roi.getD g).2 = R :=
        ⟨h1, fun R hR => by simp only [h2, hR, Option.getD_some]⟩
      refine ⟨⟨h1, h2, ?_⟩, hnew⟩
      intro kv hkv
      rcases List.mem_cons.1 hkv with rfl | hkv
      · exact hnew
      · exact h3 kv hkv
  have query : ∀ (m : List Mic) (e : FlowEnv P Roi Mic) (g : Roi), Inv e →
      Inv (flowQuery e g m).1 ∧ ∀ li ∈ (flowQuery e g m).2, li.1 = p ∧ ∀ R, r = some R → li.2 = R := by
    intro m
    induction m with
    | nil => intro e g he; exact ⟨he, by simp [flowQuery]⟩
    | cons x m ih =>
      intro e g he
      obtain ⟨h1, h2⟩ := look e g x he
      obtain ⟨h3, h4⟩ := ih _ g h1
      refine ⟨h3, ?_⟩
      intro li hli
      simp only [flowQuery] at hli
      rcases List.mem_cons.1 hli with rfl | hli
      · exact h2
      · exact h4 li hli
  have hist : ∀ (h : List (Roi × List Mic)) (e : FlowEnv P Roi Mic), Inv e →
      Inv (flowHistory e (h.map fun q => FlowAct.query q.1 q.2)) := by
    intro h
    induction h with
    | nil => intro e he; exact he
    | cons q h ih => intro e he; exact ih _ (query q.2 e q.1 he).1
  exact (query mpos _ gpos (hist h _ ⟨rfl, rfl, by simp [FlowEnv.fresh]⟩)).2

/-- The hypotheses of `C47_current_partial` are met: -/
example := C47_current_partial (P := ℕ) (Roi := ℕ) (Mic := ℕ) 0 (some 3) [(1, [1, 2]), (2, [3])] 4 [1, 5]

/-- After a change of the flow field (or `N`, `Om`, `c`), of `roi` or of the grid, a microphone that was queried before is still served
with the interpolator of the old setting. -/
theorem C47_stale_violated (p p' : P) (r r' : Option Roi) (g g' : Roi) (m : Mic) :
    (flowQuery (flowHistory (FlowEnv.fresh p r) [.query g [m], .setParams p', .setRoi r']) g' [m]).2 =
      [(p, r.getD g)] := by
  simp [flowHistory, flowAct, flowQuery, flowLookup, FlowEnv.fresh]

/-- A microphone that was not queried before is served with the current setting. -/
theorem C47_new_microphone_partial (e : FlowEnv P Roi Mic) (g : Roi) (m : Mic) (h : ∀ kv ∈ e.idict, kv.1 ≠ m) :
    (flowQuery e g [m]).2 = [(e.params, e.roi.getD g)] := by
  have : e.idict.lookup m = none := by
    rw [List.lookup_eq_none_iff]
    intro kv hkv
    simpa using fun h' => h kv hkv h'.symm
  simp [flowQuery, flowLookup, this]

/-- The hypotheses of `C47_new_microphone_partial` are met: -/
example := C47_new_microphone_partial (P := ℕ) (Roi := ℕ) (Mic := ℕ) (FlowEnv.fresh 0 (some 3)) 4 5 (by simp [FlowEnv.fresh])

end

end Acoular
