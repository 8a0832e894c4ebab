import Mathlib.RingTheory.PowerSeries.Inverse
import Mathlib.Analysis.SpecificLimits.Normed
import Mathlib.Tactic.LinearCombination
import Verif.Model.NoiseFilter
import Verif.Props.Filter

/-!
# C154: filtered noise
-/

namespace Acoular

open Spec

variable {K : Type*} [Field K]

/-- **Specification** `∑ c_j x_{n-j}`, the signal being zero before its start. -/
def Spec.weighted (c : List K) (x : ℕ → K) (n : ℕ) : K := ∑ j ∈ Finset.range c.length, c.getD j 0 * past x n j

/-- A sequence as a power series in the shift by one sample. -/
noncomputable def ser (x : ℕ → K) : PowerSeries K := PowerSeries.mk x

private theorem coeff_weighted (c : List K) (x : ℕ → K) (n : ℕ) :
    PowerSeries.coeff n (ser (fun j => c.getD j 0) * ser x) = weighted c x n := by
  rw [PowerSeries.coeff_mul, Finset.Nat.sum_antidiagonal_eq_sum_range_succ_mk]
  simp only [ser, PowerSeries.coeff_mk, weighted, past]
  have e : ∀ N, (∑ j ∈ Finset.range N, c.getD j 0 * if j ≤ n then x (n - j) else 0) =
      ∑ j ∈ (Finset.range N).filter (· ≤ n), c.getD j 0 * x (n - j) := by
    intro N
    rw [Finset.sum_filter]
    exact Finset.sum_congr rfl fun j _ => by split <;> simp
  rw [e]
  symm
  have h1 : ∑ j ∈ (Finset.range c.length).filter (· ≤ n), c.getD j 0 * x (n - j) =
      ∑ j ∈ Finset.range (max c.length (n + 1)) with j ≤ n, c.getD j 0 * x (n - j) := by
    refine Finset.sum_subset (fun j hj => ?_) fun j hj hj' => ?_
    · simp only [Finset.mem_filter, Finset.mem_range] at hj ⊢; omega
    · simp only [Finset.mem_filter, Finset.mem_range] at hj hj'
      rw [List.getD_eq_getElem?_getD, List.getElem?_eq_none (by omega), Option.getD_none, zero_mul]
  rw [h1]
  refine Finset.sum_congr ?_ fun _ _ => rfl
  ext j
  simp only [Finset.mem_filter, Finset.mem_range]; omega

/-- **Specification** Coefficients of the numerator of a section, as those of a polynomial in the shift by one sample. -/
def Spec.numOf (s : Sos K) : List K := [s.b0, s.b1, s.b2]

/-- **Specification** Coefficients of the denominator. -/
def Spec.denOf (s : Sos K) : List K := [1, s.a1, s.a2]

/-- **Specification** What the documentation of `scipy.signal.tf2sos` promises: the sections, multiplied, are the rational function of the given
coefficients: `∏ num * ar = ∏ den * ma`, the lists of coefficients read as polynomials in the delay by one sample (as power series). -/
def Spec.IsTf2sos (ma ar : List K) (sos : List (Sos K)) : Prop :=
  (sos.map fun s => (PowerSeries.mk fun j => (numOf s).getD j 0 : PowerSeries K)).prod * PowerSeries.mk (fun j => ar.getD j 0) =
    (sos.map fun s => (PowerSeries.mk fun j => (denOf s).getD j 0 : PowerSeries K)).prod * PowerSeries.mk fun j => ma.getD j 0

private theorem section_series {s : Sos K} {x y : ℕ → K} (h : IsSectionResponse s x y) :
    ser (fun j => (denOf s).getD j 0) * ser y = ser (fun j => (numOf s).getD j 0) * ser x := by
  ext n
  rw [coeff_weighted, coeff_weighted]
  have := h n
  simp only [weighted, numOf, denOf, List.length_cons, List.length_nil, Nat.reduceAdd, Finset.sum_range_succ, Finset.sum_range_zero, zero_add,
    List.getD_cons_zero, List.getD_cons_succ, one_mul]
  simp only [smul_eq_mul] at this
  have e : ∀ x : ℕ → K, past x n 0 = x n := fun x => by simp [past]
  rw [e, e]
  linear_combination this

theorem sos_series : ∀ (sos : List (Sos K)) (x y : ℕ → K), IsSosResponse sos x y →
    (sos.map fun s => ser fun j => (denOf s).getD j 0).prod * ser y = (sos.map fun s => ser fun j => (numOf s).getD j 0).prod * ser x
  | [], x, y, h => by cases (show y = x from h); rfl
  | s :: ss, x, y, ⟨w, h1, h2⟩ => by
    have e1 := section_series h1
    have e2 := sos_series ss w y h2
    simp only [List.map_cons, List.prod_cons]
    rw [mul_assoc, e2, mul_left_comm, e1]
    ring

theorem den_ne (sos : List (Sos K)) : (sos.map fun s => ser fun j => (denOf s).getD j 0).prod ≠ (0 : PowerSeries K) := by
  rw [Ne, List.prod_eq_zero_iff]
  intro h
  obtain ⟨s, -, h⟩ := List.mem_map.1 h
  have := congrArg (PowerSeries.coeff 0) h
  rw [ser, PowerSeries.coeff_mk] at this
  simp [denOf] at this

/-- The response of the sections obeys the recursion of the coefficients. -/
theorem response_recursion {ma ar : List K} {sos : List (Sos K)} (h : IsTf2sos ma ar sos) {x y : ℕ → K} (hy : IsSosResponse sos x y) (n : ℕ) :
    weighted ar y n = weighted ma x n := by
  have e := sos_series sos x y hy
  have h' : (sos.map fun s => ser fun j => (numOf s).getD j 0).prod * ser (fun j => ar.getD j 0) =
      (sos.map fun s => ser fun j => (denOf s).getD j 0).prod * ser fun j => ma.getD j 0 := h
  have : ser (fun j => ar.getD j 0) * ser y = ser (fun j => ma.getD j 0) * ser x := by
    refine mul_left_cancel₀ (den_ne sos) ?_
    calc _ = ser (fun j => ar.getD j 0) * ((sos.map fun s => ser fun j => (denOf s).getD j 0).prod * ser y) := by ring
      _ = ((sos.map fun s => ser fun j => (numOf s).getD j 0).prod * ser (fun j => ar.getD j 0)) * ser x := by rw [e]; ring
      _ = _ := by rw [h']; ring
  rw [← coeff_weighted, ← coeff_weighted, this]

private theorem noise_rows (rms : K) (draw : ℕ → K) (ma : List K) (sos : List (Sos K)) (nums : ℕ) {y : ℕ → K}
    (hy : IsSosResponse sos (fun n => rms * draw n) y) :
    filtWNoise rms draw ma sos nums = (List.range nums).map fun k => y (k + roundHalf ((handleEmpty ma).length - 1)) := by
  obtain ⟨Z, h0, -, hs⟩ := sosStep_response sos _ y hy
  unfold filtWNoise filteredNoise
  have := sosRows_response hs (whiteNoise rms draw (nums + roundHalf ((handleEmpty ma).length - 1))) 0 (fun i hi => by simp [whiteNoise])
  simp only [← h0, this]
  simp only [whiteNoise, List.length_map, List.length_range, Nat.zero_add]
  refine List.ext_getElem (by simp) fun k h1 h2 => ?_
  simp [Nat.add_comm]

/-- **C154** Filtered noise is the solution `y` of the recursion `∑ ar_j y_{n-j} = ∑ ma_j x_{n-j}` given by its coefficients (an empty list stands for
the single coefficient 1), where `x` is the white noise a `WNoiseGenerator` with the same seed and rms delivers; the first `d` samples are dropped, `d` about half
the number of moving average coefficients. -/
theorem C154_recursion (rms : K) (draw : ℕ → K) (ma ar : List K) (sos : List (Sos K)) (h : IsTf2sos (handleEmpty ma) (handleEmpty ar) sos) (nums : ℕ) :
    ∃ (y : ℕ → K) (d : ℕ), (∀ n, weighted (if ar = [] then [1] else ar) y n = weighted (if ma = [] then [1] else ma) (fun i => rms * draw i) n) ∧
      (2 * d ≤ max 1 ma.length ∧ max 1 ma.length ≤ 2 * d + 2 ∧ (Odd ma.length → ma.length = 2 * d + 1)) ∧
      filtWNoise rms draw ma sos nums = (List.range nums).map (fun k => y (k + d)) ∧
      (∀ n, (whiteNoise rms draw n) = (List.range n).map fun i => rms * draw i) := by
  obtain ⟨y, hy⟩ := exists_sos_response sos fun n => rms * draw n
  have e : ∀ c : List K, handleEmpty c = if c = [] then [1] else c := fun c => by simp [handleEmpty]
  refine ⟨y, _, fun n => ?_, ?_, noise_rows rms draw ma sos nums hy, fun n => rfl⟩
  · rw [← e, ← e]
    exact response_recursion h hy n
  · have hl : (handleEmpty ma).length = max 1 ma.length := by
      rw [e]; cases ma <;> simp
    rw [hl]
    unfold roundHalf
    refine ⟨?_, ?_, fun ⟨k, hk⟩ => ?_⟩ <;> split_ifs <;> omega

/-- **C154** (no delay) With symmetric moving average coefficients, `2 d + 1` in number, and without feedback, the result is the white noise of the same
seed smoothed symmetrically around each sample: nothing is delayed.  Missing: not so for other coefficients, see below. -/
theorem C154_symmetric_partial (rms : K) (draw : ℕ → K) (ma : List K) (d : ℕ) (hl : ma.length = 2 * d + 1)
    (hsym : ∀ j ≤ 2 * d, ma.getD j 0 = ma.getD (2 * d - j) 0) (sos : List (Sos K)) (h : IsTf2sos (handleEmpty ma) (handleEmpty []) sos) (nums : ℕ) :
    filtWNoise rms draw ma sos nums = (List.range nums).map fun k =>
      ma.getD d 0 * (rms * draw k) +
        ∑ i ∈ Finset.range d, ma.getD (d + 1 + i) 0 * (rms * draw (k + 1 + i) + past (fun n => rms * draw n) k (i + 1)) := by
  obtain ⟨y, hy⟩ := exists_sos_response sos fun n => rms * draw n
  have hne : handleEmpty ma = ma := by simp [handleEmpty, hl]
  rw [noise_rows rms draw ma sos nums hy, hne, hl]
  have hd : roundHalf (2 * d + 1 - 1) = d := by unfold roundHalf; rw [if_pos (by omega)]; omega
  rw [hd]
  refine List.map_congr_left fun k _ => ?_
  have := response_recursion h hy (k + d)
  rw [hne] at this
  have e1 : weighted (handleEmpty ([] : List K)) y (k + d) = y (k + d) := by simp [weighted, handleEmpty, past]
  rw [e1] at this
  rw [this, weighted, hl]
  generalize hx : (fun n => rms * draw n) = x
  have hx' : ∀ n, rms * draw n = x n := fun n => by rw [← hx]
  simp only [hx']
  rw [show 2 * d + 1 = d + (1 + d) by omega, Finset.sum_range_add, Finset.sum_range_add, Finset.sum_range_one]
  have p1 : past x (k + d) (d + 0) = x k := by simp [past]
  have p2 : ∀ i, past x (k + d) (d + (1 + i)) = past x k (i + 1) := by
    intro i
    unfold past
    by_cases hi : i + 1 ≤ k
    · rw [if_pos hi, if_pos (by omega)]; congr 1; omega
    · rw [if_neg hi, if_neg (by omega)]
  rw [p1, Nat.add_zero, add_left_comm]
  congr 1
  rw [← Finset.sum_range_reflect, ← Finset.sum_add_distrib]
  refine Finset.sum_congr rfl fun i hi => ?_
  have hi' := Finset.mem_range.1 hi
  rw [p2, show d + (1 + i) = d + 1 + i by omega, hsym (d - 1 - i) (by omega), show 2 * d - (d - 1 - i) = d + 1 + i by omega]
  have : past x (k + d) (d - 1 - i) = x (k + 1 + i) := by
    unfold past
    rw [if_pos (by omega)]; congr 1; omega
  rw [this]
  ring

/-! ### Where the delay is not compensated -/

/-- **C154** (violated) Moving average coefficients 1, 0, 0 are no filter at all, but the noise comes one sample early: the number of coefficients is
taken for the delay. -/
theorem C154_early_violated : ∃ sos : List (Sos ℚ), IsTf2sos (handleEmpty [1, 0, 0]) (handleEmpty []) sos ∧
    ∀ (rms : ℚ) (draw : ℕ → ℚ) (nums : ℕ), filtWNoise rms draw [1, 0, 0] sos nums = (List.range nums).map fun k => rms * draw (k + 1) := by
  refine ⟨[⟨1, 0, 0, 0, 0⟩], ?_, fun rms draw nums => ?_⟩
  · simp [IsTf2sos, handleEmpty, numOf, denOf]
    left
    congr 1
    funext j
    rcases j with _ | _ | _ | j <;> simp
  · have hy : IsSosResponse [(⟨1, 0, 0, 0, 0⟩ : Sos ℚ)] (fun n => rms * draw n) fun n => rms * draw n :=
      ⟨_, fun n => by simp, rfl⟩
    rw [noise_rows rms draw _ _ nums hy]
    rfl

/-- **C154** (violated) Feedback is not compensated: with autoregressive coefficients 1, -1/2 a single pulse at the start becomes `1, 1/2, 1/4, ...`,
late by one sample in the mean. -/
theorem C154_feedback_violated : ∃ sos : List (Sos ℝ), IsTf2sos (handleEmpty []) (handleEmpty [1, -1 / 2]) sos ∧
    (∀ nums, filtWNoise 1 (fun n => if n = 0 then 1 else 0) [] sos nums = (List.range nums).map fun k => (1 / 2 : ℝ) ^ k) ∧
    (∑' k : ℕ, (k : ℝ) * (1 / 2) ^ k) / ∑' k : ℕ, (1 / 2 : ℝ) ^ k = 1 := by
  refine ⟨[⟨1, 0, 0, -1 / 2, 0⟩], ?_, fun nums => ?_, ?_⟩
  · have e1 : (PowerSeries.mk fun j => ([1, 0, 0] : List ℝ).getD j 0) = PowerSeries.mk fun j => ([1] : List ℝ).getD j 0 := by
      ext n; rcases n with _ | _ | _ | n <;> simp
    have e2 : (PowerSeries.mk fun j => ([1, -1 / 2, 0] : List ℝ).getD j 0) = PowerSeries.mk fun j => ([1, -1 / 2] : List ℝ).getD j 0 := by
      ext n; rcases n with _ | _ | _ | n <;> simp
    simp only [IsTf2sos, handleEmpty, numOf, denOf, List.map_cons, List.map_nil, List.prod_cons, List.prod_nil, mul_one, List.length_nil, List.length_cons,
      if_true, Nat.reduceAdd, if_false, OfNat.ofNat_ne_zero]
    rw [e1, e2, mul_comm]
  · have hy : IsSosResponse [(⟨1, 0, 0, -1 / 2, 0⟩ : Sos ℝ)] (fun n => 1 * if n = 0 then 1 else 0) fun n => (1 / 2 : ℝ) ^ n := by
      refine ⟨_, fun n => ?_, rfl⟩
      rcases n with _ | n
      · simp [past]
      · simp [past, pow_succ]; ring
    rw [noise_rows 1 _ _ _ nums hy]
    rfl
  · rw [tsum_coe_mul_geometric_of_norm_lt_one (by norm_num), tsum_geometric_of_lt_one (by norm_num) (by norm_num)]
    norm_num

/-! ### The hypotheses are met -/

/-- Three equal coefficients. -/
example : ∃ sos : List (Sos ℚ), IsTf2sos (handleEmpty [1 / 3, 1 / 3, 1 / 3]) (handleEmpty []) sos ∧
    filtWNoise 3 (fun n => (n : ℚ) + 1) [1 / 3, 1 / 3, 1 / 3] sos 4 = [3, 6, 9, 12] := by
  refine ⟨[⟨1 / 3, 1 / 3, 1 / 3, 0, 0⟩], ?_, by decide +kernel⟩
  have e1 : (PowerSeries.mk fun j => ([1, 0, 0] : List ℚ).getD j 0) = PowerSeries.mk fun j => ([1] : List ℚ).getD j 0 := by
    ext n; rcases n with _ | _ | _ | n <;> simp
  simp only [IsTf2sos, handleEmpty, numOf, denOf, List.map_cons, List.map_nil, List.prod_cons, List.prod_nil, mul_one, List.length_nil, List.length_cons,
    if_true, Nat.reduceAdd, if_false, OfNat.ofNat_ne_zero]
  rw [e1, mul_comm]

end Acoular
