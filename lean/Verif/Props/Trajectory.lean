import Verif.Model.Trajectory
import Mathlib.Data.Rat.Floor
import Mathlib.Data.List.Sort
import Mathlib.Tactic.Linarith
import Mathlib.Tactic.NormNum

/-!
# Property theorems: trajectories (C41)
-/

set_option linter.unusedSectionVars false

namespace Acoular

variable {K X : Type*} [Field K] [LinearOrder K] [IsStrictOrderedRing K] [FloorSemiring K]

/-- The positions at `t0 + k dt` for exactly those `k` with `t0 + k dt < t1`, in order. -/
def SamplesEvery (loc : K → X) (t0 t1 dt : K) (out : List X) : Prop :=
  ∀ k : ℕ, (t0 + k * dt < t1 → out[k]? = some (loc (t0 + k * dt))) ∧ (t1 ≤ t0 + k * dt → out[k]? = none)

private theorem arange_samples (loc : K → X) (t0 t1 dt : K) (h : 0 < dt) :
    SamplesEvery loc t0 t1 dt ((arange t0 t1 dt).map loc) := by
  intro k
  have key : k < ⌈(t1 - t0) / dt⌉₊ ↔ t0 + k * dt < t1 := by
    rw [Nat.lt_ceil, lt_div_iff₀ h]
    constructor <;> intro h <;> linarith
  unfold arange
  rw [List.getElem?_map, List.getElem?_map]
  constructor
  · intro hk
    rw [List.getElem?_range (key.2 hk)]
    rfl
  · intro hk
    rw [List.getElem?_eq_none (by
      rw [List.length_range]
      exact not_lt.1 fun hc => absurd (key.1 hc) (not_lt.2 hk))]
    rfl

/-- `traj(t_start, t_end, delta_t)` with an end different from zero yields the location at `t_start + k*delta_t` for
exactly those `k` for which this is before `t_end`. -/
theorem C41_traj_partial (loc : K → X) (keys : List K) (t0 t1 dt : K) (hdt : 0 < dt) (ht1 : t1 ≠ 0) :
    ∃ out, traj loc keys t0 (some t1) (some dt) = .ok out ∧ SamplesEvery loc t0 t1 dt out := by
  refine ⟨_, ?_, arange_samples loc t0 t1 dt hdt⟩
  unfold traj trajTimes
  cases trajInterval keys with
  | error e => simp [truthy, hdt.ne', ht1, Except.map]
  | ok p => simp [truthy, hdt.ne', ht1, Except.map]

/-- The hypotheses of `C41_traj_partial` are met: -/
example := C41_traj_partial (K := ℚ) (fun t => 2 * t) [0, 1, 3] 0 3 (1 / 4) (by norm_num) (by norm_num)

/-- First and last key. -/
theorem trajInterval_spec (keys : List K) (h : keys ≠ []) :
    ∃ lo hi, trajInterval keys = .ok (lo, hi) ∧ lo ∈ keys ∧ hi ∈ keys ∧ ∀ t ∈ keys, lo ≤ t ∧ t ≤ hi := by
  have hs : (keys.mergeSort (· ≤ ·)).Pairwise (· ≤ ·) := by
    have := List.pairwise_mergeSort (le := fun a b : K => decide (a ≤ b))
      (fun a b c h1 h2 => by simp only [decide_eq_true_eq] at *; exact h1.trans h2)
      (fun a b => by simpa using le_total a b) keys
    exact this.imp (by simp)
  have hm : ∀ t, t ∈ keys.mergeSort (· ≤ ·) ↔ t ∈ keys := fun t => List.mem_mergeSort
  unfold trajInterval
  cases hk : keys.mergeSort (· ≤ ·) with
  | nil =>
    exfalso
    apply h
    have := List.length_mergeSort (le := fun a b : K => decide (a ≤ b)) keys
    rw [hk] at this
    exact List.eq_nil_of_length_eq_zero this.symm
  | cons a l =>
    rw [hk] at hs hm
    refine ⟨a, _, rfl, (hm a).1 (by simp), (hm _).1 (List.getLast_mem _), fun t ht => ?_⟩
    have ht' := (hm t).2 ht
    constructor
    · rcases List.mem_cons.1 ht' with rfl | h'
      · exact le_refl _
      · exact List.rel_of_pairwise_cons hs h'
    · obtain ⟨i, hi, rfl⟩ := List.getElem_of_mem ht'
      rw [List.getLast_eq_getElem]
      rcases Nat.lt_or_ge i ((a :: l).length - 1) with h' | h'
      · exact (List.pairwise_iff_getElem.1 hs) i _ hi (by omega) h'
      · have : i = (a :: l).length - 1 := by omega
        subst this
        exact le_refl _

/-- `traj(delta_t)` samples the time from the first to the last point (first time in the points, last point excluded),
provided the last time is not zero. -/
theorem C41_traj_default (loc : K → X) (keys : List K) (hk : keys ≠ []) (dt : K) (hdt : 0 < dt) :
    ∃ lo hi out, lo ∈ keys ∧ hi ∈ keys ∧ (∀ t ∈ keys, lo ≤ t ∧ t ≤ hi) ∧
      traj loc keys dt none none = .ok out ∧ SamplesEvery loc lo hi dt out := by
  obtain ⟨lo, hi, hI, h1, h2, h3⟩ := trajInterval_spec keys hk
  refine ⟨lo, hi, _, h1, h2, h3, ?_, arange_samples loc lo hi dt hdt⟩
  unfold traj trajTimes
  rw [hI]
  by_cases h0 : hi = 0
  · simp [truthy, hdt.ne', Except.map, h0]
  · simp [truthy, hdt.ne', Except.map, h0]

/-- The hypotheses of `C41_traj_default` are met: -/
example := C41_traj_default (K := ℚ) (fun t => 2 * t) [0, 1, 3] (by simp) (1 / 4) (by norm_num)

/-- An end at zero is taken for a missing end: the iteration goes on to the last point. -/
theorem C41_zero_end_violated (loc : K → X) (keys : List K) (lo hi : K) (hI : trajInterval keys = .ok (lo, hi))
    (t0 dt : K) (hdt : 0 < dt) :
    ∃ out, traj loc keys t0 (some 0) (some dt) = .ok out ∧ SamplesEvery loc t0 hi dt out := by
  refine ⟨_, ?_, arange_samples loc t0 hi dt hdt⟩
  unfold traj trajTimes
  rw [hI]
  simp [truthy, hdt.ne', Except.map]

/-- A concrete trajectory from -1 to 1, asked for the time before 0 with step 1/2: four positions instead of two. -/
theorem C41_zero_end_example :
    ∃ out, traj (fun t : ℚ => t) [-1, 1] (-1) (some 0) (some (1 / 2)) = .ok out ∧ ¬SamplesEvery (fun t : ℚ => t) (-1) 0 (1 / 2) out := by
  obtain ⟨lo, hi, hI, h1, h2, h3⟩ := trajInterval_spec ([-1, 1] : List ℚ) (by simp)
  have hhi : hi = 1 := by
    have := (h3 1 (by simp)).2
    rcases List.mem_cons.1 h2 with h | h
    · rw [h] at this; norm_num at this
    · simpa using h
  obtain ⟨out, ho, hs⟩ := C41_zero_end_violated (fun t : ℚ => t) _ lo hi hI (-1) (1 / 2) (by norm_num)
  refine ⟨out, ho, fun hc => ?_⟩
  have a := (hs 2).1 (by rw [hhi]; norm_num)
  have b := (hc 2).2 (by norm_num)
  rw [a] at b
  cases b

omit [IsStrictOrderedRing K] in
/-- Without a step the given end is ignored and the start is taken as the step. -/
theorem C41_end_without_step_violated (loc : K → X) (keys : List K) (t0 t1 : K) :
    traj loc keys t0 (some t1) none = traj loc keys t0 none none := by
  unfold traj trajTimes
  cases trajInterval keys <;> simp [truthy]

end Acoular
