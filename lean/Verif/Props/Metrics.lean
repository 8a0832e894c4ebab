import Verif.Model.Metrics
import Mathlib.Tactic.Ring
import Mathlib.Tactic.Linarith
import Mathlib.Tactic.Positivity
import Mathlib.Tactic.NormNum
import Mathlib.Tactic.FinCases
import Mathlib.Algebra.BigOperators.Group.List.Basic
import Mathlib.Algebra.BigOperators.Fin
import Mathlib.Data.Rat.Defs

/-!
# Property theorems: error metrics (C50, C51)
-/

set_option linter.unusedSectionVars false

namespace Acoular

section
variable {K : Type*} [Field K] {n : ℕ}

private theorem integrateRow_multi (dims : ℕ) (sectors : List (List (Fin n))) (row : Fin n → K) :
    integrateRow true dims sectors row = .ok (sectors.map fun s => (s.map row).sum, row) := by
  induction sectors with
  | nil => rfl
  | cons s l ih => simp [integrateRow, ih]

private theorem integrateSectors_multi (dims : ℕ) (sectors : List (List (Fin n))) (data : List (Fin n → K)) :
    integrateSectors true dims sectors data = .ok (data.map fun row => sectors.map fun s => (s.map row).sum, data) := by
  induction data with
  | nil => rfl
  | cons row l ih => simp [integrateSectors, integrateRow_multi, ih]

/-- The overall error of a frequency is the level of the sum over the whole map minus the level of the sum over the
targets. -/
theorem C50_overall (lp : K → K) (data : List (Fin n → K)) (target : List (List K)) (f : ℕ) (row : Fin n → K) (t : List K)
    (h1 : data[f]? = some row) (h2 : target[f]? = some t) :
    (overallLevelError lp data target)[f]? = some (lp (∑ i, row i) - lp t.sum) := by
  unfold overallLevelError
  rw [List.getElem?_zipWith, h1, h2]
  simp only [Option.some.injEq]
  rw [Fin.sum_univ_def]

/-- The hypotheses of `C50_overall` are met: -/
example := C50_overall (K := ℚ) (n := 2) id [![1, 2], ![3, 4]] [[1], [2, 3]] 1 ![3, 4] [2, 3] rfl rfl

/-- With multiple assignment (the default) every target gets the sum over its sector, the errors are those of these
sums, and the data are not changed: every later evaluation gives the same values. -/
theorem C50_multi_partial (lp : K → K) (dims : ℕ) (sectors : List (List (Fin n))) (data : List (Fin n → K))
    (target : List (List K)) :
    specificLevelError lp true dims sectors data target =
      .ok (List.zipWith (List.zipWith fun a b => lp a - lp b) (data.map fun row => sectors.map fun s => (s.map row).sum) target, data) ∧
    inverseLevelError lp true dims sectors data =
      .ok (data.map fun row => lp (sectors.map fun s => (s.map row).sum).sum - lp ((List.finRange n).map row).sum, data) := by
  unfold specificLevelError inverseLevelError
  rw [integrateSectors_multi]
  refine ⟨rfl, ?_⟩
  simp only
  congr 2
  rw [List.zipWith_map_left]
  induction data with
  | nil => rfl
  | cons row l ih => simp

/-- The values assigned if no value may be assigned twice: every target gets the points of its sector that are in no
earlier sector. -/
def firstAssignment (row : Fin n → K) : List (Fin n) → List (List (Fin n)) → List K
  | _, [] => []
  | used, s :: l => ((s.filter fun i => decide (i ∉ used)).map row).sum :: firstAssignment row (used ++ s) l

private theorem integrateRow_single (sectors : List (List (Fin n))) (row : Fin n → K) (used : List (Fin n)) :
    integrateRow false 1 sectors (fun i => if i ∈ used then 0 else row i) =
      .ok (firstAssignment row used sectors, fun i => if i ∈ used ++ sectors.flatten then 0 else row i) := by
  induction sectors generalizing used with
  | nil => simp [integrateRow, firstAssignment]
  | cons s l ih =>
    rw [integrateRow]
    have e : (fun i => if i ∈ s then (0 : K) else (fun i => if i ∈ used then 0 else row i) i) =
        fun i => if i ∈ used ++ s then 0 else row i := by
      funext i
      by_cases h1 : i ∈ s <;> by_cases h2 : i ∈ used <;> simp [h1, h2]
    rw [e]
    have hs : (s.map fun i => if i ∈ used then (0 : K) else row i).sum = ((s.filter fun i => decide (i ∉ used)).map row).sum := by
      clear ih e
      induction s with
      | nil => rfl
      | cons a s ihs =>
        by_cases h : a ∈ used
        · rw [List.map_cons, List.sum_cons, if_pos h, zero_add, ihs, List.filter_cons_of_neg (by simpa using h)]
        · rw [List.map_cons, List.sum_cons, if_neg h, ihs, List.filter_cons_of_pos (by simpa using h), List.map_cons,
            List.sum_cons]
    simp only [Bool.false_eq_true, ne_eq, not_true_eq_false, if_false]
    have ih' := ih (used ++ s)
    rw [List.append_assoc] at ih'
    rw [hs, List.flatten_cons, ih']
    rfl

private theorem integrateSectors_single (sectors : List (List (Fin n))) (data : List (Fin n → K)) :
    integrateSectors false 1 sectors data = .ok (data.map fun row => firstAssignment row [] sectors,
      data.map fun row i => if i ∈ sectors.flatten then 0 else row i) := by
  induction data with
  | nil => rfl
  | cons row l ih =>
    have := integrateRow_single sectors row []
    simp only [List.not_mem_nil, if_false, List.nil_append] at this
    rw [integrateSectors, this, ih]
    rfl

/-- Without multiple assignment on a grid with one-dimensional shape: the first evaluation gives every target the points
of its sector that are in no earlier sector ... -/
theorem C50_single_first (lp : K → K) (sectors : List (List (Fin n))) (data : List (Fin n → K)) (target : List (List K)) :
    ∃ data', specificLevelError lp false 1 sectors data target =
      .ok (List.zipWith (List.zipWith fun a b => lp a - lp b) (data.map fun row => firstAssignment row [] sectors) target, data') := by
  unfold specificLevelError
  rw [integrateSectors_single]
  exact ⟨_, rfl⟩

private theorem firstAssignment_zero (sectors : List (List (Fin n))) (row : Fin n → K) (used : List (Fin n))
    (h : ∀ s ∈ sectors, ∀ i ∈ s, row i = 0) : firstAssignment row used sectors = sectors.map fun _ => 0 := by
  induction sectors generalizing used with
  | nil => rfl
  | cons s l ih =>
    rw [firstAssignment, List.map_cons, ih _ fun s' hs' => h s' (List.mem_cons_of_mem _ hs')]
    congr 1
    apply List.sum_eq_zero
    intro x hx
    rw [List.mem_map] at hx
    obtain ⟨i, hi, rfl⟩ := hx
    exact h s (by simp) i (List.mem_filter.1 hi).1

/-- ... but sets the data handed in to zero there, so that every later evaluation uses zero for all targets: the errors
differ from the first ones whenever the levels do. -/
theorem C50_single_repeat_violated (lp : K → K) (sectors : List (List (Fin n))) (data : List (Fin n → K))
    (target : List (List K)) :
    ∃ e1 data', specificLevelError lp false 1 sectors data target = .ok (e1, data') ∧
      data' = (data.map fun row i => if i ∈ sectors.flatten then 0 else row i) ∧
      ∃ e2 data'', specificLevelError lp false 1 sectors data' target = .ok (e2, data'') ∧
        e2 = List.zipWith (List.zipWith fun a b => lp a - lp b) (data.map fun _ => sectors.map fun _ => 0) target := by
  refine ⟨List.zipWith (List.zipWith fun a b => lp a - lp b) (data.map fun row => firstAssignment row [] sectors) target,
    data.map fun row i => if i ∈ sectors.flatten then 0 else row i, ?_, rfl, ?_⟩
  · unfold specificLevelError; rw [integrateSectors_single]
  · unfold specificLevelError
    rw [integrateSectors_single]
    refine ⟨_, _, rfl, ?_⟩
    congr 1
    rw [List.map_map]
    apply List.map_congr_left
    intro row _
    apply firstAssignment_zero
    intro s hs i hi
    exact if_pos (List.mem_flatten.2 ⟨s, hs, hi⟩)

/-- The inverse level error without multiple assignment compares with the part of the map *outside* all sectors, already
in the first evaluation. -/
theorem C50_inverse_violated (lp : K → K) (sectors : List (List (Fin n))) (data : List (Fin n → K)) :
    ∃ data', inverseLevelError lp false 1 sectors data = .ok (data.map fun row =>
      lp (firstAssignment row [] sectors).sum - lp ((List.finRange n).map fun i => if i ∈ sectors.flatten then 0 else row i).sum,
      data') := by
  unfold inverseLevelError
  rw [integrateSectors_single]
  refine ⟨data.map fun row i => if i ∈ sectors.flatten then 0 else row i, ?_⟩
  simp only
  congr 2
  rw [List.zipWith_map_left, List.zipWith_map_right]
  induction data with
  | nil => rfl
  | cons row l ih => simp

/-- On grids with a shape of two or three dimensions (`RectGrid`, `RectGrid3D`) evaluation without multiple assignment
raises IndexError as soon as there is a frequency and a target. -/
theorem C50_rect_grid_violated (lp : K → K) (dims : ℕ) (hd : dims ≠ 1) (s : List (Fin n)) (sectors : List (List (Fin n)))
    (row : Fin n → K) (data : List (Fin n → K)) (target : List (List K)) :
    specificLevelError lp false dims (s :: sectors) (row :: data) target = .error .indexError := by
  simp [specificLevelError, integrateSectors, integrateRow, hd]

-- A map of three points, two targets sharing a point.
example : specificLevelError (K := ℚ) (n := 3) id false 1 [[0, 1], [1, 2]] [fun _ => 1] [[2, 2]] =
    .ok ([[0, -1]], [fun i => if i ∈ [(0 : Fin 3), 1, 1, 2] then 0 else 1]) := by
  unfold specificLevelError
  rw [integrateSectors_single]
  simp [firstAssignment]
  norm_num

end

/-! ### Adaptive sectors -/

private theorem radius_le (r : ℝ) (l : List ℝ) : l.foldr (fun d acc => min acc (d / 2)) r ≤ r := by
  induction l with
  | nil => exact le_refl _
  | cons d l ih => exact (min_le_left _ _).trans ih

private theorem radius_le_half (r : ℝ) (l : List ℝ) (d : ℝ) (hd : d ∈ l) : l.foldr (fun d acc => min acc (d / 2)) r ≤ d / 2 := by
  induction l with
  | nil => simp at hd
  | cons e l ih =>
    rcases List.mem_cons.1 hd with rfl | h
    · exact min_le_right _ _
    · exact (min_le_left _ _).trans (ih h)

/-- Every radius is at most the configured one; without adaption it is the configured one. -/
theorem C51_radius (adaptive : Bool) (r : ℝ) (pos : List (ℝ × ℝ × ℝ)) (i : ℕ) (hi : i < pos.length) :
    ∃ ρ, (sectorRadii adaptive r pos)[i]? = some ρ ∧ ρ ≤ r ∧ (adaptive = false → ρ = r) := by
  unfold sectorRadii
  rw [List.getElem?_map, List.getElem?_eq_getElem hi]
  refine ⟨_, rfl, ?_, ?_⟩
  · split
    · exact radius_le _ _
    · exact le_refl _
  · intro h; simp [h]

/-- The hypotheses of `C51_radius` are met: -/
example := C51_radius true 1 [(0, 0, 1), (1, 0, 1)] 1 (by decide)

private theorem circles (a1 a2 b1 b2 ra rb d : ℝ) (hd : 0 ≤ d) (hra : 0 ≤ ra) (hrb : 0 ≤ rb) (hle : ra + rb ≤ d)
    (h1 : a1 ^ 2 + a2 ^ 2 < ra ^ 2) (h2 : b1 ^ 2 + b2 ^ 2 < rb ^ 2) (h3 : d ^ 2 = (a1 - b1) ^ 2 + (a2 - b2) ^ 2) : False := by
  have hcs : (a1 * b1 + a2 * b2) ^ 2 ≤ (a1 ^ 2 + a2 ^ 2) * (b1 ^ 2 + b2 ^ 2) := by nlinarith [sq_nonneg (a1 * b2 - a2 * b1)]
  have hA : 0 ≤ a1 ^ 2 + a2 ^ 2 := by positivity
  have hB : 0 ≤ b1 ^ 2 + b2 ^ 2 := by positivity
  have hprod : (a1 ^ 2 + a2 ^ 2) * (b1 ^ 2 + b2 ^ 2) ≤ ra ^ 2 * rb ^ 2 := by
    apply mul_le_mul h1.le h2.le hB (by positivity)
  have habs : -(a1 * b1 + a2 * b2) ≤ ra * rb := by
    by_contra hc
    push Not at hc
    have : (ra * rb) ^ 2 < (a1 * b1 + a2 * b2) ^ 2 := by nlinarith [mul_nonneg hra hrb]
    nlinarith
  have hdd : (ra + rb) ^ 2 ≤ d ^ 2 := by nlinarith
  nlinarith

/-- Targets in one plane `z = const` at distinct positions: the interiors of their sectors (disks with the adapted
radii around the target positions) are disjoint. -/
theorem C51_disjoint_partial (r : ℝ) (hr : 0 ≤ r) (pos : List (ℝ × ℝ × ℝ)) (i j : ℕ) (p q : ℝ × ℝ × ℝ)
    (hi : pos[i]? = some p) (hj : pos[j]? = some q) (hne : p ≠ q) (hz : p.2.2 = q.2.2) (ρi ρj : ℝ)
    (h1 : (sectorRadii true r pos)[i]? = some ρi) (h2 : (sectorRadii true r pos)[j]? = some ρj) (x y : ℝ) :
    ¬ ((x - p.1) ^ 2 + (y - p.2.1) ^ 2 < ρi ^ 2 ∧ (x - q.1) ^ 2 + (y - q.2.1) ^ 2 < ρj ^ 2) := by
  rintro ⟨hx1, hx2⟩
  have hdist : cdist p q ≠ 0 := by
    intro h
    unfold cdist at h
    rw [Real.sqrt_eq_zero (by positivity)] at h
    apply hne
    have e1 : (p.1 - q.1) ^ 2 = 0 := by nlinarith [sq_nonneg (p.1 - q.1), sq_nonneg (p.2.1 - q.2.1), sq_nonneg (p.2.2 - q.2.2)]
    have e2 : (p.2.1 - q.2.1) ^ 2 = 0 := by nlinarith [sq_nonneg (p.1 - q.1), sq_nonneg (p.2.1 - q.2.1), sq_nonneg (p.2.2 - q.2.2)]
    have e1' := pow_eq_zero_iff (two_ne_zero) |>.1 e1
    have e2' := pow_eq_zero_iff (two_ne_zero) |>.1 e2
    exact Prod.ext (by linarith) (Prod.ext (by linarith) hz)
  have hsymm : cdist q p = cdist p q := by unfold cdist; congr 1; ring
  have hrad : ∀ (k : ℕ) (a b : ℝ × ℝ × ℝ) (ρ : ℝ), pos[k]? = some a → b ∈ pos → cdist a b ≠ 0 →
      (sectorRadii true r pos)[k]? = some ρ → ρ ≤ cdist a b / 2 ∧ 0 ≤ ρ := by
    intro k a b ρ ha hb hab hρ
    unfold sectorRadii at hρ
    rw [List.getElem?_map, ha] at hρ
    simp only [Option.map_some, if_true, Option.some.injEq] at hρ
    rw [← hρ]
    constructor
    · apply radius_le_half
      rw [List.mem_filter]
      exact ⟨List.mem_map.2 ⟨b, hb, rfl⟩, by simpa using hab⟩
    · have hall : ∀ d ∈ ((pos.map fun q => cdist a q).filter fun d => decide (d ≠ 0)), 0 ≤ d := by
        intro d hd
        rw [List.mem_filter, List.mem_map] at hd
        obtain ⟨⟨c, -, rfl⟩, -⟩ := hd
        exact Real.sqrt_nonneg _
      revert hall
      generalize ((pos.map fun q => cdist a q).filter fun d => decide (d ≠ 0)) = l
      intro hall
      induction l with
      | nil => exact hr
      | cons d l ih =>
        rw [List.foldr_cons]
        apply le_min
        · exact ih fun e he => hall e (List.mem_cons_of_mem _ he)
        · have := hall d (by simp)
          positivity
  obtain ⟨a1, a2⟩ := hrad i p q ρi hi (List.mem_of_getElem? hj) hdist h1
  obtain ⟨b1, b2⟩ := hrad j q p ρj hj (List.mem_of_getElem? hi) (by rw [hsymm]; exact hdist) h2
  rw [hsymm] at b1
  refine circles (x - p.1) (y - p.2.1) (x - q.1) (y - q.2.1) ρi ρj (cdist p q) (Real.sqrt_nonneg _) a2 b2 (by linarith) hx1 hx2 ?_
  unfold cdist
  rw [Real.sq_sqrt (by positivity), hz]
  ring

-- two targets at distance 1
example : ((0 : ℝ), (0 : ℝ), (1 : ℝ)) ≠ (1, 0, 1) := by simp

/-- Targets above each other: the distance is taken in space, the sectors are disks in the x-y-plane: they coincide. -/
theorem C51_depth_violated (r h : ℝ) (hr : 0 < r) (hh : 0 < h) :
    let pos : List (ℝ × ℝ × ℝ) := [(0, 0, 0), (0, 0, h)]
    ∃ ρi ρj, (sectorRadii true r pos)[0]? = some ρi ∧ (sectorRadii true r pos)[1]? = some ρj ∧
      ((0 : ℝ) - 0) ^ 2 + ((0 : ℝ) - 0) ^ 2 < ρi ^ 2 ∧ ((0 : ℝ) - 0) ^ 2 + ((0 : ℝ) - 0) ^ 2 < ρj ^ 2 := by
  have e1 : cdist ((0 : ℝ), (0 : ℝ), (0 : ℝ)) (0, 0, h) = h := by
    unfold cdist; simp only [sub_self, zero_sub]; rw [show (0 : ℝ) ^ 2 + 0 ^ 2 + (-h) ^ 2 = h ^ 2 by ring, Real.sqrt_sq hh.le]
  have e2 : cdist ((0 : ℝ), (0 : ℝ), h) (0, 0, 0) = h := by
    unfold cdist; simp only [sub_self, sub_zero]; rw [show (0 : ℝ) ^ 2 + 0 ^ 2 + h ^ 2 = h ^ 2 by ring, Real.sqrt_sq hh.le]
  have e0 : ∀ p : ℝ × ℝ × ℝ, cdist p p = 0 := by
    intro p; unfold cdist; simp
  have hm : 0 < min r (h / 2) := lt_min hr (by linarith)
  refine ⟨min r (h / 2), min r (h / 2), ?_, ?_, ?_, ?_⟩
  · simp [sectorRadii, e0, e1, hh.ne']
  · simp [sectorRadii, e0, e2, hh.ne']
  · have := pow_pos hm 2; simpa using this
  · have := pow_pos hm 2; simpa using this

/-- Grid points between two touching sectors belong to both because of the tolerance of `CircSector`
(`include_border`, `abs_tol`): the point in the middle between two targets is integrated twice. -/
theorem C51_shared_point_violated (o : SectorOpts ℝ) (hb : o.border = true) (ht : 0 < o.tol) (d : ℝ) :
    circContains o 0 0 (d / 2) [(d / 2, 0, 0)] = .ok [true] ∧ circContains o d 0 (d / 2) [(d / 2, 0, 0)] = .ok [true] := by
  constructor
  · simp [circContains, withNearest, hb, ht, not_le.2 ht]
  · simp [circContains, withNearest, hb]
    ring_nf
    simp [ht, not_le.2 ht]

end Acoular
