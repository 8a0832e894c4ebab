import Verif.Model.MetricShapes
import Verif.Props.Metrics
import Verif.Props.Level
import Mathlib.Algebra.Order.BigOperators.Group.Finset

/-!
# C169: what the error metrics say
-/

namespace Acoular

open Finset

variable {n : ℕ}

namespace Spec

/-- The shapes agree. -/
structure ShapesFit (x : MetricInput n) : Prop where
  freqs : x.data.length = x.target.length
  grid : n = x.gridSize
  targets : x.numTargets = x.targetSize

end Spec

open Spec

private theorem check_ok {x : MetricInput n} (h : ShapesFit x) : x.check = .ok () := by
  unfold MetricInput.check
  rw [if_neg (not_not.2 h.freqs), if_neg (not_not.2 h.grid), if_neg (not_not.2 h.targets)]

/-- **C169: shapes that do not agree** are refused by all three errors. -/
theorem C169_refused (x : MetricInput n) (h : ¬ ShapesFit x) (dims : ℕ) (sectors : List (List (Fin n))) :
    x.overall = .error .valueError ∧ x.specific dims sectors = .error .valueError ∧ x.inverse dims sectors = .error .valueError := by
  have hc : x.check = .error .valueError := by
    unfold MetricInput.check
    by_cases h1 : x.data.length = x.target.length
    · by_cases h2 : n = x.gridSize
      · by_cases h3 : x.numTargets = x.targetSize
        · exact absurd ⟨h1, h2, h3⟩ h
        · rw [if_neg (not_not.2 h1), if_neg (not_not.2 h2), if_pos h3]
      · rw [if_neg (not_not.2 h1), if_pos h2]
    · rw [if_pos h1]
  unfold MetricInput.overall MetricInput.specific MetricInput.inverse
  rw [hc]
  exact ⟨rfl, rfl, rfl⟩

/-- The hypothesis of `C169_refused` is met. -/
example : ¬ ShapesFit (⟨[fun _ => 1], [], 0, 3, 0⟩ : MetricInput 3) := fun h => by cases h.freqs

/-- **C169: meaning.** The overall error compares the levels of the whole map and of all targets; the specific error those of a sector and
of its target; the inverse error those of all sectors together and of the whole map. -/
theorem C169_meaning (x : MetricInput n) (h : ShapesFit x) (dims : ℕ) (sectors : List (List (Fin n))) (f : ℕ) (row : Fin n → ℝ) (t : List ℝ)
    (hrow : x.data[f]? = some row) (ht : x.target[f]? = some t) :
    ∃ o s i, x.overall = .ok o ∧ x.specific dims sectors = .ok s ∧ x.inverse dims sectors = .ok i ∧
      o[f]? = some (levelDb (∑ p, row p) - levelDb t.sum) ∧
      i[f]? = some (levelDb (sectors.map fun S => (S.map row).sum).sum - levelDb (∑ p, row p)) ∧
      ∃ e, s[f]? = some e ∧ ∀ (j : ℕ) (S : List (Fin n)) (v : ℝ), sectors[j]? = some S → t[j]? = some v →
        e[j]? = some (levelDb (S.map row).sum - levelDb v) := by
  obtain ⟨hs, hi⟩ := C50_multi_partial levelDb dims sectors x.data x.target
  refine ⟨overallLevelError levelDb x.data x.target,
    List.zipWith (List.zipWith fun a b => levelDb a - levelDb b) (x.data.map fun row => sectors.map fun s => (s.map row).sum) x.target,
    x.data.map fun row => levelDb (sectors.map fun s => (s.map row).sum).sum - levelDb ((List.finRange n).map row).sum, ?_, ?_, ?_, ?_, ?_, ?_⟩
  · rw [MetricInput.overall, check_ok h]; rfl
  · rw [MetricInput.specific, check_ok h, hs]; rfl
  · rw [MetricInput.inverse, check_ok h, hi]; rfl
  · exact C50_overall levelDb x.data x.target f row t hrow ht
  · rw [List.getElem?_map, hrow, Option.map_some, Fin.sum_univ_def]
  · refine ⟨List.zipWith (fun a b => levelDb a - levelDb b) (sectors.map fun s => (s.map row).sum) t, ?_, ?_⟩
    · rw [List.getElem?_zipWith, List.getElem?_map, hrow, ht]
      rfl
    · intro j S v hS hv
      rw [List.getElem?_zipWith, List.getElem?_map, hS, hv]
      rfl

/-- The hypotheses of `C169_meaning` are met. -/
example : ShapesFit (⟨[fun _ => 1], [[1, 2]], 2, 3, 2⟩ : MetricInput 3) := ⟨rfl, rfl, rfl⟩

/-- **C169: perfect reconstruction** has no errors: sources at distinct grid points, each in its own sector only. -/
theorem C169_perfect {k : ℕ} (q : Fin k → Fin n) (ts : List (Fin k → ℝ)) (S : Fin k → List (Fin n)) (hnd : ∀ j, (S j).Nodup)
    (hown : ∀ j l, q l ∈ S j ↔ l = j) (dims : ℕ) :
    let x : MetricInput n := ⟨ts.map fun t p => ∑ j, if q j = p then t j else 0, ts.map List.ofFn, k, n, k⟩
    x.overall = .ok (ts.map fun _ => 0) ∧ x.specific dims (List.ofFn S) = .ok (ts.map fun _ => List.replicate k 0) ∧
      x.inverse dims (List.ofFn S) = .ok (ts.map fun _ => 0) := by
  intro x
  have hx : ShapesFit x := ⟨by simp [x], rfl, rfl⟩
  have htot : ∀ t : Fin k → ℝ, (∑ p : Fin n, ∑ j, if q j = p then t j else 0) = ∑ j, t j := by
    intro t
    rw [sum_comm]
    exact sum_congr rfl fun j _ => by rw [sum_ite_eq univ (q j) fun _ => t j, if_pos (mem_univ _)]
  have hsec : ∀ (t : Fin k → ℝ) (j : Fin k), ((S j).map fun p => ∑ l, if q l = p then t l else 0).sum = t j := by
    intro t j
    rw [← List.sum_toFinset _ (hnd j), sum_comm]
    rw [sum_eq_single j]
    · rw [sum_ite_eq (S j).toFinset (q j) fun _ => t j, if_pos (List.mem_toFinset.2 ((hown j j).2 rfl))]
    · intro l _ hl
      rw [sum_ite_eq (S j).toFinset (q l) fun _ => t l, if_neg fun h => hl ((hown j l).1 (List.mem_toFinset.1 h))]
    · intro h; exact absurd (mem_univ j) h
  have hall : ∀ t : Fin k → ℝ, (List.ofFn S).map (fun s => (s.map fun p => ∑ l, if q l = p then t l else 0).sum) = List.ofFn t := by
    intro t
    rw [List.map_ofFn]
    exact congrArg List.ofFn (funext fun j => hsec t j)
  obtain ⟨hs, hi⟩ := C50_multi_partial levelDb dims (List.ofFn S) x.data x.target
  refine ⟨?_, ?_, ?_⟩
  · rw [MetricInput.overall, check_ok hx]
    refine congrArg Except.ok ?_
    show List.zipWith _ (ts.map _) (ts.map _) = _
    rw [List.zipWith_map, List.zipWith_self]
    refine List.map_congr_left fun t _ => ?_
    rw [← Fin.sum_univ_def, htot, List.sum_ofFn, sub_self]
  · rw [MetricInput.specific, check_ok hx, hs]
    refine congrArg Except.ok ?_
    show List.zipWith _ ((ts.map _).map _) (ts.map _) = _
    rw [List.map_map, List.zipWith_map, List.zipWith_self]
    refine List.map_congr_left fun t _ => ?_
    rw [Function.comp_apply, hall, List.zipWith_self, List.eq_replicate_iff]
    refine ⟨by simp, fun b hb => ?_⟩
    obtain ⟨v, _, rfl⟩ := List.mem_map.1 hb
    exact sub_self _
  · rw [MetricInput.inverse, check_ok hx, hi]
    refine congrArg Except.ok ?_
    show (ts.map _).map _ = _
    rw [List.map_map]
    refine List.map_congr_left fun t _ => ?_
    rw [Function.comp_apply, hall, ← Fin.sum_univ_def, htot, List.sum_ofFn, sub_self]

/-- The hypotheses of `C169_perfect` are met: two sources on a line of four points. -/
example : (∀ j, ((![[0, 1], [2, 3]] : Fin 2 → List (Fin 4)) j).Nodup) ∧
    ∀ j l, (![0, 3] : Fin 2 → Fin 4) l ∈ (![[0, 1], [2, 3]] : Fin 2 → List (Fin 4)) j ↔ l = j := by decide

/-- **C169: a map that is too loud by `g` dB** everywhere has overall and specific errors larger by `g` and the same inverse error. -/
theorem C169_gain (g : ℝ) (row : Fin n → ℝ) (S : List (Fin n)) (sectors : List (List (Fin n)))
    (h1 : 4e-45 ≤ ∑ p, row p) (h1' : 4e-45 ≤ (10 : ℝ) ^ (g / 10) * ∑ p, row p)
    (h2 : 4e-45 ≤ (S.map row).sum) (h2' : 4e-45 ≤ (10 : ℝ) ^ (g / 10) * (S.map row).sum)
    (h3 : 4e-45 ≤ (sectors.map fun S => (S.map row).sum).sum) (h3' : 4e-45 ≤ (10 : ℝ) ^ (g / 10) * (sectors.map fun S => (S.map row).sum).sum)
    (x y : MetricInput n) (hx : ShapesFit x) (hy : ShapesFit y) (dims f j : ℕ) (t : List ℝ) (v : ℝ)
    (e1 : x.data[f]? = some row) (e2 : y.data[f]? = some fun p => (10 : ℝ) ^ (g / 10) * row p)
    (e3 : x.target[f]? = some t) (e4 : y.target[f]? = some t) (e5 : sectors[j]? = some S) (e6 : t[j]? = some v) :
    ∃ o o' s s' i i', x.overall = .ok o ∧ y.overall = .ok o' ∧ x.specific dims sectors = .ok s ∧ y.specific dims sectors = .ok s' ∧
      x.inverse dims sectors = .ok i ∧ y.inverse dims sectors = .ok i' ∧
      ∃ a b c l l', o[f]? = some a ∧ o'[f]? = some (a + g) ∧ s[f]? = some l ∧ s'[f]? = some l' ∧ l[j]? = some b ∧ l'[j]? = some (b + g) ∧
        i[f]? = some c ∧ i'[f]? = some c := by
  have hS : ∀ S : List (Fin n), (S.map fun p => (10 : ℝ) ^ (g / 10) * row p).sum = (10 : ℝ) ^ (g / 10) * (S.map row).sum := by
    intro S
    induction S with
    | nil => simp
    | cons p S ih => rw [List.map_cons, List.sum_cons, ih, List.map_cons, List.sum_cons, mul_add]
  have hSS : (sectors.map fun S => (S.map fun p => (10 : ℝ) ^ (g / 10) * row p).sum).sum =
      (10 : ℝ) ^ (g / 10) * (sectors.map fun S => (S.map row).sum).sum := by
    clear h3 h3' e5
    induction sectors with
    | nil => simp
    | cons p S ih => rw [List.map_cons, List.sum_cons, ih, List.map_cons, List.sum_cons, mul_add, hS]
  obtain ⟨o, s, i, a1, a2, a3, a4, a5, l, a6, a7⟩ := C169_meaning x hx dims sectors f row t e1 e3
  obtain ⟨o', s', i', b1, b2, b3, b4, b5, l', b6, b7⟩ := C169_meaning y hy dims sectors f _ t e2 e4
  refine ⟨o, o', s, s', i, i', a1, b1, a2, b2, a3, b3, _, _, _, l, l', a4, ?_, a6, b6, a7 j S v e5 e6, ?_, a5, ?_⟩
  · rw [b4, ← mul_sum, C110_gain _ g h1 h1']
    congr 1
    ring
  · rw [b7 j S v e5 e6, hS, C110_gain _ g h2 h2']
    congr 1
    ring
  · rw [b5, hSS, ← mul_sum, C110_gain _ g h1 h1', C110_gain _ g h3 h3']
    congr 1
    ring

/-- The hypotheses of `C169_gain` are met: one source, 0 dB. -/
example : (4e-45 : ℝ) ≤ ∑ p : Fin 2, (![1, 0] : Fin 2 → ℝ) p ∧ (4e-45 : ℝ) ≤ ([(0 : Fin 2)].map (![1, 0] : Fin 2 → ℝ)).sum ∧
    (4e-45 : ℝ) ≤ (10 : ℝ) ^ ((0 : ℝ) / 10) * 1 := by
  refine ⟨?_, ?_, ?_⟩ <;> simp <;> norm_num

/-- **C169: sectors that do not overlap** cannot contain more than the map: the inverse error is not positive (powers not negative). -/
theorem C169_inverse_partial (x : MetricInput n) (h : ShapesFit x) (dims : ℕ) (sectors : List (List (Fin n))) (hd : sectors.flatten.Nodup)
    (f : ℕ) (row : Fin n → ℝ) (hrow : x.data[f]? = some row) (hpos : ∀ p, 0 ≤ row p) :
    ∃ i c, x.inverse dims sectors = .ok i ∧ i[f]? = some c ∧ c ≤ 0 := by
  obtain ⟨t, ht⟩ : ∃ t, x.target[f]? = some t := by
    have hf : f < x.target.length := by
      rw [← h.freqs]
      exact (List.getElem?_eq_some_iff.1 hrow).1
    exact ⟨_, List.getElem?_eq_getElem hf⟩
  obtain ⟨o, s, i, -, -, a3, -, a5, -⟩ := C169_meaning x h dims sectors f row t hrow ht
  refine ⟨i, _, a3, a5, sub_nonpos.2 (C110_order.2.1 ?_)⟩
  have e : (sectors.map fun S => (S.map row).sum).sum = (sectors.flatten.map row).sum := by
    clear hd a3 a5
    induction sectors with
    | nil => rfl
    | cons S l ih => rw [List.map_cons, List.sum_cons, ih, List.flatten_cons, List.map_append, List.sum_append]
  rw [e, ← List.sum_toFinset _ hd]
  exact sum_le_sum_of_subset_of_nonneg (subset_univ _) fun p _ _ => hpos p

/-- The hypotheses of `C169_inverse_partial` are met. -/
example : ([[0, 1], [2]] : List (List (Fin 4))).flatten.Nodup := by decide

/-- **C169 fails for sectors that overlap**: the power of a common point counts for both targets, and the sectors together contain more than
the map. One source midway between two targets: 3 dB too much. -/
theorem C169_overlap_violated (p : ℝ) (hp : 4e-45 ≤ p) (dims : ℕ) :
    let x : MetricInput 3 := ⟨[![0, p, 0]], [[p, p]], 2, 3, 2⟩
    ShapesFit x ∧ x.inverse dims [[0, 1], [1, 2]] = .ok [levelDb (2 * p) - levelDb p] ∧ 0 < levelDb (2 * p) - levelDb p := by
  intro x
  have hx : ShapesFit x := ⟨rfl, rfl, rfl⟩
  refine ⟨hx, ?_, ?_⟩
  · rw [MetricInput.inverse, check_ok hx, (C50_multi_partial levelDb dims [[0, 1], [1, 2]] x.data x.target).2]
    refine congrArg Except.ok ?_
    simp [x, List.finRange_succ, two_mul]
  · have h0 : (0 : ℝ) < 4e-45 := by norm_num
    refine sub_pos.2 (C110_order.2.2 hp ?_ ?_)
    · show 4e-45 ≤ 2 * p
      linarith
    · linarith

/-- The hypothesis of `C169_overlap_violated` is met. -/
example : (4e-45 : ℝ) ≤ 1 := by norm_num

/-- **C169: the errors belong together.** Overall and inverse error add up to the error of all sectors against all targets. -/
theorem C169_sum (x : MetricInput n) (h : ShapesFit x) (dims : ℕ) (sectors : List (List (Fin n))) (f : ℕ) (row : Fin n → ℝ) (t : List ℝ)
    (hrow : x.data[f]? = some row) (ht : x.target[f]? = some t) :
    ∃ o i a c, x.overall = .ok o ∧ x.inverse dims sectors = .ok i ∧ o[f]? = some a ∧ i[f]? = some c ∧
      a + c = levelDb (sectors.map fun S => (S.map row).sum).sum - levelDb t.sum := by
  obtain ⟨o, s, i, a1, a2, a3, a4, a5, -⟩ := C169_meaning x h dims sectors f row t hrow ht
  exact ⟨o, i, _, _, a1, a3, a4, a5, by ring⟩

end Acoular
