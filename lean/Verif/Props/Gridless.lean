import Verif.Model.Gridless
import Mathlib.Tactic.Ring
import Mathlib.Tactic.Linarith

/-!
# Property theorems: gridless orthogonal beamforming (C46)
-/

namespace Acoular

set_option linter.unusedSectionVars false

variable {P V : Type*}

/-- The arrays have the sizes `F` (frequencies) and `S` (slots). -/
structure GridlessWF (F S : ℕ) (s : GridlessState P V) : Prop where
  gpos : s.gpos.length = S
  ac : s.ac.length = F
  row : ∀ r ∈ s.ac, r.length = S
  fr : s.fr.length = F

/-- The entry `_ac[r, k]`. -/
def GridlessState.level (s : GridlessState P V) (r k : ℕ) : Option V := s.ac[r]?.bind (·[k]?)

theorem gridlessWF_zeros (F S : ℕ) (p0 : P) (v0 : V) : GridlessWF F S (GridlessState.zeros F S p0 v0) := by
  refine ⟨by simp [GridlessState.zeros], by simp [GridlessState.zeros], ?_, by simp [GridlessState.zeros]⟩
  intro r hr
  simp only [GridlessState.zeros] at hr
  rw [List.eq_of_mem_replicate hr, List.length_replicate]

theorem gridlessStore_ok (pos : ℕ → ℕ → P) (lev : ℕ → ℕ → V) (n i j m F S : ℕ) (s : GridlessState P V) (h : GridlessWF F S s)
    (hi : i < F) (hS : i * n + j < S) :
    ∃ s', gridlessStore pos lev n i j m s = .ok s' ∧ GridlessWF F S s' ∧ s'.fr = s.fr ∧
      (∀ k, s'.gpos[k]? = if k = i * n + j then some (pos i m) else s.gpos[k]?) ∧
      (∀ r k, s'.level r k = if r = i ∧ k = i * n + j then some (lev i m) else s.level r k) := by
  have hiac : i < s.ac.length := by rw [h.ac]; exact hi
  have hrow : (s.ac.getD i []).length = S := by
    rw [List.getD_eq_getElem?_getD, List.getElem?_eq_getElem hiac]
    exact h.row _ (List.getElem_mem hiac)
  refine ⟨⟨s.gpos.set (i * n + j) (pos i m), s.ac.set i ((s.ac.getD i []).set (i * n + j) (lev i m)), s.fr⟩, ?_, ?_, rfl, ?_, ?_⟩
  · unfold gridlessStore
    simp only
    rw [if_neg (by rw [h.gpos]; omega)]
  · refine ⟨by simp [h.gpos], by simp [h.ac], ?_, h.fr⟩
    intro r hr
    rcases List.mem_or_eq_of_mem_set hr with h' | h'
    · exact h.row r h'
    · rw [h', List.length_set, hrow]
  · intro k
    simp only [List.getElem?_set]
    by_cases hk : k = i * n + j
    · subst hk; simp [h.gpos, hS]
    · rw [if_neg (fun h => hk h.symm), if_neg hk]
  · intro r k
    unfold GridlessState.level
    simp only [List.getElem?_set]
    by_cases hr : r = i
    · subst hr
      rw [if_pos rfl, if_pos hiac, Option.bind_some, List.getElem?_set, hrow]
      by_cases hk : k = r * n + j
      · subst hk; simp [hS]
      · rw [if_neg (fun h => hk h.symm), if_neg (fun h => hk h.2), List.getD_eq_getElem?_getD, List.getElem?_eq_getElem hiac]
        rfl
    · rw [if_neg (fun h => hr h.symm), if_neg (fun h => hr h.1)]

theorem gridlessFreq_ok (pos : ℕ → ℕ → P) (lev : ℕ → ℕ → V) (n i F S : ℕ) (hi : i < F) (evas : List ℕ) :
    ∀ (j : ℕ) (s : GridlessState P V), GridlessWF F S s → i * n + j + evas.length ≤ S →
    ∃ s', gridlessFreq pos lev n i j evas s = .ok s' ∧ GridlessWF F S s' ∧ s'.fr = s.fr ∧
      (∀ k, s'.gpos[k]? = if i * n + j ≤ k ∧ k < i * n + j + evas.length then evas[k - (i * n + j)]?.map (pos i) else s.gpos[k]?) ∧
      (∀ r k, s'.level r k = if r = i ∧ i * n + j ≤ k ∧ k < i * n + j + evas.length then evas[k - (i * n + j)]?.map (lev i)
        else s.level r k) := by
  induction evas with
  | nil =>
    intro j s h _
    refine ⟨s, rfl, h, rfl, ?_, ?_⟩
    · intro k; rw [if_neg (by simp)]
    · intro r k; rw [if_neg (by simp)]
  | cons m l ih =>
    intro j s h hS
    rw [List.length_cons] at hS
    obtain ⟨s1, e1, w1, f1, g1, a1⟩ := gridlessStore_ok pos lev n i j m F S s h hi (by omega)
    obtain ⟨s2, e2, w2, f2, g2, a2⟩ := ih (j + 1) s1 w1 (by omega)
    refine ⟨s2, ?_, w2, f2.trans f1, ?_, ?_⟩
    · rw [gridlessFreq, e1]; exact e2
    · intro k
      rw [g2, g1, List.length_cons]
      by_cases h1 : k = i * n + j
      · rw [if_neg (by omega), if_pos h1, if_pos (by omega), h1, Nat.sub_self]; rfl
      · by_cases h2 : i * n + (j + 1) ≤ k ∧ k < i * n + (j + 1) + l.length
        · rw [if_pos h2, if_pos (by omega), show k - (i * n + j) = (k - (i * n + (j + 1))) + 1 by omega, List.getElem?_cons_succ]
        · rw [if_neg h2, if_neg h1, if_neg (by omega)]
    · intro r k
      rw [a2, a1, List.length_cons]
      by_cases hr : r = i
      · simp only [hr, true_and]
        by_cases h1 : k = i * n + j
        · rw [if_neg (by omega), if_pos h1, if_pos (by omega), h1, Nat.sub_self]; rfl
        · by_cases h2 : i * n + (j + 1) ≤ k ∧ k < i * n + (j + 1) + l.length
          · rw [if_pos h2, if_pos (by omega), show k - (i * n + j) = (k - (i * n + (j + 1))) + 1 by omega, List.getElem?_cons_succ]
          · rw [if_neg h2, if_neg h1, if_neg (by omega)]
      · simp only [hr, false_and, if_false]

/-- Slots of different frequencies or components differ. -/
theorem slot_inj {n i j i' j' : ℕ} (hj : j < n) (hj' : j' < n) (h : i * n + j = i' * n + j') : i = i' ∧ j = j' := by
  have hn : 0 < n := by omega
  have e : ∀ a b, b < n → (a * n + b) / n = a := by
    intro a b hb
    rw [Nat.mul_comm, Nat.mul_add_div hn, Nat.div_eq_of_lt hb, Nat.add_zero]
  have h1 : i = i' := by rw [← e i j hj, h, e i' j' hj']
  subst h1
  exact ⟨rfl, by omega⟩

/-- If the list of components is not longer than `n`, the calculation succeeds and every pair (frequency, component) has
its own slot: afterwards slot `i * n + j` holds the position found for component `evas[j]` of frequency `i`, its level is
in row `i`, and all other entries of the arrays are unchanged. -/
theorem C46_slots_partial (pos : ℕ → ℕ → P) (lev : ℕ → ℕ → V) (n F : ℕ) (evas ind : List ℕ) (s : GridlessState P V)
    (h : GridlessWF F (gridlessSize n F) s) (hind : ∀ i ∈ ind, i < F) (hlen : evas.length ≤ n) :
    ∃ s', gridlessCalc pos lev n evas ind s = .ok s' ∧ GridlessWF F (gridlessSize n F) s' ∧
      (∀ i ∈ ind, s'.fr[i]? = some true) ∧
      (∀ i ∈ ind, ∀ j m, evas[j]? = some m → s'.gpos[i * n + j]? = some (pos i m) ∧ s'.level i (i * n + j) = some (lev i m)) ∧
      (∀ k, (∀ i ∈ ind, ∀ j, j < evas.length → k ≠ i * n + j) → s'.gpos[k]? = s.gpos[k]?) ∧
      (∀ r k, (r ∈ ind → ∀ j, j < evas.length → k ≠ r * n + j) → s'.level r k = s.level r k) ∧
      (∀ r, r ∉ ind → s'.fr[r]? = s.fr[r]?) := by
  induction ind generalizing s with
  | nil => exact ⟨s, rfl, h, by simp, by simp, fun _ _ => rfl, fun _ _ _ => rfl, fun _ _ => rfl⟩
  | cons i ind ih =>
    have hi : i < F := hind i (by simp)
    have hS : i * n + 0 + evas.length ≤ gridlessSize n F := by
      unfold gridlessSize
      have := Nat.mul_le_mul_right n (show i + 1 ≤ F from hi)
      have e : (i + 1) * n = i * n + n := by ring
      have e' := Nat.mul_comm F n
      omega
    obtain ⟨s1, e1, w1, f1, g1, a1⟩ := gridlessFreq_ok pos lev n i F _ hi evas 0 s h hS
    have w1' : GridlessWF F (gridlessSize n F) (⟨s1.gpos, s1.ac, s1.fr.set i true⟩ : GridlessState P V) :=
      ⟨w1.gpos, w1.ac, w1.row, by simp [w1.fr]⟩
    obtain ⟨s2, e2, w2, f2, c2, g2, a2, n2⟩ := ih _ w1' (fun k hk => hind k (by simp [hk]))
    have hlev : ∀ r k, (⟨s1.gpos, s1.ac, s1.fr.set i true⟩ : GridlessState P V).level r k = s1.level r k := fun _ _ => rfl
    have hfr1 : s1.fr.length = F := w1.fr
    refine ⟨s2, ?_, w2, ?_, ?_, ?_, ?_, ?_⟩
    · rw [gridlessCalc, e1]; exact e2
    · intro r hr
      by_cases hr2 : r ∈ ind
      · exact f2 r hr2
      · have : r = i := by simpa [hr2] using hr
        subst this
        rw [n2 r hr2]
        simp [hfr1, hi]
    · intro r hr j m hj
      have hjl : j < evas.length := by
        by_contra hc
        rw [List.getElem?_eq_none (by omega)] at hj
        cases hj
      by_cases hr2 : r ∈ ind
      · exact c2 r hr2 j m hj
      · have : r = i := by simpa [hr2] using hr
        subst this
        have hne : ∀ i' ∈ ind, ∀ j', j' < evas.length → r * n + j ≠ i' * n + j' := by
          intro i' hi' j' hj' he
          exact hr2 ((slot_inj (by omega) (by omega) he).1 ▸ hi')
        rw [g2 _ hne, a2 _ _ (fun h => absurd h hr2), hlev, a1]
        simp only
        rw [g1, if_pos ⟨by omega, by omega⟩, if_pos ⟨trivial, by omega, by omega⟩, show r * n + j - (r * n + 0) = j by omega, hj]
        exact ⟨rfl, rfl⟩
    · intro k hk
      rw [g2 k (fun i' hi' j hj => hk i' (by simp [hi']) j hj)]
      simp only
      rw [g1, if_neg]
      rintro ⟨h1, h2⟩
      exact hk i (by simp) (k - i * n) (by omega) (by omega)
    · intro r k hk
      rw [a2 r k (fun hr => hk (by simp [hr])), hlev, a1, if_neg]
      rintro ⟨rfl, h1, h2⟩
      exact hk (by simp) (k - r * n) (by omega) (by omega)
    · intro r hr
      simp only [List.mem_cons, not_or] at hr
      rw [n2 r hr.2]
      simp only
      rw [List.getElem?_set, if_neg (fun h => hr.1 h.symm), f1]

/-- The hypotheses of `C46_slots_partial` are met: -/
example := C46_slots_partial (P := ℕ) (V := ℕ) (fun i m => i + m) (fun i m => 10 * i + m) 2 3 [4, 3] [0, 2] _ (gridlessWF_zeros 3 (gridlessSize 2 3) 0 0)
  (by decide) (by decide)

/-- Setting `n` (at most the number of microphones) selects the components `M-1, M-2, …, M-n`: the `n` largest of the
eigenvalues, which are stored in increasing order. -/
theorem C46_largest (M n : ℕ) (h : n ≤ M) : evaIndices M (evaOfN n) = (List.range n).map fun j => M - 1 - j := by
  have hmem : ∀ m : ℕ, m < M → (((m : ℤ) ∈ (evaOfN n).map (· % (M : ℤ))) ↔ M - n ≤ m) := by
    intro m hm
    have hmod : ∀ j : ℕ, j < n → (-1 - (j : ℤ)) % (M : ℤ) = (M : ℤ) - 1 - j := by
      intro j hj
      have : (-1 - (j : ℤ)) = ((M : ℤ) - 1 - j) + (M : ℤ) * (-1) := by ring
      rw [this, Int.add_mul_emod_self_left, Int.emod_eq_of_lt (by omega) (by omega)]
    simp only [evaOfN, List.map_map, List.mem_map, List.mem_range, Function.comp]
    constructor
    · rintro ⟨j, hj, e⟩
      rw [hmod j hj] at e
      omega
    · intro hge
      exact ⟨M - 1 - m, by omega, by rw [hmod _ (by omega)]; omega⟩
  unfold evaIndices
  have hfil : ((List.range M).filter fun m : ℕ => decide ((m : ℤ) ∈ (evaOfN n).map (· % (M : ℤ)))) =
      (List.range M).filter fun m : ℕ => decide (M - n ≤ m) := by
    apply List.filter_congr
    intro m hm
    rw [List.mem_range] at hm
    rw [decide_eq_decide]
    exact hmem m hm
  rw [hfil]
  have hsplit : List.range M = List.range (M - n) ++ (List.range n).map fun t => M - n + t := by
    conv_lhs => rw [show M = M - n + n by omega]
    rw [List.range_add]
  rw [hsplit, List.filter_append, List.filter_eq_nil_iff.2, List.filter_eq_self.2, List.nil_append]
  · apply List.ext_getElem?
    intro k
    by_cases hk : k < n
    · rw [List.getElem?_reverse (by simpa using hk), List.getElem?_map, List.getElem?_map, List.getElem?_range hk, List.length_map,
        List.length_range, List.getElem?_range (by omega)]
      simp only [Option.map_some]
      congr 1
      omega
    · rw [List.getElem?_eq_none (by simpa using hk), List.getElem?_eq_none (by simpa using hk)]
  · intro a ha
    simp only [List.mem_map, List.mem_range] at ha
    obtain ⟨t, ht, rfl⟩ := ha
    simp
  · intro a ha
    rw [List.mem_range] at ha
    simp
    omega

/-- The hypotheses of `C46_largest` are met: -/
example := C46_largest 5 2 (by decide)

/-- The components are always distinct, valid indices of eigenvalues, in decreasing order. -/
theorem C46_indices (M : ℕ) (evas : List ℤ) :
    (evaIndices M evas).Pairwise (· > ·) ∧
      ∀ m, m ∈ evaIndices M evas ↔ m < M ∧ ∃ e ∈ evas, e % (M : ℤ) = m := by
  constructor
  · unfold evaIndices
    rw [List.pairwise_reverse]
    exact List.Pairwise.filter _ (List.pairwise_lt_range)
  · intro m
    unfold evaIndices
    simp [List.mem_filter]

theorem gridlessFreq_err (pos : ℕ → ℕ → P) (lev : ℕ → ℕ → V) (n i : ℕ) (evas : List ℕ) :
    ∀ (j : ℕ) (s : GridlessState P V), s.gpos.length < i * n + j + evas.length → evas ≠ [] →
    gridlessFreq pos lev n i j evas s = .error .indexError := by
  induction evas with
  | nil => intro _ _ _ h; exact absurd rfl h
  | cons m l ih =>
    intro j s hS _
    rw [List.length_cons] at hS
    rw [gridlessFreq]
    unfold gridlessStore
    simp only
    by_cases hc : s.gpos.length ≤ i * n + j
    · rw [if_pos hc]
    · rw [if_neg hc]
      simp only
      apply ih
      · simp only [List.length_set]; omega
      · intro hl; rw [hl] at hS; simp at hS; omega

theorem gridlessStore_length (pos : ℕ → ℕ → P) (lev : ℕ → ℕ → V) (n i j m : ℕ) (s s' : GridlessState P V)
    (h : gridlessStore pos lev n i j m s = .ok s') : s'.gpos.length = s.gpos.length := by
  unfold gridlessStore at h
  simp only at h
  split at h
  · cases h
  · cases h; simp

theorem gridlessFreq_length (pos : ℕ → ℕ → P) (lev : ℕ → ℕ → V) (n i : ℕ) (evas : List ℕ) :
    ∀ (j : ℕ) (s s' : GridlessState P V), gridlessFreq pos lev n i j evas s = .ok s' → s'.gpos.length = s.gpos.length := by
  induction evas with
  | nil => intro j s s' h; cases h; rfl
  | cons m l ih =>
    intro j s s' h
    rw [gridlessFreq] at h
    cases h1 : gridlessStore pos lev n i j m s with
    | error e => rw [h1] at h; cases h
    | ok s1 =>
      rw [h1] at h
      rw [ih _ _ _ h, gridlessStore_length pos lev n i j m s s1 h1]

/-- Every error of the calculation is an IndexError. -/
theorem gridlessCalc_err (pos : ℕ → ℕ → P) (lev : ℕ → ℕ → V) (n : ℕ) (evas : List ℕ) (i : ℕ) (ind : List ℕ) :
    ∀ (s : GridlessState P V), i ∈ ind → s.gpos.length < i * n + evas.length → evas ≠ [] →
    gridlessCalc pos lev n evas ind s = .error .indexError := by
  have herr : ∀ (evas : List ℕ) (i j : ℕ) (s : GridlessState P V) (e : PyErr), gridlessFreq pos lev n i j evas s = .error e →
      e = .indexError := by
    intro evas
    induction evas with
    | nil => intro i j s e h; cases h
    | cons m l ih =>
      intro i j s e h
      rw [gridlessFreq] at h
      unfold gridlessStore at h
      simp only at h
      by_cases hc : s.gpos.length ≤ i * n + j
      · rw [if_pos hc] at h; cases h; rfl
      · rw [if_neg hc] at h; exact ih _ _ _ _ h
  induction ind with
  | nil => intro s h; simp at h
  | cons k ind ih =>
    intro s hi hS hne
    rw [gridlessCalc]
    cases h1 : gridlessFreq pos lev n k 0 evas s with
    | error e => rw [herr _ _ _ _ _ h1]
    | ok s1 =>
      simp only
      by_cases hk : i ∈ ind
      · apply ih _ hk _ hne
        simp only
        rw [gridlessFreq_length pos lev n k evas 0 s s1 h1]
        exact hS
      · have : i = k := by simpa [hk] using hi
        subst this
        rw [gridlessFreq_err pos lev n i evas 0 s (by omega) hne] at h1
        cases h1

/-- Setting a component list with more than `n` (default: 1) entries makes the calculation of all frequencies fail. -/
theorem C46_long_list_violated (pos : ℕ → ℕ → P) (lev : ℕ → ℕ → V) (n F : ℕ) (hF : 0 < F) (evas : List ℕ)
    (hlen : n < evas.length) (p0 : P) (v0 : V) :
    gridlessCalc pos lev n evas (List.range F) (GridlessState.zeros F (gridlessSize n F) p0 v0) = .error .indexError := by
  apply gridlessCalc_err pos lev n evas (F - 1)
  · rw [List.mem_range]; omega
  · simp only [GridlessState.zeros, List.length_replicate, gridlessSize]
    obtain ⟨q, rfl⟩ : ∃ q, F = q + 1 := ⟨F - 1, by omega⟩
    rw [Nat.add_sub_cancel, Nat.mul_add, Nat.mul_comm]
    omega
  · intro h; rw [h] at hlen; simp at hlen

/-- Calculating a part of the frequencies only, the positions of the surplus components are overwritten by those of the
next frequency, while their levels stay. -/
theorem C46_overlap_violated (pos : ℕ → ℕ → P) (lev : ℕ → ℕ → V) (a b : ℕ) (F : ℕ) (hF : 3 ≤ F) (p0 : P) (v0 : V) :
    ∃ s, gridlessCalc pos lev 1 [a, b] [0, 1] (GridlessState.zeros F (gridlessSize 1 F) p0 v0) = .ok s ∧
      s.gpos[1]? = some (pos 1 a) ∧ s.level 0 1 = some (lev 0 b) := by
  have w0 := gridlessWF_zeros F (gridlessSize 1 F) p0 v0
  have hs : gridlessSize 1 F = F := Nat.one_mul F
  obtain ⟨s1, e1, w1, f1, g1, a1⟩ := gridlessFreq_ok pos lev 1 0 F _ (by omega) [a, b] 0 _ w0 (by simp [hs]; omega)
  have w1' : GridlessWF F (gridlessSize 1 F) (⟨s1.gpos, s1.ac, s1.fr.set 0 true⟩ : GridlessState P V) :=
    ⟨w1.gpos, w1.ac, w1.row, by simp [w1.fr]⟩
  obtain ⟨s2, e2, w2, f2, g2, a2⟩ := gridlessFreq_ok pos lev 1 1 F _ (by omega) [a, b] 0 _ w1' (by simp [hs]; omega)
  refine ⟨⟨s2.gpos, s2.ac, s2.fr.set 1 true⟩, ?_, ?_, ?_⟩
  · rw [gridlessCalc, e1]
    simp only
    rw [gridlessCalc, e2]
    rfl
  · simp only
    rw [g2]; simp
  · have : (⟨s2.gpos, s2.ac, s2.fr.set 1 true⟩ : GridlessState P V).level 0 1 = s2.level 0 1 := rfl
    rw [this, a2, if_neg (by simp)]
    have : (⟨s1.gpos, s1.ac, s1.fr.set 0 true⟩ : GridlessState P V).level 0 1 = s1.level 0 1 := rfl
    rw [this, a1]; simp

/-- The number of slots is remembered until `n` changes: with more frequencies than before the calculation fails. -/
theorem C46_stale_size_violated (pos : ℕ → ℕ → P) (lev : ℕ → ℕ → V) (n F F0 : ℕ) (hF : F0 < F) (evas : List ℕ)
    (hne : evas ≠ []) (p0 : P) (v0 : V) :
    gridlessCalc pos lev n evas (List.range F) (GridlessState.zeros F (gridlessSize n F0) p0 v0) = .error .indexError := by
  apply gridlessCalc_err pos lev n evas (F - 1)
  · rw [List.mem_range]; omega
  · simp only [GridlessState.zeros, List.length_replicate, gridlessSize]
    have := Nat.mul_le_mul_left n (show F0 ≤ F - 1 by omega)
    have e := Nat.mul_comm n (F - 1)
    have := List.length_pos_iff.2 hne
    omega
  · exact hne

-- three frequencies, the two largest of five eigenvalues
example : evaIndices 5 (evaOfN 2) = [4, 3] := by decide
example : GridlessWF (P := ℕ) (V := ℕ) 3 (gridlessSize 2 3) (GridlessState.zeros 3 (gridlessSize 2 3) 0 0) := gridlessWF_zeros _ _ _ _
example : (gridlessCalc (fun i m => (i, m)) (fun i m => 10 * i + m) 2 [4, 3] [0, 1, 2]
    (GridlessState.zeros 3 (gridlessSize 2 3) (0, 0) 0)).toOption.map (·.gpos) =
    some [(0, 4), (0, 3), (1, 4), (1, 3), (2, 4), (2, 3)] := by decide

end Acoular
