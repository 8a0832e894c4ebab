import Verif.Props.Windows
import Mathlib.Data.Complex.BigOperators
import Mathlib.Algebra.BigOperators.Field
import Mathlib.Tactic.NormNum
import Mathlib.Tactic.Positivity

/-!
# Property theorems: cross spectral matrix (C15), frequency range (C17, C60), power scaling (C61), layout (C56)
-/

namespace Acoular

open Spec
open scoped ComplexConjugate

/-! ## C15 -/

section C15

variable {n : ℕ}

private theorem foldl_calcCSM (l : List (Fin n → ℂ)) : ∀ (acc : Matrix (Fin n) (Fin n) ℂ) (i j : Fin n),
    (l.foldl calcCSM acc) i j = acc i j + if i ≤ j then (l.map outer).sum i j else 0 := by
  induction l with
  | nil => intro acc i j; simp
  | cons X l ih =>
    intro acc i j
    rw [List.foldl_cons, ih, List.map_cons, List.sum_cons]
    unfold calcCSM
    by_cases h : i ≤ j
    · simp only [h, if_true, Matrix.add_apply, outer]; ring
    · simp [h]

private theorem sum_outer_herm (l : List (Fin n → ℂ)) (i j : Fin n) :
    conj ((l.map outer).sum j i) = (l.map outer).sum i j := by
  induction l with
  | nil => simp
  | cons X l ih => simp only [List.map_cons, List.sum_cons, Matrix.add_apply, map_add, ih, outer, map_mul,
      Complex.conj_conj]; ring

/-- **C15.** The matrix computed from the upper triangle is the scaled sum of all outer products. -/
theorem C15_csm_eq (scale : ℝ) (spectra : List (Fin n → ℂ)) :
    calcCsmLine scale spectra = averagedCsm scale spectra := by
  unfold calcCsmLine averagedCsm
  congr 1
  funext i j
  unfold mirrorCSM
  rw [foldl_calcCSM, foldl_calcCSM]
  simp only [Matrix.zero_apply, zero_add]
  rcases lt_trichotomy i j with h | h | h
  · rw [if_neg h.ne, if_neg (not_le.2 h), if_pos h.le]; simp
  · subst h; simp
  · rw [if_neg h.ne', if_pos h.le, if_neg (not_le.2 h), sum_outer_herm, add_zero]

/-- **C15.** The cross spectral matrix is Hermitian. -/
theorem C15_hermitian (scale : ℝ) (spectra : List (Fin n → ℂ)) (i j : Fin n) :
    calcCsmLine scale spectra i j = conj (calcCsmLine scale spectra j i) := by
  rw [C15_csm_eq]
  unfold averagedCsm
  simp only [Matrix.smul_apply, smul_eq_mul, map_mul, Complex.conj_ofReal, sum_outer_herm]

/-- The hypotheses of `C15_hermitian` are met: -/
example := C15_hermitian 1 [![1, Complex.I], ![2, 3]] 1 0

private theorem quad_outer (v X : Fin n → ℂ) :
    ∑ i, ∑ j, conj (v i) * outer X i j * v j = ((Complex.normSq (∑ i, conj (v i) * X i) : ℝ) : ℂ) := by
  rw [← Complex.mul_conj, Finset.sum_mul]
  apply Finset.sum_congr rfl
  intro i _
  rw [map_sum, Finset.mul_sum]
  apply Finset.sum_congr rfl
  intro j _
  simp only [outer, map_mul, Complex.conj_conj]; ring

/-- **C15.** Every quadratic form `v^H C v` is real and non-negative, if the factor is. -/
theorem C15_psd (scale : ℝ) (hs : 0 ≤ scale) (spectra : List (Fin n → ℂ)) (v : Fin n → ℂ) :
    ∃ q : ℝ, 0 ≤ q ∧ ∑ i, ∑ j, conj (v i) * calcCsmLine scale spectra i j * v j = (q : ℂ) := by
  rw [C15_csm_eq]
  unfold averagedCsm
  refine ⟨scale * (spectra.map fun X => Complex.normSq (∑ i, conj (v i) * X i)).sum, ?_, ?_⟩
  · apply mul_nonneg hs
    apply List.sum_nonneg
    intro x hx
    obtain ⟨X, _, rfl⟩ := List.mem_map.1 hx
    exact Complex.normSq_nonneg _
  · induction spectra with
    | nil => simp
    | cons X l ih =>
      simp only [Matrix.smul_apply, smul_eq_mul, List.map_cons, List.sum_cons, Matrix.add_apply] at ih ⊢
      rw [mul_add, Complex.ofReal_add, ← ih, Complex.ofReal_mul, ← quad_outer v X, Finset.mul_sum,
        ← Finset.sum_add_distrib]
      apply Finset.sum_congr rfl
      intro i _
      rw [Finset.mul_sum, ← Finset.sum_add_distrib]
      apply Finset.sum_congr rfl
      intro j _
      ring

/-- The hypotheses of `C15_psd` are met: -/
example := C15_psd 1 (by norm_num) [![1, Complex.I], ![2, 3]] ![1, 1]

/-- **C15.** The diagonal (the auto power of each channel) is real and non-negative. -/
theorem C15_diagonal (scale : ℝ) (hs : 0 ≤ scale) (spectra : List (Fin n → ℂ)) (i : Fin n) :
    ∃ q : ℝ, 0 ≤ q ∧ calcCsmLine scale spectra i i = (q : ℂ) := by
  obtain ⟨q, h0, h⟩ := C15_psd scale hs spectra (fun k => if k = i then 1 else 0)
  refine ⟨q, h0, ?_⟩
  rw [← h]
  simp

/-- The hypotheses of `C15_diagonal` are met: -/
example := C15_diagonal 1 (by norm_num) [![1, Complex.I], ![2, 3]] 0

/-- **C15.** The factor used is positive as soon as the signal is at least one block long. -/
theorem C15_scale_pos {bs ov N : ℕ} (hb : 0 < bs) (weight : ℝ) (hw : 0 < weight) (hN : bs ≤ N) :
    0 < csmScale bs weight (numBlocks ov N bs) := by
  have hb' : (0 : ℚ) < bs := by exact_mod_cast hb
  have hN' : (bs : ℚ) ≤ N := by exact_mod_cast hN
  have h1 : (0 : ℚ) < numBlocks ov N bs := by
    unfold numBlocks
    have : (ov : ℚ) ≤ ov * N / bs := by
      rw [le_div_iff₀ hb']
      exact mul_le_mul_of_nonneg_left hN' (Nat.cast_nonneg _)
    linarith
  have h2 : (0 : ℝ) < (numBlocks ov N bs : ℝ) := by exact_mod_cast h1
  have h3 : (0 : ℝ) < bs := by exact_mod_cast hb
  unfold csmScale
  positivity

example : calcCsmLine (n := 2) 1 [![1, Complex.I]] 1 0 = Complex.I := by
  rw [C15_csm_eq]; simp [averagedCsm, outer]

end C15

/-! ## C17 -/

section C17

variable {K : Type*} [LinearOrder K]

private theorem searchsorted_spec (l : List K) (hl : l.Pairwise (· ≤ ·)) (v : K) :
    ∀ i (h : i < l.length), i < searchsorted l v ↔ l[i] < v := by
  induction l with
  | nil => intro i h; simp at h
  | cons x l ih =>
    intro i h
    rw [List.pairwise_cons] at hl
    unfold searchsorted at ih ⊢
    rw [List.countP_cons]
    by_cases hx : x < v
    · simp only [hx, decide_true, if_true]
      cases i with
      | zero => simp [hx]
      | succ i =>
        have := ih hl.2 i (by simpa using h)
        simp only [List.getElem_cons_succ]
        rw [← this]; omega
    · have h0 : List.countP (fun x => decide (x < v)) l = 0 := by
        rw [List.countP_eq_zero]
        intro y hy
        have := hl.1 y hy
        simp only [decide_eq_true_eq, not_lt]
        exact le_trans (not_lt.1 hx) this
      simp only [hx, decide_false, h0]
      constructor
      · intro h; simp at h
      · intro h'
        exfalso
        cases i with
        | zero => exact hx h'
        | succ i =>
          have := hl.1 (l[i]'(by simpa using h)) (List.getElem_mem _)
          exact hx (lt_of_le_of_lt this h')

private theorem searchsorted_le (l : List K) (v : K) : searchsorted l v ≤ l.length := List.countP_le_length

private theorem slice_range (n a b : ℕ) (hb : b ≤ n) :
    slice (List.range n) a b = (List.range n).filter fun i => decide (a ≤ i ∧ i < b) := by
  unfold slice
  rw [List.take_range, Nat.min_eq_left hb]
  obtain ⟨d, rfl⟩ := Nat.exists_eq_add_of_le hb
  rw [List.range_add, List.filter_append,
    List.filter_eq_nil_iff (l := List.map _ _).2 (by intro x hx; simp at hx; simp; omega), List.append_nil]
  by_cases hab : a ≤ b
  · obtain ⟨e, rfl⟩ := Nat.exists_eq_add_of_le hab
    rw [List.range_add, List.filter_append, List.drop_left' (by simp),
      List.filter_eq_nil_iff (l := List.range a).2 (by intro x hx; simp at hx; simp; omega), List.nil_append,
      List.filter_eq_self.2 (by intro x hx; simp at hx; simp; omega)]
  · rw [List.drop_eq_nil_of_le (by simp; omega), List.filter_eq_nil_iff.2 (by intro x hx; simp at hx; simp; omega)]

/-- **C17.** With both limits given, the indices are those of all lines below the last one whose frequency is in
the half-open interval, in increasing order. -/
theorem C17_freq_interval (freqs : List K) (hasc : freqs.Pairwise (· ≤ ·)) (f1 f2 : K) :
    freqIndices freqs (.freq f1 (some f2))
      = (List.range (freqs.length - 1)).filter fun i => decide (∃ h : i < freqs.length, f1 ≤ freqs[i] ∧ freqs[i] < f2) := by
  have hdl : freqs.dropLast.Pairwise (· ≤ ·) := hasc.sublist (List.dropLast_sublist _)
  have e1 := searchsorted_spec freqs.dropLast hdl f1
  have e2 := searchsorted_spec freqs.dropLast hdl f2
  have l1 := searchsorted_le freqs.dropLast f1
  have l2 := searchsorted_le freqs.dropLast f2
  rw [List.length_dropLast] at l1 l2
  unfold freqIndices indLow indHigh sliceIndices
  simp only [Int.toNat_natCast]
  rw [if_neg (by omega), if_neg (by omega), Nat.min_eq_left (by omega), Nat.min_eq_left (by omega)]
  rw [slice_range _ _ _ (by omega)]
  rcases Nat.eq_zero_or_pos freqs.length with h0 | h0
  · rw [List.length_eq_zero_iff.1 h0]; rfl
  · conv_lhs => rw [show freqs.length = freqs.length - 1 + 1 by omega]
    rw [List.range_succ, List.filter_append, List.filter_eq_nil_iff (l := [_]).2 (by intro x hx; simp at hx; simp; omega),
      List.append_nil]
    apply List.filter_congr
    intro i hi
    rw [List.mem_range] at hi
    have hi' : i < freqs.dropLast.length := by rw [List.length_dropLast]; exact hi
    have a1 := e1 i hi'
    have a2 := e2 i hi'
    rw [List.getElem_dropLast] at a1 a2
    rw [decide_eq_decide]
    constructor
    · rintro ⟨h1, h2⟩
      refine ⟨by omega, ?_, a2.1 h2⟩
      by_contra hc
      have := a1.2 (not_le.1 hc)
      omega
    · rintro ⟨_, h1, h2⟩
      refine ⟨?_, a2.2 h2⟩
      by_contra hc
      exact absurd (a1.1 (by omega)) (not_lt.2 h1)

/-- The hypotheses of `C17_freq_interval` are met: -/
example := C17_freq_interval [0, 100, 200, (300 : ℚ)] (by decide +kernel) 100 300

/-- **C17, partial.** Without an upper limit, all lines from the lower limit on are selected, and in addition always
the last line. -/
theorem C17_freq_open_partial (freqs : List K) (hasc : freqs.Pairwise (· ≤ ·)) (f1 : K) :
    freqIndices freqs (.freq f1 none)
      = (List.range freqs.length).filter fun i =>
          decide (i + 1 = freqs.length ∨ ∃ h : i < freqs.length, f1 ≤ freqs[i]) := by
  have hdl : freqs.dropLast.Pairwise (· ≤ ·) := hasc.sublist (List.dropLast_sublist _)
  have e1 := searchsorted_spec freqs.dropLast hdl f1
  have l1 := searchsorted_le freqs.dropLast f1
  rw [List.length_dropLast] at l1
  unfold freqIndices indLow indHigh sliceIndices
  simp only [Int.toNat_natCast]
  rw [if_neg (by omega), Nat.min_eq_left (by omega)]
  rw [slice_range _ _ _ (by omega)]
  apply List.filter_congr
  intro i hi
  rw [List.mem_range] at hi
  rw [decide_eq_decide]
  by_cases hl : i + 1 = freqs.length
  · simp only [hl, true_or, iff_true]; omega
  · have hi' : i < freqs.dropLast.length := by rw [List.length_dropLast]; omega
    have a1 := e1 i hi'
    rw [List.getElem_dropLast] at a1
    constructor
    · rintro ⟨h1, h2⟩
      refine Or.inr ⟨hi, ?_⟩
      by_contra hc
      have := a1.2 (not_le.1 hc)
      omega
    · rintro (h | ⟨_, h1⟩)
      · exact absurd h hl
      · refine ⟨?_, hi⟩
        by_contra hc
        exact absurd (a1.1 (by omega)) (not_lt.2 h1)

/-- The hypotheses of `C17_freq_open_partial` are met: -/
example := C17_freq_open_partial [0, 100, 200, (300 : ℚ)] (by decide +kernel) 100

/-- **C17, violated part.** A lower limit above the highest frequency and no upper limit still selects the last
line. -/
theorem C17_freq_open_violated : freqIndices [0, 100, 200] (.freq (500 : ℚ) none) = [2] := by decide +kernel

/-- **C17.** Indices set by the user: clipped to the last line, then the meaning of a Python slice. -/
theorem C17_index (freqs : List K) (low : Int) (high : Option Int) :
    freqIndices freqs (.index low high)
      = (List.range freqs.length).filter fun i =>
          inPySlice (min low (freqs.length - 1)) (high.map (min · (freqs.length - 1))) freqs.length i := by
  have hle := sliceIndices_snd_le (min low (freqs.length - 1)) (high.map (min · ((freqs.length : Int) - 1))) freqs.length
  have e : freqIndices freqs (.index low high)
      = slice (List.range freqs.length)
          (sliceIndices (min low (freqs.length - 1)) (high.map (min · ((freqs.length : Int) - 1))) freqs.length).1
          (sliceIndices (min low (freqs.length - 1)) (high.map (min · ((freqs.length : Int) - 1))) freqs.length).2 := by
    unfold freqIndices indLow indHigh
    cases high <;> rfl
  rw [e, slice_range _ _ _ hle]
  apply List.filter_congr
  intro i hi
  rw [List.mem_range] at hi
  rw [Bool.eq_iff_iff]
  unfold sliceIndices inPySlice
  cases high with
  | none =>
    simp only [Bool.and_true, decide_eq_true_eq, Option.map_none]
    split <;> omega
  | some v =>
    simp only [Bool.and_eq_true, decide_eq_true_eq, Option.map_some]
    split <;> split <;> omega

example : freqIndices [0, 100, 200, 300] (.freq (100 : ℚ) (some 300)) = [1, 2] := by decide +kernel
example : freqIndices [0, 100, 200, (300 : ℚ)] (.index 1 (some (-1))) = [1, 2] := by decide +kernel

end C17

/-- The frequency vector is ascending, so the theorems of C17 apply to it. -/
theorem C17_fftfreq_ascending {K : Type*} [Field K] [LinearOrder K] [IsStrictOrderedRing K] (bs : ℕ) (fs : K)
    (hfs : 0 ≤ fs) : (fftfreq bs fs).Pairwise (· ≤ ·) := by
  unfold fftfreq
  rw [List.pairwise_map]
  refine List.Pairwise.imp ?_ (List.pairwise_lt_range)
  intro a b h
  have : (a : K) ≤ b := by exact_mod_cast h.le
  exact div_le_div_of_nonneg_right (mul_le_mul_of_nonneg_right this hfs) (Nat.cast_nonneg _)

/-- The hypotheses of `C17_fftfreq_ascending` are met: -/
example := C17_fftfreq_ascending 128 (51200 : ℚ) (by norm_num)

/-! ## C60: the selection set last is used, for every history -/

section C60

variable {K : Type*} [LinearOrder K]

/-- What `indices` must be: computed from what the user set last. -/
def RangeState.expected (freqs : List K) (s : RangeState K) : List Nat := freqIndices freqs s.setting

/-- The operation sets the range by index. -/
def RangeOp.keepsIndexMode : RangeOp K → Prop
  | .setFreqRange _ _ => False
  | _ => True

/-- Caches hold what the current setting gives. -/
private def Fresh (freqs : List K) (s : RangeState K) : Prop :=
  (∀ v, s.cacheLow = some v → v = indLow freqs s.setting) ∧ (∀ v, s.cacheHigh = some v → v = indHigh freqs s.setting)

private theorem fresh_indices {freqs : List K} {s : RangeState K} (h : Fresh freqs s) :
    s.indices freqs = s.expected freqs := by
  have h1 : s.low freqs = indLow freqs s.setting := by
    unfold RangeState.low
    cases hc : s.cacheLow with
    | none => rfl
    | some v => exact h.1 v hc
  have h2 : s.high freqs = indHigh freqs s.setting := by
    unfold RangeState.high
    cases hc : s.cacheHigh with
    | none => rfl
    | some v => exact h.2 v hc
  unfold RangeState.indices RangeState.expected freqIndices
  rw [h1, h2]

private theorem fresh_read {freqs : List K} {s : RangeState K} (h : Fresh freqs s) :
    Fresh freqs (s.step freqs .readIndices) := by
  constructor
  · intro v hv
    simp only [RangeState.step, Option.some.injEq] at hv
    rw [← hv]
    unfold RangeState.low
    cases hc : s.cacheLow with
    | none => rfl
    | some v => exact h.1 v hc
  · intro v hv
    simp only [RangeState.step, Option.some.injEq] at hv
    rw [← hv]
    unfold RangeState.high
    cases hc : s.cacheHigh with
    | none => rfl
    | some v => exact h.2 v hc

private theorem fresh_step_index {freqs : List K} {s : RangeState K} (h : Fresh freqs s) (hm : s.indexLast = true)
    (op : RangeOp K) (hop : op.keepsIndexMode) :
    Fresh freqs (s.step freqs op) ∧ (s.step freqs op).indexLast = true := by
  cases op with
  | setFreqRange => exact absurd hop id
  | readIndices => exact ⟨fresh_read h, hm⟩
  | setIndLow v =>
    refine ⟨⟨?_, ?_⟩, rfl⟩
    · intro w hw
      simp only [RangeState.step] at hw
      split at hw
      · next e =>
        rw [h.1 w hw]; simp [RangeState.setting, hm, RangeState.step, e]
      · simp at hw
    · intro w hw
      simp only [RangeState.step] at hw
      rw [h.2 w hw]; simp only [RangeState.setting, hm, RangeState.step, if_true]; cases s.ih <;> rfl
  | setIndHigh v =>
    refine ⟨⟨?_, ?_⟩, rfl⟩
    · intro w hw
      simp only [RangeState.step] at hw
      rw [h.1 w hw]; simp [RangeState.setting, hm, RangeState.step, indLow]
    · intro w hw
      simp only [RangeState.step] at hw
      split at hw
      · next e =>
        rw [h.2 w hw]; simp [RangeState.setting, hm, RangeState.step, e]
      · simp at hw

private theorem fresh_step_freq {freqs : List K} {s : RangeState K} (h : Fresh freqs s) (hm : s.indexLast = false)
    (f1 : K) (f2 : Option K) : Fresh freqs (s.step freqs (.setFreqRange f1 f2)) := by
  constructor
  · intro w hw
    simp only [RangeState.step] at hw
    split at hw
    · next e => rw [h.1 w hw]; simp [RangeState.setting, hm, RangeState.step, e, indLow]
    · simp at hw
  · intro w hw
    simp only [RangeState.step] at hw
    split at hw
    · next e =>
      rw [h.2 w hw]; simp only [RangeState.setting, hm, RangeState.step, ← e]
      cases f2 <;> rfl
    · simp at hw

/-- **C60, partial.** As long as the user sets the range by index only, `indices` is what the last settings
give, after every history of settings and reads.  (The claim is for all histories, also those that mix
both ways; see `C60_stale_violated`.) -/
theorem C60_index_histories_partial (freqs : List K) (s0 : RangeState K) (h0 : s0.indexLast = true)
    (hl : s0.cacheLow = none) (hh : s0.cacheHigh = none) (ops : List (RangeOp K)) (hops : ∀ op ∈ ops, op.keepsIndexMode) :
    (ops.foldl (RangeState.step freqs) s0).indices freqs = (ops.foldl (RangeState.step freqs) s0).expected freqs := by
  apply fresh_indices
  have base : Fresh freqs s0 := ⟨by simp [hl], by simp [hh]⟩
  suffices h : ∀ (ops : List (RangeOp K)) (s : RangeState K), (∀ op ∈ ops, op.keepsIndexMode) → Fresh freqs s →
      s.indexLast = true → Fresh freqs (ops.foldl (RangeState.step freqs) s) from h ops s0 hops base h0
  intro ops
  induction ops with
  | nil => intro s _ h _; exact h
  | cons op ops ih =>
    intro s ho h hm
    have := fresh_step_index h hm op (ho op (by simp))
    exact ih _ (fun o hmem => ho o (by simp [hmem])) this.1 this.2

/-- The hypotheses of `C60_index_histories_partial` are met: -/
example := C60_index_histories_partial [0, 100, 200, (300 : ℚ)] { flc := 0, fhc := some 0 } rfl rfl rfl
  [.setIndLow 1, .readIndices, .setIndHigh none] (by simp [RangeOp.keepsIndexMode])

/-- **C60, partial.** After any history at all, setting a frequency range in which both limits differ from the
stored ones makes `indices` follow it, and it stays so under further frequency ranges and reads. -/
theorem C60_freq_change_partial (freqs : List K) (s : RangeState K) (f1 : K) (f2 : Option K) (hf1 : f1 ≠ s.flc)
    (hf2 : f2 ≠ s.fhc) (ops : List (RangeOp K))
    (hops : ∀ op ∈ ops, op = .readIndices ∨ ∃ a b, op = .setFreqRange a b) :
    ((ops.foldl (RangeState.step freqs) (s.step freqs (.setFreqRange f1 f2))).indices freqs)
      = (ops.foldl (RangeState.step freqs) (s.step freqs (.setFreqRange f1 f2))).expected freqs := by
  apply fresh_indices
  have base : Fresh freqs (s.step freqs (.setFreqRange f1 f2)) := by
    constructor
    · intro v hv; simp [RangeState.step, hf1] at hv
    · intro v hv; simp [RangeState.step, hf2] at hv
  have hm0 : (s.step freqs (.setFreqRange f1 f2)).indexLast = false := rfl
  revert base hm0
  generalize s.step freqs (.setFreqRange f1 f2) = t
  induction ops generalizing t with
  | nil => intro h _; exact h
  | cons op ops ih =>
    intro h hm
    rw [List.foldl_cons]
    rcases hops op (by simp) with rfl | ⟨a, b, rfl⟩
    · exact ih (fun o ho => hops o (by simp [ho])) _ (fresh_read h) hm
    · exact ih (fun o ho => hops o (by simp [ho])) _ (fresh_step_freq h hm a b) rfl

/-- The hypotheses of `C60_freq_change_partial` are met: -/
example := C60_freq_change_partial [0, 100, 200, (300 : ℚ)] { flc := 0, fhc := some 0 } 100 (some 300) (by decide +kernel) (by decide +kernel)
  [.readIndices, .setFreqRange 50 none] (by simp)

/-- **C60, violated.** A fresh object whose indices have been read, then `freq_range = (0, 200)`: the selection
should start at line 0, but the cached `ind_low = 1` is used because the stored lower frequency was already 0. -/
theorem C60_stale_violated :
    let freqs : List ℚ := [0, 100, 200, 300]
    let s : RangeState ℚ := ([.readIndices, .setFreqRange 0 (some 200)] : List (RangeOp ℚ)).foldl
      (RangeState.step freqs) { flc := 0, fhc := some 0 }
    s.indices freqs = [1] ∧ s.expected freqs = [0, 1] := by
  decide +kernel

/-- **C60, violated.** The result depends on reads in between: the same settings without the read are right. -/
theorem C60_read_matters_violated :
    let freqs : List ℚ := [0, 100, 200, 300]
    let s : RangeState ℚ := ([.setFreqRange 0 (some 200)] : List (RangeOp ℚ)).foldl
      (RangeState.step freqs) { flc := 0, fhc := some 0 }
    s.indices freqs = [0, 1] := by
  decide +kernel

example : ∃ s : RangeState ℚ, s.indexLast = true ∧
    (([.setIndLow 0, .readIndices, .setIndHigh none] : List (RangeOp ℚ)).foldl
      (RangeState.step [0, 1, 2]) s).indices [0, 1, 2] = [0, 1, 2] :=
  ⟨{ flc := 0, fhc := some 0 }, rfl, by decide +kernel⟩

end C60

/-! ## C61: power spectral density -/

/-- **C61, violated.** The value delivered as density, times the width `fs / bs` of a line, is `fs²` times the
power of the line, for every spectrum, block size and sampling frequency. -/
theorem C61_psd_violated {bs : ℕ} (hb : 0 < bs) (fs : ℝ) (ss : Bool) (X : ℂ) :
    autoPower (autoScale bs fs ss true) X * (fs / bs) = fs ^ 2 * autoPower (autoScale bs fs ss false) X := by
  have : (bs : ℝ) ≠ 0 := by exact_mod_cast hb.ne'
  unfold autoPower autoScale
  simp only [if_true, Bool.false_eq_true, if_false]
  field_simp

/-- **C61, partial.** It is right for unit sampling frequency. -/
theorem C61_psd_partial {bs : ℕ} (hb : 0 < bs) (ss : Bool) (X : ℂ) :
    autoPower (autoScale bs 1 ss true) X * (1 / bs) = autoPower (autoScale bs 1 ss false) X := by
  rw [C61_psd_violated hb]; ring

/-- The hypotheses of `C61_psd_partial` are met: -/
example := C61_psd_partial (bs := 128) (by decide) true (1 + Complex.I)

/-- **C61.** The power delivered is real, non-negative, and `|X|² / bs²` (doubled for one-sided spectra). -/
theorem C61_power {bs : ℕ} (fs : ℝ) (ss : Bool) (X : ℂ) :
    autoPower (autoScale bs fs ss false) X = (if ss then 2 else 1) * Complex.normSq X / (bs : ℝ) ^ 2 ∧
      0 ≤ autoPower (autoScale bs fs ss false) X := by
  have e : autoPower (autoScale bs fs ss false) X = (if ss then 2 else 1) * Complex.normSq X / (bs : ℝ) ^ 2 := by
    unfold autoPower autoScale
    rw [Complex.mul_conj, Complex.ofReal_re]
    simp only [Bool.false_eq_true, if_false]
    ring
  refine ⟨e, ?_⟩
  rw [e]
  have := Complex.normSq_nonneg X
  cases ss <;> simp <;> positivity

/-! ## C56: layout -/

section C56

private theorem length_flatMap_const {α β : Type*} (l : List α) (f : α → List β) (m : ℕ) (h : ∀ a ∈ l, (f a).length = m) :
    (l.flatMap f).length = l.length * m := by
  induction l with
  | nil => simp
  | cons a l ih =>
    rw [List.flatMap_cons, List.length_append, h a (by simp), ih (fun b hb => h b (by simp [hb])), List.length_cons,
      Nat.add_mul, Nat.one_mul, Nat.add_comm]

private theorem getElem_flatMap_const {α β : Type*} (l : List α) (f : α → List β) (m : ℕ) (h : ∀ a ∈ l, (f a).length = m)
    (i j : ℕ) (hj : j < m) (a : α) (ha : l[i]? = some a) : (l.flatMap f)[i * m + j]? = (f a)[j]? := by
  induction l generalizing i with
  | nil => simp at ha
  | cons b l ih =>
    rw [List.flatMap_cons]
    have hb := h b (by simp)
    cases i with
    | zero =>
      simp at ha
      subst ha
      rw [Nat.zero_mul, Nat.zero_add, List.getElem?_append_left (by omega)]
    | succ i =>
      rw [List.getElem?_append_right (by rw [hb, Nat.add_mul]; omega), hb]
      rw [show (i + 1) * m + j - m = i * m + j by rw [Nat.add_mul]; omega]
      exact ih (fun c hc => h c (by simp [hc])) i (by simpa using ha)

private theorem length_flatten3 {β : Type*} {nf n : ℕ} (a : Fin nf → Fin n → Fin n → β) :
    (flatten3 a).length = nf * (n * n) := by
  unfold flatten3
  rw [length_flatMap_const _ _ (n * n), List.length_finRange]
  intro f _
  rw [length_flatMap_const _ _ n, List.length_finRange]
  intro r _
  simp

private theorem getElem_flatten3 {β : Type*} {nf n : ℕ} (a : Fin nf → Fin n → Fin n → β) (f : Fin nf) (r c : Fin n) :
    (flatten3 a)[(f : ℕ) * (n * n) + ((r : ℕ) * n + c)]? = some (a f r c) := by
  unfold flatten3
  rw [getElem_flatMap_const _ _ (n * n) _ f ((r : ℕ) * n + c) _ f (by simp)]
  · rw [getElem_flatMap_const _ _ n _ r c c.2 r (by simp)]
    · simp
    · intro r _; simp
  · intro f _
    rw [length_flatMap_const _ _ n, List.length_finRange]
    intro r _
    simp
  · have := r.2; have := c.2
    calc (r : ℕ) * n + c < r * n + n := by omega
      _ = (r + 1) * n := by ring
      _ ≤ n * n := Nat.mul_le_mul_right _ (by omega)

/-- **C56.** With `calc_mode = 'full'`, one snapshot has `num_channels * num_freqs` values, and the value at line
`f`, channels `(r, c)` is found at position `f * n² + r * n + c` and is `X_r conj(X_c)` times the factor. -/
theorem C56_full {nf n : ℕ} (scale : ℝ) (X : Fin nf → Fin n → ℂ) :
    ∃ row, CrossPowerSpectra.snapshot scale .full X = .ok row ∧
      row.length = CrossPowerSpectra.numChannels n .full * nf ∧
      ∀ (f : Fin nf) (r c : Fin n), row[(f : ℕ) * (n * n) + ((r : ℕ) * n + c)]? = some (X f r * conj (X f c) * scale) := by
  refine ⟨(flatten3 fun f r c => mirrorCSM (calcCSM 0 (X f)) r c).map (· * (scale : ℂ)), ?_, ?_, ?_⟩
  · have key : ∀ a : Fin nf → Fin n → Fin n → ℂ, assignRow (n ^ 2 * nf) (flatten3 a) = .ok (flatten3 a) := by
      intro a
      unfold assignRow
      rw [if_pos (by rw [length_flatten3]; ring)]
    unfold CrossPowerSpectra.snapshot
    exact congrArg (Except.map fun row => row.map (· * (scale : ℂ)))
      (key fun f r c => mirrorCSM (calcCSM 0 (X f)) r c)
  · rw [List.length_map, length_flatten3, CrossPowerSpectra.numChannels]; ring
  · intro f r c
    rw [List.getElem?_map, getElem_flatten3, Option.map_some]
    have h := congrFun (congrFun (C15_csm_eq 1 [X f]) r) c
    simp only [calcCsmLine, averagedCsm, List.foldl_cons, List.foldl_nil, List.map_cons, List.map_nil, List.sum_cons,
      List.sum_nil, add_zero, Complex.ofReal_one, one_smul, outer] at h
    rw [h]

/-- **C56.** The value for `(r, c)` is the conjugate of the value for `(c, r)`. -/
theorem C56_full_hermitian {nf n : ℕ} (scale : ℝ) (X : Fin nf → Fin n → ℂ) (row : List ℂ)
    (h : CrossPowerSpectra.snapshot scale .full X = .ok row) (f : Fin nf) (r c : Fin n) :
    row[(f : ℕ) * (n * n) + ((r : ℕ) * n + c)]? = (row[(f : ℕ) * (n * n) + ((c : ℕ) * n + r)]?).map conj := by
  obtain ⟨row', h1, _, h3⟩ := C56_full scale X
  rw [h] at h1
  cases h1
  rw [h3, h3, Option.map_some]
  simp only [map_mul, Complex.conj_conj, Complex.conj_ofReal]
  congr 2
  ring

/-- The hypotheses of `C56_full_hermitian` are met: -/
example (row : List ℂ) (h : CrossPowerSpectra.snapshot (nf := 1) (n := 2) 1 .full (fun _ => ![1, Complex.I]) = .ok row) :=
  C56_full_hermitian 1 _ row h 0 0 1

/-- **C56, violated.** For two channels or more, the triangular modes raise `ValueError` instead of delivering the
announced layout. -/
theorem C56_triangular_violated {nf n : ℕ} (hn : 2 ≤ n) (hf : 0 < nf) (scale : ℝ) (X : Fin nf → Fin n → ℂ) :
    CrossPowerSpectra.snapshot scale .upper X = .error .valueError ∧
      CrossPowerSpectra.snapshot scale .lower X = .error .valueError := by
  have hlt : n + n * (n - 1) / 2 < n * n := by
    obtain ⟨k, rfl⟩ : ∃ k, n = k + 2 := ⟨n - 2, by omega⟩
    have e1 : (k + 2) * (k + 2) = k * k + 4 * k + 4 := by ring
    have e2 : (k + 2) * (k + 2 - 1) = k * k + 3 * k + 2 := by rw [show k + 2 - 1 = k + 1 by omega]; ring
    omega
  have hne : nf * (n * n) ≠ (n + n * (n - 1) / 2) * nf := by
    intro h
    rw [Nat.mul_comm] at h
    have := Nat.eq_of_mul_eq_mul_right hf h
    omega
  have key : ∀ a : Fin nf → Fin n → Fin n → ℂ,
      assignRow ((n + n * (n - 1) / 2) * nf) (flatten3 a) = .error .valueError := by
    intro a
    unfold assignRow
    rw [if_neg (by rw [length_flatten3]; exact hne)]
    split
    · next x hx =>
      have := congrArg List.length hx
      rw [length_flatten3, List.length_singleton] at this
      have h4 : 4 ≤ n * n := Nat.mul_le_mul hn hn
      have := Nat.eq_one_of_mul_eq_one_left this
      omega
    · rfl
  unfold CrossPowerSpectra.snapshot
  simp only [CrossPowerSpectra.numChannels]
  rw [key, key]
  exact ⟨rfl, rfl⟩

example : ∃ row, CrossPowerSpectra.snapshot (nf := 1) (n := 2) 1 .full (fun _ => ![1, Complex.I]) = .ok row ∧
    row[2]? = some Complex.I := by
  obtain ⟨row, h1, _, h3⟩ := C56_full (nf := 1) (n := 2) 1 (fun _ => ![1, Complex.I])
  refine ⟨row, h1, ?_⟩
  have := h3 0 1 0
  simpa using this

end C56

end Acoular
