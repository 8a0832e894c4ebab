import Verif.Spec.Synthetic
import Verif.Spec.Lazy
import Verif.Model.Synthetic
import Verif.Props.Lazy
import Verif.Lemmas.Stream
import Mathlib.Tactic.NormNum
import Mathlib.Tactic.Linarith
import Mathlib.Tactic.FieldSimp
import Mathlib.Algebra.BigOperators.Group.List.Basic

/-!
# Property theorems: band synthesis (C22)
-/

namespace Acoular

open Spec
open scoped Classical

variable {V : Type*} [AddCommMonoid V]

section Lemmas

private theorem search_zero {freqs : List ℝ} {v : ℝ} (h : ∀ x ∈ freqs, v ≤ x) : searchR freqs v = 0 := by
  unfold searchR searchsorted
  rw [List.countP_eq_zero]
  intro x hx
  simpa using h x hx

private theorem search_cons_lt {freqs : List ℝ} {x v : ℝ} (h : x < v) : searchR (x :: freqs) v = searchR freqs v + 1 := by
  unfold searchR searchsorted
  rw [List.countP_cons_of_pos (by simpa using h)]

omit [AddCommMonoid V] in
theorem band_slice (freqs : List ℝ) : ∀ (data : List V), freqs.Pairwise (· ≤ ·) → data.length = freqs.length →
    ∀ f1 f2 : ℝ, slice data (searchR freqs f1) (searchR freqs f2) =
      ((freqs.zip data).filter fun p => decide (f1 ≤ p.1) && decide (p.1 < f2)).map Prod.snd := by
  induction freqs with
  | nil => intro data _ hl f1 f2; rw [List.length_eq_zero_iff.1 hl]; rfl
  | cons x freqs ih =>
    intro data hp hl f1 f2
    cases data with
    | nil => simp at hl
    | cons y data =>
      rw [List.pairwise_cons] at hp
      have ih' := ih data hp.2 (by simpa using hl) f1 f2
      by_cases h2 : x < f2
      · rw [search_cons_lt h2]
        by_cases h1 : x < f1
        · rw [search_cons_lt h1, List.zip_cons_cons, List.filter_cons_of_neg (by simp [h1]), ← ih']
          rfl
        · have h1' := not_lt.1 h1
          have e0 : searchR (x :: freqs) f1 = 0 := search_zero (by
            intro z hz
            rcases List.mem_cons.1 hz with rfl | hz
            · exact h1'
            · exact le_trans h1' (hp.1 z hz))
          have e1 : searchR freqs f1 = 0 := search_zero (fun z hz => le_trans h1' (hp.1 z hz))
          rw [e0, List.zip_cons_cons, List.filter_cons_of_pos (by simp [h1', h2]), List.map_cons, ← ih', e1]
          rfl
      · have h2' := not_lt.1 h2
        have hall : ∀ z ∈ x :: freqs, f2 ≤ z := by
          intro z hz
          rcases List.mem_cons.1 hz with rfl | hz
          · exact h2'
          · exact le_trans h2' (hp.1 z hz)
        have e0 : searchR (x :: freqs) f2 = 0 := search_zero hall
        rw [e0, List.filter_eq_nil_iff.2]
        · simp [slice]
        · rintro ⟨a, b⟩ hab
          have := hall a (List.of_mem_zip hab).1
          simp [this]

omit [AddCommMonoid V] in
theorem line_find (freqs : List ℝ) : ∀ (data : List V), freqs.Pairwise (· ≤ ·) → data.length = freqs.length →
    ∀ f : ℝ, data[searchR freqs f]? = ((freqs.zip data).find? fun p => decide (f ≤ p.1)).map Prod.snd := by
  induction freqs with
  | nil => intro data _ hl f; rw [List.length_eq_zero_iff.1 hl]; rfl
  | cons x freqs ih =>
    intro data hp hl f
    cases data with
    | nil => simp at hl
    | cons y data =>
      rw [List.pairwise_cons] at hp
      by_cases h : x < f
      · rw [search_cons_lt h, List.getElem?_cons_succ, ih data hp.2 (by simpa using hl) f, List.zip_cons_cons,
          List.find?_cons_of_neg (by simpa using h)]
      · have h' := not_lt.1 h
        rw [search_zero (by
            intro z hz
            rcases List.mem_cons.1 hz with rfl | hz
            · exact h'
            · exact le_trans h' (hp.1 z hz)), List.zip_cons_cons, List.find?_cons_of_pos (by simpa using h')]
        rfl

theorem searchR_le (freqs : List ℝ) (v : ℝ) : searchR freqs v ≤ freqs.length := List.countP_le_length

theorem limits_eq (f : ℝ) {num : ℕ} (hn : 0 < num) : bandLimits f num = (octaveLo f num, octaveHi f num) := by
  unfold bandLimits octaveLo octaveHi
  have h : (num : ℝ) ≠ 0 := by exact_mod_cast hn.ne'
  have e1 : (-0.5 / num : ℝ) = -(1 / (2 * num)) := by field_simp; norm_num
  have e2 : (0.5 / num : ℝ) = 1 / (2 * num) := by field_simp; norm_num
  rw [e1, e2]

omit [AddCommMonoid V] in
private theorem slice_eq_nil {data : List V} {a : ℕ} : slice data a a = [] := by
  unfold slice
  rw [List.drop_eq_nil_iff, List.length_take]
  omega

end Lemmas

/-- **C22.** `tools.helpers.synthetic` for bands: each value is the sum over exactly the lines of the band. -/
theorem C22_band (freqs : List ℝ) (data : List V) (hs : freqs.Pairwise (· ≤ ·)) (hl : data.length = freqs.length)
    (hne : data ≠ []) (fs : List ℝ) (num : ℕ) (hn : 0 < num) :
    helperSynthetic data freqs fs num = .ok (fs.map fun f => bandSum freqs data (octaveLo f num) (octaveHi f num)) := by
  have h1 : ∀ f, helperSyntheticOne data freqs num f = .ok (bandSum freqs data (octaveLo f num) (octaveHi f num)) := by
    intro f
    unfold helperSyntheticOne
    rw [if_neg hn.ne', limits_eq f hn]
    simp only
    unfold bandSum
    rw [← band_slice freqs data hs hl]
    split
    · rename_i h
      rw [h, slice_eq_nil]
      rfl
    · rfl
  unfold helperSynthetic
  induction fs with
  | nil => rfl
  | cons f fs ih => rw [List.mapM_cons, h1 f, ih]; rfl

/-- The hypotheses of `C22_band` are met: -/
example := C22_band [10, 20, 30, 40] [1, 2, 3, (4 : ℝ)] (by norm_num) rfl (by simp) [20, 40] 3 (by decide)

/-- **C22.** `tools.helpers.synthetic` for single lines: the first line at or above the frequency, zeros if there is
none. -/
theorem C22_line (freqs : List ℝ) (data : List V) (hs : freqs.Pairwise (· ≤ ·)) (hl : data.length = freqs.length)
    (hne : data ≠ []) (fs : List ℝ) : helperSynthetic data freqs fs 0 = .ok (fs.map (lineValue freqs data)) := by
  have h1 : ∀ f, helperSyntheticOne data freqs 0 f = .ok (lineValue freqs data f) := by
    intro f
    unfold helperSyntheticOne lineValue
    rw [if_pos rfl, ← line_find freqs data hs hl f]
    simp only
    split
    · rename_i h
      rw [List.getElem?_eq_none (by omega)]
      rfl
    · rename_i h
      rw [List.getElem?_eq_getElem (by omega)]; rfl
  unfold helperSynthetic
  induction fs with
  | nil => rfl
  | cons f fs ih => rw [List.mapM_cons, h1 f, ih]; rfl

/-- The hypotheses of `C22_line` are met: -/
example := C22_line [10, 20, 30, 40] [1, 2, 3, (4 : ℝ)] (by norm_num) rfl (by simp) [20, 40]

section Beamformer

variable (freqs : List ℝ) (value : ℕ → V)

omit [AddCommMonoid V] in
private theorem sliceLines_one (n a b : ℕ) (ha : a ≤ n) (hb : b ≤ n) :
    (sliceLines a (some b) 1 n).map value = slice ((List.range n).map value) a b := by
  unfold slice sliceLines
  rw [← List.map_take, ← List.map_drop]
  congr 1
  have : (List.range n).filter (fun i : ℕ => decide (max 0 (pyBound a n) ≤ (i : Int)) &&
      (match (some (b : Int)) with | none => true | some v => decide ((i : Int) < pyBound v n)) &&
      decide (((1 : ℕ) : Int) ∣ (i : Int) - max 0 (pyBound a n))) =
      (List.range n).filter (fun i : ℕ => decide (a ≤ i ∧ i < b)) := by
    apply List.filter_congr
    intro i hi
    have h1 : pyBound (a : Int) n = a := by unfold pyBound; rw [if_neg (by omega)]
    have h2 : pyBound (b : Int) n = b := by unfold pyBound; rw [if_neg (by omega)]
    simp only [h1, h2]
    rw [Bool.eq_iff_iff]
    simp only [Bool.and_eq_true, decide_eq_true_eq, Nat.cast_one, one_dvd, and_true]
    omega
  refine Eq.trans this ?_
  rw [List.take_range, Nat.min_eq_left hb]
  obtain ⟨d, rfl⟩ := Nat.exists_eq_add_of_le hb
  rw [List.range_add, List.filter_append,
    List.filter_eq_nil_iff (l := List.map _ _).2 (by intro x hx; simp at hx; simp; omega), List.append_nil]
  by_cases hab : a ≤ b
  · obtain ⟨e, rfl⟩ := Nat.exists_eq_add_of_le hab
    rw [List.range_add, List.filter_append, List.drop_left' (by simp),
      List.filter_eq_nil_iff (l := List.range a).2 (by intro x hx; simp at hx; simp; omega), List.nil_append,
      List.filter_eq_self.2 (by intro x hx; simp at hx; simp; omega)]
  · rw [List.drop_eq_nil_of_le (by simp; omega), List.filter_eq_nil_iff.2 (by intro x hx; simp at hx; simp; omega)]

private theorem bf_slice (hs : freqs.Pairwise (· ≤ ·)) (f1 f2 : ℝ) (h0 : 0 < freqs.length) :
    (if searchR freqs f1 = searchR freqs f2 then (lazyAnswer value freqs.length (.int 0)).map (fun _ => (0 : V))
      else (lazyAnswer value freqs.length (.slice (searchR freqs f1) (some (searchR freqs f2)) 1)).map
        fun a => a.sumLines.getD 0) = .ok (bandSum freqs ((List.range freqs.length).map value) f1 f2) := by
  unfold bandSum
  rw [← band_slice freqs _ hs (by simp) f1 f2]
  split
  · rename_i h
    rw [h, slice_eq_nil]
    rw [lazyAnswer]
    rw [if_pos (by omega)]
    rfl
  · rw [lazyAnswer]
    rw [sliceLines_one value _ _ _ (searchR_le _ _) (searchR_le _ _)]
    rfl

/-- **C22.** `BeamformerBase.synthetic` on a result that answers requests with the right lines (see C21): bands, lists
of limits, and single lines.  `value i` is the map of line `i`. -/
theorem C22_beamformer (hs : freqs.Pairwise (· ≤ ·)) (hne : freqs ≠ []) (f : ℝ) (num : BandNum) :
    bfSynthetic (lazyAnswer value freqs.length) freqs f num = some (.ok (match num with
      | .num 0 => lineValue freqs ((List.range freqs.length).map value) f
      | .num (n + 1) => bandSum freqs ((List.range freqs.length).map value) (octaveLo f (n + 1)) (octaveHi f (n + 1))
      | .limits f1 f2 => bandSum freqs ((List.range freqs.length).map value) f1 f2)) := by
  have h0 : 0 < freqs.length := List.length_pos_iff.2 hne
  unfold bfSynthetic
  rw [if_neg h0.ne']
  congr 1
  match num with
  | .num 0 =>
    simp only
    unfold lineValue
    rw [← line_find freqs _ hs (by simp) f]
    split
    · rename_i h
      rw [lazyAnswer]
      rw [if_pos (by omega), List.getElem?_eq_none (by simp; omega)]
      rfl
    · rename_i h
      rw [lazyAnswer]
      have hp : pyBound (searchR freqs f : Int) freqs.length = (searchR freqs f : Int) := by
        unfold pyBound; rw [if_neg (by omega)]
      rw [if_pos (by omega), hp, Int.toNat_natCast, List.getElem?_eq_getElem (by simp; omega)]
      simp [Except.map, BfAns.toLine]
  | .num (n + 1) =>
    simp only
    rw [limits_eq f (Nat.succ_pos n)]
    exact bf_slice freqs value hs _ _ h0
  | .limits f1 f2 => exact bf_slice freqs value hs _ _ h0

/-- The hypotheses of `C22_beamformer` are met: -/
example := C22_beamformer [10, 20, 30, 40] (fun i => (i : ℝ)) (by norm_num) (by simp) 20 (.num 3)

end Beamformer

section Additive

omit [AddCommMonoid V] in
private theorem adj (f : ℝ) {num : ℕ} (hn : 0 < num) (k : ℕ) :
    octaveHi (f * 2 ^ ((k : ℝ) / num)) num = octaveLo (f * 2 ^ (((k + 1 : ℕ) : ℝ) / num)) num := by
  unfold octaveHi octaveLo
  have h : (num : ℝ) ≠ 0 := by exact_mod_cast hn.ne'
  rw [mul_assoc, mul_assoc, ← Real.rpow_add two_pos, ← Real.rpow_add two_pos]
  congr 2
  push_cast
  field_simp
  ring

private theorem bandSum_add (freqs : List ℝ) (data : List V) {a b c : ℝ} (hab : a ≤ b) (hbc : b ≤ c) :
    bandSum freqs data a b + bandSum freqs data b c = bandSum freqs data a c := by
  unfold bandSum
  induction freqs.zip data with
  | nil => simp
  | cons p l ih =>
    simp only [List.filter_cons]
    by_cases h1 : a ≤ p.1 <;> by_cases h2 : p.1 < b <;> by_cases h3 : b ≤ p.1 <;> by_cases h4 : p.1 < c <;>
      simp only [h1, h2, h3, h4, decide_true, decide_false, Bool.and_true, Bool.and_false, if_true, List.map_cons, List.sum_cons, Bool.false_eq_true, if_false] <;>
      first
        | (exfalso; linarith)
        | exact ih
        | (rw [← ih]; abel)

/-- **C22.** No line lies in two adjacent bands. -/
theorem C22_adjacent_disjoint (f : ℝ) (num : ℕ) (hn : 0 < num) (x : ℝ) :
    ¬ ((octaveLo f num ≤ x ∧ x < octaveHi f num) ∧
      (octaveLo (f * 2 ^ ((1 : ℝ) / num)) num ≤ x ∧ x < octaveHi (f * 2 ^ ((1 : ℝ) / num)) num)) := by
  rintro ⟨⟨_, h1⟩, h2, _⟩
  have := adj f hn 0
  simp only [Nat.cast_zero, zero_div, Real.rpow_zero, mul_one, zero_add, Nat.cast_one] at this
  rw [this] at h1
  linarith

/-- The hypotheses of `C22_adjacent_disjoint` are met: -/
example := C22_adjacent_disjoint 1000 3 (by decide) 1100

/-- **C22.** The values of `m` consecutive bands (centre frequencies `f·2^(k/num)`) as delivered by `synthetic` add up to
the sum over the lines of the union of the bands. -/
theorem C22_consecutive_additive (freqs : List ℝ) (data : List V) (hs : freqs.Pairwise (· ≤ ·))
    (hl : data.length = freqs.length) (hne : data ≠ []) (f : ℝ) (hf : 0 ≤ f) (num : ℕ) (hn : 0 < num) (m : ℕ) :
    ∃ bands, helperSynthetic data freqs ((List.range (m + 1)).map fun k : ℕ => f * 2 ^ ((k : ℝ) / num)) num = .ok bands ∧
      bands.sum = bandSum freqs data (octaveLo f num) (octaveHi (f * 2 ^ ((m : ℝ) / num)) num) := by
  refine ⟨_, C22_band freqs data hs hl hne _ num hn, ?_⟩
  rw [List.map_map]
  have hle : ∀ g : ℝ, 0 ≤ g → octaveLo g num ≤ octaveHi g num := by
    intro g hg
    apply mul_le_mul_of_nonneg_left _ hg
    apply Real.rpow_le_rpow_of_exponent_le one_le_two
    have : (0 : ℝ) ≤ 1 / (2 * num) := by positivity
    linarith
  have hpos : ∀ k : ℕ, 0 ≤ f * 2 ^ ((k : ℝ) / num) := fun k => mul_nonneg hf (Real.rpow_nonneg zero_le_two _)
  induction m with
  | zero => simp
  | succ m ih =>
    rw [List.range_succ, List.map_append, List.sum_append, ih]
    simp only [List.map_cons, List.map_nil, List.sum_cons, List.sum_nil, add_zero, Function.comp]
    rw [adj f hn m]
    apply bandSum_add
    · rw [← adj f hn m]
      have : octaveLo f num ≤ octaveHi f num := hle f hf
      refine le_trans this ?_
      apply mul_le_mul_of_nonneg_right _ (Real.rpow_nonneg zero_le_two _)
      calc f = f * 1 := (mul_one f).symm
        _ ≤ f * 2 ^ ((m : ℝ) / num) := mul_le_mul_of_nonneg_left (Real.one_le_rpow one_le_two (by positivity)) hf
    · exact hle _ (hpos _)

/-- The hypotheses of `C22_consecutive_additive` are met: -/
example := C22_consecutive_additive [10, 20, 30, 40] [1, 2, 3, (4 : ℝ)] (by norm_num) rfl (by simp) 20 (by norm_num) 3 (by decide) 2

/-- The bands of `barspectrum` are not the consecutive bands of `C22_consecutive_additive`: it uses the nominal
centre frequencies, and the third-octave bands around 80 Hz and 100 Hz overlap: a line at 89.5 Hz is counted in
both. -/
theorem C22_nominal_bands_overlap :
    (octaveLo 80 3 ≤ 89.5 ∧ (89.5 : ℝ) < octaveHi 80 3) ∧ (octaveLo 100 3 ≤ 89.5 ∧ (89.5 : ℝ) < octaveHi 100 3) := by
  have hp : (0 : ℝ) < 2 ^ ((1 : ℝ) / (2 * (3 : ℕ))) := Real.rpow_pos_of_pos two_pos _
  have h6 : ((2 : ℝ) ^ ((1 : ℝ) / (2 * (3 : ℕ)))) ^ (6 : ℕ) = 2 := by
    rw [← Real.rpow_natCast, ← Real.rpow_mul two_pos.le]
    norm_num
  have hinv : (2 : ℝ) ^ (-((1 : ℝ) / (2 * (3 : ℕ)))) = (2 ^ ((1 : ℝ) / (2 * (3 : ℕ))))⁻¹ := Real.rpow_neg two_pos.le _
  unfold octaveLo octaveHi
  rw [hinv]
  generalize (2 : ℝ) ^ ((1 : ℝ) / (2 * (3 : ℕ))) = r at hp h6
  have lo : (1.1188 : ℝ) < r := by
    by_contra h
    have := pow_le_pow_left₀ hp.le (not_lt.1 h) 6
    rw [h6] at this
    norm_num at this
  have hlo2 : 1 / r < 1 / 1.1188 := one_div_lt_one_div_of_lt (by norm_num) lo
  rw [one_div] at hlo2
  have hi : r < 1.13 := by
    by_contra h
    have := pow_le_pow_left₀ (by norm_num) (not_lt.1 h) 6
    rw [h6] at this
    norm_num at this
  refine ⟨⟨?_, ?_⟩, ?_, ?_⟩
  · norm_num at hlo2 ⊢; linarith
  · norm_num; linarith
  · norm_num at hlo2 ⊢; linarith
  · norm_num; linarith

end Additive

example : bandSum [10, 20, 30, (40 : ℚ)] [1, 2, 3, (4 : ℚ)] 20 40 = 5 := by decide +kernel
example : lineValue [10, 20, 30, (40 : ℚ)] [1, 2, 3, (4 : ℚ)] 21 = 3 := by decide +kernel

end Acoular
