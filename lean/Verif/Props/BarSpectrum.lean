import Verif.Model.BarSpectrum
import Verif.Props.Synthetic
import Mathlib.Tactic.Linarith
import Mathlib.Tactic.NormNum
import Mathlib.Tactic.Positivity

/-!
# Property theorems: bar graphs of band spectra (C102)
-/

namespace Acoular

/-- Border number `k` of the bars of the `1/num` octave bands with centre frequencies `b` in ascending order: the lower
limit of the first band, the mean of the limits between two adjacent bands, the upper limit of the last band. -/
noncomputable def Spec.barEdge (b : List ℝ) (num k : ℕ) : ℝ :=
  if k = 0 then octaveLo (b.getD 0 0) num
  else if k = b.length then octaveHi (b.getD (b.length - 1) 0) num
  else (octaveHi (b.getD (k - 1) 0) num + octaveLo (b.getD k 0) num) / 2

open Spec
open scoped Classical

section Lemmas

private theorem nominal_sorted {num : ℕ} (hn : num = 1 ∨ num = 3) : (nominalCentres num).Pairwise (· < ·) := by
  rcases hn with rfl | rfl <;> decide +kernel

private theorem nominal_pos {num : ℕ} (hn : num = 1 ∨ num = 3) : ∀ x ∈ nominalCentres num, 0 < x := by
  rcases hn with rfl | rfl <;> decide +kernel

private theorem nominal_length {num : ℕ} (hn : num = 1 ∨ num = 3) : 10 ≤ (nominalCentres num).length := by
  rcases hn with rfl | rfl <;> decide +kernel

private theorem nominal_zero {num : ℕ} (hn : num = 1 ∨ num = 3) : (nominalCentres num)[0]? = some (63 / 2 : ℚ) := by
  rcases hn with rfl | rfl <;> decide +kernel

private theorem getD_lt {l : List ℝ} {i : ℕ} (h : i < l.length) : l.getD i 0 = l[i] := by
  simp only [List.getD, List.getElem?_eq_getElem h, Option.getD_some]

private theorem slice_get {l : List ℝ} {a b i : ℕ} (h : i < (slice l a b).length) :
    ∃ h' : a + i < l.length, a + i < b ∧ (slice l a b)[i] = l[a + i] := by
  have h2 := h
  simp only [slice, List.length_drop, List.length_take] at h2
  refine ⟨by omega, by omega, ?_⟩
  simp [slice]

private theorem low_spec (fc : List ℝ) (hs : fc.Pairwise (· < ·)) (fLow : ℝ) :
    ∀ i (h : i < fc.length), barLow fc fLow < i → fLow ≤ fc[i] := by
  intro i h hi
  unfold barLow at hi
  split at hi
  · rename_i h0
    rw [getD_lt (by omega)] at h0
    have := List.pairwise_iff_getElem.1 hs 0 i (by omega) h hi
    linarith
  · by_contra hc
    set L := (List.range fc.length).filter fun i => decide (fc.getD i 0 < fLow) with hL
    have hm : i ∈ L := by
      rw [hL, List.mem_filter, List.mem_range, getD_lt h]
      exact ⟨h, by simpa using hc⟩
    have hne : L ≠ [] := List.ne_nil_of_mem hm
    rw [List.getLast?_eq_getLast_of_ne_nil hne, Option.getD_some] at hi
    have hsort : L.Pairwise (· < ·) := List.Pairwise.filter _ List.pairwise_lt_range
    obtain ⟨k, hk, rfl⟩ := List.getElem_of_mem hm
    rw [List.getLast_eq_getElem] at hi
    by_cases hkl : k = L.length - 1
    · subst hkl; omega
    · have := List.pairwise_iff_getElem.1 hsort k (L.length - 1) hk (by omega) (by omega)
      omega

private theorem low_first (fc : List ℝ) (fLow : ℝ) (h0 : 0 < fc.length) (hl : fc[0] < fLow) :
    ∃ h : barLow fc fLow < fc.length, fc[barLow fc fLow] < fLow := by
  unfold barLow
  rw [getD_lt h0]
  simp only [ge_iff_le, not_le.2 hl, if_false]
  set L := (List.range fc.length).filter fun i => decide (fc.getD i 0 < fLow) with hL
  have hm : 0 ∈ L := by
    rw [hL, List.mem_filter, List.mem_range, getD_lt h0]
    exact ⟨h0, by simpa using hl⟩
  have hne : L ≠ [] := List.ne_nil_of_mem hm
  have hin : L.getLast?.getD 0 ∈ L := by
    rw [List.getLast?_eq_getLast_of_ne_nil hne, Option.getD_some]
    exact List.getLast_mem hne
  rw [hL, List.mem_filter, List.mem_range] at hin
  rw [← hL] at hin
  refine ⟨hin.1, ?_⟩
  have := hin.2
  rw [getD_lt hin.1] at this
  simpa using this

private theorem high_spec (fc : List ℝ) (hs : fc.Pairwise (· < ·)) (fHigh : ℝ) :
    ∀ i (h : i < fc.length), i < barHigh fc fHigh → fc[i] ≤ fHigh := by
  intro i h hi
  unfold barHigh at hi
  split at hi
  · rename_i h0
    rw [getD_lt (by omega)] at h0
    by_cases he : i = fc.length - 1
    · subst he; exact h0
    · have := List.pairwise_iff_getElem.1 hs i (fc.length - 1) h (by omega) (by omega)
      linarith
  · by_contra hc
    set L := (List.range fc.length).filter fun i => decide (fc.getD i 0 > fHigh) with hL
    have hm : i ∈ L := by
      rw [hL, List.mem_filter, List.mem_range, getD_lt h]
      exact ⟨h, by simpa using hc⟩
    have hsort : L.Pairwise (· < ·) := List.Pairwise.filter _ List.pairwise_lt_range
    match hLL : L, hm, hsort, hi with
    | a :: t, hm, hsort, hi =>
      simp only [List.head?_cons, Option.getD_some] at hi
      rcases List.mem_cons.1 hm with rfl | hm
      · omega
      · have := (List.pairwise_cons.1 hsort).1 i hm
        omega

private theorem high_maximal (fc : List ℝ) (fHigh : ℝ) :
    ∀ (h : barHigh fc fHigh < fc.length), fHigh < fc[barHigh fc fHigh] := by
  unfold barHigh
  split
  · intro h; omega
  · rename_i h0
    intro h
    have hlen : 0 < fc.length := by omega
    set L := (List.range fc.length).filter fun i => decide (fc.getD i 0 > fHigh) with hL
    have hm : fc.length - 1 ∈ L := by
      rw [hL, List.mem_filter, List.mem_range]
      exact ⟨by omega, by simpa using h0⟩
    have hin : L.head?.getD 0 ∈ L := by
      match L, hm with
      | a :: t, _ => simp
    rw [hL, List.mem_filter, List.mem_range] at hin
    rw [← hL] at hin
    have := hin.2
    rw [getD_lt hin.1, decide_eq_true_eq] at this
    exact this

private theorem twice_get {α : Type*} (l : List α) : (twice l).length = 2 * l.length ∧
    ∀ k (h : k < l.length), (twice l)[2 * k]? = some l[k] ∧ (twice l)[2 * k + 1]? = some l[k] := by
  induction l with
  | nil => exact ⟨rfl, fun k h => absurd h (by simp)⟩
  | cons x l ih =>
    have e : twice (x :: l) = x :: x :: twice l := rfl
    rw [e]
    refine ⟨by simp [ih.1]; omega, ?_⟩
    intro k h
    match k, h with
    | 0, _ => simp
    | k + 1, h =>
      have := ih.2 k (by simpa using h)
      have e1 : 2 * (k + 1) = 2 * k + 1 + 1 := by ring
      have e2 : 2 * (k + 1) + 1 = 2 * k + 1 + 1 + 1 := by ring
      rw [e2, e1]
      simpa only [List.getElem?_cons_succ, List.getElem_cons_succ] using this

private theorem bars_get {E : List ℝ} {n : ℕ} (hE : E.length = n + 1) (c : ℝ) :
    ((twice E).tail.dropLast.map (c * ·)).length = 2 * n ∧ ∀ k (h : k < n),
      ((twice E).tail.dropLast.map (c * ·))[2 * k]? = some (c * E[k]) ∧
      ((twice E).tail.dropLast.map (c * ·))[2 * k + 1]? = some (c * E[k + 1]) := by
  obtain ⟨hl, hg⟩ := twice_get E
  refine ⟨by simp [hl]; omega, ?_⟩
  intro k h
  have g1 := (hg k (by omega)).2
  have g2 := (hg (k + 1) (by omega)).1
  have e : 2 * (k + 1) = 2 * k + 1 + 1 := by ring
  rw [e] at g2
  constructor
  · rw [List.getElem?_map, List.getElem?_dropLast, if_pos (by simp [hl]; omega), List.getElem?_tail, g1]; rfl
  · rw [List.getElem?_map, List.getElem?_dropLast, if_pos (by simp [hl]; omega), List.getElem?_tail, g2]; rfl

/-- The borders computed from the list of the centre frequencies. -/
private noncomputable def edges (ep : ℝ) (b : List ℝ) : List ℝ :=
  (b.take 1).map (· * 2 ^ (-ep)) ++
    List.zipWith (fun x y => (x + y) / 2) (b.dropLast.map (· * 2 ^ ep)) (b.tail.map (· * 2 ^ (-ep))) ++
    (b.drop (b.length - 1)).map (· * 2 ^ ep)

private theorem edges_get (b : List ℝ) (hb : b ≠ []) (num : ℕ) :
    ∃ h : (edges (1 / (2 * num)) b).length = b.length + 1, ∀ k (hk : k ≤ b.length),
      (edges (1 / (2 * num)) b)[k] = barEdge b num k := by
  have hpos : 0 < b.length := List.length_pos_iff.2 hb
  have hlen : (edges (1 / (2 * num)) b).length = b.length + 1 := by simp [edges]; omega
  refine ⟨hlen, ?_⟩
  intro k hk
  unfold edges barEdge
  by_cases h0 : k = 0
  · subst h0
    rw [if_pos rfl, List.getElem_append_left (by simp; omega), List.getElem_append_left (by simp; omega)]
    rw [getD_lt hpos]
    simp [octaveLo]
  · rw [if_neg h0]
    by_cases hn : k = b.length
    · rw [if_pos hn, List.getElem_append_right (by simp; omega)]
      rw [getD_lt (by omega)]
      simp only [List.getElem_map, List.getElem_drop, octaveHi]
      congr 2
      simp
      omega
    · rw [if_neg hn, List.getElem_append_left (by simp; omega), List.getElem_append_right (by simp; omega)]
      rw [getD_lt (by omega), getD_lt (by omega)]
      simp only [List.getElem_zipWith, List.getElem_map, List.getElem_dropLast, List.getElem_tail, octaveLo, octaveHi,
        List.length_map, List.length_take]
      have e : k - min 1 b.length = k - 1 := by omega
      simp only [e]
      have e2 : k - 1 + 1 = k := by omega
      simp only [e2]

private theorem borders_eq (fc : List ℝ) {lo hi : ℕ} (hlo : lo < hi) (hhi : hi ≤ fc.length) (ep : ℝ) :
    barBorders fc lo hi ep = .ok (edges ep (slice fc lo hi)) := by
  have hl : (slice fc lo hi).length = hi - lo := by simp [slice]; omega
  have e1 : slice fc lo (hi - 1) = (slice fc lo hi).dropLast := by
    apply List.ext_getElem
    · simp [slice]; omega
    · intro i h1 h2
      simp [slice]
  have e2 : slice fc (lo + 1) hi = (slice fc lo hi).tail := by
    simp [slice]
  have e3 : slice fc lo (lo + 1) = (slice fc lo hi).take 1 := by
    apply List.ext_getElem
    · simp [slice]; omega
    · intro i h1 h2
      simp [slice]
  have e4 : slice fc (hi - 1) hi = (slice fc lo hi).drop ((slice fc lo hi).length - 1) := by
    rw [hl]
    simp only [slice, List.drop_drop]
    congr 1
    omega
  unfold barBorders broadcastAdd
  rw [if_neg (by omega)]
  simp only [e1, e2, e3, e4]
  rw [if_pos (by simp)]
  show Except.ok _ = _
  unfold edges
  rw [List.map_zipWith]

/-- The centre frequencies as real numbers. -/
private noncomputable def centresR (num : ℕ) : List ℝ := (nominalCentres num).map ((↑) : ℚ → ℝ)

private theorem centresR_sorted {num : ℕ} (hn : num = 1 ∨ num = 3) : (centresR num).Pairwise (· < ·) := by
  unfold centresR
  rw [List.pairwise_map]
  exact (nominal_sorted hn).imp fun h => by exact_mod_cast h

private theorem centresR_pos {num : ℕ} (hn : num = 1 ∨ num = 3) : ∀ x ∈ centresR num, 0 < x := by
  intro x hx
  obtain ⟨q, hq, rfl⟩ := List.mem_map.1 hx
  exact_mod_cast nominal_pos hn q hq

private theorem centresR_zero {num : ℕ} (hn : num = 1 ∨ num = 3) (h : 0 < (centresR num).length) :
    (centresR num)[0] = 31.5 := by
  have h1 : (centresR num)[0]? = some (31.5 : ℝ) := by
    unfold centresR
    rw [List.getElem?_map, nominal_zero hn]
    norm_num
  rw [List.getElem?_eq_getElem h] at h1
  injection h1

private theorem two_ep (f : ℝ) (num : ℕ) (g : ℝ) : g * 2 ^ ((1 : ℝ) / (2 * num)) ≤ f ↔ g ≤ octaveLo f num := by
  unfold octaveLo
  have hp : (0 : ℝ) < 2 ^ ((1 : ℝ) / (2 * num)) := Real.rpow_pos_of_pos two_pos _
  rw [Real.rpow_neg two_pos.le, ← div_eq_mul_inv, le_div_iff₀ hp]

private theorem two_ep' (f : ℝ) (num : ℕ) (g : ℝ) : f ≤ g * 2 ^ (-((1 : ℝ) / (2 * num))) ↔ octaveHi f num ≤ g := by
  unfold octaveHi
  have hp : (0 : ℝ) < 2 ^ ((1 : ℝ) / (2 * num)) := Real.rpow_pos_of_pos two_pos _
  rw [Real.rpow_neg two_pos.le, ← div_eq_mul_inv, le_div_iff₀ hp]

/-- The limits of the selection. -/
private noncomputable def selLo (freqs : List ℝ) (num : ℕ) : ℕ :=
  barLow (centresR num) (freqs.getD 1 0 * 2 ^ ((1 : ℝ) / (2 * num)))
/-- See `selLo`. -/
private noncomputable def selHi (freqs : List ℝ) (num : ℕ) : ℕ :=
  barHigh (centresR num) (freqs.getLastD 0 * 2 ^ (-((1 : ℝ) / (2 * num))))

private theorem bar_eq {data freqs : List ℝ} {num : ℕ} (hn : num = 1 ∨ num = 3) (hs : freqs.Pairwise (· ≤ ·))
    (hl : data.length = freqs.length) (h2 : 2 ≤ freqs.length) (bar : Bool) (xoffset : ℝ) :
    barspectrum data freqs num bar xoffset =
      if bar then (barBorders (centresR num) (selLo freqs num) (selHi freqs num) (1 / (2 * num))).map fun flu =>
        .curve ((twice flu).tail.dropLast.map (2 ^ (2 * xoffset * (1 / (2 * num : ℝ))) * ·))
          (twice ((slice (centresR num) (selLo freqs num) (selHi freqs num)).map fun f =>
            bandSum freqs data (octaveLo f num) (octaveHi f num)))
          (slice (centresR num) (selLo freqs num) (selHi freqs num))
      else .ok (.curve (slice (centresR num) (selLo freqs num) (selHi freqs num))
        ((slice (centresR num) (selLo freqs num) (selHi freqs num)).map fun f =>
            bandSum freqs data (octaveLo f num) (octaveHi f num))
        (slice (centresR num) (selLo freqs num) (selHi freqs num))) := by
  have hne : data ≠ [] := by rw [← List.length_pos_iff]; omega
  have hn0 : 0 < num := by omega
  unfold barspectrum
  rw [if_neg (not_not.2 hn), List.getElem?_eq_getElem (by omega : 1 < freqs.length)]
  simp only
  rw [C22_band freqs data hs hl hne _ num hn0]
  have e1 : freqs[1] = freqs.getD 1 0 := (getD_lt (by omega)).symm
  rw [e1]
  change (do
    let p ← Except.ok ((slice (centresR num) (selLo freqs num) (selHi freqs num)).map fun f =>
            bandSum freqs data (octaveLo f num) (octaveHi f num))
    if bar = true then do
      let flu ← barBorders (centresR num) (selLo freqs num) (selHi freqs num) (1 / (2 * num))
      return .curve ((twice flu).tail.dropLast.map (2 ^ (2 * xoffset * (1 / (2 * num : ℝ))) * ·)) (twice p) (slice (centresR num) (selLo freqs num) (selHi freqs num))
    else return .curve (slice (centresR num) (selLo freqs num) (selHi freqs num)) p (slice (centresR num) (selLo freqs num) (selHi freqs num)) : Except PyErr BarResult) = _
  cases bar with
  | false => rfl
  | true =>
    simp only [if_true]
    show (do
      let flu ← barBorders (centresR num) (selLo freqs num) (selHi freqs num) (1 / (2 * num))
      return _ : Except PyErr BarResult) = _
    cases barBorders (centresR num) (selLo freqs num) (selHi freqs num) (1 / (2 * num)) <;> rfl

private theorem sel_of_curve {data freqs : List ℝ} {num : ℕ} (hn : num = 1 ∨ num = 3) (hs : freqs.Pairwise (· ≤ ·))
    (hl : data.length = freqs.length) (h2 : 2 ≤ freqs.length) {bar : Bool} {xoffset : ℝ} {flu p fcs : List ℝ}
    (h : barspectrum data freqs num bar xoffset = .ok (.curve flu p fcs)) :
    fcs = slice (centresR num) (selLo freqs num) (selHi freqs num) := by
  rw [bar_eq hn hs hl h2] at h
  cases bar with
  | false =>
    simp only [Bool.false_eq_true, if_false] at h
    injection h with h
    injection h with _ _ h
    exact h.symm
  | true =>
    simp only [if_true] at h
    cases hb : barBorders (centresR num) (selLo freqs num) (selHi freqs num) (1 / (2 * num)) with
    | error e => rw [hb] at h; cases h
    | ok v =>
      rw [hb] at h
      injection h with h
      injection h with _ _ h
      exact h.symm

end Lemmas

/-- The nominal centre frequencies are those of IEC 61260 from 31.5 Hz to 16 kHz (octaves) or 25 kHz (third octaves). -/
theorem C102_centres :
    nominalCentres 1 = [31.5, 63, 125, 250, 500, 1000, 2000, 4000, 8000, 16000] ∧
    nominalCentres 3 = [31.5, 40, 50, 63, 80, 100, 125, 160, 200, 250, 315, 400, 500, 630, 800, 1000, 1250, 1600, 2000,
      2500, 3150, 4000, 5000, 6300, 8000, 10000, 12500, 16000, 20000, 25000] := by
  constructor <;> decide +kernel

/-- **C102 (partial).** Which bands `barspectrum` returns, for spectra with at least two lines: all bands that lie
between the second and the last frequency of the spectrum are returned; every returned band ends at or below the last
frequency; and every returned band *except the first* begins at or above the second frequency of the spectrum.
Missing: the first one, see `C102_lower_violated`. -/
theorem C102_selection_partial (data freqs : List ℝ) (num : ℕ) (hn : num = 1 ∨ num = 3) (hs : freqs.Pairwise (· ≤ ·))
    (hl : data.length = freqs.length) (h2 : 2 ≤ freqs.length) (bar : Bool) (xoffset : ℝ) (flu p fcs : List ℝ)
    (h : barspectrum data freqs num bar xoffset = .ok (.curve flu p fcs)) :
    (∀ f ∈ fcs, octaveHi f num ≤ freqs.getLastD 0) ∧
    (∀ f ∈ fcs.tail, freqs.getD 1 0 ≤ octaveLo f num) ∧
    (∀ q ∈ nominalCentres num, freqs.getD 1 0 ≤ octaveLo q num → octaveHi q num ≤ freqs.getLastD 0 → (q : ℝ) ∈ fcs) ∧
    ∀ f ∈ fcs, ∃ q ∈ nominalCentres num, (q : ℝ) = f := by
  have hf := sel_of_curve hn hs hl h2 h
  have hsort := centresR_sorted hn
  refine ⟨?_, ?_, ?_, ?_⟩
  · intro f hm
    obtain ⟨i, hi, rfl⟩ := List.getElem_of_mem hm
    subst hf
    obtain ⟨h1, h3, h4⟩ := slice_get hi
    rw [h4, ← two_ep']
    exact high_spec _ hsort _ _ h1 h3
  · intro f hm
    obtain ⟨i, hi, rfl⟩ := List.getElem_of_mem hm
    subst hf
    rw [List.getElem_tail]
    have hi' : i + 1 < (slice (centresR num) (selLo freqs num) (selHi freqs num)).length := by
      rw [List.length_tail] at hi; omega
    obtain ⟨h1, h3, h4⟩ := slice_get hi'
    rw [h4, ← two_ep]
    exact low_spec _ hsort _ _ h1 (show selLo freqs num < selLo freqs num + (i + 1) by omega)
  · intro q hq h1 h3
    have hm : (q : ℝ) ∈ centresR num := List.mem_map_of_mem hq
    rw [← two_ep] at h1
    rw [← two_ep'] at h3
    obtain ⟨i, hi, he⟩ := List.getElem_of_mem hm
    rw [← he] at h1 h3 ⊢
    have hlo : selLo freqs num ≤ i := by
      by_cases h00 : (centresR num)[0] < freqs.getD 1 0 * 2 ^ ((1 : ℝ) / (2 * num))
      · obtain ⟨g1, g2⟩ := low_first (centresR num) _ (by omega) h00
        by_contra hc
        have := List.pairwise_iff_getElem.1 hsort i (selLo freqs num) hi g1 (by omega)
        have g2' : (centresR num)[selLo freqs num] < freqs.getD 1 0 * 2 ^ ((1 : ℝ) / (2 * num)) := g2
        linarith
      · have : selLo freqs num = 0 := by
          unfold selLo barLow
          rw [if_pos]
          rw [getD_lt (by omega)]
          exact not_lt.1 h00
        omega
    have hhi : i < selHi freqs num := by
      by_contra hc
      have hlt : selHi freqs num < (centresR num).length := by omega
      have g := high_maximal (centresR num) (freqs.getLastD 0 * 2 ^ (-((1 : ℝ) / (2 * num)))) hlt
      have g' : freqs.getLastD 0 * 2 ^ (-((1 : ℝ) / (2 * num))) < (centresR num)[selHi freqs num] := g
      by_cases hc2 : selHi freqs num = i
      · simp only [hc2] at g'
        linarith
      · have := List.pairwise_iff_getElem.1 hsort (selHi freqs num) i hlt hi (by omega)
        linarith
    rw [hf]
    have hin : i - selLo freqs num < (slice (centresR num) (selLo freqs num) (selHi freqs num)).length := by
      simp only [slice, List.length_drop, List.length_take]; omega
    obtain ⟨k1, _, k3⟩ := slice_get hin
    have e : selLo freqs num + (i - selLo freqs num) = i := by omega
    simp only [e] at k3
    rw [← k3]
    exact List.getElem_mem hin
  · intro f hm
    rw [hf] at hm
    have : f ∈ centresR num := List.mem_of_mem_take (List.mem_of_mem_drop hm)
    obtain ⟨q, hq, hqf⟩ := List.mem_map.1 this
    exact ⟨q, hq, hqf⟩

/-- **C102 is violated at the lower end.** Whenever the lowest nominal band (centre frequency 31.5 Hz) does not lie in
the range of the spectrum, i.e. begins below its second frequency, and any band is returned, the first returned
band is incomplete: it begins below the second frequency of the spectrum. (The index of the last band that is too
low is used as first index of the selection.) -/
theorem C102_lower_violated (data freqs : List ℝ) (num : ℕ) (hn : num = 1 ∨ num = 3) (hs : freqs.Pairwise (· ≤ ·))
    (hl : data.length = freqs.length) (h2 : 2 ≤ freqs.length) (bar : Bool) (xoffset : ℝ) (flu p fcs : List ℝ)
    (h : barspectrum data freqs num bar xoffset = .ok (.curve flu p fcs))
    (hlow : octaveLo 31.5 num < freqs.getD 1 0) (hne : fcs ≠ []) :
    octaveLo (fcs.head hne) num < freqs.getD 1 0 := by
  have hf := sel_of_curve hn hs hl h2 h
  have hlen : 0 < (centresR num).length := by
    unfold centresR; rw [List.length_map]; have := nominal_length hn; omega
  have h00 : (centresR num)[0] = 31.5 := centresR_zero hn _
  have hlt : (centresR num)[0] < freqs.getD 1 0 * 2 ^ ((1 : ℝ) / (2 * num)) := by
    rw [h00]
    by_contra hc
    exact absurd ((two_ep _ _ _).1 (not_lt.1 hc)) (not_le.2 hlow)
  obtain ⟨g1, g2⟩ := low_first (centresR num) _ hlen hlt
  subst hf
  have hpos : 0 < (slice (centresR num) (selLo freqs num) (selHi freqs num)).length := List.length_pos_iff.2 hne
  obtain ⟨k1, _, k3⟩ := slice_get hpos
  rw [List.head_eq_getElem, k3]
  by_contra hc
  have := (two_ep _ _ _).2 (not_lt.1 hc)
  exact absurd g2 (not_lt.2 this)

/-- **C102 (partial).** Whenever at least one band is selected, the curve of `barspectrum(bar=True)` consists of one bar
per returned band: bar number `k` has the height of the sum of the lines of band `k`, and extends between borders `k` and
`k + 1` of the bands, both multiplied by `2 ** (xoffset / num)`. Missing: no band is selected, see
`C102_empty_violated`. -/
theorem C102_bars_partial (data freqs : List ℝ) (num : ℕ) (hn : num = 1 ∨ num = 3) (hs : freqs.Pairwise (· ≤ ·))
    (hl : data.length = freqs.length) (h2 : 2 ≤ freqs.length) (xoffset : ℝ) (fu pu fcs : List ℝ)
    (h0 : barspectrum data freqs num false xoffset = .ok (.curve fu pu fcs)) (hne : fcs ≠ []) :
    ∃ flu p, barspectrum data freqs num true xoffset = .ok (.curve flu p fcs) ∧
      flu.length = 2 * fcs.length ∧ p.length = 2 * fcs.length ∧
      ∀ k (hk : k < fcs.length),
        p[2 * k]? = some (bandSum freqs data (octaveLo fcs[k] num) (octaveHi fcs[k] num)) ∧
        p[2 * k + 1]? = some (bandSum freqs data (octaveLo fcs[k] num) (octaveHi fcs[k] num)) ∧
        flu[2 * k]? = some (2 ^ (xoffset / num) * barEdge fcs num k) ∧
        flu[2 * k + 1]? = some (2 ^ (xoffset / num) * barEdge fcs num (k + 1)) := by
  have hf := sel_of_curve hn hs hl h2 h0
  have hpos : 0 < fcs.length := List.length_pos_iff.2 hne
  have hlen : fcs.length = min (selHi freqs num) (centresR num).length - selLo freqs num := by
    rw [hf]; simp only [slice, List.length_drop, List.length_take]
  have hhi : selHi freqs num ≤ (centresR num).length := by
    unfold selHi barHigh
    split
    · exact le_refl _
    · cases hh : ((List.range (centresR num).length).filter fun i => decide ((centresR num).getD i 0 >
          freqs.getLastD 0 * 2 ^ (-((1 : ℝ) / (2 * num))))).head? with
      | none => simp
      | some a =>
        have := List.mem_of_mem_head? hh
        rw [List.mem_filter, List.mem_range] at this
        exact this.1.le
  have hb := borders_eq (centresR num) (lo := selLo freqs num) (hi := selHi freqs num) (by omega) hhi (1 / (2 * num))
  have hbe := bar_eq hn hs hl h2 true xoffset
  rw [if_pos rfl, hb] at hbe
  obtain ⟨hE, hEg⟩ := edges_get fcs hne num
  rw [← hf] at hbe
  have hc : (2 : ℝ) ^ (2 * xoffset * (1 / (2 * num : ℝ))) = 2 ^ (xoffset / num) := by
    congr 1
    have : (num : ℝ) ≠ 0 := by have : num ≠ 0 := by omega
                               exact_mod_cast this
    field_simp
  rw [hc] at hbe
  obtain ⟨b1, b2⟩ := bars_get hE (2 ^ (xoffset / num))
  obtain ⟨t1, t2⟩ := twice_get (fcs.map fun f => bandSum freqs data (octaveLo f num) (octaveHi f num))
  refine ⟨_, _, hbe, b1, by rw [t1, List.length_map], ?_⟩
  intro k hk
  have t3 := t2 k (by rw [List.length_map]; exact hk)
  rw [List.getElem_map] at t3
  have b3 := b2 k hk
  rw [hEg k hk.le, hEg (k + 1) (by omega)] at b3
  exact ⟨t3.1, t3.2, b3.1, b3.2⟩

/-- **C102.** The same for `bardata` with any non-empty list of centre frequencies and one value per band. -/
theorem C102_bardata (data fc : List ℝ) (num : ℕ) (xoffset : ℝ) (hl : data.length = fc.length) (hne : fc ≠ []) :
    (bardata data fc num true xoffset).1.length = 2 * fc.length ∧
    (bardata data fc num true xoffset).2.length = 2 * fc.length ∧
    ∀ k (hk : k < fc.length),
      (bardata data fc num true xoffset).2[2 * k]? = some data[k] ∧
      (bardata data fc num true xoffset).2[2 * k + 1]? = some data[k] ∧
      (bardata data fc num true xoffset).1[2 * k]? = some (2 ^ (xoffset / num) * barEdge fc num k) ∧
      (bardata data fc num true xoffset).1[2 * k + 1]? = some (2 ^ (xoffset / num) * barEdge fc num (k + 1)) := by
  obtain ⟨hE, hEg⟩ := edges_get fc hne num
  obtain ⟨b1, b2⟩ := bars_get hE (2 ^ (xoffset / num))
  obtain ⟨t1, t2⟩ := twice_get data
  have e : bardata data fc num true xoffset =
      ((twice (edges (1 / (2 * num)) fc)).tail.dropLast.map ((2 : ℝ) ^ (xoffset / num) * ·), twice data) := by
    unfold bardata edges
    rw [if_pos rfl, mul_one]
  rw [e]
  refine ⟨b1, by rw [t1, hl], ?_⟩
  intro k hk
  have b3 := b2 k hk
  rw [hEg k hk.le, hEg (k + 1) (by omega)] at b3
  have t3 := t2 k (by omega)
  exact ⟨t3.1, t3.2, b3.1, b3.2⟩

/-- The hypotheses of `C102_bardata` are met: -/
example := C102_bardata [60, 70, 80] [500, 1000, 2000] 1 (-1) rfl (by simp)

/-- **C102 is violated when no band fits.** If the upper limit of the lowest band is above the last frequency of the
spectrum, and the lowest band does not begin below the second frequency, `barspectrum(bar=False)` returns an empty
curve, but `barspectrum(bar=True)` raises `ValueError`: the bound `i_high - 1 = -1` counts from the end. -/
theorem C102_empty_violated (data freqs : List ℝ) (num : ℕ) (hn : num = 1 ∨ num = 3) (hs : freqs.Pairwise (· ≤ ·))
    (hl : data.length = freqs.length) (h2 : 2 ≤ freqs.length) (xoffset : ℝ)
    (hlow : freqs.getD 1 0 ≤ octaveLo 31.5 num) (hhigh : freqs.getLastD 0 < octaveHi 31.5 num) :
    barspectrum data freqs num false xoffset = .ok (.curve [] [] []) ∧
    barspectrum data freqs num true xoffset = .error .valueError := by
  have hlen : 10 ≤ (centresR num).length := by
    unfold centresR; rw [List.length_map]; exact nominal_length hn
  have h00 : (centresR num)[0] = 31.5 := centresR_zero hn _
  have hsort := centresR_sorted hn
  have hlo : selLo freqs num = 0 := by
    unfold selLo barLow
    rw [if_pos]
    rw [getD_lt (by omega), h00]
    exact (two_ep _ _ _).2 hlow
  have hhi : selHi freqs num = 0 := by
    by_contra hc
    have := high_spec (centresR num) hsort (freqs.getLastD 0 * 2 ^ (-((1 : ℝ) / (2 * num)))) 0 (by omega)
      (Nat.pos_of_ne_zero hc)
    rw [h00, two_ep'] at this
    linarith
  rw [bar_eq hn hs hl h2, bar_eq hn hs hl h2, hlo, hhi]
  refine ⟨by simp [slice], ?_⟩
  have : barBorders (centresR num) 0 0 (1 / (2 * num)) = .error .valueError := by
    unfold barBorders broadcastAdd
    simp only [if_true]
    rw [if_neg, if_neg, if_neg]
    · rfl
    · simp [slice]
    · simp [slice]; omega
    · simp [slice]; omega
  rw [if_pos rfl, this]
  rfl

section Examples

private theorem sqrt_bounds : (1.41 : ℝ) < 2 ^ ((1 : ℝ) / (2 * (1 : ℕ))) ∧ (2 : ℝ) ^ ((1 : ℝ) / (2 * (1 : ℕ))) < 1.42 := by
  have e : (2 : ℝ) ^ ((1 : ℝ) / (2 * (1 : ℕ))) = √2 := by
    rw [Real.sqrt_eq_rpow]; norm_num
  rw [e]
  exact ⟨Real.lt_sqrt_of_sq_lt (by norm_num), (Real.sqrt_lt' (by norm_num)).2 (by norm_num)⟩

/-- The hypotheses of `C102_lower_violated` and `C102_bars_partial` are met by a spectrum with lines at 0, 100 and 1000 Hz:
the octave band at 63 Hz (44 to 89 Hz) is returned as well as those at 125, 250 and 500 Hz. -/
example : ∃ flu p fcs, barspectrum [0, 1, 2] [0, 100, 1000] 1 false 0 = .ok (.curve flu p fcs) ∧ fcs ≠ [] ∧
    octaveLo 31.5 1 < ([0, 100, 1000] : List ℝ).getD 1 0 := by
  have hs : ([0, 100, 1000] : List ℝ).Pairwise (· ≤ ·) := by simp; norm_num
  have hb := bar_eq (data := [0, 1, 2]) (Or.inl rfl : 1 = 1 ∨ 1 = 3) hs rfl (by simp) false 0
  rw [if_neg (by simp)] at hb
  refine ⟨_, _, _, hb, ?_, ?_⟩
  · have := (C102_selection_partial [0, 1, 2] _ 1 (Or.inl rfl) hs rfl (by simp) false 0 _ _ _ hb).2.2.1 250 (by decide +kernel)
    refine List.ne_nil_of_mem (this ?_ ?_)
    · rw [← two_ep]; simp only [List.getD]; have := sqrt_bounds; norm_num at this ⊢; linarith
    · unfold octaveHi; have := sqrt_bounds; norm_num at this ⊢; linarith
  · by_contra hc
    have h1 := (two_ep _ _ _).2 (not_lt.1 hc)
    have := sqrt_bounds
    simp only [List.getD] at h1
    norm_num at this h1
    linarith

/-- The hypotheses of `C102_empty_violated` are met by a spectrum with lines at 0, 1, 2 Hz. -/
example : ([0, 1, 2] : List ℝ).getD 1 0 ≤ octaveLo 31.5 1 ∧ ([0, 1, 2] : List ℝ).getLastD 0 < octaveHi 31.5 1 := by
  have := sqrt_bounds
  constructor
  · rw [← two_ep]; simp only [List.getD]; norm_num at this ⊢; linarith
  · unfold octaveHi; norm_num at this ⊢; linarith

end Examples

end Acoular
