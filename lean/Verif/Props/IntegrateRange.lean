import Verif.Model.IntegrateRange
import Verif.Props.Synthetic

/-!
# Property theorems: integration over a sector and a range of frequencies or bands (C68)
-/

namespace Acoular

open Spec
open scoped Classical

variable {V : Type*} [AddCommMonoid V]

/-- Specification: the lines, with their values, whose frequencies are in the range, the upper limit excluded. -/
noncomputable def Spec.linesBelow (freqs : List ℝ) (val : ℕ → V) (fmin fmax : ℝ) : List (ℝ × V) :=
  ((freqs.zip ((List.range freqs.length).map val)).filter fun p => decide (fmin ≤ p.1) && decide (p.1 < fmax))

omit [AddCommMonoid V] in
private theorem slice_fst (freqs : List ℝ) (data : List V) (a b : ℕ) :
    slice (freqs.zip data) a b = (slice freqs a b).zip (slice data a b) := by
  unfold slice
  rw [List.zip, List.take_zipWith, List.drop_zipWith]

omit [AddCommMonoid V] in
private theorem lines_slice (freqs : List ℝ) (hs : freqs.Pairwise (· ≤ ·)) (val : ℕ → V) (fmin fmax : ℝ) :
    linesBelow freqs val fmin fmax =
      (slice freqs (searchR freqs fmin) (searchR freqs fmax)).zip
        (slice ((List.range freqs.length).map val) (searchR freqs fmin) (searchR freqs fmax)) := by
  rw [← slice_fst, band_slice freqs _ hs (by simp)]
  unfold linesBelow
  generalize (List.range freqs.length).map val = data
  induction freqs generalizing data with
  | nil => rfl
  | cons x l ih =>
    cases data with
    | nil => simp
    | cons y data =>
      rw [List.pairwise_cons] at hs
      simp only [List.zip_cons_cons, List.filter_cons]
      have := ih hs.2 data
      split <;> simp [this]

/-- **C68** (part) Once a result has been read, `integrate` with `frange = (fmin, fmax)` returns the frequencies and the sums over the sector of
the lines with `fmin ≤ f < fmax`. -/
theorem C68_frange_partial (s : BandState) (hs : s.freqs.Pairwise (· ≤ ·)) (fmin fmax : ℝ) (val : ℕ → V) :
    ∃ fs vs, integrateFrange s.readResult fmin fmax val = .ok (fs, vs) ∧ fs.length = vs.length ∧
      fs.zip vs = linesBelow s.freqs val fmin fmax := by
  have hle : searchR s.freqs fmax ≤ s.freqs.length := searchR_le _ _
  refine ⟨_, _, by
    unfold integrateFrange BandState.readResult
    simp only
    rw [if_neg (by omega)], ?_, ?_⟩
  · simp [slice]
  · rw [lines_slice s.freqs hs]
    congr 1
    unfold slice
    rw [← List.map_take, ← List.map_take, ← List.map_drop, ← List.map_drop, List.take_range, Nat.min_eq_left hle]
    apply List.map_congr_left
    intro i hi
    rw [List.mem_drop_iff_getElem] at hi
    obtain ⟨j, hj, rfl⟩ := hi
    simp only [List.length_range] at hj
    rw [if_pos (by simp; omega)]

/-- **C68**, fails: the line at the upper limit is left out; a range of a single frequency selects nothing. -/
theorem C68_upper_limit_violated (s : BandState) (hs : s.freqs.Pairwise (· ≤ ·)) (fmin fmax : ℝ) (val : ℕ → V) :
    ∃ fs vs, integrateFrange s.readResult fmin fmax val = .ok (fs, vs) ∧ fmax ∉ fs ∧ (fmin = fmax → fs = [] ∧ vs = []) := by
  obtain ⟨fs, vs, h1, hl, h2⟩ := C68_frange_partial s hs fmin fmax val
  have hmem : ∀ f ∈ fs, fmin ≤ f ∧ f < fmax := by
    intro f hf
    obtain ⟨i, hi, rfl⟩ := List.getElem_of_mem hf
    have : (fs[i], vs[i]'(hl ▸ hi)) ∈ fs.zip vs := List.mem_iff_getElem.2 ⟨i, by simp; omega, by simp⟩
    rw [h2] at this
    have := (List.mem_filter.1 this).2
    simpa using this
  refine ⟨fs, vs, h1, fun h => lt_irrefl _ (hmem _ h).2, fun he => ?_⟩
  have hn : fs = [] := List.eq_nil_iff_forall_not_mem.2 fun f hf => by
    have := hmem f hf
    linarith
  subst hn
  exact ⟨rfl, List.length_eq_zero_iff.1 hl.symm⟩

/-- **C68**, fails: if no result has been read before, nothing is returned, whatever the range. -/
theorem C68_frange_first_call_violated (freqs : List ℝ) (fmin fmax : ℝ) (val : ℕ → V) :
    integrateFrange ⟨freqs, []⟩ fmin fmax val = .ok ([], []) := by
  unfold integrateFrange searchR searchsorted
  simp [slice]

/-- **C68** With bands (`num > 0`): one value per centre frequency, the sum over the lines of the band and the points of the sector; with and without
a result read before. -/
theorem C68_bands {P : Type*} (s : BandState) (hs : s.freqs.Pairwise (· ≤ ·)) (hne : s.freqs ≠ []) (ind : List P) (value : ℕ → P → V)
    (num : ℕ) (hn : 0 < num) (centres : List ℝ) :
    integrateBands s ind (lazyAnswer value s.freqs.length) num centres = .ok (centres.map fun f =>
      bandSum s.freqs ((List.range s.freqs.length).map fun k : ℕ => (ind.map (value k)).sum) (octaveLo f num) (octaveHi f num)) := by
  obtain ⟨n, rfl⟩ := Nat.exists_eq_succ_of_ne_zero hn.ne'
  have hadd : ∀ l : List (P → V), sectorSum ind l.sum = (l.map fun m => (ind.map m).sum).sum := by
    intro l
    induction l with
    | nil =>
      show (ind.map fun _ => (0 : V)).sum = 0
      simp
    | cons a l ih =>
      rw [List.sum_cons, List.map_cons, List.sum_cons, ← ih]
      unfold sectorSum
      rw [← List.sum_map_add]
      rfl
  have h1 : ∀ f, bandSum s.freqs ((List.range s.freqs.length).map fun k : ℕ => (ind.map (value k)).sum) (octaveLo f (n + 1)) (octaveHi f (n + 1)) =
      sectorSum ind (bandSum s.freqs ((List.range s.freqs.length).map value) (octaveLo f (n + 1)) (octaveHi f (n + 1))) := by
    intro f
    unfold bandSum
    rw [hadd, ← band_slice s.freqs _ hs (by simp), ← band_slice s.freqs _ hs (by simp)]
    unfold slice
    rw [← List.map_take, ← List.map_take, ← List.map_drop, ← List.map_drop, List.map_map]
    rfl
  unfold integrateBands
  induction centres with
  | nil => rfl
  | cons f l ih =>
    rw [List.mapM_cons, ih, C22_beamformer _ _ hs hne]
    simp only [List.map_cons, h1]
    rfl

/-- The hypotheses are met: -/
private noncomputable def fourLines : BandState := ⟨[10, 20, 30, 40], []⟩

example := C68_frange_partial fourLines (by norm_num [fourLines]) 20 30 (fun k => (k : ℝ))
example := C68_upper_limit_violated fourLines (by norm_num [fourLines]) 20 30 (fun k => (k : ℝ))
example := C68_bands fourLines (by norm_num [fourLines]) (by simp [fourLines]) [0, 2] (fun k p => (k * p : ℕ)) 3 (by norm_num) [20, 31.5]

end Acoular
