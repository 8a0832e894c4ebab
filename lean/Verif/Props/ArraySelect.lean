import Verif.Model.ArraySelect
import Verif.Props.Stream
import Verif.Props.Windows
import Verif.Props.Csm
import Verif.Lemmas.StreamModel
import Mathlib.Tactic.NormNum
import Mathlib.Tactic.FinCases

/-!
# C165: excluded channels
-/

namespace Acoular

open Spec

variable {g : ℕ}

/-- Specification: what is left of a list with one entry per channel. -/
def Spec.channelsLeft {α : Type*} (invalid : List ℤ) (l : List α) : List α := selectIdx (validChannel invalid) l

section

private theorem micPos_left {X : Type*} [Inhabited X] (total : List X) (invalid : List ℤ)
    (h : invalid = [] ∨ ∃ i < total.length, (i : ℤ) ∉ invalid) : micPos total invalid = .ok (channelsLeft invalid total) := by
  unfold micPos channelsLeft
  by_cases hi : invalid.length = 0
  · have hi' : invalid = [] := List.eq_nil_of_length_eq_zero hi
    subst hi'
    rw [if_pos hi, selectIdx_true _ (by intro i; simp [validChannel])]
  · have hne : ((List.range total.length).filter fun i : ℕ => !(invalid.contains (i : ℤ))).length ≠ 0 := by
      rcases h with h | ⟨i, h1, h2⟩
      · exact absurd (by rw [h]; rfl) hi
      · refine (List.length_pos_of_mem (a := i) ?_).ne'
        simp [List.mem_filter, h1, h2]
    rw [if_neg hi]
    dsimp only
    rw [if_neg hne, selectIdx_eq_filterMap]
    congr 1
    have : ∀ l : List ℕ, (∀ i ∈ l, i < total.length) → l.map (fun i => total.getD i default) = l.filterMap fun i => total[i]? := by
      intro l
      induction l with
      | nil => intro _; rfl
      | cons a l ih =>
        intro hl
        have ha : a < total.length := hl a (by simp)
        rw [List.map_cons, List.filterMap_cons, List.getElem?_eq_getElem ha, ih fun i hi => hl i (by simp [hi])]
        simp [List.getD_eq_getElem?_getD, List.getElem?_eq_getElem ha]
    exact this _ fun i hi => List.mem_range.1 (List.mem_filter.1 hi).1

private theorem numChannels_left (invalid : List ℤ) (n : ℕ) :
    maskedNumChannels invalid n = (channelsLeft invalid (List.range n)).length := by
  have := applyMask_eq invalid (List.range n)
  rw [List.length_range] at this
  unfold channelsLeft
  rw [← this]
  unfold maskedNumChannels applyMask channelMask
  by_cases h : invalid.length = 0
  · simp [h]
  · simp only [h, if_false]
    have : ∀ l : List ℕ, (∀ x ∈ l, x < n) → (l.filterMap fun i => (List.range n)[i]?) = l := by
      intro l hl
      induction l with
      | nil => rfl
      | cons x l ih =>
        rw [List.filterMap_cons, List.getElem?_range (hl x (by simp))]
        simp only
        rw [ih (fun y hy => hl y (by simp [hy]))]
    rw [this]
    intro x hx
    have := (List.mem_filter.1 hx).1
    simpa using this

private theorem samples_left (data : List (List ℝ)) (n : ℕ) (hrow : ∀ r ∈ data, r.length = n) (start : ℤ) (stop : Option ℤ)
    (invalid : List ℤ) (h : invalid = [] ∨ ∃ i < n, (i : ℤ) ∉ invalid) (m num : ℕ) :
    MaskedTimeSamples.result data n start stop invalid none num =
      MaskedTimeSamples.result (data.map (channelsLeft invalid)) m start stop [] none num := by
  have hm : channelMask invalid n ≠ some [] := by
    unfold channelMask
    by_cases hi : invalid.length = 0
    · simp [hi]
    · rw [if_neg hi]
      rcases h with h | ⟨i, h1, h2⟩
      · exact absurd (by rw [h]; rfl) hi
      · intro e
        have : i ∈ (List.range n).filter fun j : ℕ => decide ((j : ℤ) ∉ invalid) :=
          List.mem_filter.2 ⟨List.mem_range.2 h1, decide_eq_true h2⟩
        rw [Option.some.inj e] at this
        cases this
  have hl : data.map (fun row => applyMask (channelMask invalid n) row) = data.map (channelsLeft invalid) := by
    refine List.map_congr_left fun row hr => ?_
    have := applyMask_eq invalid row
    rw [hrow row hr] at this
    exact this
  have h0 : channelMask [] m = none := rfl
  unfold MaskedTimeSamples.result
  simp only [h0, List.length_map, if_neg hm, reduceCtorEq, if_false, id_eq, hl]
  simp only [applyMask, List.map_id']

variable (rt : ∀ m, BfRoutines m g) (set : ∀ m, BfSet m g) (bs ov : ℕ) [NeZero bs] (wind : List ℝ) (F i : ℕ) (k : BfClass)
  (data : List (List ℝ)) (n : ℕ) (start : ℤ) (stop : Option ℤ) (total : List (Fin 3 → ℝ))

private theorem arrayRow_left (hrow : ∀ r ∈ data, r.length = n) (dataInvalid micInvalid : List ℤ)
    (hd : dataInvalid = [] ∨ ∃ i < n, (i : ℤ) ∉ dataInvalid) (hm : micInvalid = [] ∨ ∃ i < total.length, (i : ℤ) ∉ micInvalid) :
    arrayRow rt set bs ov wind F i k data n start stop dataInvalid total micInvalid =
      arrayRow rt set bs ov wind F i k (data.map (channelsLeft dataInvalid)) (channelsLeft dataInvalid (List.range n)).length start stop []
        (channelsLeft micInvalid total) [] := by
  unfold arrayRow
  rw [micPos_left total micInvalid hm, micPos_left (channelsLeft micInvalid total) [] (Or.inl rfl), numChannels_left, numChannels_left,
    samples_left data n hrow start stop dataInvalid hd (channelsLeft dataInvalid (List.range n)).length, List.length_map]
  have e : ∀ {α : Type} (l : List α), channelsLeft [] l = l := fun l => selectIdx_true _ (by intro i; simp [validChannel]) l
  rw [e, e, List.length_range]

/-- **C165.** Channels excluded in the data and in the geometry are as good as never recorded: the beamformer (of any class) returns what
it returns for data and geometry that have the remaining channels only. -/
theorem C165_subset (hrow : ∀ r ∈ data, r.length = n) (ht : total.length = n) (invalid : List ℤ)
    (hv : invalid = [] ∨ ∃ i < n, (i : ℤ) ∉ invalid) :
    arrayRow rt set bs ov wind F i k data n start stop invalid total invalid =
      arrayRow rt set bs ov wind F i k (data.map (channelsLeft invalid)) (channelsLeft invalid total).length start stop []
        (channelsLeft invalid total) [] := by
  rw [arrayRow_left rt set bs ov wind F i k data n start stop total hrow invalid invalid hv (by rw [ht]; exact hv)]
  congr 1
  unfold channelsLeft
  rw [selectIdx_eq_filterMap, selectIdx_eq_filterMap, ht, List.length_range]
  have : ∀ l : List ℕ, (∀ x ∈ l, x < n) → (l.filterMap fun i => (List.range n)[i]?).length = (l.filterMap fun i => total[i]?).length := by
    intro l hl
    induction l with
    | nil => rfl
    | cons x l ih =>
      have hx : x < n := hl x (by simp)
      rw [List.filterMap_cons, List.filterMap_cons, List.getElem?_range hx, List.getElem?_eq_getElem (by omega)]
      simp only [List.length_cons]
      rw [ih fun y hy => hl y (by simp [hy])]
  exact this _ fun x hx => List.mem_range.1 (List.mem_filter.1 hx).1

/-- The hypotheses of `C165_subset` are met: three channels, one of them excluded. -/
example : (∀ r ∈ [[1, 2, 3], [4, 5, (6 : ℝ)]], r.length = 3) ∧ ([1] = ([] : List ℤ) ∨ ∃ i < 3, ((i : ℕ) : ℤ) ∉ ([1] : List ℤ)) ∧
    channelsLeft [1] [1, 2, (3 : ℕ)] = [1, 3] :=
  ⟨by simp, Or.inr ⟨0, by decide, by decide⟩, by decide⟩

/-- **C165: what the result is.** Without excluded channels, the beamformer gets the cross spectral matrix of the samples from `start` to
`stop`, averaged over the windows, and the positions of the geometry; channel number `m` belongs to microphone number `m`. -/
theorem C165_meaning (ho : 0 < ov) (rows : List (Fin n → ℝ)) (mpos : Fin n → Fin 3 → ℝ) (hn : 0 < n)
    (hsel : selectIdx (inPySlice start stop rows.length) rows ≠ []) :
    arrayRow rt set bs ov wind F i k (rows.map List.ofFn) n start stop [] (List.ofFn mpos) [] =
      .ok (BfSet.row (rt n) { set n with
        csm := fun j => averagedCsm (csmScale bs ((wind.map fun v => v * v).sum)
            (numBlocks ov (selectIdx (inPySlice start stop rows.length) rows).length bs))
          ((windows bs ov (selectIdx (inPySlice start stop rows.length) rows)).map fun w m =>
            (rfftLines bs (List.zipWith (· * ·) (w.map fun row => row m) wind)).getD j 0)
        mpos := mpos } F i k) := by
  have hb : 0 < bs := Nat.pos_of_ne_zero (NeZero.ne bs)
  have hx : selectIdx (inPySlice start stop (rows.map List.ofFn).length) (rows.map List.ofFn) =
      (selectIdx (inPySlice start stop rows.length) rows).map List.ofFn := by
    rw [List.length_map, selectIdx_map]
  have hrun := C02_masked_time_samples (rows.map List.ofFn) n (by simp) bs hb start stop [] (Or.inl rfl)
    (by rw [hx]; simpa using hsel)
  have hlen : (maskedNumSamples start stop rows.length).toNat = (selectIdx (inPySlice start stop rows.length) rows).length := by
    have := sliceIndices_snd_le start stop rows.length
    rw [selectIdx_inPySlice, List.length_drop, List.length_take]
    unfold maskedNumSamples
    dsimp only
    omega
  dsimp only at hrun
  rw [hx] at hrun
  have hid : ∀ (l : List (List ℝ)), l.map (selectIdx (validChannel [])) = l := fun l => by
    conv_rhs => rw [← List.map_id l]
    exact List.map_congr_left fun r _ => selectIdx_true _ (by intro i; simp [validChannel]) r
  rw [hid] at hrun
  have hbl := hrun.2.map hb fun (row : List ℝ) (m : Fin n) => row.getD m 0
  have hback : ((selectIdx (inPySlice start stop rows.length) rows).map List.ofFn).map (fun (row : List ℝ) (m : Fin n) => row.getD m 0) =
      selectIdx (inPySlice start stop rows.length) rows := by
    rw [List.map_map]
    conv_rhs => rw [← List.map_id (selectIdx (inPySlice start stop rows.length) rows)]
    refine List.map_congr_left fun r _ => ?_
    funext m
    simp [List.getD_eq_getElem?_getD]
  rw [hback] at hbl
  have hp : ∀ m : Fin n, (List.ofFn mpos).getD m 0 = mpos m := fun m => by simp [List.getD_eq_getElem?_getD]
  have hm : micPos (List.ofFn mpos) [] = .ok (List.ofFn mpos) := rfl
  have hc : maskedNumChannels [] n = n := rfl
  unfold arrayRow
  rw [hm, List.length_map, hlen, hc]
  unfold arrayRowOf assertEqualChannels
  simp only [bind, Except.bind, List.length_ofFn, ne_eq, not_true_eq_false, false_or, if_neg hn.ne', hrun.1, hp]
  unfold csmFromBlocks
  simp only [C15_csm_eq, C14_windows hb ho _ _ (List.length_replicate ..) _ hbl]

/-- The hypotheses of `C165_meaning` are met: two channels, three samples. -/
example : selectIdx (inPySlice (-2) none [fun _ : Fin 2 => (1 : ℝ), fun _ => 2, fun _ => 3].length)
    [fun _ : Fin 2 => (1 : ℝ), fun _ => 2, fun _ => 3] ≠ [] := by
  simp [selectIdx, inPySlice]

/-- **C165: what is refused.** If the numbers of channels left in the data and of microphones left in the geometry differ, there is no
result but ValueError; the same if there are none. Only the numbers are compared, which is why this is a part only (`C165_mismatch_violated`). -/
theorem C165_refused_partial (dataInvalid micInvalid : List ℤ) (hm : micInvalid = [] ∨ ∃ i < total.length, (i : ℤ) ∉ micInvalid)
    (hne : (channelsLeft dataInvalid (List.range n)).length ≠ (channelsLeft micInvalid total).length ∨
      channelsLeft dataInvalid (List.range n) = []) :
    arrayRow rt set bs ov wind F i k data n start stop dataInvalid total micInvalid = .error .valueError := by
  unfold arrayRow arrayRowOf assertEqualChannels
  rw [micPos_left total micInvalid hm, numChannels_left]
  simp only [bind, Except.bind]
  rw [if_pos (hne.imp id fun h => by rw [h]; rfl)]

/-- The hypotheses of `C165_refused_partial` are met: microphone 1 is excluded in the geometry only. -/
example : ([1] = ([] : List ℤ) ∨ ∃ i < [0, 0, (0 : ℕ)].length, ((i : ℕ) : ℤ) ∉ ([1] : List ℤ)) ∧
    (channelsLeft [] (List.range 3)).length ≠ (channelsLeft [1] [0, 0, (0 : ℕ)]).length :=
  ⟨Or.inr ⟨0, by decide, by decide⟩, by decide⟩

/-- **C165: no channel left.** All microphones excluded is IndexError, not the ValueError announced by the check. -/
theorem C165_none_left (dataInvalid micInvalid : List ℤ) (h : micInvalid ≠ []) (hall : ∀ i < total.length, (i : ℤ) ∈ micInvalid) :
    arrayRow rt set bs ov wind F i k data n start stop dataInvalid total micInvalid = .error .indexError := by
  have : micPos total micInvalid = .error .indexError := by
    unfold micPos
    rw [if_neg (by simpa using h), if_pos]
    rw [List.length_eq_zero_iff, List.filter_eq_nil_iff]
    intro i hi
    simpa using hall i (List.mem_range.1 hi)
  unfold arrayRow
  rw [this]
  rfl

/-- The hypotheses of `C165_none_left` are met: -/
example : ([0, 1] : List ℤ) ≠ [] ∧ ∀ i < [0, (0 : ℕ)].length, ((i : ℕ) : ℤ) ∈ ([0, 1] : List ℤ) := ⟨by decide, by decide⟩

end

/-! ### Different channels excluded -/

/-- Settings of the example: one grid point at the origin, formulation 'inverse', reference distance 1. -/
private noncomputable def selEx (m : ℕ) : BfSet m 0 where
  freqs := fun _ => 0
  csm := fun _ => 0
  gpos := fun _ => 0
  mpos := fun _ => 0
  c := 343
  ref := .dist 1
  form := .inverse
  invForm := .inverse
  rDiag := false
  rDiagNorm := 0
  precision := "float64"
  psfPrecision := "float64"
  gamma := 1
  comps := -1
  evaList := [-1]
  damp := 0.6
  stopn := 3
  nIter := 0
  alpha := 0
  unitMult := 1
  method := "NNLS"
  epsPerc := 0.05
  pnorm := 1
  beta := 0.9
  first := 0
  bounds := fun _ => (-1, 1)
  shgo := ""

private theorem one_csm (x : ℝ) (p : Fin 1) :
    csmFromBlocks 2 1 [1, 1] 2 (List.replicate (2 * 2) fun _ : Fin 1 => 0) [[fun _ => x, fun _ => x]] 0 p p = ((2 * x ^ 2 : ℝ) : ℂ) := by
  unfold csmFromBlocks
  have hsrc : IsBlocking 2 [fun _ : Fin 1 => x, fun _ => x] [[fun _ => x, fun _ => x]] :=
    ⟨rfl, by simp, by simp⟩
  rw [C15_csm_eq, C14_windows (by norm_num) (by norm_num) [fun _ => x, fun _ => x] _ (by simp) _ hsrc]
  have hw : windows 2 1 [fun _ : Fin 1 => x, fun _ => x] = [[fun _ => x, fun _ => x]] := by
    simp [windows, List.range_succ]
  have hl : (rfftLines 2 [x, x]).getD 0 0 = ((2 * x : ℝ) : ℂ) := by
    unfold rfftLines
    rw [List.getD_eq_getElem?_getD, List.getElem?_map]
    simp only [Nat.reduceDiv, Nat.reduceAdd, List.getElem?_range (show 0 < 2 by norm_num), Option.map_some, Option.getD_some, Nat.cast_zero,
      ZMod.dft_apply_zero]
    rw [show (Finset.univ : Finset (ZMod 2)) = {0, 1} by decide, Finset.sum_pair (by decide)]
    simp only [show (0 : ZMod 2).val = 0 from rfl, show (1 : ZMod 2).val = 1 from rfl]
    simp
    ring
  rw [hw]
  simp only [averagedCsm, List.map_cons, List.map_nil, List.zipWith_cons_cons, List.zipWith_nil_left, mul_one, hl, List.sum_cons, List.sum_nil, add_zero,
    Matrix.smul_apply, smul_eq_mul, outer, csmScale, numBlocks, Complex.conj_ofReal]
  push_cast
  norm_num
  ring

private theorem one_row (rt : ∀ m, BfRoutines m 0) (x d : ℝ) (hd : 0 ≤ d) :
    arrayRowOf rt selEx 2 1 [1, 1] 1 0 .base 2 1 [![d, 0, 0]] ⟨[[[x], [x]]], .returned⟩ = .ok (.map fun _ => 2 * x ^ 2 * d ^ 2) := by
  unfold arrayRowOf assertEqualChannels
  simp only [List.length_singleton, ne_eq, not_true_eq_false, one_ne_zero, or_self, if_false, bind, Except.bind]
  refine congrArg (fun v => Except.ok (BfRow.map v)) (funext fun q => ?_)
  have hc := one_csm x 0
  have hb : ([[[x], [x]]] : List (List (List ℝ))).map (List.map fun row (m : Fin 1) => row.getD m 0) = [[fun _ => x, fun _ => x]] := by
    simp only [List.map_cons, List.map_nil]
    congr 3 <;> (try congr 1) <;> (funext m; fin_cases m; rfl)
  have hdist : pointDist 0 ![d, 0, 0] = d := by
    unfold pointDist
    simp [Real.sqrt_sq hd]
  simp only [BfSet.dirty, BfSet.geo, selEx, bfCalcPoint, fullCsmKernel, kernelResult, scalarProdFull, kernelSteer, sigLossNorm, hb]
  generalize csmFromBlocks 2 1 [1, 1] 2 (List.replicate (2 * 2) fun _ : Fin 1 => 0) [[fun _ => x, fun _ => x]] 0 = C at hc ⊢
  simp [hc, hdist, phase, -Complex.ofReal_pow]
  ring

/-- **C165 fails for different lists.** Two channels with the constant values 1 and 3, microphones at distances 1 and 2 from the only
grid point. Channel 0 excluded on both sides gives 72, channel 1 excluded on both sides gives 2. With channel 0 excluded in the data and
channel 1 in the geometry there is no exception: the signal of one microphone is taken at the place of the other. -/
theorem C165_mismatch_violated (rt : ∀ m, BfRoutines m 0) :
    ∃ (set : ∀ m, BfSet m 0) (data : List (List ℝ)) (total : List (Fin 3 → ℝ)), (∀ r ∈ data, r.length = 2) ∧ total.length = 2 ∧
      arrayRow rt set 2 1 [1, 1] 1 0 .base data 2 0 none [0] total [0] = .ok (.map fun _ => 72) ∧
      arrayRow rt set 2 1 [1, 1] 1 0 .base data 2 0 none [1] total [1] = .ok (.map fun _ => 2) ∧
      arrayRow rt set 2 1 [1, 1] 1 0 .base data 2 0 none [0] total [1] = .ok (.map fun _ => 18) := by
  have key : ∀ a b : ℤ, (a = 0 ∨ a = 1) → (b = 0 ∨ b = 1) →
      arrayRow rt selEx 2 1 [1, 1] 1 0 .base [[1, 3], [1, 3]] 2 0 none [a] [![1, 0, 0], ![2, 0, 0]] [b] =
        .ok (.map fun _ => 2 * (if a = 0 then 3 else 1) ^ 2 * (if b = 0 then 2 else 1) ^ 2) := by
    intro a b ha hb
    have hm : micPos [![(1 : ℝ), 0, 0], ![2, 0, 0]] [b] = .ok [![if b = 0 then 2 else 1, 0, 0]] := by
      rcases hb with rfl | rfl <;> simp [micPos, List.range_succ]
    have hs : MaskedTimeSamples.result [[(1 : ℝ), 3], [1, 3]] 2 0 none [a] none 2 =
        ⟨[[[if a = 0 then 3 else 1], [if a = 0 then 3 else 1]]], .returned⟩ := by
      rcases ha with rfl | rfl <;>
        simp [MaskedTimeSamples.result, sliceIndices, channelMask, applyMask, maskedLoop, slice, List.range_succ, Trace.cons, Trace.stop]
    have hn : maskedNumChannels [a] 2 = 1 := by rcases ha with rfl | rfl <;> decide
    have hk : (maskedNumSamples 0 none ([[(1 : ℝ), 3], [1, 3]] : List (List ℝ)).length).toNat = 2 := by simp [maskedNumSamples, sliceIndices]
    unfold arrayRow
    rw [hm, hs, hn, hk]
    exact one_row rt _ _ (by split <;> norm_num)
  refine ⟨selEx, [[1, 3], [1, 3]], [![1, 0, 0], ![2, 0, 0]], by simp, rfl, ?_, ?_, ?_⟩
  · rw [key 0 0 (Or.inl rfl) (Or.inl rfl)]; norm_num
  · rw [key 1 1 (Or.inr rfl) (Or.inr rfl)]; norm_num
  · rw [key 0 1 (Or.inl rfl) (Or.inr rfl)]; norm_num

/-! ### Time domain -/

section

variable {K : Type*} [Field K] [LinearOrder K] [IsStrictOrderedRing K] [FloorSemiring K] {M G : ℕ}

/-- **C165 fails in the time domain.** A source with more channels than there are microphones (excluded in the geometry only) is not
refused: whatever channels were excluded, the beamformer combines the microphones that are left with the first channels of the source, and
the result is the one for a source without the last channels. -/
theorem C165_time_violated (mode : BeamTimeMode) (c : K) (rm amp : Fin G → Fin M → K) (source : ℕ → List (List (List K))) (num fuel : ℕ)
    (x : K → K) :
    timeBeamRows mode c rm amp source num fuel =
      timeBeamRows mode c rm amp (fun k => (source k).map (List.map fun row => row.take M ++ (row.drop M).map x)) num fuel := by
  unfold timeBeamRows
  congr 1
  funext k
  rw [List.map_map]
  refine List.map_congr_left fun b _ => ?_
  simp only [Function.comp, List.map_map]
  refine List.map_congr_left fun row _ => ?_
  funext m
  simp only [Function.comp, List.getD_eq_getElem?_getD]
  by_cases h : (m : ℕ) < (row.take M).length
  · rw [List.getElem?_append_left h, List.getElem?_take_of_lt m.2]
  · have : row.length ≤ m := by
      rw [List.length_take] at h
      have := m.2
      omega
    rw [List.getElem?_eq_none this, List.getElem?_eq_none]
    have := m.2
    simp
    omega

end

/-- **C165 fails in the time domain: the signals are attributed to wrong microphones.** Two channels with the constant values 1 and 3,
microphone 0 excluded in the geometry only: the signal found at the remaining microphone is 1, the one of the excluded microphone. With
channel 0 excluded in the data as well it is 3. -/
theorem C165_time_shift_violated :
    ((timeBeamRows (K := ℚ) (M := 1) (G := 1) .signal 1 (fun _ _ => 0) (fun _ _ => 1) (fun num => chunks num [[1, 3], [1, 3], [1, 3], [1, 3]])
        2 8).blocks.flatten.map fun row => row 0).head? = some (some 1) ∧
    ((timeBeamRows (K := ℚ) (M := 1) (G := 1) .signal 1 (fun _ _ => 0) (fun _ _ => 1) (fun num => chunks num [[3], [3], [3], [3]])
        2 8).blocks.flatten.map fun row => row 0).head? = some (some 3) := by
  decide +kernel

end Acoular
