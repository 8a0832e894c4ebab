import Verif.Lemmas.StreamModel

/-!
# Property theorems: simple generators (C01, C02, C08, C12, C53, C57)

`Spec.IsBlocking num data blocks` (file `Verif/Spec/Stream.lean`) is the block contract.
-/

namespace Acoular
open Spec

variable {α K : Type _}

/-- **C01** `TimeSamples.result(num)` without calibration: for every data array with at least one row and
every `num ≥ 1` the generator ends normally and its blocks are the data cut into blocks of `num`. -/
theorem C01_time_samples [Mul K] (data : List (List K)) (numCh num : Nat) (hn : 0 < num) (hd : data ≠ []) :
    (TimeSamples.result data numCh none num).exit = .returned ∧
    IsBlocking num data (TimeSamples.result data numCh none num).blocks := by
  have h0 : data.length ≠ 0 := by simpa using hd
  have : TimeSamples.result data numCh none num = ⟨chunks num data, .returned⟩ := by
    rw [TimeSamples.result, if_neg h0]
    rw [blockLoop_eq data hn _ _ (by omega), List.drop_zero]
  rw [this]
  exact ⟨rfl, isBlocking_chunks hn data⟩

/-- **C01** with a calibration whose number of factors equals the number of channels: the blocks are the
data with every row multiplied channel by channel with the factors. -/
theorem C01_time_samples_calib [Mul K] (data : List (List K)) (numCh num : Nat) (c : List K)
    (hn : 0 < num) (hd : data ≠ []) (hc : c.length = numCh) :
    (TimeSamples.result data numCh (some c) num).exit = .returned ∧
    IsBlocking num (data.map fun row => List.zipWith (· * ·) row c)
      (TimeSamples.result data numCh (some c) num).blocks := by
  have h0 : data.length ≠ 0 := by simpa using hd
  have : TimeSamples.result data numCh (some c) num
      = ⟨chunks num (data.map fun row => List.zipWith (· * ·) row c), .returned⟩ := by
    rw [TimeSamples.result, if_neg h0]
    rw [if_pos hc, blockLoop_eq _ hn _ _ (by simp), List.drop_zero]
  rw [this]
  exact ⟨rfl, isBlocking_chunks hn _⟩

/-- The hypotheses of `C01_time_samples_calib` are met: -/
example := C01_time_samples_calib (K := Int) [[1, 10], [2, 20], [3, 30]] 2 2 [5, 7] (by decide) (by decide) (by decide)

/-- **C01** error branches: no samples raises `OSError`, a calibration with a wrong number of factors
raises `ValueError`; nothing is yielded. -/
theorem C01_time_samples_errors [Mul K] (data : List (List K)) (numCh num : Nat) (calib : Option (List K)) :
    (data = [] → TimeSamples.result data numCh calib num = ⟨[], .raised .osError⟩) ∧
    (data ≠ [] → ∀ c, calib = some c → c.length ≠ numCh →
      TimeSamples.result data numCh calib num = ⟨[], .raised .valueError⟩) := by
  constructor
  · rintro rfl; rfl
  · rintro hd c rfl hc
    have h0 : data.length ≠ 0 := by simpa using hd
    rw [TimeSamples.result, if_neg h0]
    simp [hc, Trace.raise]

example : IsBlocking 2 [[1, 10], [2, 20], [3, 30], [4, 40], [5, 50]]
    (TimeSamples.result (K := Int) [[1, 10], [2, 20], [3, 30], [4, 40], [5, 50]] 2 none 2).blocks :=
  (C01_time_samples _ 2 2 (by decide) (by decide)).2

example : (TimeSamples.result (K := Int) [[1, 10], [2, 20], [3, 30]] 2 (some [2, 3]) 2).blocks
    = [[[2, 30], [4, 60]], [[6, 90]]] := by decide

/-- **C02** `MaskedTimeOut.result(num)`.  Let `data` be the content of the source (rows of `nch`
channels), delivered in blocks that honour the block contract, and let at least one channel be valid.
If the Python slice `start:stop` selects at least one row, the generator ends normally, its blocks are
the selected rows restricted to the valid channels, cut into blocks of `num`, and `num_samples` is the
number of rows delivered. -/
theorem C02_masked_time_out (data : List (List K)) (nch : Nat) (hrow : ∀ r ∈ data, r.length = nch)
    (blocks : List (List (List K))) (num : Nat) (hn : 0 < num) (hsrc : IsBlocking num data blocks)
    (start : Int) (stop : Option Int) (invalid : List Int)
    (hvalid : invalid = [] ∨ ∃ i < nch, (i : Int) ∉ invalid)
    (hsel : selectIdx (inPySlice start stop data.length) data ≠ []) :
    let out := MaskedTimeOut.result blocks data.length nch start stop invalid num
    let selected := (selectIdx (inPySlice start stop data.length) data).map (selectIdx (validChannel invalid))
    out.exit = .returned ∧ IsBlocking num selected out.blocks ∧
      maskedNumSamples start stop data.length = selected.length := by
  intro out selected
  have hb := (isBlocking_iff hn).1 hsrc
  subst hb
  have hsd := selectIdx_inPySlice start stop data
  have hle := sliceIndices_snd_le start stop data.length
  generalize hse : sliceIndices start stop data.length = se at hsd hle
  obtain ⟨s, e⟩ := se
  simp only at hsd hle
  have hlen : (selectIdx (inPySlice start stop data.length) data).length = e - s := by
    rw [hsd, List.length_drop, List.length_take]; omega
  have hlt : s < e := by
    have : 0 < (selectIdx (inPySlice start stop data.length) data).length := List.length_pos_iff.mpr hsel
    omega
  have hmask : channelMask invalid nch ≠ some [] := by
    intro h
    have := channelMask_eq_some_nil.1 h
    rcases hvalid with h1 | ⟨i, hi, hni⟩
    · exact this.1 h1
    · exact hni (this.2 i hi)
  have hmapsel : data.map (applyMask (channelMask invalid nch)) = data.map (selectIdx (validChannel invalid)) := by
    apply List.map_congr_left
    intro r hr
    rw [← hrow r hr, applyMask_eq]
  have hD : (chunks num data).map (fun b => b.map (applyMask (channelMask invalid nch)))
      = chunks num (data.map (selectIdx (validChannel invalid))) := by
    rw [← hmapsel, ← chunks_map]
  have hout : out = ⟨chunks num selected, .returned⟩ := by
    show MaskedTimeOut.result _ _ _ _ _ _ _ = _
    unfold MaskedTimeOut.result
    simp only [hse]
    rw [if_neg (by omega), if_neg hmask, hD]
    have hsel2 : selected = ((data.map (selectIdx (validChannel invalid))).take e).drop s := by
      show (selectIdx _ _).map _ = _
      rw [hsd, List.map_drop, List.map_take]
    rw [hsel2]
    by_cases hwhole : s ≠ 0 ∨ e ≠ data.length
    · rw [if_pos hwhole]
      rw [maskLoop_head hn s e hlt (data.map (selectIdx (validChannel invalid))) 0 (by omega)
        (by rw [List.length_map]; omega) (by simp) rfl]
      simp
    · rw [if_neg hwhole]
      have h1 : s = 0 := by omega
      have h2 : e = data.length := by omega
      rw [h1, h2, List.drop_zero, List.take_of_length_le (by simp)]
  rw [hout]
  refine ⟨rfl, isBlocking_chunks hn _, ?_⟩
  show maskedNumSamples _ _ _ = (((selectIdx _ _).map _).length : Int)
  rw [List.length_map, hlen, maskedNumSamples, hse]
  simp only
  omega

/-- The hypotheses of `C02_masked_time_out` are met: -/
example := C02_masked_time_out (K := Int) [[0, 7], [1, 7], [2, 7], [3, 7], [4, 7]] 2 (by decide) (chunks 2 _) 2 (by decide)
  (isBlocking_chunks (by decide) _) 1 (some (-1)) [1] (Or.inr ⟨0, by decide, by decide⟩) (by decide)

/-- **C02** error branch: an empty selection of rows raises `OSError` and yields nothing, and this is the
only case in which `OSError` is raised. -/
theorem C02_masked_time_out_empty (data : List (List K)) (nch : Nat) (blocks : List (List (List K))) (num : Nat)
    (hn : 0 < num) (hsrc : IsBlocking num data blocks) (hrow : ∀ r ∈ data, r.length = nch)
    (start : Int) (stop : Option Int) (invalid : List Int) :
    (MaskedTimeOut.result blocks data.length nch start stop invalid num).exit = .raised .osError ↔
      selectIdx (inPySlice start stop data.length) data = [] := by
  constructor
  · intro h
    apply Classical.byContradiction
    intro hne
    by_cases hv : invalid = [] ∨ ∃ i < nch, (i : Int) ∉ invalid
    · have := (C02_masked_time_out data nch hrow blocks num hn hsrc start stop invalid hv hne).1
      rw [this] at h; cases h
    · have hm : channelMask invalid nch = some [] := by
        rw [channelMask_eq_some_nil]
        constructor
        · intro e; exact hv (Or.inl e)
        · intro i hi
          apply Classical.byContradiction
          intro hni; exact hv (Or.inr ⟨i, hi, hni⟩)
      unfold MaskedTimeOut.result at h
      simp only [hm] at h
      split at h
      · next hge =>
        have hlen : (selectIdx (inPySlice start stop data.length) data).length = 0 := by
          rw [selectIdx_inPySlice, List.length_drop, List.length_take]; omega
        exact hne (List.eq_nil_of_length_eq_zero hlen)
      · simp [Trace.raise] at h
  · intro h
    have hlen := congrArg List.length h
    rw [selectIdx_inPySlice, List.length_drop, List.length_take, List.length_nil] at hlen
    have hle := sliceIndices_snd_le start stop data.length
    unfold MaskedTimeOut.result
    simp only
    rw [if_pos (by omega)]
    rfl

/-- The hypotheses of `C02_masked_time_out_empty` are met: -/
example := C02_masked_time_out_empty (K := Int) [[0, 7], [1, 7], [2, 7], [3, 7], [4, 7]] 2 (chunks 2 _) 2 (by decide)
  (isBlocking_chunks (by decide) _) (by decide) 4 (some 3) []

example : (MaskedTimeOut.result (K := Int) [[[0, 7], [1, 7]], [[2, 7], [3, 7]], [[4, 7], [5, 7]], [[6, 7]]] 7 2
    1 (some (-1)) [1] 2) = ⟨[[[1], [2]], [[3], [4]], [[5]]], .returned⟩ := by decide

example : selectIdx (inPySlice 1 (some (-1)) 7) [0, 1, 2, 3, 4, 5, 6] = [1, 2, 3, 4, 5] := by decide

/-- **C02** `MaskedTimeSamples.result(num)`, no calibration. -/
theorem C02_masked_time_samples [Mul K] (data : List (List K)) (nch : Nat) (hrow : ∀ r ∈ data, r.length = nch)
    (num : Nat) (hn : 0 < num) (start : Int) (stop : Option Int) (invalid : List Int)
    (hvalid : invalid = [] ∨ ∃ i < nch, (i : Int) ∉ invalid)
    (hsel : selectIdx (inPySlice start stop data.length) data ≠ []) :
    let out := MaskedTimeSamples.result data nch start stop invalid none num
    let selected := (selectIdx (inPySlice start stop data.length) data).map (selectIdx (validChannel invalid))
    out.exit = .returned ∧ IsBlocking num selected out.blocks := by
  intro out selected
  have hsd := selectIdx_inPySlice start stop data
  have hle := sliceIndices_snd_le start stop data.length
  generalize hse : sliceIndices start stop data.length = se at hsd hle
  obtain ⟨s, e⟩ := se
  simp only at hsd hle
  have hlt : s < e := by
    have h0 : 0 < (selectIdx (inPySlice start stop data.length) data).length := List.length_pos_iff.mpr hsel
    rw [hsd, List.length_drop, List.length_take] at h0
    omega
  have hmask : channelMask invalid nch ≠ some [] := by
    intro h
    have := channelMask_eq_some_nil.1 h
    rcases hvalid with h1 | ⟨i, hi, hni⟩
    · exact this.1 h1
    · exact hni (this.2 i hi)
  have hmapsel : data.map (applyMask (channelMask invalid nch)) = data.map (selectIdx (validChannel invalid)) := by
    apply List.map_congr_left
    intro r hr
    rw [← hrow r hr, applyMask_eq]
  have hout : out = ⟨chunks num selected, .returned⟩ := by
    show MaskedTimeSamples.result _ _ _ _ _ _ _ = _
    unfold MaskedTimeSamples.result
    simp only [hse, id_eq]
    rw [if_neg (by omega), if_neg hmask, hmapsel,
      maskedLoop_eq _ hn (by rw [List.length_map]; omega) _ _ (by omega)]
    have hsel2 : selected = ((data.map (selectIdx (validChannel invalid))).take e).drop s := by
      show (selectIdx _ _).map _ = _
      rw [hsd, List.map_drop, List.map_take]
    rw [hsel2]
  rw [hout]
  exact ⟨rfl, isBlocking_chunks hn _⟩

example : (MaskedTimeSamples.result (K := Int) [[0, 7], [1, 7], [2, 7], [3, 7], [4, 7]] 2 (-4) none [0, 5] none 2)
    = ⟨[[[7], [7]], [[7], [7]]], .returned⟩ := by decide

private theorem selectIdx_zipWith (p : Nat → Bool) (f : α → α → α) (a b : List α) (h : a.length = b.length) :
    selectIdx p (List.zipWith f a b) = List.zipWith f (selectIdx p a) (selectIdx p b) := by
  unfold selectIdx
  suffices H : ∀ k, (((List.zipWith f a b).zipIdx k).filter fun x => p x.2).map Prod.fst
      = List.zipWith f (((a.zipIdx k).filter fun x => p x.2).map Prod.fst)
          (((b.zipIdx k).filter fun x => p x.2).map Prod.fst) from H 0
  induction a generalizing b with
  | nil => intro k; simp
  | cons x a ih =>
    intro k
    cases b with
    | nil => simp at h
    | cons y b =>
      have := ih b (by simpa using h) (k + 1)
      simp only [List.zipWith_cons_cons, List.zipIdx_cons, List.filter_cons]
      cases p k <;> simp [this]

private theorem masked_samples_run [Mul K] (data : List (List K)) (nch : Nat) (hrow : ∀ r ∈ data, r.length = nch)
    (num : Nat) (hn : 0 < num) (start : Int) (stop : Option Int) (invalid : List Int)
    (hvalid : invalid = [] ∨ ∃ i < nch, (i : Int) ∉ invalid)
    (hsel : selectIdx (inPySlice start stop data.length) data ≠ []) (calib : Option (List K))
    (cal : List K → List K)
    (hcal : (calib = none ∧ cal = id) ∨ ∃ c, calib = some c ∧
      ((c.length = nch ∧ cal = fun row => List.zipWith (· * ·) row (applyMask (channelMask invalid nch) c)) ∨
       (c.length ≠ nch ∧ c.length = maskedNumChannels invalid nch ∧ cal = fun row => List.zipWith (· * ·) row c))) :
    MaskedTimeSamples.result data nch start stop invalid calib num
      = ⟨chunks num ((selectIdx (inPySlice start stop data.length) data).map fun row =>
          cal (selectIdx (validChannel invalid) row)), .returned⟩ := by
  have hsd := selectIdx_inPySlice start stop data
  have hle := sliceIndices_snd_le start stop data.length
  generalize hse : sliceIndices start stop data.length = se at hsd hle
  obtain ⟨s, e⟩ := se
  simp only at hsd hle
  have hlt : s < e := by
    have h0 : 0 < (selectIdx (inPySlice start stop data.length) data).length := List.length_pos_iff.mpr hsel
    rw [hsd, List.length_drop, List.length_take] at h0
    omega
  have hmask : channelMask invalid nch ≠ some [] := by
    intro h
    have := channelMask_eq_some_nil.1 h
    rcases hvalid with h1 | ⟨i, hi, hni⟩
    · exact this.1 h1
    · exact hni (this.2 i hi)
  have hmapsel : (data.map fun row => cal (applyMask (channelMask invalid nch) row))
      = data.map fun row => cal (selectIdx (validChannel invalid) row) := by
    apply List.map_congr_left
    intro r hr
    rw [← hrow r hr, applyMask_eq]
  have hrun : maskedLoop (data.map fun row => cal (applyMask (channelMask invalid nch) row)) e num data.length s
      = ⟨chunks num ((selectIdx (inPySlice start stop data.length) data).map fun row =>
          cal (selectIdx (validChannel invalid) row)), .returned⟩ := by
    rw [hmapsel, maskedLoop_eq _ hn (by rw [List.length_map]; omega) _ _ (by omega), hsd, List.map_drop,
      List.map_take]
  unfold MaskedTimeSamples.result
  rw [hse]
  dsimp only
  rw [if_neg (by omega)]
  rcases hcal with ⟨rfl, rfl⟩ | ⟨c, rfl, ⟨h1, rfl⟩ | ⟨h1, h2, rfl⟩⟩
  · rw [if_neg hmask]; exact hrun
  · dsimp only
    rw [if_pos h1, if_neg hmask]; exact hrun
  · dsimp only
    rw [if_neg h1, if_pos h2, if_neg hmask]; exact hrun

/-- **C02** with one calibration factor per channel of the file: every delivered value is the value of its channel
times the factor of the same channel. -/
theorem C02_masked_time_samples_calib [Mul K] (data : List (List K)) (nch : Nat) (hrow : ∀ r ∈ data, r.length = nch)
    (num : Nat) (hn : 0 < num) (start : Int) (stop : Option Int) (invalid : List Int)
    (hvalid : invalid = [] ∨ ∃ i < nch, (i : Int) ∉ invalid)
    (hsel : selectIdx (inPySlice start stop data.length) data ≠ []) (c : List K) (hc : c.length = nch) :
    let out := MaskedTimeSamples.result data nch start stop invalid (some c) num
    let calibrated := (selectIdx (inPySlice start stop data.length) data).map fun row => List.zipWith (· * ·) row c
    out.exit = .returned ∧ IsBlocking num (calibrated.map (selectIdx (validChannel invalid))) out.blocks := by
  intro out calibrated
  have h : out = _ := masked_samples_run data nch hrow num hn start stop invalid hvalid hsel (some c) _
    (Or.inr ⟨c, rfl, Or.inl ⟨hc, rfl⟩⟩)
  rw [h]
  refine ⟨rfl, (isBlocking_iff hn).2 ?_⟩
  show chunks num (List.map _ _) = chunks num (List.map _ (List.map _ _))
  congr 1
  rw [List.map_map]
  apply List.map_congr_left
  intro r hr
  have hrl : r.length = nch := by
    apply hrow
    rw [selectIdx_inPySlice] at hr
    exact List.mem_of_mem_take (List.mem_of_mem_drop hr)
  show List.zipWith _ _ _ = selectIdx _ (List.zipWith _ _ _)
  rw [selectIdx_zipWith _ _ _ _ (by rw [hrl, hc]), ← hc, applyMask_eq]

/-- The hypotheses of `C02_masked_time_samples_calib` are met: -/
example := C02_masked_time_samples_calib (K := Int) [[1, 7, 3], [2, 8, 4], [5, 6, 7]] 3 (by decide) 2 (by decide) (-2) none [1]
  (Or.inr ⟨0, by decide, by decide⟩) (by decide) [10, 20, 30] (by decide)

/-- **C02** with one calibration factor per valid channel. -/
theorem C02_masked_time_samples_calib_valid [Mul K] (data : List (List K)) (nch : Nat)
    (hrow : ∀ r ∈ data, r.length = nch)
    (num : Nat) (hn : 0 < num) (start : Int) (stop : Option Int) (invalid : List Int)
    (hvalid : invalid = [] ∨ ∃ i < nch, (i : Int) ∉ invalid)
    (hsel : selectIdx (inPySlice start stop data.length) data ≠ []) (c : List K) (hc : c.length ≠ nch)
    (hc' : c.length = (selectIdx (validChannel invalid) (List.range nch)).length) :
    let out := MaskedTimeSamples.result data nch start stop invalid (some c) num
    let selected := (selectIdx (inPySlice start stop data.length) data).map (selectIdx (validChannel invalid))
    out.exit = .returned ∧ IsBlocking num (selected.map fun row => List.zipWith (· * ·) row c) out.blocks := by
  intro out selected
  have hm : maskedNumChannels invalid nch = (selectIdx (validChannel invalid) (List.range nch)).length := by
    have := applyMask_eq invalid (List.range nch)
    rw [List.length_range] at this
    rw [← this]
    unfold maskedNumChannels applyMask channelMask
    by_cases h : invalid.length = 0
    · simp [h]
    · simp only [h, if_false]
      have : ∀ l : List Nat, (∀ x ∈ l, x < nch) → (l.filterMap fun i => (List.range nch)[i]?) = l := by
        intro l hl
        induction l with
        | nil => rfl
        | cons x l ih =>
          rw [List.filterMap_cons, List.getElem?_range (hl x (by simp))]
          simp only
          rw [ih (fun y hy => hl y (by simp [hy]))]
      rw [this]
      intro x hx
      have := (List.mem_filter.1 hx).1
      simpa using this
  have h : out = _ := masked_samples_run data nch hrow num hn start stop invalid hvalid hsel (some c) _
    (Or.inr ⟨c, rfl, Or.inr ⟨hc, by rw [hm]; exact hc', rfl⟩⟩)
  rw [h]
  refine ⟨rfl, (isBlocking_iff hn).2 ?_⟩
  show chunks num (List.map _ _) = chunks num (List.map _ (List.map _ _))
  congr 1
  rw [List.map_map]
  rfl

/-- The hypotheses of `C02_masked_time_samples_calib_valid` are met: -/
example := C02_masked_time_samples_calib_valid (K := Int) [[1, 7, 3], [2, 8, 4], [5, 6, 7]] 3 (by decide) 2 (by decide) (-2) none [1]
  (Or.inr ⟨0, by decide, by decide⟩) (by decide) [10, 30] (by decide) (by decide)

/-- **C02** any other (non-zero) number of calibration factors raises `ValueError` before the first block. -/
theorem C02_masked_time_samples_calib_error [Mul K] (data : List (List K)) (nch : Nat) (num : Nat) (start : Int)
    (stop : Option Int) (invalid : List Int) (hsel : selectIdx (inPySlice start stop data.length) data ≠ [])
    (c : List K) (hc : c.length ≠ nch) (hc' : c.length ≠ maskedNumChannels invalid nch) (hc0 : c ≠ []) :
    MaskedTimeSamples.result data nch start stop invalid (some c) num = ⟨[], .raised .valueError⟩ := by
  have hlt : (sliceIndices start stop data.length).1 < (sliceIndices start stop data.length).2 := by
    have h0 : 0 < (selectIdx (inPySlice start stop data.length) data).length := List.length_pos_iff.mpr hsel
    rw [selectIdx_inPySlice, List.length_drop, List.length_take] at h0
    omega
  unfold MaskedTimeSamples.result
  dsimp only
  rw [if_neg (by omega), if_neg hc, if_neg hc', if_neg (by simpa using hc0)]
  rfl

/-- The hypotheses of `C02_masked_time_samples_calib_error` are met: -/
example := C02_masked_time_samples_calib_error (K := Int) [[1, 7, 3], [2, 8, 4]] 3 2 0 none [1] (by decide) [5] (by decide) (by decide) (by decide)

example : (MaskedTimeSamples.result (K := Int) [[1, 7, 3], [2, 8, 4]] 3 0 none [1] (some [10, 20, 30]) 2)
    = ⟨[[[10, 90], [20, 120]]], .returned⟩ := by decide
example : (MaskedTimeSamples.result (K := Int) [[1, 7, 3], [2, 8, 4]] 3 0 none [1] (some [10, 30]) 2)
    = ⟨[[[10, 90], [20, 120]]], .returned⟩ := by decide

/-- **C08** `TimeReverse.result(num)`: for every non-empty source honouring the block contract the
concatenated output is the reversed data, the output blocks have the sizes of the source blocks (hence
the block contract holds for the reversed data), whatever the uninitialised memory contains. -/
theorem C08_time_reverse (data : List α) (blocks : List (List α)) (num : Nat) (_hn : 0 < num)
    (hsrc : IsBlocking num data blocks) (hd : data ≠ []) (garbage : List α)
    (hg : garbage.length = (blocks.headD []).length) :
    (TimeReverse.result garbage blocks).exit = .returned ∧
      IsBlocking num data.reverse (TimeReverse.result garbage blocks).blocks := by
  have hne : blocks ≠ [] := by
    intro e; subst e
    exact hd (by simpa using hsrc.cover.symm)
  obtain ⟨init, lastb, rfl⟩ : ∃ init lastb, blocks = init ++ [lastb] :=
    ⟨blocks.dropLast, blocks.getLast hne, (List.dropLast_concat_getLast hne).symm⟩
  have hfull : ∀ b ∈ init, b.length = num := by
    intro b hb; exact hsrc.full b (by simpa using hb)
  have hlast := hsrc.last lastb (by simp)
  have hhead : lastb.length ≤ ((init ++ [lastb]).headD []).length := by
    cases init with
    | nil => simp
    | cons b bs => simp [hfull b (by simp)]; omega
  have hall : (init.reverse.all fun b => b.length == ((init ++ [lastb]).headD []).length) = true := by
    rw [List.all_eq_true]
    intro b hb
    have hb' : b ∈ init := by simpa using hb
    cases hi : init with
    | nil => rw [hi] at hb'; simp at hb'
    | cons c cs =>
      simp only [List.cons_append, List.headD_cons, beq_iff_eq]
      rw [hfull b hb', hfull c (by simp [hi])]
  have hrev : (init ++ [lastb]).reverse = lastb :: init.reverse := by simp
  have htl : (lastb.reverse ++ garbage.drop lastb.length).length = ((init ++ [lastb]).headD []).length := by
    rw [List.length_append, List.length_reverse, List.length_drop, hg]; omega
  have hres : TimeReverse.result garbage (init ++ [lastb])
      = ⟨TimeReverse.loop lastb.length (lastb.reverse ++ garbage.drop lastb.length) init.reverse, .returned⟩ := by
    unfold TimeReverse.result
    rw [hrev]
    simp only
    rw [if_pos ⟨hhead, hall⟩]
  have hlens : ∀ h ∈ init.reverse, h.length = (lastb.reverse ++ garbage.drop lastb.length).length := by
    intro b hb
    rw [htl]
    have := List.all_eq_true.1 hall b hb
    simpa using this
  have hflat := TimeReverse.loop_flatten lastb.length init.reverse (lastb.reverse ++ garbage.drop lastb.length)
    (by rw [htl]; exact hhead) hlens
  have hll := TimeReverse.loop_lengths lastb.length init.reverse (lastb.reverse ++ garbage.drop lastb.length)
    (by rw [htl]; exact hhead) hlens
  rw [hres]
  refine ⟨rfl, ?_, ?_, ?_⟩
  · rw [hflat]
    have : (lastb.reverse ++ garbage.drop lastb.length).take lastb.length = lastb.reverse := by
      apply List.take_left'; simp
    rw [this, List.reverse_reverse, ← hsrc.cover, List.flatten_append, List.reverse_append]
    simp
  · intro b hb
    have hmem : b.length ∈ (TimeReverse.loop lastb.length (lastb.reverse ++ garbage.drop lastb.length)
        init.reverse).dropLast.map List.length := List.mem_map_of_mem hb
    rw [List.map_dropLast, hll, List.dropLast_concat] at hmem
    obtain ⟨c, hc, hcb⟩ := List.mem_map.1 hmem
    rw [← hcb]
    exact hfull c (by simpa using hc)
  · intro b hb
    have : (TimeReverse.loop lastb.length (lastb.reverse ++ garbage.drop lastb.length)
        init.reverse).getLast?.map List.length = some lastb.length := by
      rw [← List.getLast?_map, hll]; simp
    rw [hb] at this
    simp only [Option.map_some, Option.some.injEq] at this
    omega

/-- The hypotheses of `C08_time_reverse` are met: -/
example := C08_time_reverse [1, 2, 3, 4, 5] (chunks 2 _) 2 (by decide) (isBlocking_chunks (by decide) _) (by decide) [9, 9] (by decide)

/-- **C08** a source without samples makes `TimeReverse` raise `IndexError`. -/
theorem C08_time_reverse_empty (garbage : List α) :
    TimeReverse.result garbage ([] : List (List α)) = ⟨[], .raised .indexError⟩ := rfl

example : TimeReverse.result [99, 98, 97] [[1, 2, 3], [4, 5, 6], [7]] = ⟨[[7, 6, 5], [4, 3, 2], [1]], .returned⟩ := by
  decide

/-- **C12** `WriteH5.result(num)` with a limit `num_samples_write = limit ≥ 0` on a source with content
`data`; the flag is cleared after `m` blocks (`m` larger than the number of blocks: never).  The file then
holds the first `min(limit, m*num)` rows, and the blocks yielded are the first source blocks - exactly
those that contain a row that had to be written. -/
theorem C12_write_h5_limit (data : List α) (blocks : List (List α)) (num : Nat) (hn : 0 < num)
    (hsrc : IsBlocking num data blocks) (limit : Nat) (flags : Nat → Bool) (m : Nat)
    (hup : ∀ j < m, flags j = true) (hdown : flags m = false) :
    (WriteH5.result blocks limit num flags).1 = data.take (min limit (m * num)) ∧
    (WriteH5.result blocks limit num flags).2 = blocks.take (min m ((limit + num - 1) / num)) := by
  have hb := (isBlocking_iff hn).1 hsrc
  subst hb
  unfold WriteH5.result
  rw [WriteH5.loop_eq hn _ flags m hup hdown data 0 0 (by omega) (by omega)]
  simp [List.take_take]

/-- **C12** the same with `num_samples_write = -1`: everything up to the block after which the flag was
cleared is stored and echoed. -/
theorem C12_write_h5_unlimited (data : List α) (blocks : List (List α)) (num : Nat) (hn : 0 < num)
    (hsrc : IsBlocking num data blocks) (flags : Nat → Bool) (m : Nat)
    (hup : ∀ j < m, flags j = true) (hdown : flags m = false) :
    (WriteH5.result blocks (-1) num flags).1 = data.take (m * num) ∧
    (WriteH5.result blocks (-1) num flags).2 = blocks.take m := by
  have hb := (isBlocking_iff hn).1 hsrc
  subst hb
  unfold WriteH5.result
  rw [WriteH5.loop_eq_all hn flags m hup hdown data 0 0 (by omega)]
  simp

/-- The hypotheses of `C12_write_h5_unlimited` are met: -/
example := C12_write_h5_unlimited [1, 2, 3, 4, 5] (chunks 2 _) 2 (by decide) (isBlocking_chunks (by decide) _) (fun k => decide (k < 2)) 2
  (by decide) (by decide)

example : WriteH5.result [[1, 2, 3], [4, 5, 6], [7]] 4 3 (fun k => decide (k < 100))
    = ([1, 2, 3, 4], [[1, 2, 3], [4, 5, 6]]) := by decide

example : (WriteH5.result [[1, 2, 3], [4, 5, 6], [7]] 4 3 (fun k => decide (k < 1))).1 = [1, 2, 3] := by
  have := (C12_write_h5_limit [1, 2, 3, 4, 5, 6, 7] _ 3 (by decide) (isBlocking_chunks (by decide) _) 4
    (fun k => decide (k < 1)) 1 (by simp) (by simp)).1
  exact this

/-- **C53** `return_result(source, nmax, num)` returns the first `nmax` rows for `nmax > 0` and all rows
otherwise, independent of `num`, for every non-empty source. -/
theorem C53_return_result (data : List α) (blocks : List (List α)) (num : Nat) (hn : 0 < num)
    (hsrc : IsBlocking num data blocks) (hd : data ≠ []) (nmax : Int) :
    returnResult blocks nmax num = .ok (if nmax > 0 then data.take nmax.toNat else data) := by
  have hb := (isBlocking_iff hn).1 hsrc
  subst hb
  have hne : chunks num data ≠ [] := fun h => hd ((chunks_eq_nil hn).1 h)
  unfold returnResult
  by_cases h : nmax > 0
  · simp only [h, ↓reduceIte]
    have htake : ∀ (n : Nat) (d : List α), ((chunks num d).take n).flatten = d.take (n * num) := by
      intro n
      induction n with
      | zero => intro d; simp
      | succ n ih =>
        intro d
        by_cases hd : d = []
        · subst hd; simp [chunks_nil]
        · rw [chunks_step hn hd, List.take_succ_cons, List.flatten_cons, ih, Nat.add_mul, Nat.one_mul,
            Nat.add_comm, List.take_add]
    rw [if_neg (by simp [hne]), htake, List.take_take]
    congr 2
    have h1 : (nmax.toNat - 1) / num * num + num > nmax.toNat - 1 := by
      have := Nat.lt_div_mul_add hn (a := nmax.toNat - 1)
      exact this
    have h2 : ((nmax.toNat - 1) / num + 1) * num = (nmax.toNat - 1) / num * num + num := by
      rw [Nat.add_mul, Nat.one_mul]
    rw [h2]; omega
  · simp only [h, ↓reduceIte]
    rw [if_neg hne, flatten_chunks hn]

/-- **C53** A source without samples yields no blocks, and `return_result` raises ValueError. -/
theorem C53_empty (blocks : List (List α)) (num : Nat) (hn : 0 < num) (hsrc : IsBlocking num [] blocks) (nmax : Int) :
    returnResult blocks nmax num = .error .valueError := by
  have hb := (isBlocking_iff hn).1 hsrc
  subst hb
  rw [show chunks num ([] : List α) = [] from (chunks_eq_nil hn).2 rfl]
  unfold returnResult
  simp

example := C53_empty (α := Nat) [] 4 (by decide) ((isBlocking_iff (by decide)).2 (((chunks_eq_nil (by decide)).2 rfl).symm)) 7

example : returnResult (chunks 2 [1, 2, 3, 4, 5]) 3 2 = .ok [1, 2, 3] :=
  C53_return_result _ _ 2 (by decide) (isBlocking_chunks (by decide) _) (by decide) 3

/-- **C57** Collecting a fixed number of samples from a sound card: if the stream returns blocks of `num`
rows, exactly `numSamples` rows are delivered, block `j` being the beginning of the `j`-th block read, and
only the last one is shortened. -/
theorem C57_sound_device (read : Nat → List α) (num numSamples : Nat) (hn : 0 < num)
    (hread : ∀ k, (read k).length = num) :
    let t := SoundDevice.loop read numSamples num numSamples 0 0
    t.exit = .returned ∧
    t.blocks.map List.length = (chunks num (List.range numSamples)).map List.length ∧
    t.blocks.flatten.length = numSamples ∧
    ∀ j (b : List α), t.blocks[j]? = some b → b = (read j).take b.length := by
  intro t
  obtain ⟨t', ht, h1, h2, h3⟩ := SoundDevice.loop_eq read hn numSamples hread numSamples 0 (by omega)
  rw [Nat.zero_mul, Nat.zero_min] at ht
  have : t = t' := ht
  rw [this]
  simp only [Nat.zero_mul, Nat.sub_zero, Nat.zero_add] at h2 h3
  refine ⟨h1, h2, ?_, h3⟩
  rw [List.length_flatten, h2, ← List.length_flatten, flatten_chunks hn, List.length_range]

/-- The hypotheses of `C57_sound_device` are met: -/
example := C57_sound_device (fun k => [k, k]) 2 5 (by decide) (fun _ => rfl)

example : (SoundDevice.loop (fun k => [k, k]) 5 2 5 0 0) = ⟨[[0, 0], [1, 1], [2]], .returned⟩ := by decide

end Acoular
