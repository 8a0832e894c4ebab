import Mathlib.Data.Complex.Basic
import Mathlib.LinearAlgebra.Matrix.ConjTranspose
import Verif.Model.Py

/-!
# Model of block-wise spectral estimation (`acoular/spectra.py`, `acoular/fprocess.py`)
-/

namespace Acoular

/-! ## Windows -/

/-- The `while pos + bs <= bs + ns` loop of `_get_source_data`, `acoular/spectra.py` 190-192.  The position
is kept in units of `1/ov` rows (`posinc = bs / overlap_` is a multiple of 1/8, exact in floating point), so
`pos + bs <= bs + ns` is `posU <= ns * ov` and `int(pos)` is `posU / ov`.  `fuel` bounds the iterations. -/
def winInner {α : Type*} (bs ov : Nat) (temp : List α) (ns : Nat) : (fuel posU : Nat) → List (List α) × Nat
  | 0, posU => ([], posU)
  | fuel + 1, posU =>
    if posU ≤ ns * ov then
      let r := winInner bs ov temp ns fuel (posU + bs)
      (slice temp (posU / ov) (posU / ov + bs) :: r.1, r.2)
    else ([], posU)

/-- The loop over the source blocks of `_get_source_data`, `acoular/spectra.py` 187-195, on the array
`temp` of `2 * bs` rows.  (`pos -= bs` may become negative only after a short block, which is the last.) -/
def winLoop {α : Type*} (bs ov : Nat) : (temp : List α) → (posU : Nat) → List (List α) → List (List α)
  | _, _, [] => []
  | temp, posU, block :: rest =>
    let ns := block.length
    let temp1 := temp.take bs ++ block ++ temp.drop (bs + ns)
    let r := winInner bs ov temp1 ns (ns * ov + 1) posU
    r.1 ++ winLoop bs ov (temp1.drop bs ++ temp1.drop bs) (r.2 - bs * ov) rest

/-- `BaseSpectra._get_source_data`, `acoular/spectra.py` 182-195; `blocks = list(self.source.result(bs))`,
`junk` is the uninitialised array.  The yielded views are taken as copies. -/
def getSourceData {α : Type*} (bs ov : Nat) (junk : List α) (blocks : List (List α)) : List (List α) :=
  winLoop bs ov junk (bs * ov) blocks

/-- `RFFT.result`, `acoular/fprocess.py` 156-170, after the set-up: `snaps` are the transformed windows in
order, `i` the loop counter, `j` the last value of `i % num` (0 before the first window), `fftdata` the array
with `num` rows.  The yielded array is taken as a copy. -/
def RFFT.loop {β : Type*} (num : Nat) : (i j : Nat) → (fftdata : List β) → List β → List (List β)
  | _, j, fftdata, [] => if j < num - 1 then [fftdata.take (j + 1)] else []
  | i, _, fftdata, s :: rest =>
    let j := i % num
    let fftdata := fftdata.set j s
    if j = num - 1 then fftdata :: RFFT.loop num (i + 1) j fftdata rest
    else RFFT.loop num (i + 1) j fftdata rest

/-- `RFFT.result`, `acoular/fprocess.py` 128-170, with `f` the windowed, scaled transform of one window and
`zero` a row of zeros. -/
def RFFT.result {α β : Type*} (f : List α → β) (zero : β) (wins : List (List α)) (num : Nat) : List (List β) :=
  RFFT.loop num 0 0 (List.replicate num zero) (wins.map f)

/-- `RFFT._get_num_samples`, `acoular/fprocess.py` 94-97: announced number of snapshots. -/
def RFFT.numSamples (sourceNumSamples : Int) (bs : Nat) : Int :=
  if sourceNumSamples ≥ 0 then sourceNumSamples / bs else -1

/-! ## Cross spectral matrix (one frequency line) -/

open scoped ComplexConjugate

/-- `calcCSM` for one frequency, `acoular/fastFuncs.py` 48-55: only entries with row ≤ column change. -/
noncomputable def calcCSM {n : ℕ} (csm : Matrix (Fin n) (Fin n) ℂ) (X : Fin n → ℂ) : Matrix (Fin n) (Fin n) ℂ :=
  fun row col => if row ≤ col then csm row col + conj (X col) * X row else csm row col

/-- Mirroring, `acoular/spectra.py` 396-398: `csm_lower = csm_upper.conj().transpose(0, 2, 1)`, diagonal set
to zero, sum. -/
noncomputable def mirrorCSM {n : ℕ} (upper : Matrix (Fin n) (Fin n) ℂ) : Matrix (Fin n) (Fin n) ℂ :=
  fun i j => (if i = j then 0 else conj (upper j i)) + upper i j

/-- `PowerSpectra.calc_csm`, `acoular/spectra.py` 382-400, for one frequency line: `spectra` are the
transformed windows, `scale` the final factor. -/
noncomputable def calcCsmLine {n : ℕ} (scale : ℝ) (spectra : List (Fin n → ℂ)) : Matrix (Fin n) (Fin n) ℂ :=
  (scale : ℂ) • mirrorCSM (spectra.foldl calcCSM 0)

/-- `_get_num_blocks`, `acoular/spectra.py` 287-289: Python true division. -/
def numBlocks (ov numSamples bs : Nat) : ℚ := (ov : ℚ) * numSamples / bs - ov + 1

/-- `2.0 / self.block_size / weight / self.num_blocks`, `acoular/spectra.py` 400. -/
noncomputable def csmScale (bs : Nat) (weight : ℝ) (nb : ℚ) : ℝ := 2 / bs / weight / nb

/-! ## Frequency index range -/

/-- `fftfreq()`, `acoular/spectra.py` 177-179, for even block size: `k * fs / bs` for `k = 0..bs/2`. -/
def fftfreq {K : Type*} [Field K] (bs : Nat) (fs : K) : List K := (List.range (bs / 2 + 1)).map fun k : Nat => (k : K) * fs / bs

/-- numpy `searchsorted(a, v)` for ascending `a`: number of entries smaller than `v`. -/
def searchsorted {K : Type*} [LT K] [DecidableRel (α := K) (· < ·)] (a : List K) (v : K) : Nat :=
  a.countP fun x => decide (x < v)

/-- What the user set last, `acoular/spectra.py` 301-303 and 326-333. -/
inductive RangeSetting (K : Type*) where
  | index (low : Int) (high : Option Int)
  | freq (low : K) (high : Option K)

variable {K : Type*} [LT K] [DecidableRel (α := K) (· < ·)]

/-- `_get_ind_low`, `acoular/spectra.py` 305-312 (source present). -/
def indLow (freqs : List K) : RangeSetting K → Int
  | .index low _ => min low ((freqs.length : Int) - 1)
  | .freq low _ => searchsorted freqs.dropLast low

/-- `_get_ind_high`, `acoular/spectra.py` 314-324. -/
def indHigh (freqs : List K) : RangeSetting K → Option Int
  | .index _ none => none
  | .index _ (some high) => some (min high ((freqs.length : Int) - 1))
  | .freq _ none => none
  | .freq _ (some high) => some (searchsorted freqs.dropLast high)

/-- `_get_indices`, `acoular/spectra.py` 335-346: `arange(n)[low : high]`. -/
def freqIndices (freqs : List K) (r : RangeSetting K) : List Nat :=
  let b := sliceIndices (indLow freqs r) (indHigh freqs r) freqs.length
  slice (List.range freqs.length) b.1 b.2

/-! ## Cached frequency range -/

/-- The shadow traits and property caches behind `ind_low` / `ind_high`, `acoular/spectra.py` 222-244, for a
fixed source and block size.  `cacheLow = none` means the cached property has no stored value. -/
structure RangeState (K : Type*) where
  il : Int := 1
  ih : Option Int := some (-1)
  flc : K
  fhc : Option K
  indexLast : Bool := true
  cacheLow : Option Int := none
  cacheHigh : Option (Option Int) := none

/-- What a user does with the frequency range. -/
inductive RangeOp (K : Type*) where
  | setFreqRange (low : K) (high : Option K)
  | setIndLow (v : Int)
  | setIndHigh (v : Option Int)
  | readIndices

/-- The setting that the getters look at, `acoular/spectra.py` 309, 318. -/
def RangeState.setting (s : RangeState K) : RangeSetting K :=
  if s.indexLast then .index s.il s.ih else .freq s.flc s.fhc

/-- Value of `ind_low` seen by a reader: the cached value if there is one, `property_depends_on` of
`acoular/spectra.py` 305. -/
def RangeState.low (freqs : List K) (s : RangeState K) : Int := s.cacheLow.getD (indLow freqs s.setting)

/-- Value of `ind_high` seen by a reader, `acoular/spectra.py` 314. -/
def RangeState.high (freqs : List K) (s : RangeState K) : Option Int := s.cacheHigh.getD (indHigh freqs s.setting)

/-- `_get_indices`, `acoular/spectra.py` 335-346, on the cached limits. -/
def RangeState.indices (freqs : List K) (s : RangeState K) : List Nat :=
  let b := sliceIndices (s.low freqs) (s.high freqs) freqs.length
  slice (List.range freqs.length) b.1 b.2

/-- One operation, `acoular/spectra.py` 300-333: the caches of `ind_low` and `ind_high` are cleared exactly if
`_ind_low` or `_freqlc`, respectively `_ind_high` or `_freqhc`, changes its value; `_index_set_last` is not
listed as a dependency. -/
def RangeState.step [DecidableEq K] (freqs : List K) (s : RangeState K) : RangeOp K → RangeState K
  | .setFreqRange low high =>
    { s with
      indexLast := false, flc := low, fhc := high
      cacheLow := if low = s.flc then s.cacheLow else none
      cacheHigh := if high = s.fhc then s.cacheHigh else none }
  | .setIndLow v => { s with indexLast := true, il := v, cacheLow := if v = s.il then s.cacheLow else none }
  | .setIndHigh v => { s with indexLast := true, ih := v, cacheHigh := if v = s.ih then s.cacheHigh else none }
  | .readIndices => { s with cacheLow := some (s.low freqs), cacheHigh := some (s.high freqs) }

/-! ## Auto and cross power spectra of one snapshot -/

/-- `AutoPowerSpectra._get_scaling_value`, `acoular/fprocess.py` 314-320. -/
noncomputable def autoScale (bs : Nat) (fs : ℝ) (singleSided psd : Bool) : ℝ :=
  1 / (bs : ℝ) ^ 2 * (if singleSided then 2 else 1) * (if psd then bs * fs else 1)

/-- One value of `AutoPowerSpectra.result`, `acoular/fprocess.py` 348-350. -/
noncomputable def autoPower (scale : ℝ) (X : ℂ) : ℝ := (X * conj X).re * scale

/-- `calc_mode`, `acoular/fprocess.py` 383-391. -/
inductive CalcMode where
  | full | upper | lower
  deriving DecidableEq

/-- `CrossPowerSpectra._get_num_channels`, `acoular/fprocess.py` 404-407. -/
def CrossPowerSpectra.numChannels (n : Nat) : CalcMode → Nat
  | .full => n ^ 2
  | _ => n + n * (n - 1) / 2

/-- `reshape(-1)` of an array with axes frequency, row, column (C order). -/
def flatten3 {β : Type*} {nf n : Nat} (a : Fin nf → Fin n → Fin n → β) : List β :=
  (List.finRange nf).flatMap fun f => (List.finRange n).flatMap fun r => (List.finRange n).map fun c => a f r c

/-- `csm_flat[i] = row`: numpy refuses a row of the wrong length unless it has length one (broadcasting),
`acoular/fprocess.py` 445-450. -/
def assignRow {β : Type*} (width : Nat) (row : List β) : Except PyErr (List β) :=
  if row.length = width then .ok row
  else match row with
    | [x] => .ok (List.replicate width x)
    | _ => .error .valueError

/-- One snapshot of `CrossPowerSpectra.result`, `acoular/fprocess.py` 438-452: `X f c` is the spectrum of
channel `c` at line `f`.  `csm_upper` starts from zero (line 451 resets it).  `[:, :nc]` keeps all `n ≤ nc`
rows. -/
noncomputable def CrossPowerSpectra.snapshot {nf n : Nat} (scale : ℝ) (mode : CalcMode) (X : Fin nf → Fin n → ℂ) :
    Except PyErr (List ℂ) :=
  let width := CrossPowerSpectra.numChannels n mode * nf
  let upper : Fin nf → Matrix (Fin n) (Fin n) ℂ := fun f => calcCSM 0 (X f)
  let row := match mode with
    | .full => flatten3 fun f r c => mirrorCSM (upper f) r c
    | .upper => flatten3 fun f r c => upper f r c
    | .lower => flatten3 fun f r c => conj (upper f c r)
  (assignRow width row).map fun row => row.map (· * (scale : ℂ))

end Acoular
