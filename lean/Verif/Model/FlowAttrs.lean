import Verif.Model.FreqAxis
import Verif.Model.Stream

/-!
# What a chain of blocks announces about its data (`acoular/base.py`, `acoular/fprocess.py`, `acoular/process.py`, `acoular/calib.py`)

Attributes `num_channels`, `num_freqs`, `freqs`, `block_size`, `sample_freq` of objects in the time and in the frequency
domain, and the number of columns of the blocks that `result` delivers.  The values in the blocks are left out, as are
blocks without rows.  The block sizes of `RFFT` are even and at least 2 (`FlowObj.typed`).
-/

namespace Acoular

/-- The subclasses of `InOut` (acoular/process.py 69, 197, 383, 720; acoular/calib.py 28). -/
inductive FlowKind where
  /-- `Average` with `num_per_average` -/
  | average (num : ℕ)
  /-- `Cache` -/
  | cache
  /-- `SampleSplitter` -/
  | splitter
  /-- `SamplesBuffer` (long enough) -/
  | buffer
  /-- `Calib` with factors and `invalid_channels` -/
  | calib (data : List ℂ) (invalid : List ℤ)

/-- A chain of objects. -/
inductive FlowObj where
  /-- a `SamplesGenerator` without source (acoular/sources.py), with its channels and its sampling frequency -/
  | samples (channels : ℕ) (fs : ℝ)
  /-- a subclass of `TimeOut` that works on each value or column by itself: `TimePower`, `TimeCumAverage`, `TimeReverse`
  (acoular/tprocess.py 1347-1439) -/
  | timeOut (src : FlowObj)
  /-- a subclass of `InOut` -/
  | inOut (kind : FlowKind) (src : FlowObj)
  /-- `RFFT` (acoular/fprocess.py 33-171) -/
  | rfft (bs : ℕ) (src : FlowObj)
  /-- `IRFFT` (acoular/fprocess.py 174-274) -/
  | irfft (src : FlowObj)
  /-- `AutoPowerSpectra` (acoular/fprocess.py 277-350) -/
  | auto (src : FlowObj)
  /-- `CrossPowerSpectra`, mode 'full' (acoular/fprocess.py 354-452) -/
  | cross (src : FlowObj)

namespace FlowObj

/-- `isinstance(obj, SamplesGenerator)` (acoular/base.py 161, 264): `TimeOut` and `InOut` are. -/
def isSamples : FlowObj → Bool
  | samples _ _ => true
  | timeOut _ => true
  | inOut _ _ => true
  | irfft _ => true
  | _ => false

/-- `isinstance(obj, SpectraGenerator)` (acoular/base.py 209, 264): `SpectraOut` and `InOut` are. -/
def isSpectra : FlowObj → Bool
  | inOut _ _ => true
  | rfft _ _ => true
  | auto _ => true
  | cross _ => true
  | _ => false

/-- The trait `source` accepts the object (`Instance(Generator)`: acoular/base.py 271; `Instance(SamplesGenerator)`:
acoular/tprocess.py 1351, 1377, 1410, acoular/fprocess.py 47; `Instance(SpectraGenerator)`: acoular/fprocess.py 186, 289, 371),
and the block size is even and positive. -/
def typed : FlowObj → Prop
  | samples _ _ => True
  | timeOut s => s.isSamples = true ∧ s.typed
  | inOut _ s => s.typed
  | rfft bs s => s.isSamples = true ∧ s.typed ∧ bs % 2 = 0 ∧ 2 ≤ bs
  | irfft s => s.isSpectra = true ∧ s.typed
  | auto s => s.isSpectra = true ∧ s.typed
  | cross s => s.isSpectra = true ∧ s.typed

/-- `sample_freq`: delegated (acoular/base.py 174, 222, 277, acoular/spectra.py 80) except for `Average`
(acoular/process.py 142-146). -/
noncomputable def sampleFreq : FlowObj → ℝ
  | samples _ fs => fs
  | timeOut s => s.sampleFreq
  | inOut (.average num) s => s.sampleFreq / num
  | inOut _ s => s.sampleFreq
  | rfft _ s => s.sampleFreq
  | irfft s => s.sampleFreq
  | auto s => s.sampleFreq
  | cross s => s.sampleFreq

/-- `num_channels`: delegated (acoular/base.py 177, 225, 280, acoular/spectra.py 83) except for `CrossPowerSpectra`
(acoular/fprocess.py 404-407). -/
def numChannels : FlowObj → ℕ
  | samples n _ => n
  | timeOut s => s.numChannels
  | inOut _ s => s.numChannels
  | rfft _ s => s.numChannels
  | irfft s => s.numChannels
  | auto s => s.numChannels
  | cross s => s.numChannels ^ 2

/-- `num_freqs`: `RFFT` (acoular/fprocess.py 89-91, even block size), delegated by `SpectraOut` and `InOut`
(acoular/base.py 231, 283); objects in the time domain have no such trait. -/
def numFreqs : FlowObj → Except PyErr ℕ
  | samples _ _ => .error .attributeError
  | timeOut _ => .error .attributeError
  | inOut _ s => s.numFreqs
  | rfft bs _ => .ok (bs / 2 + 1)
  | irfft _ => .error .attributeError
  | auto s => s.numFreqs
  | cross s => s.numFreqs

/-- `block_size`: `RFFT` (acoular/fprocess.py 99-100), delegated by `SpectraOut` (acoular/base.py 237); `InOut` has the trait of
`SpectraGenerator`, `CInt` with the value 0 (acoular/base.py 135, 264-287). -/
def blockSize : FlowObj → Except PyErr ℕ
  | samples _ _ => .error .attributeError
  | timeOut _ => .error .attributeError
  | inOut _ _ => .ok 0
  | rfft bs _ => .ok bs
  | irfft _ => .error .attributeError
  | auto s => s.blockSize
  | cross s => s.blockSize

/-- `freqs`: `RFFT` (acoular/fprocess.py 115-124), delegated by `SpectraOut` (acoular/base.py 234); `InOut` has the trait of
`SpectraGenerator`, `CArray`, an empty array (acoular/base.py 132, 264-287). -/
noncomputable def freqs : FlowObj → Except PyErr (List ℝ)
  | samples _ _ => .error .attributeError
  | timeOut _ => .error .attributeError
  | inOut _ _ => .ok []
  | rfft bs s => .ok (spectraFreqs bs s.sampleFreq)
  | irfft _ => .error .attributeError
  | auto s => s.freqs
  | cross s => s.freqs

/-- `while isinstance(tobj, ac.InOut): tobj = tobj.source` (acoular/calib.py 138-140). -/
def root : FlowObj → FlowObj
  | inOut _ s => s.root
  | o => o

/-- The number that `Calib.__validate_data` compares with (acoular/calib.py 141-150); `src` is the source of `Calib`. -/
def calibColumns (src : FlowObj) : Except PyErr ℕ :=
  if src.root.isSamples then .ok src.root.numChannels
  else src.root.numFreqs.map fun nf => src.root.numChannels * nf

/-- `Calib.__validate_data` (acoular/calib.py 130-150), with data and source; the empty mask is an array of floats and no index. -/
def calibValidate (data : List ℂ) (invalid : List ℤ) (src : FlowObj) : Except PyErr Unit :=
  let mask := channelMask invalid data.length
  if mask = some [] then .error .indexError
  else src.calibColumns.bind fun n => if (applyMask mask data).length ≠ n then .error .valueError else .ok ()

/-- The number of columns of the blocks of `result`, or the exception it raises.  `SamplesBuffer` and `RFFT` write the blocks into
arrays with `num_channels` columns (acoular/process.py 829, 836, acoular/spectra.py 184, 189), which accept this number of columns or one;
`IRFFT` and `CrossPowerSpectra` reshape the rows to (frequencies, channels) (acoular/fprocess.py 273, 439); the scaling divides by
the block size (acoular/fprocess.py 315). -/
def columns : FlowObj → Except PyErr ℕ
  | samples n _ => .ok n
  | timeOut s => s.columns
  | inOut .buffer s => s.columns.bind fun w =>
    if w = s.numChannels ∨ w = 1 then .ok s.numChannels else .error .valueError
  | inOut (.calib data invalid) s => (s.calibValidate data invalid).bind fun _ => s.columns
  | inOut _ s => s.columns
  | rfft bs s => s.columns.bind fun w =>
    if w = s.numChannels ∨ w = 1 then .ok (s.numChannels * (bs / 2 + 1)) else .error .valueError
  | irfft s => s.blockSize.bind fun bs =>
    if bs = 0 then .error .valueError
    else s.numFreqs.bind fun nf => (IRFFT.validate (some bs) nf).bind fun _ => s.columns.bind fun w =>
      if w = nf * s.numChannels then .ok s.numChannels else .error .valueError
  | auto s => s.blockSize.bind fun bs => if bs = 0 then .error .zeroDivisionError else s.columns
  | cross s => s.numFreqs.bind fun nf => s.blockSize.bind fun bs =>
    if bs = 0 then .error .zeroDivisionError
    else s.columns.bind fun w =>
      if w = nf * s.numChannels then .ok (s.numChannels ^ 2 * nf) else .error .valueError

end FlowObj

end Acoular
