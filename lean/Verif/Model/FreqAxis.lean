import Verif.Model.Spectra
import Verif.Model.Irfft

/-!
# Frequency axis and block sizes of the transforms, cross spectral matrix from samples

`acoular/spectra.py` `BaseSpectra.fftfreq`, `PowerSpectra.calc_csm`; `acoular/fprocess.py` `RFFT` (block size and
frequencies), `IRFFT._validate`.
-/

namespace Acoular

/-- `scipy.fft.fftfreq(n, d)`: `[0, 1, ..., (n-1)//2, -(n//2), ..., -1] / (n d)`. -/
def npFftfreq {K : Type*} [Field K] (n : ℕ) (d : K) : List K :=
  (((List.range ((n - 1) / 2 + 1)).map fun k : ℕ => (k : ℤ)) ++
    ((List.range (n / 2)).map fun k : ℕ => (k : ℤ) - (n / 2 : ℕ))).map fun r : ℤ => (r : K) * (1 / ((n : K) * d))

/-- `BaseSpectra.fftfreq`, `acoular/spectra.py` 177-179, and `RFFT._get_freqs`, `acoular/fprocess.py` 115-124 (with a
source): `abs(fft.fftfreq(block_size, 1.0 / sample_freq)[: int(block_size / 2 + 1)])`. -/
def spectraFreqs {K : Type*} [Field K] [LinearOrder K] (bs : ℕ) (fs : K) : List K :=
  ((npFftfreq bs (1 / fs)).take (bs / 2 + 1)).map fun f => |f|

/-- `RFFT._set_block_size`, `acoular/fprocess.py` 102-106. -/
def RFFT.setBlockSize (value : ℤ) : Except PyErr ℤ :=
  if value % 2 ≠ 0 then .error .valueError else .ok value

/-- `RFFT._get_num_freqs`, `acoular/fprocess.py` 89-91 (`int(block_size / 2 + 1)` truncates towards zero). -/
def RFFT.numFreqs (bs : ℤ) : ℤ := Int.tdiv (bs + 2) 2

/-- `IRFFT._validate`, `acoular/fprocess.py` 219-234; `none` is an unknown block size. -/
def IRFFT.validate (bs : Option ℤ) (numFreqs : ℤ) : Except PyErr Unit :=
  match bs with
  | none => .error .valueError
  | some b =>
    if b = 0 ∨ b < 0 then .error .valueError
    else if (numFreqs - 1) * 2 ≠ b then .error .valueError
    else if b % 2 ≠ 0 then .error .valueError
    else .ok ()

/-- `PowerSpectra.calc_csm`, `acoular/spectra.py` 376-400, line number `j`, from the blocks that the source delivers:
windows of the samples (rows: one value per channel), multiplied by the window function, transformed, and summed up.
`junk` is the uninitialised work array of `_get_source_data`. -/
noncomputable def csmFromBlocks {c : ℕ} (bs ov : ℕ) [NeZero bs] (wind : List ℝ) (numSamples : ℕ)
    (junk : List (Fin c → ℝ)) (blocks : List (List (Fin c → ℝ))) (j : ℕ) : Matrix (Fin c) (Fin c) ℂ :=
  let weight := (wind.map fun v => v * v).sum
  let spectra := (getSourceData bs ov junk blocks).map fun w => fun m : Fin c =>
    (rfftLines bs (List.zipWith (· * ·) (w.map fun row => row m) wind)).getD j 0
  calcCsmLine (csmScale bs weight (numBlocks ov numSamples bs)) spectra

end Acoular
