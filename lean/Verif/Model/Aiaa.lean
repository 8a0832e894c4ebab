import Mathlib.Data.Complex.Basic
import Mathlib.LinearAlgebra.Matrix.Defs
import Verif.Model.Stream
import Verif.Model.Digest

/-!
# Benchmark files (acoular/aiaa/aiaa.py)

The nodes of a file in the AIAA format that the classes read.  Paths are lists of characters; the contents of a path do not change.
-/

namespace Acoular

/-- A benchmark file. -/
structure BenchFile where
  /-- number of microphones and of frequency lines: the shape of `csmReal` is `(mics, mics, lines)` -/
  mics : ℕ
  lines : ℕ
  /-- `/CsmData/csmReal`, `/CsmData/csmImaginary` -/
  re : Fin mics → Fin mics → Fin lines → ℝ
  im : Fin mics → Fin mics → Fin lines → ℝ
  /-- attribute `fftSign` of `/CsmData` -/
  sign : ℝ
  /-- `/CsmData/binCenterFrequenciesHz`, a matrix -/
  centers : List (List ℝ)
  /-- `/MetaData/ArrayAttributes/microphonePositionsM`, one row for each microphone -/
  positions : Fin mics → Fin 3 → ℝ
  /-- `/MicrophoneData/microphoneDataPa` and its attribute `sampleRateHz` -/
  samples : List (List ℝ)
  rate : ℝ
  /-- `/TachoData/tachoDataV` and its attribute `sampleRateHz`, with this number of columns -/
  tacho : List (List ℝ)
  tachoChannels : ℕ
  tachoRate : ℝ

/-- `transpose((2, 0, 1))` of numpy. -/
def transpose201 {α : Type} {a b c : ℕ} (x : Fin a → Fin b → Fin c → α) : Fin c → Fin a → Fin b → α := fun k i j => x i j k

/-- Matrices for a number of lines. -/
abbrev AnyCsm := Σ (lines mics : ℕ), Fin lines → Matrix (Fin mics) (Fin mics) ℂ

/-- `CsmAIAABenchmark._get_csm` (acoular/aiaa/aiaa.py 141-148). -/
noncomputable def BenchFile.csm (b : BenchFile) : Fin b.lines → Matrix (Fin b.mics) (Fin b.mics) ℂ :=
  fun k i j => ((transpose201 b.re k i j : ℝ) : ℂ) + (b.sign : ℂ) * Complex.I * ((transpose201 b.im k i j : ℝ) : ℂ)

/-- `fftfreq` (acoular/aiaa/aiaa.py 150-158): `flatten()`. -/
def BenchFile.freqs (b : BenchFile) : List ℝ := b.centers.flatten

/-- `indices` (acoular/aiaa/aiaa.py 127-131): all lines, whatever `ind_low` and `ind_high` are. -/
def BenchFile.indices (b : BenchFile) : List ℕ := List.range b.freqs.length

/-- `MicAIAABenchmark._import_mpos` (acoular/aiaa/aiaa.py 172-180): `swapaxes(0, 1)`. -/
def BenchFile.pos (b : BenchFile) : Fin 3 → Fin b.mics → ℝ := fun x m => b.positions m x

/-- `TimeSamplesAIAABenchmark.result(num)`: `_load_timedata` (acoular/aiaa/aiaa.py 58-62), then the generator of `TimeSamples`
(no calibration). -/
def BenchFile.result (b : BenchFile) (num : ℕ) : Trace (List (List ℝ)) := TimeSamples.result b.samples b.mics none num

/-- `TriggerAIAABenchmark.result(num)`: acoular/aiaa/aiaa.py 80-84. -/
def BenchFile.tachoResult (b : BenchFile) (num : ℕ) : Trace (List (List ℝ)) := TimeSamples.result b.tacho b.tachoChannels none num

/-- `Path(file).name`: what follows the last slash. (Slashes at the end, which `Path` drops, do not occur in names of files.) -/
def pathName : List Char → List Char
  | [] => []
  | c :: cs => if '/' ∈ c :: cs then pathName cs else c :: cs

/-- `Path(file).stem`: without the last dot and what follows it, unless the dot is the first or the last character. -/
def pathStem (p : List Char) : List Char :=
  let name := pathName p
  let tail := name.reverse.takeWhile fun c => c ≠ '.'
  let i := name.length - tail.length
  if '.' ∈ name ∧ 1 < i ∧ tail ≠ [] then name.take (i - 1) else name

/-- `get_file_basename` (acoular/tools/utils.py 16-30). -/
def fileBasename (p : List Char) : List Char := if pathStem p = [] then ['v', 'o', 'i', 'd'] else pathStem p

/-- `CsmAIAABenchmark`: `file`, the open file, what was assigned to `csm` (`_csm`), `_csmsum`, and the cached value of `csm`. -/
structure BenchState where
  file : List Char
  h5f : Option BenchFile
  shadow : Option AnyCsm
  csmsum : ℝ
  cache : Option AnyCsm

/-- A new object. -/
def BenchState.new : BenchState := ⟨[], none, none, 0, none⟩

/-- What a user does. -/
inductive BenchOp where
  | setFile (p : List Char)
  | setCsm (c : AnyCsm)
  | readCsm

/-- `csm` (acoular/aiaa/aiaa.py 141-148): cached; without a file `self.h5f` is `None`. -/
noncomputable def BenchState.csm (s : BenchState) : Except PyErr AnyCsm :=
  match s.cache with
  | some c => .ok c
  | none => match s.h5f with
    | none => .error .attributeError
    | some b => .ok ⟨b.lines, b.mics, b.csm⟩

/-- The checksum of `_csm` (acoular/spectra.py 696), which is empty in a new object. -/
def shadowSum (sum : AnyCsm → ℝ) : Option AnyCsm → ℝ
  | none => 0
  | some m => sum m

/-- One operation. `file` must exist (acoular/aiaa/aiaa.py 92, `TraitError`); assigning the value it has announces no change,
otherwise `basename` and `digest` announce one: the file is opened (117-124) and the cached value is dropped (141).
Assigning `csm` calls the setter inherited from `PowerSpectraImport` (acoular/spectra.py 691-697), which changes `_csmsum`, on which
`digest` depends (acoular/aiaa/aiaa.py 107), and `_csm`. `sum` is the checksum of a matrix. -/
noncomputable def BenchState.step (disk : List Char → Option BenchFile) (sum : AnyCsm → ℝ) (s : BenchState) : BenchOp → BenchState
  | .setFile p => match disk p with
    | none => s
    | some b => if p = s.file then s else { s with file := p, h5f := some b, cache := none }
  | .setCsm c =>
    { s with shadow := some c, csmsum := shadowSum sum s.shadow,
             cache := if shadowSum sum s.shadow = s.csmsum then s.cache else none }
  | .readCsm => match s.csm with
    | .error _ => s
    | .ok c => { s with cache := some c }

/-- A history. -/
noncomputable def BenchState.run (disk : List Char → Option BenchFile) (sum : AnyCsm → ℝ) (ops : List BenchOp) : BenchState :=
  ops.foldl (BenchState.step disk sum) .new

/-- `digest` (acoular/aiaa/aiaa.py 107-111): base name and `_csmsum`. -/
def BenchState.digest (md5 : List Char → String) (show_ : ℝ → String) (s : BenchState) : String :=
  digestOf md5 "<class 'acoular.aiaa.aiaa.CsmAIAABenchmark'>" [some (String.ofList (fileBasename s.file)), some (show_ s.csmsum)]

end Acoular
