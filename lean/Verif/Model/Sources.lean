import Verif.Model.Py
import Mathlib.Algebra.Order.Floor.Ring
import Mathlib.Algebra.Order.Field.Basic
import Mathlib.Data.Finset.Lattice.Fold
import Mathlib.Data.Fintype.Basic

/-!
# Model: simulated sources (`acoular/sources.py`)

Exact arithmetic.  A yielded block is its rows at the time of the yield (the re-use of the block buffer is the subject of
`Verif/Model/Alias.lean`).  Reading an array outside its bounds gives `none`: in the compiled function
`_fill_mic_signal_block` this is an unchecked memory access, in numpy code it is an IndexError.
-/

namespace Acoular

variable {K : Type*} [Field K] [LinearOrder K] [IsStrictOrderedRing K] [FloorRing K]

/-- `int(x)` and `array(x, dtype=int64)`: towards zero. -/
def truncInt (x : K) : ℤ := if x < 0 then -⌊-x⌋ else ⌊x⌋

/-- `signal[i]` in numpy and numba: negative indices count from the end. -/
def arrayGet {α : Type*} (sig : List α) (i : ℤ) : Option α :=
  if i < 0 then (if i + sig.length < 0 then none else sig[(i + sig.length).toNat]?) else sig[i.toNat]?

variable {M : ℕ}

/-- acoular/sources.py 101-105 and 109-110: one row of `_fill_mic_signal_block`. -/
def micRow (sig : List K) (rm : Fin M → K) (prepadding : Bool) (ind : Fin M → K) : Fin M → Option K :=
  fun m =>
    if prepadding then
      if ind m < 0 then some 0 else (arrayGet sig (truncInt (1 / 2 + ind m))).map (· / rm m)
    else (arrayGet sig (truncInt (1 / 2 + ind m))).map (· / rm m)

/-- acoular/sources.py 97-112 (`_fill_mic_signal_block`): the first `blocksize` rows of `out` and the new `ind`. -/
def fillMicSignalBlock (sig : List K) (rm : Fin M → K) (up : K) (prepadding : Bool) :
    ℕ → (Fin M → K) → List (Fin M → Option K) × (Fin M → K)
  | 0, ind => ([], ind)
  | b + 1, ind =>
    let r := fillMicSignalBlock sig rm up prepadding b (fun m => ind m + up)
    (micRow sig rm prepadding ind :: r.1, r.2)

/-- `for _nb in range(count): out = _fill_mic_signal_block(..., num, ...); yield out`. -/
def fullSourceBlocks (sig : List K) (rm : Fin M → K) (up : K) (prepadding : Bool) (num : ℕ) :
    ℕ → (Fin M → K) → List (List (Fin M → Option K)) × (Fin M → K)
  | 0, ind => ([], ind)
  | k + 1, ind =>
    let b := fillMicSignalBlock sig rm up prepadding num ind
    let r := fullSourceBlocks sig rm up prepadding num k b.2
    (b.1 :: r.1, r.2)

/-- acoular/sources.py 911-913: distances divided by the speed of sound, in oversampled samples. -/
def emissionIndex (rm : Fin M → K) (c startT start fs up : K) : Fin M → K :=
  fun m => (-rm m / c - startT + start) * fs * up

/-- acoular/sources.py 906-945 (`PointSource.result`) from the emission indices of the first sample on; there is at
least one channel (`npmin` of nothing raises).  `(N - pre - 1).toNat`: `range` of a negative number is empty. -/
def pointSource (sig : List K) (rm ind : Fin (M + 1) → K) (up : ℕ) (ns num : ℕ) (zeros : Bool) :
    List (List (Fin (M + 1) → Option K)) :=
  let N : ℕ := (ns + num - 1) / num
  let blocksize := if ns % num = 0 then num else ns % num
  if zeros then
    let pre : ℤ := -⌊Finset.univ.inf' ⟨0, Finset.mem_univ 0⟩ ind / (up * num : K)⌋
    if (N : ℤ) ≤ pre then
      let a := fullSourceBlocks sig rm up true num (N - 1) ind
      a.1 ++ [(fillMicSignalBlock sig rm up true blocksize a.2).1]
    else
      let a := fullSourceBlocks sig rm up true num pre.toNat ind
      let b := fullSourceBlocks sig rm up false num (N - pre - 1).toNat a.2
      a.1 ++ b.1 ++ [(fillMicSignalBlock sig rm up false blocksize b.2).1]
  else
    let b := fullSourceBlocks sig rm up false num (N - 1) ind
    b.1 ++ [(fillMicSignalBlock sig rm up false blocksize b.2).1]

/-! ### Sources with a loop over the samples -/

/-- The loop shared by `SphericalHarmonicSource` (1065-1079, without `transform`), `MovingPointSource` (1175-1206),
`PointSourceDipole` (1326-1350), `MovingPointSourceDipole` (1541-1577), `LineSource` (1689-1707) and `MovingLineSource`
(1914-1947): `n` samples are left, `t` have been made, `buf` is `out[:i]`.  `row t = none`: the row raises IndexError.
`guard`: the last block is yielded only if it is not empty (the first two), else always (the others). -/
def sourceLoop {R : Type*} (row : ℕ → Option R) (num : ℕ) (guard : Bool) : ℕ → ℕ → List R → List (List R)
  | 0, _, buf => if guard && buf.length == 0 then [] else [buf]
  | n + 1, t, buf =>
    match row t with
    | none => if guard && buf.length == 0 then [] else [buf]
    | some r =>
      if buf.length + 1 = num then (buf ++ [r]) :: sourceLoop row num guard n (t + 1) []
      else sourceLoop row num guard n (t + 1) (buf ++ [r])

/-- `signal[array(0.5 + ind * up, dtype=int64)] / rm`: IndexError if one of the indices is outside. -/
def fancyRow (sig : List K) (rm pos : Fin M → K) : Option (Fin M → K) :=
  if h : ∀ m, (arrayGet sig (truncInt (1 / 2 + pos m))).isSome then
    some fun m => (arrayGet sig (truncInt (1 / 2 + pos m))).get (h m) / rm m
  else none

/-- acoular/sources.py 1070-1071 and 1194-1198: row `t` of a source with emission times `ind t` (in samples). -/
def monopoleRow (sig : List K) (up : K) (rm ind : ℕ → Fin M → K) (t : ℕ) : Option (Fin M → K) :=
  fancyRow sig (rm t) (fun m => ind t m * up)

/-- acoular/sources.py 1332-1341 (`PointSourceDipole`). -/
def dipoleRow (sig : List K) (up dist : K) (rm rm1 rm2 ind1 ind2 : Fin M → K) (t : ℕ) : Option (Fin M → K) :=
  match fancyRow sig rm1 (fun m => (ind1 m + t) * up), fancyRow sig rm2 (fun m => (ind2 m + t) * up) with
  | some a, some b => some fun m => rm m / dist * (a m - b m)
  | _, _ => none

/-- acoular/sources.py 1694-1698 (`LineSource`): the sum over the monopoles. -/
def lineRow (up : K) (mono : List (List K × (Fin M → K) × (Fin M → K))) (t : ℕ) : Option (Fin M → K) :=
  match mono with
  | [] => some fun _ => 0
  | (sig, rm, ind) :: l =>
    match fancyRow sig rm (fun m => (ind m + t) * up), lineRow up l t with
    | some a, some b => some fun m => a m + b m
    | _, _ => none

/-! ### Signals of a line source -/

/-- The signal generator shared by the monopoles: amplitude and seed. -/
structure SigState (K : Type*) where
  rms : K
  seed : ℕ

/-- acoular/sources.py 1681-1688 and 1903-1908: the signals of the monopoles `s, s+1, ...`; the generator is changed on
the way.  `base seed` is the signal with amplitude one, `hash` the part of the seed derived from the digest of the
source (which covers the state of the generator). IndexError if `source_strength` is too short. -/
def lineSignals (base : ℕ → List K) (hash : SigState K → ℕ) (incoherent : Bool) (strength : List K) :
    ℕ → ℕ → SigState K → Except PyErr (List (List K) × SigState K)
  | 0, _, g => .ok ([], g)
  | n + 1, s, g =>
    let g1 : SigState K := ⟨g.rms, if incoherent then s + hash g else g.seed⟩
    match strength[s]? with
    | none => .error .indexError
    | some q =>
      let g2 : SigState K := ⟨g1.rms * q, g1.seed⟩
      match lineSignals base hash incoherent strength n (s + 1) g2 with
      | .error e => .error e
      | .ok r => .ok (((base g2.seed).map (g2.rms * ·)) :: r.1, r.2)

/-! ### Noise at every channel -/

/-- acoular/sources.py 2103-2111 (`UncorrelatedNoiseSource.result`), rows of the array `signal` of `ns` rows; fuel for
the `while`. -/
def uncorrelatedLoop {R : Type*} (signal : List R) (num : ℕ) : ℕ → ℕ → Trace (List R)
  | 0, _ => .diverge
  | f + 1, n =>
    if n ≤ signal.length then .cons (slice signal (n - num) n) (uncorrelatedLoop signal num f (n + num))
    else if n - num < signal.length then .cons (signal.drop (n - num)) .stop
    else .stop

/-- acoular/sources.py 2086-2101: one seed per channel, given or derived; ValueError if the number does not fit. -/
def noiseSeeds (seed : List ℕ) (signalSeed channels : ℕ) : Except PyErr (List ℕ) :=
  if seed.length = 0 then .ok ((List.range channels).map (· + signalSeed))
  else if seed.length = channels then .ok seed else .error .valueError

end Acoular
