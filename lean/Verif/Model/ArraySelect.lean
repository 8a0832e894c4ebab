import Verif.Model.Stream
import Verif.Model.MicGeom
import Verif.Model.FreqAxis
import Verif.Model.BfDigest
import Verif.Model.TimeBeam

/-!
# Beamformers with excluded channels

`MaskedTimeSamples` – `PowerSpectra` – beamformer, with a `MicGeom`; both the source of samples and the geometry have their own list
`invalid_channels`. Real numbers instead of floating point numbers; no calibration, no caching.
-/

namespace Acoular

variable {g : ℕ}

/-- `BeamformerBase._assert_equal_channels`, acoular/fbeamform.py 412-416: `num_channels` of `freq_data` (delegated to its source,
acoular/spectra.py 83) and the microphones left. -/
def assertEqualChannels (numChannels numMics : ℕ) : Except PyErr Unit :=
  if numChannels ≠ numMics ∨ numChannels = 0 then .error .valueError else .ok ()

/-- Line `i` of the result of the beamformer of class `k` (acoular/fbeamform.py 418-450 and the classes), from the number of channels
of the source, the microphones left and what the source delivers for blocks of `bs` samples. `rt` and `set` are the routines of other
packages and the remaining settings, for the number of channels that turns up. The uninitialised work array of `_get_source_data` is taken
as zeros (it does not matter, C14); a run that does not end does not occur with `bs ≥ 1`. -/
noncomputable def arrayRowOf (rt : ∀ m, BfRoutines m g) (set : ∀ m, BfSet m g) (bs ov : ℕ) [NeZero bs] (wind : List ℝ) (F i : ℕ) (k : BfClass)
    (numSamples p : ℕ) (pos : List (Fin 3 → ℝ)) (run : Trace (List (List ℝ))) : Except PyErr (BfRow g) := do
  assertEqualChannels p pos.length
  match run.exit with
  | .raised e => .error e
  | .diverged => .error .runtimeError
  | .returned =>
    let blocks : List (List (Fin p → ℝ)) := run.blocks.map (List.map fun row m => row.getD m 0)
    .ok (BfSet.row (rt p) { set p with
      csm := csmFromBlocks bs ov wind numSamples (List.replicate (2 * bs) fun _ => 0) blocks
      mpos := fun m => pos.getD m 0 } F i k)

/-- The same from the file: `data` are the rows of `data` in the file with `n` channels, `total` is `pos_total` of the geometry
(acoular/sources.py 602-625, 664-746, acoular/microphones.py 163-172). -/
noncomputable def arrayRow (rt : ∀ m, BfRoutines m g) (set : ∀ m, BfSet m g) (bs ov : ℕ) [NeZero bs] (wind : List ℝ) (F i : ℕ) (k : BfClass)
    (data : List (List ℝ)) (n : ℕ) (start : ℤ) (stop : Option ℤ) (dataInvalid : List ℤ) (total : List (Fin 3 → ℝ)) (micInvalid : List ℤ) :
    Except PyErr (BfRow g) := do
  let pos ← micPos total micInvalid
  arrayRowOf rt set bs ov wind F i k (maskedNumSamples start stop data.length).toNat (maskedNumChannels dataInvalid n) pos
    (MaskedTimeSamples.result data n start stop dataInvalid none bs)

/-- `BeamformerTime.result`, acoular/tbeamform.py 126-188, without spatial weighting, with a source that has at least as many channels as
there are microphones: nothing compares the numbers, and `_delayandsum4` (acoular/tfastfuncs.py 25-58, `num_channels` from the shape of
`offsets`) reads the first of the channels. -/
def timeBeamRows {K : Type*} [Field K] [LinearOrder K] [IsStrictOrderedRing K] [FloorSemiring K] {M G : ℕ} (mode : BeamTimeMode)
    (c : K) (rm amp : Fin G → Fin M → K) (source : ℕ → List (List (List K))) (num fuel : ℕ) : Trace (List (Fin G → Option K)) :=
  beamformerTime mode (fun _ => 1) c rm amp (fun k => (source k).map (List.map fun row m => row.getD m 0)) num fuel

end Acoular
