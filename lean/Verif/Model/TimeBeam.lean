import Verif.Model.SamplesBuffer
import Mathlib.Algebra.Field.Defs
import Mathlib.Data.List.FinRange
import Mathlib.Algebra.Order.Floor.Semiring
import Mathlib.Algebra.Order.Field.Basic
import Mathlib.Data.Finset.Lattice.Fold
import Mathlib.Algebra.BigOperators.Fin

/-!
# Model: time domain beamformers (`acoular/tbeamform.py`, `acoular/tfastfuncs.py`)

A row of data is a function of the microphone.  `numba` does not check indices: a read outside of the data is
modelled by the result `none`.
-/

namespace Acoular

section kernels
variable {K : Type*} [Field K] {M G : ℕ}

/-- acoular/tfastfuncs.py 49-57: the loop over the microphones for one sample `n` and one grid point; the pair
(`out[n, gi]`, `autopower[n, gi]`).  `off`, `f2`, `amp` are the rows of the three arrays for this grid point (and for
this sample in `_delayandsum5`, 105-120, which differs only in this). -/
def delaySumPoint (data : List (Fin M → K)) (off : Fin M → ℕ) (f2 amp : Fin M → K) (n : ℕ) : Option (K × K) :=
  (List.finRange M).foldlM (fun (acc : K × K) mi =>
    match data[off mi + n]?, data[off mi + n + 1]? with
    | some x, some y =>
      let r := (x mi * (1 - f2 mi) + y mi * f2 mi) * amp mi
      some (acc.1 + r, acc.2 + r * r)
    | _, _ => none) (0, 0)

/-- acoular/tfastfuncs.py 25-57 (`_delayandsum4`): `num` is the length of `out`. -/
def delaySum4 (num : ℕ) (data : List (Fin M → K)) (off : Fin G → Fin M → ℕ) (f2 amp : Fin G → Fin M → K) :
    List (Fin G → Option (K × K)) :=
  (List.range num).map fun n gi => delaySumPoint data (off gi) (f2 gi) (amp gi) n

/-- acoular/tfastfuncs.py 83-120 (`_delayandsum5`). -/
def delaySum5 (num : ℕ) (data : List (Fin M → K)) (off : ℕ → Fin G → Fin M → ℕ) (f2 amp : ℕ → Fin G → Fin M → K) :
    List (Fin G → Option (K × K)) :=
  (List.range num).map fun n gi => delaySumPoint data (off n gi) (f2 n gi) (amp n gi) n

/-- acoular/tfastfuncs.py 132-140 (`_steer_I`). -/
def steerTime1 (M : ℕ) : Fin M → K := fun _ => 1 / (M : K)

/-- acoular/tfastfuncs.py 152-162 (`_steer_II`). -/
def steerTime2 (rm : Fin M → K) (r0 : K) : Fin M → K := fun mi => rm mi * (1 / (M : K) / r0)

/-- acoular/tfastfuncs.py 174-185 (`_steer_III`). -/
def steerTime3 (rm : Fin M → K) (r0 : K) : Fin M → K :=
  let rm2 := (∑ mi, 1 / rm mi ^ 2) * r0
  fun mi => 1 / (rm mi * rm2)

/-- acoular/tfastfuncs.py 197-211 (`_steer_IV`); `sqrt` is the square root. -/
def steerTime4 (sqrt : K → K) (rm : Fin M → K) : Fin M → K :=
  let rm2 := sqrt (∑ mi, 1 / rm mi ^ 2)
  fun mi => sqrt (1 / (M : K)) / (rm mi * rm2)

variable [LinearOrder K] [IsStrictOrderedRing K] [FloorSemiring K]

/-- acoular/tfastfuncs.py 221-233 (`_delays`): `index`. -/
def delayIndex (c : K) (rm : Fin G → Fin M → K) (gi : Fin G) (mi : Fin M) : ℕ := ⌊1 / c * rm gi mi⌋₊

/-- acoular/tfastfuncs.py 221-233 (`_delays`): `interp2`. -/
def delayFrac (c : K) (rm : Fin G → Fin M → K) (gi : Fin G) (mi : Fin M) : K :=
  1 / c * rm gi mi - (⌊1 / c * rm gi mi⌋₊ : K)

/-- acoular/tbeamform.py 163: `int((self.steer.rm / c).max()) + 2`; the maximum of no values is an error (not modelled:
`0` is used). -/
def maxSampleDelay (c : K) (rm : Fin G → Fin M → K) : ℕ :=
  ⌊((List.finRange G).flatMap fun gi => (List.finRange M).map fun mi => rm gi mi / c).foldr max 0⌋₊ + 2

end kernels

section buffer
variable {α β : Type*}

/-- `SamplesBuffer.read_from_buffer` (`acoular/process.py` 857-892, `shift_index_by = 'num'`) followed by the caller's
`block *= weights` (tbeamform.py 176, 424): the block is a view, so the rows in the buffer change, too. -/
def SBuf.touchRead (num r : ℕ) (w : α → α) (s : SBuf α) : List α × SBuf α :=
  let rnum := if s.level ≥ r then r else s.level
  let data := ((s.buf.drop s.index).take rnum).map w
  (data, ⟨s.buf.take s.index ++ (data ++ s.buf.drop (s.index + rnum)), s.index + num, s.src, s.empty⟩)

/-- The loops of `SamplesBuffer.result` (`acoular/process.py` 969-975) driven by a consumer which sets `result_num` to
`r k` before it asks for block `k`, and weights the rows of every block it gets in place by `w`. -/
def SBuf.loopDyn (z : α) (num : ℕ) (w : α → α) (r : ℕ → ℕ) : (fuel k : ℕ) → SBuf α → Trace (List α)
  | 0, _, _ => .diverge
  | fuel + 1, k, s =>
    if s.empty then
      if s.level > 0 then
        let rd := s.touchRead num (r k) w
        (SBuf.loopDyn z num w r fuel (k + 1) rd.2).cons rd.1
      else .stop
    else match s.fill z num (some (r k)) s.src with
      | .error e => .raise e
      | .ok s1 =>
        if s1.level > 0 then
          let rd := s1.touchRead num (r k) w
          (SBuf.loopDyn z num w r fuel (k + 1) rd.2).cons rd.1
        else .stop

/-- acoular/tbeamform.py 175-186: the loop over the blocks of the buffer. `out n b` are the `n` rows computed from the
block `b`.  `num` is replaced for short blocks and never set back; a negative number of rows is a ValueError of `empty`. -/
def beamTimeLoop (d r : ℕ) (out : ℕ → List α → β) : ℕ → List (List α) → Trace β
  | _, [] => .stop
  | num, b :: l =>
    if b.length < r then
      if b.length < d then .raise .valueError
      else (beamTimeLoop d r out (b.length - d) l).cons (out (b.length - d) b)
    else (beamTimeLoop d r out num l).cons (out num b)

/-- acoular/tbeamform.py 126-186 (`BeamformerTime.result`, `BeamformerTimeSq.result`) up to the formula for the rows;
`d` is `max_sample_delay`, `source` the blocks of `source.result(num)`. -/
def beamTime (z : α) (w : α → α) (d : ℕ) (out : ℕ → List α → β) (source : ℕ → List (List α)) (num fuel : ℕ) : Trace β :=
  let length := (num + d + num - 1) / num * num
  let tr := SBuf.loopDyn z num w (fun _ => num + d) fuel 0 (SBuf.create z length (source num))
  match tr.exit with
  | .returned => beamTimeLoop d (num + d) out num tr.blocks
  | e => ⟨(beamTimeLoop d (num + d) out num tr.blocks).blocks, e⟩

end buffer

/-- What the subclasses make of (`Phi`, `autopow`), acoular/tbeamform.py 183-188: the signal, its square, its square
without the auto powers. -/
inductive BeamTimeMode
  | signal | square | squareNoDiag
  deriving DecidableEq, Repr

/-- acoular/tbeamform.py 183-188. -/
def BeamTimeMode.apply {K : Type*} [Field K] [LinearOrder K] (m : BeamTimeMode) (v : K × K) : K :=
  match m with
  | .signal => v.1
  | .square => v.1 ^ 2
  | .squareNoDiag => max (v.1 ^ 2 - v.2) 0

/-- acoular/tbeamform.py 126-188 and `_delay_and_sum`, 219-224: the whole beamformer. -/
def beamformerTime {K : Type*} [Field K] [LinearOrder K] [IsStrictOrderedRing K] [FloorSemiring K] {M G : ℕ}
    (mode : BeamTimeMode) (weights : Fin M → K) (c : K) (rm : Fin G → Fin M → K) (amp : Fin G → Fin M → K)
    (source : ℕ → List (List (Fin M → K))) (num fuel : ℕ) : Trace (List (Fin G → Option K)) :=
  beamTime (fun _ => 0) (fun row mi => row mi * weights mi) (maxSampleDelay c rm)
    (fun n b => (delaySum4 n b (delayIndex c rm) (delayFrac c rm) amp).map fun row gi => (row gi).map mode.apply)
    source num fuel

end Acoular
