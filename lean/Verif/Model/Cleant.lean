import Verif.Model.TimeBeamTraj
import Verif.Model.Deconv

/-!
# Model: CLEAN-T, the deconvolution in the time domain (`acoular/tbeamform.py`)

Elements of an ordered field instead of floating point numbers. The loop itself is `cleantLoop` (TimeBeamTraj.lean).
-/

namespace Acoular

section
variable {K : Type*} [Field K] [LinearOrder K] {M g : ℕ}

/-- `numpy.interp(x, xp, fp)` for increasing `xp`, as a list of pairs: beyond the ends the first and last values are kept.
(For no points `numpy` raises ValueError, see `cleantBlock`.) -/
def interpHold : List (K × K) → K → K
  | [], _ => 0
  | [(_, fa)], _ => fa
  | (a, fa) :: (b, fb) :: r, x =>
    if x ≤ a then fa
    else if x < b then (fb - fa) / (b - a) * (x - a) + fa
    else interpHold ((b, fb) :: r) x

/-- What is fixed during the deconvolution of a block of `BeamformerCleant` and `BeamformerCleantSq`: `d_index`, `d_interp2`,
`amp`, `steer.r0`, `steer.rm` (acoular/tbeamform.py 151-162, 203). -/
structure CleantGeo (K : Type*) (M g : ℕ) where
  off : Fin (g + 1) → Fin M → ℕ
  f2 : Fin (g + 1) → Fin M → K
  amp : Fin (g + 1) → Fin M → K
  r0 : Fin (g + 1) → K
  rm : Fin (g + 1) → Fin M → K

/-- (`Phi[n, gi]`, `autopow[n, gi]`), acoular/tbeamform.py 179 and 205 (`_delay_and_sum`, 227-232). -/
def CleantGeo.beam (q : CleantGeo K M g) (p : List (Fin M → K)) (gi : Fin (g + 1)) (n : ℕ) : K × K :=
  (delaySumPoint p (q.off gi) (q.f2 gi) (q.amp gi) n).getD (0, 0)

/-- `powPhi` and `pownextPhi` (acoular/tbeamform.py 195 and 206-209). -/
def CleantGeo.power (q : CleantGeo K M g) (rDiag : Bool) (num : ℕ) (p : List (Fin M → K)) (gi : Fin (g + 1)) : K :=
  if rDiag then max ((List.range num).map fun n => (q.beam p gi n).1 ^ 2 - (q.beam p gi n).2).sum 0
  else ((List.range num).map fun n => (q.beam p gi n).1 ^ 2).sum

variable [IsStrictOrderedRing K] [FloorSemiring K]

/-- `t_float` (acoular/tbeamform.py 197; `t_ind`, 198, is its integer part) for the grid point `gi`. -/
def CleantGeo.time (q : CleantGeo K M g) (gi : Fin (g + 1)) (m : Fin M) (n : ℕ) : K := q.f2 gi m + q.off gi m + n

/-- The signal of the grid point `gi` at microphone `m` and the (fractional) samples at which it arrives there
(acoular/tbeamform.py 202-203). -/
def CleantGeo.arrivals (q : CleantGeo K M g) (num : ℕ) (p : List (Fin M → K)) (gi : Fin (g + 1)) (m : Fin M) : List (K × K) :=
  (List.range num).map fun n => (q.time gi m n, (q.beam p gi n).1 * q.r0 gi / q.rm gi m)

/-- acoular/tbeamform.py 199-204: `p_res_copy[t_ind[: num + 1, m], m] -= damp * interp(t_ind[: num + 1, m], ...)`.  The
indices of one microphone are different from each other.  (An index beyond the end would be an IndexError; here the
sample is left out.) -/
def CleantGeo.subtract (q : CleantGeo K M g) (damp : K) (num : ℕ) (p : List (Fin M → K)) (gi : Fin (g + 1)) :
    List (Fin M → K) :=
  p.mapIdx fun i row m =>
    if (List.range (num + 1)).any (fun n => ⌊q.time gi m n⌋₊ == i) then
      row m - damp * interpHold (q.arrivals num p gi m) (i : K)
    else row m

/-- acoular/tbeamform.py 188-219 for one block `p` of the data: the contributions accepted by the loop. -/
def CleantGeo.accepted (q : CleantGeo K M g) (rDiag : Bool) (damp : K) (nIter num : ℕ) (p : List (Fin M → K)) :
    List (Fin (g + 1) × (ℕ → K × K)) :=
  (cleantLoop (fun p => q.subtract damp num p (argmax (q.power rDiag num p)))
    (fun p => ((List.finRange (g + 1)).map (q.power rDiag num p)).sum)
    (fun p => argmax (q.power rDiag num p)) (fun p gi => q.beam p gi) nIter p).2

/-- `Gamma_autopow[:num, gi]` (acoular/tbeamform.py 190 and 213): overwritten by every contribution. -/
def cleantAuto {ι : Type*} [DecidableEq ι] (acc : List (ι × (ℕ → K × K))) (gi : ι) (n : ℕ) : K :=
  acc.foldl (fun s c => if c.1 = gi then (c.2 n).2 else s) 0

/-- acoular/tbeamform.py 220-225: what the classes yield. `BeamformerCleant` is `.signal` (with `r_diag` false),
`BeamformerCleantSq` is `.square` or `.squareNoDiag`. -/
def cleantOut {ι : Type*} [DecidableEq ι] (mode : BeamTimeMode) (damp : K) (acc : List (ι × (ℕ → K × K))) (gi : ι) (n : ℕ) : K :=
  let gamma := cleantGamma damp (acc.map fun c => (c.1, fun n => (c.2 n).1)) gi n
  match mode with
  | .signal => gamma
  | .square => gamma ^ 2
  | .squareNoDiag => gamma ^ 2 - damp ^ 2 * cleantAuto acc gi n

/-- `self.r_diag`. -/
def BeamTimeMode.rDiag : BeamTimeMode → Bool
  | .squareNoDiag => true
  | _ => false

/-- acoular/tbeamform.py 179-225 for one block: `num` rows.  Without any row, `interp` raises ValueError in the first
iteration (there is at least one microphone). -/
def CleantGeo.block (q : CleantGeo K M g) (mode : BeamTimeMode) (damp : K) (nIter num : ℕ) (p : List (Fin M → K)) :
    Except PyErr (List (Fin (g + 1) → K)) :=
  if num = 0 ∧ 0 < nIter ∧ 0 < M then .error .valueError
  else .ok ((List.range num).map fun n gi => cleantOut mode damp (q.accepted mode.rDiag damp nIter num p) gi n)

end

/-- acoular/tbeamform.py 173-225: the loop over the blocks of the buffer, where the computation of a block may raise
(compare `beamTimeLoop`). -/
def cleantTimeLoop {α β : Type*} (d r : ℕ) (out : ℕ → List α → Except PyErr β) : ℕ → List (List α) → Trace β
  | _, [] => .stop
  | num, b :: l =>
    if b.length < r ∧ b.length < d then .raise .valueError
    else
      let n := if b.length < r then b.length - d else num
      match out n b with
      | .error e => .raise e
      | .ok y => (cleantTimeLoop d r out n l).cons y

/-- acoular/tbeamform.py 126-225: `BeamformerCleant.result`, `BeamformerCleantSq.result`. -/
def beamformerCleant {K : Type*} [Field K] [LinearOrder K] [IsStrictOrderedRing K] [FloorSemiring K] {M g : ℕ}
    (mode : BeamTimeMode) (damp : K) (nIter : ℕ) (weights : Fin M → K) (c : K) (rm amp : Fin (g + 1) → Fin M → K)
    (r0 : Fin (g + 1) → K) (source : ℕ → List (List (Fin M → K))) (num fuel : ℕ) : Trace (List (Fin (g + 1) → K)) :=
  let d := maxSampleDelay c rm
  let length := (num + d + num - 1) / num * num
  let tr := SBuf.loopDyn (fun _ => 0) num (fun row mi => row mi * weights mi) (fun _ => num + d) fuel 0
    (SBuf.create (fun _ => 0) length (source num))
  let q : CleantGeo K M g := ⟨delayIndex c rm, delayFrac c rm, amp, r0, rm⟩
  let run := cleantTimeLoop d (num + d) (q.block mode damp nIter) num tr.blocks
  match tr.exit with
  | .returned => run
  | e => ⟨run.blocks, e⟩

/-! ### Moving grid -/

section
variable {K : Type*} [Field K] [LinearOrder K] [IsStrictOrderedRing K] [FloorSemiring K] {M g : ℕ}

/-- The same for `BeamformerCleantTraj` and `BeamformerCleantSqTraj`, for every sample of the block (acoular/tbeamform.py
408-420); `rm` is `blockrmconv` with `conv_amp` and `blockrm` without (445).  `off`, `f2` belong to `blockrm` in both cases. -/
structure CleantTrajGeo (K : Type*) (M g : ℕ) where
  off : ℕ → Fin (g + 1) → Fin M → ℕ
  f2 : ℕ → Fin (g + 1) → Fin M → K
  amp : ℕ → Fin (g + 1) → Fin M → K
  r0 : ℕ → Fin (g + 1) → K
  rm : ℕ → Fin (g + 1) → Fin M → K

/-- (`Phi[n, gi]`, `autopow[n, gi]`), acoular/tbeamform.py 435 and 474. -/
def CleantTrajGeo.beam (q : CleantTrajGeo K M g) (p : List (Fin M → K)) (gi : Fin (g + 1)) (n : ℕ) : K × K :=
  (delaySumPoint p (q.off n gi) (q.f2 n gi) (q.amp n gi) n).getD (0, 0)

/-- `powPhi`, `pownextPhi` (acoular/tbeamform.py 453-456 and 475-478). -/
def CleantTrajGeo.power (q : CleantTrajGeo K M g) (rDiag : Bool) (num : ℕ) (p : List (Fin M → K)) (gi : Fin (g + 1)) : K :=
  if rDiag then max ((List.range num).map fun n => (q.beam p gi n).1 * (q.beam p gi n).1 - (q.beam p gi n).2).sum 0
  else ((List.range num).map fun n => (q.beam p gi n).1 * (q.beam p gi n).1).sum

/-- `t_float` (acoular/tbeamform.py 460). -/
def CleantTrajGeo.time (q : CleantTrajGeo K M g) (gi : Fin (g + 1)) (m : Fin M) (n : ℕ) : K :=
  q.f2 n gi m + q.off n gi m + n

/-- The points of `interp` (acoular/tbeamform.py 466-472). -/
def CleantTrajGeo.arrivals (q : CleantTrajGeo K M g) (num : ℕ) (p : List (Fin M → K)) (gi : Fin (g + 1)) (m : Fin M) :
    List (K × K) :=
  (List.range num).map fun n => (q.time gi m n, (q.beam p gi n).1 * q.r0 n gi / q.rm n gi m)

/-- acoular/tbeamform.py 463-473: the samples from `ind_min` up to (without) `ind_max` are replaced.  The maximum of no
values is an error (see `CleantTrajGeo.block`). -/
def CleantTrajGeo.subtract (q : CleantTrajGeo K M g) (damp : K) (num : ℕ) (p : List (Fin M → K)) (gi : Fin (g + 1)) :
    List (Fin M → K) :=
  p.mapIdx fun i row m =>
    let times := (List.range (num - 1)).map fun n => q.time gi m (n + 1)
    let indMax := ⌊times.foldl max (q.time gi m 0)⌋₊ + 2
    let indMin := ⌊times.foldl min (q.time gi m 0)⌋₊
    if indMin ≤ i ∧ i < indMax then row m - damp * interpHold (q.arrivals num p gi m) (i : K) else row m

/-- acoular/tbeamform.py 446-488 for one block. -/
def CleantTrajGeo.accepted (q : CleantTrajGeo K M g) (rDiag : Bool) (damp : K) (nIter num : ℕ) (p : List (Fin M → K)) :
    List (Fin (g + 1) × (ℕ → K × K)) :=
  (cleantLoop (fun p => q.subtract damp num p (argmax (q.power rDiag num p)))
    (fun p => ((List.finRange (g + 1)).map (q.power rDiag num p)).sum)
    (fun p => argmax (q.power rDiag num p)) (fun p gi => q.beam p gi) nIter p).2

/-- acoular/tbeamform.py 434-494 for one block.  Without any row, `t_float.max(0)` raises ValueError. -/
def CleantTrajGeo.block (q : CleantTrajGeo K M g) (mode : BeamTimeMode) (damp : K) (nIter num : ℕ) (p : List (Fin M → K)) :
    Except PyErr (List (Fin (g + 1) → K)) :=
  if num = 0 ∧ 0 < nIter ∧ 0 < M then .error .valueError
  else .ok ((List.range num).map fun n gi => cleantOut mode damp (q.accepted mode.rDiag damp nIter num p) gi n)

end

end Acoular
