import Verif.Model.TimeBeam

/-!
# Model: moving focus grid, CLEAN-T and sector integration (`acoular/tbeamform.py`)
-/

namespace Acoular

/-! ### Moving grid -/

/-- acoular/tbeamform.py 420-421: `num + (d_index.max((1, 2)) + 2).max()` for block `k`; `D n` is the largest delay index
(over grid points and microphones) for the absolute sample `n`. -/
def trajResultNum (num : ℕ) (D : ℕ → ℕ) (k : ℕ) : ℕ :=
  num + ((List.range num).map fun n : ℕ => D (k * num + n) + 2).foldr max 0

/-- acoular/tbeamform.py 429: `sum((d_index.max((1, 2)) + 1 + arange(0, num)) < time_block.shape[0])`. -/
def trajShort (num : ℕ) (D : ℕ → ℕ) (k len : ℕ) : ℕ :=
  (List.range num).countP fun n : ℕ => decide (D (k * num + n) + 1 + n < len)

/-- acoular/tbeamform.py 403-441: the outer loop from block `k` on; `T` is the number of positions the trajectory
delivers (at the end of the trajectory `next` raises StopIteration inside the generator: RuntimeError), `blocks` the
further blocks of the buffer, `out k n b` the `n` rows made from block `b`. -/
def beamTrajLoop {α β : Type*} (num T : ℕ) (D : ℕ → ℕ) (out : ℕ → ℕ → List α → β) : ℕ → List (List α) → Trace β
  | k, [] => if T < (k + 1) * num then .raise .runtimeError else .stop
  | k, b :: l =>
    if T < (k + 1) * num then .raise .runtimeError
    else if b.length < trajResultNum num D k then ⟨[out k (trajShort num D k b.length) b], .returned⟩
    else (beamTrajLoop num T D out (k + 1) l).cons (out k num b)

/-- acoular/tbeamform.py 356-441 (`BeamformerTimeTraj.result`, `BeamformerTimeSqTraj.result`); `off n`, `frac n`, `amp n`
are the arrays computed for the grid at its position at sample `n` (`movgpos`, `steer_func`, `_delays`). -/
def beamformerTimeTraj {K : Type*} [Field K] [LinearOrder K] {M G : ℕ}
    (mode : BeamTimeMode) (weights : Fin M → K) (T : ℕ) (D : ℕ → ℕ) (off : ℕ → Fin G → Fin M → ℕ)
    (frac amp : ℕ → Fin G → Fin M → K) (source : ℕ → List (List (Fin M → K))) (num fuel : ℕ) :
    Trace (List (Fin G → Option K)) :=
  let tr := SBuf.loopDyn (fun _ => 0) num (fun row mi => row mi * weights mi) (trajResultNum num D) fuel 0
    (SBuf.create (fun _ => 0) (num * 2) (source num))
  beamTrajLoop num T D (fun k n b =>
    (delaySum5 n b (fun i => off (k * num + i)) (fun i => frac (k * num + i)) (fun i => amp (k * num + i))).map
      fun row gi => (row gi).map mode.apply) 0 tr.blocks

/-! ### CLEAN-T -/

/-- acoular/tbeamform.py 190-213 and 443-478: the deconvolution loop.  `σ` is (`Phi`, `autopow`, the residual signals);
`next` subtracts the strongest point from the residual and beamforms again; `pow` is `powPhi.sum()`; `peak` is `imax`;
`col s g` is `Phi[:num, g]`.  Result: the final state and the accepted pairs (`imax`, `Phi[:num, imax]`) in order. -/
def cleantLoop {σ ι β K : Type*} [LT K] [DecidableLT K] (next : σ → σ) (pow : σ → K) (peak : σ → ι) (col : σ → ι → β) :
    ℕ → σ → σ × List (ι × β)
  | 0, s => (s, [])
  | n + 1, s =>
    let t := next s
    if pow t < pow s then
      let r := cleantLoop next pow peak col n t
      (r.1, (peak s, col s (peak s)) :: r.2)
    else (s, [])

/-- acoular/tbeamform.py 481: `Gamma[:num, g]`, samples as a function. -/
def cleantGamma {ι K : Type*} [DecidableEq ι] [Field K] (damp : K) (acc : List (ι × (ℕ → K))) (g : ι) (n : ℕ) : K :=
  acc.foldl (fun s p => if p.1 = g then s + damp * p.2 n else s) 0

/-! ### Sector integration -/

/-- acoular/tbeamform.py 801-812: one block.  `kappa` is `10 ** (clip / 10)`; a sector is the list of the (flat) indices
of its grid points. -/
def sectorBlock {K : Type*} [Field K] [LinearOrder K] {G : ℕ} (kappa : K) (sectors : List (List (Fin G)))
    (block : List (Fin G → K)) : List (List K) :=
  let vals := block.flatMap fun row => (List.finRange G).map row
  match vals with
  | [] => block.map fun _ => sectors.map fun _ => 0
  | v :: l =>
    let rmax := l.foldl max v
    let rmin := rmax * kappa
    block.map fun row => sectors.map fun s => (s.map fun g => if row g > rmin then row g else 0).sum

/-- acoular/tbeamform.py 783-812 (`IntegratorSectorTime.result`). -/
def sectorTime {K : Type*} [Field K] [LinearOrder K] {G : ℕ} (kappa : K) (sectors : List (List (Fin G)))
    (blocks : List (List (Fin G → K))) : List (List (List K)) := blocks.map (sectorBlock kappa sectors)

end Acoular
