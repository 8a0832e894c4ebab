import Verif.Spec.Deconv
import Verif.Model.Beamform
import Mathlib.Data.List.FinRange

/-!
# Deconvolution: DAMAS, CLEAN, CLEAN-SC (`acoular/fastFuncs.py`, `acoular/fbeamform.py`)

Ordered fields (real and complex numbers in CLEAN-SC) instead of floating point numbers.
-/

namespace Acoular

open Spec

section Damas

variable {K : Type*} [Field K] [LinearOrder K] {g : ℕ}

/-- Body of the inner loop of `damasSolverGaussSeidel` (fastFuncs.py:815-824): one entry is updated in place. -/
def damasStep (A : Fin g → Fin g → K) (y : Fin g → K) (relax : K) (x : Fin g → K) (i : Fin g) : Fin g → K :=
  let solHelp := ∑ j, A i j * x j
  let solHelp := solHelp - A i i * x i
  let solHelp := (1 - relax) * x i + relax * (y i - solHelp)
  Function.update x i (if 0 < solHelp then solHelp else 0)

/-- One sweep over the grid points in ascending order (fastFuncs.py:815-824). -/
def damasSweep (A : Fin g → Fin g → K) (y : Fin g → K) (relax : K) (x : Fin g → K) : Fin g → K :=
  (List.finRange g).foldl (damasStep A y relax) x

/-- `damasSolverGaussSeidel` (fastFuncs.py:791-824) with starting solution `x`. -/
def damasSolve (A : Fin g → Fin g → K) (y : Fin g → K) (nIter : ℕ) (relax : K) (x : Fin g → K) : Fin g → K :=
  match nIter with
  | 0 => x
  | n + 1 => damasSolve A y n relax (damasSweep A y relax x)

/-- `BeamformerDamas._calc` (fbeamform.py:1232-1239) for one line, from the output `y` of the beamformer: clipping (with
diagonal removal), start with a copy of the map. -/
def damasCalc (A : Fin g → Fin g → K) (y : Fin g → K) (rDiag : Bool) (nIter : ℕ) (damp : K) : Fin g → K :=
  let y := fun i => if rDiag then (if y i < 0 then 0 else y i) else y i
  damasSolve A y nIter damp y

end Damas

section Clean

variable {K : Type*} [Field K] [LinearOrder K] {g : ℕ}

/-- `numpy.argmax`: position of the first maximum. -/
def argmax (x : Fin (g + 1) → K) : Fin (g + 1) :=
  (List.finRange (g + 1)).foldl (fun b j => if x b < x j then j else b) 0

/-- The state of CLEAN for one line: `dirty`, `clean`, `i_iter`. -/
structure CleanState (K : Type*) (g : ℕ) where
  /-- `dirty` -/
  dirty : Fin (g + 1) → K
  /-- `clean` -/
  clean : Fin (g + 1) → K
  /-- `i_iter` -/
  iter : ℕ

/-- Body of the `while` loop (fbeamform.py:1655-1662). `A i s`: value at `i` of the point spread function with source
`s`, the column requested by `p.grid_indices = array([next_max])`. -/
def cleanBody (A : Fin (g + 1) → Fin (g + 1) → K) (damp : K) (s : CleanState K g) : CleanState K g :=
  let nextMax := argmax s.dirty
  let newAmp := damp * s.dirty nextMax
  ⟨fun i => s.dirty i - A i nextMax * newAmp, Function.update s.clean nextMax (s.clean nextMax + newAmp), s.iter + 1⟩

/-- `flag` (fbeamform.py:1663): `s` before, `t` after the body. -/
def cleanFlag (nIter : ℤ) (s t : CleanState K g) : Bool :=
  decide (∑ i, |s.dirty i| > ∑ i, |t.dirty i|) && decide ((t.iter : ℤ) < nIter) && decide (t.dirty (argmax t.dirty) > 0)

/-- The `while` loop (fbeamform.py:1654-1663); `fuel` bounds the number of passes and is shown not to matter. -/
def cleanLoop (A : Fin (g + 1) → Fin (g + 1) → K) (damp : K) (nIter : ℤ) : ℕ → CleanState K g → CleanState K g
  | 0, s => s
  | fuel + 1, s =>
    let t := cleanBody A damp s
    if cleanFlag nIter s t then cleanLoop A damp nIter fuel t else t

/-- `BeamformerClean._calc` (fbeamform.py:1647-1665) for one line, from the output of the beamformer. -/
def cleanCalc (A : Fin (g + 1) → Fin (g + 1) → K) (damp : K) (nIter : ℤ) (rDiag : Bool) (y : Fin (g + 1) → K) :
    CleanState K g :=
  let dirty := fun i => if rDiag then (if y i < 0 then 0 else y i) else y i
  cleanLoop A damp nIter (nIter.toNat + 1) ⟨dirty, fun _ => 0, 0⟩

end Clean

section Cleansc

open Matrix Complex

variable {n g : ℕ}

/-- The geometry as the kernels see it: formulation, distances, wave number. -/
structure SteerGeo (n g : ℕ) where
  /-- formulation -/
  st : Formulation
  /-- distances of the grid points to the reference -/
  r0 : Fin g → ℝ
  /-- distances of the grid points to the microphones -/
  rm : Fin g → Fin n → ℝ
  /-- wave number -/
  k : ℝ

/-- State of the CLEAN-SC loop for one line: `h`, `csm`, `result`, `powers` (those written so far, the last one
first). -/
structure CleanscState (n g : ℕ) where
  /-- `h`, the current map -/
  h : Fin (g + 1) → ℝ
  /-- `csm`, the degraded matrix -/
  csm : Matrix (Fin n) (Fin n) ℂ
  /-- `result` -/
  result : Fin (g + 1) → ℝ
  /-- `powers[j-1]`, …, `powers[0]` -/
  powers : List ℝ

/-- The inner iteration (fbeamform.py:1528-1530), `m` passes. -/
noncomputable def cleanscInner (D1 wmax : Fin n → ℂ) (m : ℕ) (hh : Fin n → ℂ) : Fin n → ℂ :=
  match m with
  | 0 => hh
  | m + 1 =>
    let ww := fun i => (starRingEnd ℂ) (wmax i) * wmax i
    let H := fun i => (starRingEnd ℂ) (hh i) * hh i
    cleanscInner D1 wmax m fun i => (D1 i + H i * wmax i) / (√(1 + ∑ l, ww l * H l).re : ℂ)

/-- `hh` after the inner iteration (fbeamform.py:1523-1530). -/
noncomputable def cleanscHh (geo : SteerGeo n (g + 1)) (normfactor : ℝ) (csm : Matrix (Fin n) (Fin n) ℂ)
    (xiMax : Fin (g + 1)) (hmax : ℝ) : Fin n → ℂ :=
  let wmax := fun i => (starRingEnd ℂ) (steerVector geo.st (geo.r0 xiMax) (geo.rm xiMax) geo.k i * (√normfactor : ℂ))
  let D1 := fun i => (∑ l, (csm l i - if i = l then csm i i else 0) * wmax l) / (hmax : ℂ)
  cleanscInner D1 wmax 20 wmax

/-- First half of the body of the `for j` loop (fbeamform.py:1518-1520). -/
noncomputable def cleanscPick (damp : ℝ) (s : CleanscState n g) : CleanscState n g :=
  let xiMax := argmax s.h
  let hmax := s.h xiMax
  ⟨s.h, s.csm, Function.update s.result xiMax (s.result xiMax + damp * hmax), hmax :: s.powers⟩

/-- Stop condition (fbeamform.py:1521), `j = len(powers) - 1`; `stopn` is not negative. -/
noncomputable def cleanscStop (stopn : ℕ) (powers : List ℝ) : Bool :=
  match powers with
  | [] => false
  | hmax :: _ => decide (powers.length - 1 > stopn) && decide (hmax > powers.getD stopn 0)

/-- Second half of the body (fbeamform.py:1523-1544): the component is removed from map and matrix. -/
noncomputable def cleanscRemove (geo : SteerGeo n (g + 1)) (rDiag : Bool) (normfactor damp : ℝ) (s : CleanscState n g) :
    CleanscState n g :=
  let xiMax := argmax s.h
  let hmax := s.h xiMax
  let hh := cleanscHh geo normfactor s.csm xiMax hmax
  let csm1 : Matrix (Fin n) (Fin n) ℂ := Matrix.of fun i j => (hmax : ℂ) * (hh i * (starRingEnd ℂ) (hh j))
  let h1 := fun p => eigKernel (e := 1) geo.st rDiag normfactor (geo.r0 p) (geo.rm p) geo.k (fun _ => hmax)
    (fun i _ => (starRingEnd ℂ) (hh i))
  ⟨fun p => s.h p - damp * h1 p, s.csm - (damp : ℂ) • csm1ᵀ, s.result, s.powers⟩

/-- The `for j in range(J)` loop (fbeamform.py:1517-1544): `J` passes remain. -/
noncomputable def cleanscLoop (geo : SteerGeo n (g + 1)) (rDiag : Bool) (normfactor damp : ℝ) (stopn : ℕ) :
    ℕ → CleanscState n g → CleanscState n g
  | 0, s => s
  | J + 1, s =>
    let t := cleanscPick damp s
    if cleanscStop stopn t.powers then t
    else cleanscLoop geo rDiag normfactor damp stopn J (cleanscRemove geo rDiag normfactor damp t)

/-- `J` (fbeamform.py:1507). -/
def cleanscJ (nIter numChannels : ℕ) : ℕ := if nIter = 0 then numChannels * 2 else nIter

/-- `BeamformerCleansc._calc` (fbeamform.py:1512-1545) for one line. -/
noncomputable def cleanscCalc (geo : SteerGeo n (g + 1)) (rDiag : Bool) (normfactor damp : ℝ) (stopn nIter : ℕ)
    (csm : Matrix (Fin n) (Fin n) ℂ) : CleanscState n g :=
  cleanscLoop geo rDiag normfactor damp stopn (cleanscJ nIter n)
    ⟨fun p => fullCsmKernel geo.st rDiag normfactor (geo.r0 p) (geo.rm p) geo.k csm, csm, fun _ => 0, []⟩

end Cleansc

end Acoular
