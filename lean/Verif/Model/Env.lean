import Mathlib.Analysis.SpecialFunctions.Trigonometric.Inverse
import Mathlib.Analysis.SpecialFunctions.Complex.Arg
import Mathlib.LinearAlgebra.Matrix.Notation
import Mathlib.LinearAlgebra.CrossProduct
import Mathlib.Analysis.Real.Sqrt

/-!
# Model: `acoular/environments.py`

Distances with and without uniform flow, flow fields and their Jacobians, cylindrical coordinates, start directions of
rays, and the table of interpolators of `GeneralFlowEnvironment`.  Real numbers instead of floats; where the code
divides by zero (and numpy gives NaN or inf) the model gives an arbitrary value and the theorems exclude the case.
The ray tracing itself (`get_interpolator`: ODE solver, convex hull, Delaunay interpolation) is not modelled.
-/

namespace Acoular

open Real

/-- acoular/environments.py 113: one entry of the distance matrix. -/
noncomputable def distEntry (g m : Fin 3 → ℝ) : ℝ := √((g 0 - m 0) ^ 2 + (g 1 - m 1) ^ 2 + (g 2 - m 2) ^ 2)

/-- What `_r` returns: a matrix with one row per grid point, or a vector if there is one microphone only. -/
inductive DistResult where
  | vec (l : List ℝ)
  | mat (l : List (List ℝ))

/-- acoular/environments.py 234-242 and 304-314: scalar `mpos` is the origin; a matrix with one column is flattened.
`entry` computes one entry.  Grid points and microphones are lists of points (the columns of the arrays). -/
noncomputable def distTable (entry : (Fin 3 → ℝ) → (Fin 3 → ℝ) → ℝ) (gpos : List (Fin 3 → ℝ))
    (mpos : Option (List (Fin 3 → ℝ))) : DistResult :=
  let mp := mpos.getD [fun _ => 0]
  let rm := gpos.map fun g => mp.map fun m => entry g m
  if mp.length = 1 then .vec (rm.map fun row => row.getD 0 0) else .mat rm

/-- acoular/environments.py 205-242 (`Environment._r`, with `dist_mat` 77-114). -/
noncomputable def envR := distTable distEntry

/-- acoular/environments.py 306-311: one entry for uniform flow. -/
noncomputable def flowEntry (ma : ℝ) (fdv : Fin 3 → ℝ) (g m : Fin 3 → ℝ) : ℝ :=
  let n := √(fdv 0 * fdv 0 + fdv 1 * fdv 1 + fdv 2 * fdv 2)
  let f : Fin 3 → ℝ := fun i => fdv i / n
  let rmv : Fin 3 → ℝ := fun i => g i - m i
  let rm := √(rmv 0 * rmv 0 + rmv 1 * rmv 1 + rmv 2 * rmv 2)
  let mct := ma * (rmv 0 * f 0 + rmv 1 * f 1 + rmv 2 * f 2) / rm
  rm * (1 / (-mct + √(mct * mct - ma * ma + 1)))

/-- acoular/environments.py 279-314 (`UniformFlowEnvironment._r`). -/
noncomputable def uniformFlowR (ma : ℝ) (fdv : Fin 3 → ℝ) := distTable (flowEntry ma fdv)

/-! ### Flow fields -/

/-- acoular/environments.py 642-687 (`RotatingFlow.v`): velocity and Jacobian. -/
noncomputable def rotatingFlow (rps v0 : ℝ) (origin xx : Fin 3 → ℝ) : (Fin 3 → ℝ) × Matrix (Fin 3) (Fin 3) ℝ :=
  let x := xx 0 - origin 0
  let y := xx 1 - origin 1
  let omega := 2 * π * rps
  (![omega * -y, omega * x, v0],
    (!![0, omega, 0; -omega, 0, 0; 0, 0, 0] : Matrix (Fin 3) (Fin 3) ℝ).transpose)

/-- acoular/environments.py 500-555 (`OpenJet.v`): velocity and Jacobian. -/
noncomputable def openJet (v0 D l : ℝ) (origin xx : Fin 3 → ℝ) : (Fin 3 → ℝ) × Matrix (Fin 3) (Fin 3) ℝ :=
  let x := xx 0 - origin 0
  let y := xx 1 - origin 1
  let z := xx 2 - origin 2
  let r := √(y * y + z * z)
  let x1 := 0.5022 / l * x
  let h1 := r + x1 - 0.5 * D
  let U := if h1 < 0 then v0 else v0 * exp (-h1 * h1 / (2 * x1 * x1))
  let Udr := if h1 < 0 then 0 else -h1 * U / (x1 * x1)
  let Udy := if 0 < r then y * Udr / r else 0
  let Udz := if 0 < r then z * Udr / r else 0
  let Udx := if h1 < 0 then 0 else (h1 * h1 / (x * x1 * x1) - h1 / (x * x1)) * U
  (![U, 0, 0], (!![Udx, 0, 0; Udy, 0, 0; Udz, 0, 0] : Matrix (Fin 3) (Fin 3) ℝ).transpose)

/-- `a / norm(a)`. -/
noncomputable def normalize (a : Fin 3 → ℝ) : Fin 3 → ℝ := fun i => a i / √(a 0 * a 0 + a 1 * a 1 + a 2 * a 2)

/-- `dot(a, b)`. -/
def dotp (a b : Fin 3 → ℝ) : ℝ := a 0 * b 0 + a 1 * b 1 + a 2 * b 2

/-- acoular/environments.py 386-444 (`SlotJet.v`): velocity and Jacobian. -/
noncomputable def slotJet (v0 B l : ℝ) (origin flow plane xx : Fin 3 → ℝ) :
    (Fin 3 → ℝ) × Matrix (Fin 3) (Fin 3) ℝ :=
  let fl := normalize flow
  let pl := normalize plane
  let yy := -(crossProduct fl pl)
  let zz := crossProduct fl yy
  let xx1 : Fin 3 → ℝ := fun i => xx i - origin i
  let x := dotp fl xx1
  let y := dotp yy xx1
  let x1 := 0.5668 / l * x
  let h1 := |y| + √π * 0.5 * x1 - 0.5 * B
  let Ux := if h1 < 0 then v0 else v0 * exp (-h1 * h1 / (2 * x1 * x1))
  let Udx := if h1 < 0 then 0 else (h1 * h1 / (x * x1 * x1) - √π * 0.5 * h1 / (x * x1)) * Ux
  let Udy := if h1 < 0 then 0 else -SignType.sign y * h1 * Ux / (x1 * x1)
  let dU := (!![Udx, 0, 0; Udy, 0, 0; 0, 0, 0] : Matrix (Fin 3) (Fin 3) ℝ).transpose
  let R := (Matrix.of ![fl, yy, zz]).transpose
  (R.mulVec ![Ux, 0, 0], R * dU * R.transpose)

/-! ### Cylindrical coordinates -/

/-- numpy `arctan2(y, x)`. -/
noncomputable def arctan2 (y x : ℝ) : ℝ := Complex.arg ⟨x, y⟩

/-- acoular/environments.py 117-143 (`cartToCyl`), without transformation matrix. -/
noncomputable def cartToCyl (x : Fin 3 → ℝ) : Fin 3 → ℝ := ![arctan2 (x 1) (x 0), √(x 0 ^ 2 + x 1 ^ 2), x 2]

/-- acoular/environments.py 146-172 (`cylToCart`), without transformation matrix. -/
noncomputable def cylToCart (x : Fin 3 → ℝ) : Fin 3 → ℝ := ![x 1 * sin (x 0), x 1 * cos (x 0), x 2]

/-! ### Start directions of rays -/

/-- acoular/environments.py 758-759: `h[k]`. -/
noncomputable def spiralH (N : ℕ) (Om : ℝ) (k : ℕ) : ℝ := -1 + 2 * k / (N * (4 * π / Om) - 1)

/-- `x % m` for reals, `m > 0`. -/
noncomputable def fmod (x m : ℝ) : ℝ := x - m * ⌊x / m⌋

/-- acoular/environments.py 761-763: `phi[k]` (the remainder is taken of the increment only). -/
noncomputable def spiralPhi (N : ℕ) (Om : ℝ) : ℕ → ℝ
  | 0 => 0
  | k + 1 => spiralPhi N Om k + fmod (3.6 / √(N * (4 * π / Om) * (1 - spiralH N Om (k + 1) * spiralH N Om (k + 1)))) (2 * π)

/-- acoular/environments.py 760, 765: column `k` of `xyz`. -/
noncomputable def spiralPoint (N : ℕ) (Om : ℝ) (k : ℕ) : Fin 3 → ℝ :=
  let th := arccos (spiralH N Om k)
  let ph := spiralPhi N Om k
  ![sin th * cos ph, sin th * sin ph, cos th]

/-- acoular/environments.py 769-773: the mirror matrix `H = identity(3) - dot(ab, ab.T) / dot(ab.T, a)`. -/
noncomputable def mirror (a b : Fin 3 → ℝ) : Matrix (Fin 3) (Fin 3) ℝ :=
  let ab : Fin 3 → ℝ := fun i => a i - b i
  Matrix.of fun i j => (if i = j then 1 else 0) - ab i * ab j / dotp ab a

/-- acoular/environments.py 690-775 (`spiral_sphere`): the columns of the result. -/
noncomputable def spiralSphere (N : ℕ) (Om : ℝ) (b : Fin 3 → ℝ) : List (Fin 3 → ℝ) :=
  let xyz := (List.range N).map (spiralPoint N Om)
  let a := spiralPoint N Om 0
  let bn := normalize b
  if √(dotp (fun i => a i - bn i) (fun i => a i - bn i)) < 1e-10 then xyz
  else xyz.map fun v => (mirror a bn).mulVec v

/-! ### The table of interpolators -/

section
variable {P Roi Mic Pos : Type*} [DecidableEq Mic]

/-- `GeneralFlowEnvironment` (acoular/environments.py 778-855): the parameters (flow field, N, Om, c), `roi`, and
`idict`, newest entries first.  An interpolator is represented by what it was computed from: parameters, region and
microphone position. -/
structure FlowEnv (P Roi Mic : Type*) where
  params : P
  roi : Option Roi
  idict : List (Mic × (P × Roi))

/-- What a user does: change the parameters, change `roi`, query (grid positions, microphone positions). -/
inductive FlowAct (P Roi Mic : Type*) where
  | setParams (p : P)
  | setRoi (r : Option Roi)
  | query (gpos : Roi) (mpos : List Mic)

/-- acoular/environments.py 840-852: one microphone: the interpolator is taken from the table or computed and stored. -/
def flowLookup (e : FlowEnv P Roi Mic) (gpos : Roi) (x0 : Mic) : FlowEnv P Roi Mic × (P × Roi) :=
  match e.idict.lookup x0 with
  | some li => (e, li)
  | none =>
    let li := (e.params, e.roi.getD gpos)
    (⟨e.params, e.roi, (x0, li) :: e.idict⟩, li)

/-- acoular/environments.py 840-852: the loop over the microphones; which interpolator is used for each. -/
def flowQuery (e : FlowEnv P Roi Mic) (gpos : Roi) : List Mic → FlowEnv P Roi Mic × List (P × Roi)
  | [] => (e, [])
  | x0 :: rest =>
    let r := flowLookup e gpos x0
    let s := flowQuery r.1 gpos rest
    (s.1, r.2 :: s.2)

/-- One action; changes of traits do not touch the table. -/
def flowAct (e : FlowEnv P Roi Mic) : FlowAct P Roi Mic → FlowEnv P Roi Mic
  | .setParams p => { e with params := p }
  | .setRoi r => { e with roi := r }
  | .query g m => (flowQuery e g m).1

/-- A history of actions on an object. -/
def flowHistory (e : FlowEnv P Roi Mic) (h : List (FlowAct P Roi Mic)) : FlowEnv P Roi Mic := h.foldl flowAct e

/-- A new object. -/
def FlowEnv.fresh (p : P) (r : Option Roi) : FlowEnv P Roi Mic := ⟨p, r, []⟩

end

end Acoular
