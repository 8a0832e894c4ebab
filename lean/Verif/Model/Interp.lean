import Verif.Model.Py
import Verif.Model.Env
import Mathlib.Analysis.SpecialFunctions.Pow.Real
import Mathlib.Algebra.Order.Floor.Ring
import Mathlib.Algebra.Order.Field.Basic
import Mathlib.Analysis.SpecialFunctions.Complex.Arg
import Mathlib.Data.Matrix.Mul
import Mathlib.Data.List.Sort
import Mathlib.Data.Fin.VecNotation

/-!
# Interpolation between the microphones of a rotating array (`acoular/tprocess.py`, `SpatialInterpolator…`)

Elements of an ordered field instead of floating point numbers. Modelled are the linear method for arrays of dimension
`'1D'` and `'ring'`, the method `'IDW'` for arrays of dimension `'2D'`, and the generator for constant rotation. Splines and
radial basis functions are not modelled; the interpolation in Delaunay meshes is modelled in `InterpMesh.lean`.
-/

namespace Acoular

section Field

variable {K : Type*} [Field K] [LinearOrder K]

/-- `numpy.interp(x, xp, fp, left=nan, right=nan)` for increasing `xp`, as a list of pairs; `none` stands for `nan`. -/
def interpLin : List (K × K) → K → Option K
  | [], _ => none
  | [(a, fa)], x => if x = a then some fa else none
  | (a, fa) :: (b, fb) :: r, x =>
    if x < a then none
    else if x < b then some ((fb - fa) / (b - a) * (x - a) + fa)
    else interpLin ((b, fb) :: r) x

/-- Pairs in the order of their first components (`argsort` and indexing). -/
def sortPairs {β : Type*} (l : List (K × β)) : List (K × β) := l.insertionSort fun p q => p.1 ≤ q.1

variable [FloorRing K]

/-- Python's `x % p` for positive `p`. -/
def pyFmod (x p : K) : K := x - p * ⌊x / p⌋

/-- `numpy.interp(x, xp, fp, period=p)` as documented and implemented there: everything is taken modulo the period,
sorted, and one point is added on either side. -/
def interpPeriodic (period : K) (pts : List (K × K)) (x : K) : Option K :=
  let pts := sortPairs (pts.map fun q => (pyFmod q.1 period, q.2))
  match pts.head?, pts.getLast? with
  | some first, some last =>
    interpLin ((last.1 - period, last.2) :: (pts ++ [(first.1 + period, first.2)])) (pyFmod x period)
  | _, _ => none

/-- One row of `_result_core_func` for a ring of microphones, `method='linear'` and a rotation (acoular/tprocess.py
958-979): `real` the angles of the microphones, `virt` those of the virtual ones, `phi` the angle of rotation, `row` the
samples. `period` is `2 * pi`. -/
def ringRow (period : K) (real virt : List K) (row : List K) (phi : K) : List (Option K) :=
  let pts := sortPairs (real.zip row)
  virt.map fun v => interpPeriodic period pts (pyFmod (v + phi + period / 2) period - period / 2)

/-- `linspace(0, stop, n, endpoint=False)`. -/
def linspaceOpen (stop : K) (n : ℕ) : List K := (List.range n).map fun i : ℕ => (i : K) * (stop / n)

/-- `SpatialInterpolatorConstantRotation.result` (acoular/tprocess.py 1241-1264): `core` computes a row from the samples
and the angle, `phiOffset` is kept from block to block. An empty block would raise in line 1263. -/
def constantRotation {α β : Type*} (core : α → K → β) (omega fs : K) : K → List (List α) → Except PyErr (List (List β))
  | _, [] => .ok []
  | phiOffset, b :: bs =>
    let phi := (linspaceOpen ((b.length : K) / fs * omega) b.length).map fun t => phiOffset + t
    match phi.getLast? with
    | none => .error .indexError
    | some l => (constantRotation core omega fs (l + omega / fs) bs).map fun rest => (b.zip phi).map (fun q => core q.1 q.2) :: rest

/-- Inverse distance weighting at one point (acoular/tprocess.py 1081-1093): `near` pairs distance and sample for all
microphones, `num` is `num_IDW`, `weight d` is `1 / d ** p_weight`. Without microphones, `normNew[0]` raises. -/
def idwValue (weight : K → K) (num : ℕ) (near : List (K × K)) : Except PyErr K :=
  let l := (sortPairs near).take num
  match l with
  | [] => .error .indexError
  | (d, p) :: _ =>
    if d < 1 / 1000 then .ok p
    else
      let whole := (l.map fun q => weight q.1).sum
      .ok (l.map fun q => q.2 * (weight q.1 / whole)).sum

end Field

open Real

/-- The angle of a position (`cartToCyl`, acoular/environments.py 140-143): `arctan2(y, x)` of `Q x`. -/
noncomputable def cylAngle (Q : Matrix (Fin 3) (Fin 3) ℝ) (x : Fin 3 → ℝ) : ℝ :=
  cartToCyl (Q.mulVec x) 0

/-- `_virtNewCoord_func` and `_result_core_func` for a ring (acoular/tprocess.py 819-830): the transformation `Q` is used
for the real microphones only, see line 830. -/
noncomputable def ringInterp (Q : Matrix (Fin 3) (Fin 3) ℝ) (mics virtMics : List (Fin 3 → ℝ)) (row : List ℝ) (phi : ℝ) :
    List (Option ℝ) :=
  ringRow (2 * π) (mics.map (cylAngle Q)) (virtMics.map (cylAngle 1)) row phi

/-- Euclidean distance. -/
noncomputable def dist3 (x y : Fin 3 → ℝ) : ℝ := √((x 0 - y 0) ^ 2 + (x 1 - y 1) ^ 2 + (x 2 - y 2) ^ 2)

/-- The point for which `'IDW'` interpolates (acoular/tprocess.py 1019-1021, 1078-1080): the position, turned about the z axis
by `phi`; only angle and radius are kept, the third coordinate is zero. The angle is not shifted into the interval from
`-pi` to `pi`, which makes no difference for sine and cosine. -/
noncomputable def idwPoint (phi : ℝ) (x : Fin 3 → ℝ) : Fin 3 → ℝ :=
  cylToCart ![cartToCyl x 0 + phi, cartToCyl x 1, 0]

/-- One row of `_result_core_func` for `'2D'` and `'IDW'` (acoular/tprocess.py 1077-1093), positions after the
transformation with `Q`. The point is repeated as often as there are virtual microphones (1082), so that the difference in
1083 raises if this is neither one nor the number of microphones. -/
noncomputable def idwRow (power : ℝ) (num : ℕ) (mics virtMics : List (Fin 3 → ℝ)) (row : List ℝ) (phi : ℝ) :
    Except PyErr (List ℝ) :=
  if virtMics.length ≠ 1 ∧ virtMics.length ≠ mics.length then .error .valueError
  else virtMics.mapM fun v =>
    idwValue (fun d => 1 / d ^ power) num ((mics.map fun m => dist3 (idwPoint phi v) (cylToCart (cartToCyl m))).zip row)

end Acoular
