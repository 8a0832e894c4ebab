import Verif.Model.Interp

/-!
# `SpatialInterpolator` as an object with a history (`acoular/tprocess.py` 663-1150)

The settings, the coordinates kept from the first interpolated block, and the choice of the computation by dimension and
method. The computations themselves are parameters (`Interp.lean` and `InterpMesh.lean` model three of them). Geometries are
values of a type `G`; the change of a `MicGeom` object in place is an assignment of another value.
-/

namespace Acoular

/-- `array_dimension` (acoular/tprocess.py 705). -/
inductive ArrayDim | d1 | d2 | ring | d3 | custom
  deriving DecidableEq

/-- `method` (acoular/tprocess.py 693-702). -/
inductive InterpMethod | linear | spline | rbfMultiquadric | rbfCubic | idw | custom | sinc
  deriving DecidableEq

/-- The computations of `_result_core_func`: `numpy.interp` (acoular/tprocess.py 972-979), `CubicSpline` (983-990), `Rbf` with
`sinc_mic`, `'cubic'` and `'multiquadric'` (994-1014, 1041-1075, 1115-1147), `LinearNDInterpolator` (1031-1032, 1110-1111),
`CloughTocher2DInterpolator` (1036-1037) and inverse distances (1078-1093). -/
inductive InterpAlg | interp | cubicSpline | rbfSinc | rbfCubic | rbfMultiquadric | linearND | cloughTocher | inverseDistance
  deriving DecidableEq

/-- The branches of `_result_core_func` (acoular/tprocess.py 959-1147); `none` if there is no branch. -/
def interpBranch : ArrayDim → InterpMethod → Option InterpAlg
  | .d1, .linear => some .interp
  | .ring, .linear => some .interp
  | .d1, .spline => some .cubicSpline
  | .ring, .spline => some .cubicSpline
  | .d1, .sinc => some .rbfSinc
  | .ring, .sinc => some .rbfSinc
  | .d1, .rbfCubic => some .rbfCubic
  | .ring, .rbfCubic => some .rbfCubic
  | .d2, .linear => some .linearND
  | .d2, .spline => some .cloughTocher
  | .d2, .sinc => some .rbfSinc
  | .d2, .rbfCubic => some .rbfCubic
  | .d2, .rbfMultiquadric => some .rbfMultiquadric
  | .d2, .idw => some .inverseDistance
  | .d3, .linear => some .linearND
  | .d3, .sinc => some .rbfSinc
  | .d3, .rbfCubic => some .rbfCubic
  | .d3, .rbfMultiquadric => some .rbfMultiquadric
  | _, _ => none

/-- The settings of the object (acoular/tprocess.py 673-731); `virt` is `_mics_virtual`. -/
structure InterpSet (G Q : Type*) where
  mics : G
  virt : Option G
  dim : ArrayDim
  method : InterpMethod
  q : Q
  zero : Bool
  numIdw : ℤ
  pWeight : ℝ

/-- The libraries and the parts modelled elsewhere. -/
structure InterpLib (G Q C : Type*) where
  /-- `mpos.shape[1]` -/
  size : G → ℕ
  /-- `_virtNewCoord_func` (acoular/tprocess.py 766-909); reads dimension, `Q` and `interp_at_zero` from the object. -/
  coords : G → G → ArrayDim → Q → Bool → C
  /-- One row by one of the computations, with the settings `interp_at_zero`, `num_IDW` and `p_weight`. -/
  alg : InterpAlg → Bool → ℤ → ℝ → C → List ℝ → ℝ → Except PyErr (List (Option ℝ))

variable {G Q C : Type*}

/-- `pInterp[cntTime] = values` for a row of `n` numbers: one value is repeated, any other wrong number raises. -/
def fitRow (n : ℕ) (values : List (Option ℝ)) : Except PyErr (List (Option ℝ)) :=
  if values.length = n then .ok values
  else match values with
    | [v] => .ok (List.replicate n v)
    | _ => .error .valueError

/-- One row of `_result_core_func` (acoular/tprocess.py 931-1150) with the coordinates `c` and `n` virtual microphones. For the
dimension `'custom'` there is no mesh and `meshList[0]` in line 956 raises. Without a branch the zeros of line 940 remain. -/
def interpCore (lib : InterpLib G Q C) (dim : ArrayDim) (method : InterpMethod) (zero : Bool) (numIdw : ℤ) (pWeight : ℝ) (n : ℕ)
    (c : C) (row : List ℝ) (phi : ℝ) : Except PyErr (List (Option ℝ)) :=
  if dim = .custom then .error .indexError
  else match interpBranch dim method with
    | none => .ok (List.replicate n (some 0))
    | some a => (lib.alg a zero numIdw pWeight c row phi).bind (fitRow n)

/-- The object: settings and `_traits_cache_virtNewCoord`. The decorator of line 758 keeps the value there; there is no
property of the name `virtNewCoord` whose dependencies would remove it. -/
structure InterpObj (G Q C : Type*) where
  set : InterpSet G Q
  kept : Option C

/-- What a user does with the object. `sample` is one row with one angle in `_result_core_func`. -/
inductive InterpOp (G Q : Type*) where
  | mics (g : G)
  | virt (g : G)
  | dim (d : ArrayDim)
  | q (q : Q)
  | zero (b : Bool)
  | method (m : InterpMethod)
  | numIdw (n : ℤ)
  | pWeight (p : ℝ)
  | numChannels
  | sample (row : List ℝ) (phi : ℝ)

/-- What is returned. -/
inductive InterpOut where
  | nothing
  | count (n : ℕ)
  | row (r : Except PyErr (List (Option ℝ)))

/-- `_get_mics_virtual` (acoular/tprocess.py 680-683). -/
def InterpSet.getVirt (s : InterpSet G Q) : G × InterpSet G Q :=
  match s.virt with
  | some v => (v, s)
  | none => (s.mics, { s with virt := some s.mics })

/-- One operation: assignments, `num_channels` (acoular/tprocess.py 751-752), and a row of `_result_core_func` with
`_get_virtNewCoord` (758-760, 936-940). -/
def InterpObj.step (lib : InterpLib G Q C) (o : InterpObj G Q C) : InterpOp G Q → InterpObj G Q C × InterpOut
  | .mics g => ({ o with set := { o.set with mics := g } }, .nothing)
  | .virt g => ({ o with set := { o.set with virt := some g } }, .nothing)
  | .dim d => ({ o with set := { o.set with dim := d } }, .nothing)
  | .q q => ({ o with set := { o.set with q := q } }, .nothing)
  | .zero b => ({ o with set := { o.set with zero := b } }, .nothing)
  | .method m => ({ o with set := { o.set with method := m } }, .nothing)
  | .numIdw n => ({ o with set := { o.set with numIdw := n } }, .nothing)
  | .pWeight p => ({ o with set := { o.set with pWeight := p } }, .nothing)
  | .numChannels => ({ o with set := o.set.getVirt.2 }, .count (lib.size o.set.getVirt.1))
  | .sample row phi =>
    let v := o.set.getVirt.1
    let s := o.set.getVirt.2
    let c := o.kept.getD (lib.coords s.mics v s.dim s.q s.zero)
    ({ set := s, kept := some c }, .row (interpCore lib s.dim s.method s.zero s.numIdw s.pWeight (lib.size v) c row phi))

/-- A history. -/
def InterpObj.run (lib : InterpLib G Q C) (o : InterpObj G Q C) : List (InterpOp G Q) → InterpObj G Q C
  | [] => o
  | op :: ops => ((o.step lib op).1).run lib ops

/-- The ring (or line) with the linear method, as in `ringInterp`: coordinates are the angles of the microphones. The other
computations are not modelled here and raise. -/
noncomputable def ringLib : InterpLib (List (Fin 3 → ℝ)) (Matrix (Fin 3) (Fin 3) ℝ) (List ℝ × List ℝ) where
  size := List.length
  coords mics virt _ q _ := (mics.map (cylAngle q), virt.map (cylAngle 1))
  alg a _ _ _ c row phi := if a = .interp then .ok (ringRow (2 * Real.pi) c.1 c.2 row phi) else .error .notImplementedError

end Acoular
