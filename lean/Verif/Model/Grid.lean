import Verif.Model.Py
import Mathlib.Algebra.Order.Floor.Ring
import Mathlib.Algebra.Order.Field.Basic
import Mathlib.Data.Rat.Floor

/-!
# Model: grids, sectors and integration (`acoular/grids.py`, `acoular/fbeamform.py`)

Coordinates are elements of an ordered field with floor function (the code uses 64 bit floats).
-/

namespace Acoular

section

variable {K : Type*} [Field K] [LinearOrder K] [FloorRing K]

/-- Python `round` of a float to an integer: to the nearest, ties to the even integer.
Used at acoular/grids.py 429, 436, 632, 639, 646, 711-713. -/
def pyRound (q : K) : ℤ :=
  let f := ⌊q⌋
  let r := q - f
  if r < 1 / 2 then f else if 1 / 2 < r then f + 1 else if f % 2 = 0 then f else f + 1

/-- Python `int` of a float: truncation towards zero.  Used at acoular/grids.py 480-481. -/
def pyInt (q : K) : ℤ := if 0 ≤ q then ⌊q⌋ else ⌈q⌉

/-- acoular/grids.py 425-437 (`RectGrid._get_nxsteps`, `_get_nysteps`) and 628-647 (`RectGrid3D`): number of
points along an axis. -/
def nSteps (lo hi inc : K) : ℤ :=
  let i := |inc|
  if i ≠ 0 then pyRound ((|hi - lo| + i) / i) else 1

/-- `mgrid[lo : hi : n*1j]`, element `k` (numpy `nd_grid`): `n` points from `lo` to `hi` inclusive; a single
point is `lo`.  Used at acoular/grids.py 445-449 and 651-655. -/
def mgridPoint (lo hi : K) (n : ℕ) (k : ℕ) : K :=
  if n = 1 then lo else k * ((hi - lo) / ((n : K) - 1)) + lo

end

/-- acoular/grids.py 380-404: the traits of `RectGrid`. -/
structure RectGrid (K : Type*) where
  xMin : K
  xMax : K
  yMin : K
  yMax : K
  z : K
  inc : K
  deriving DecidableEq

namespace RectGrid

variable {K : Type*} [Field K] [LinearOrder K] [FloorRing K]

/-- acoular/grids.py 425-430. -/
def nx (g : RectGrid K) : ℕ := (nSteps g.xMin g.xMax g.inc).toNat
/-- acoular/grids.py 432-437. -/
def ny (g : RectGrid K) : ℕ := (nSteps g.yMin g.yMax g.inc).toNat
/-- acoular/grids.py 417-419. -/
def size (g : RectGrid K) : ℕ := g.nx * g.ny

/-- acoular/grids.py 443-451 (`_get_pos`): the columns of the position array, in C order (last axis fastest);
the slice `z : z + 0.1` with unit step has the single element `z`. -/
def pos (g : RectGrid K) : List (K × K × K) :=
  (List.range g.nx).flatMap fun i => (List.range g.ny).map fun j =>
    (mgridPoint g.xMin g.xMax g.nx i, mgridPoint g.yMin g.yMax g.ny j, g.z)

/-- acoular/grids.py 453-482 (`index`).  A zero increment makes the division fail. -/
def index (g : RectGrid K) (x y : K) : Except PyErr (ℤ × ℤ) :=
  if x < g.xMin ∨ x > g.xMax then .error .valueError
  else if y < g.yMin ∨ y > g.yMax then .error .valueError
  else if g.inc = 0 then .error .zeroDivisionError
  else .ok (pyInt ((x - g.xMin) / g.inc + 1 / 2), pyInt ((y - g.yMin) / g.inc + 1 / 2))

end RectGrid

/-! ## The cached positions -/

/-- A `RectGrid` object: its traits and the cached value of `pos`. -/
structure GridObj (K : Type*) where
  g : RectGrid K
  cache : Option (List (K × K × K))

/-- What a user does with a grid object. -/
inductive GridAct (K : Type*) where
  | setXMin (v : K) | setXMax (v : K) | setYMin (v : K) | setYMax (v : K) | setZ (v : K) | setInc (v : K)
  | readPos

/-- acoular/grids.py 443 (`@property_depends_on(['x_min', 'x_max', 'y_min', 'y_max', 'increment'])`): `pos` is computed
when read without a cached value, and the cached value is dropped when one of the listed traits changes its
value; `z` is not listed. -/
def gridAct {K : Type*} [Field K] [LinearOrder K] [FloorRing K] (o : GridObj K) : GridAct K → GridObj K
  | .setXMin v => ⟨{ o.g with xMin := v }, if v = o.g.xMin then o.cache else none⟩
  | .setXMax v => ⟨{ o.g with xMax := v }, if v = o.g.xMax then o.cache else none⟩
  | .setYMin v => ⟨{ o.g with yMin := v }, if v = o.g.yMin then o.cache else none⟩
  | .setYMax v => ⟨{ o.g with yMax := v }, if v = o.g.yMax then o.cache else none⟩
  | .setInc v => ⟨{ o.g with inc := v }, if v = o.g.inc then o.cache else none⟩
  | .setZ v => ⟨{ o.g with z := v }, o.cache⟩
  | .readPos => ⟨o.g, some (o.cache.getD o.g.pos)⟩

/-- The value of `pos` seen by a reader. -/
def GridObj.posNow {K : Type*} [Field K] [LinearOrder K] [FloorRing K] (o : GridObj K) : List (K × K × K) :=
  o.cache.getD o.g.pos

/-- What `RectGrid.indices` returns: two slices, two index lists, or one pair of indices. -/
inductive GridSel where
  | slices (x1 x2 y1 y2 : ℤ)
  | pairs (l : List (ℤ × ℤ))
  | point (i j : ℤ)
  deriving DecidableEq, Repr

section
variable {K : Type*} [Field K] [LinearOrder K] [FloorRing K]

/-- The loop of acoular/grids.py 511-514 and 532-535: `index` of every selected position. -/
def indexAll (g : RectGrid K) : List (K × K × K) → Except PyErr (List (ℤ × ℤ))
  | [] => .ok []
  | p :: ps => do
    let i ← g.index p.1 p.2.1
    let r ← indexAll g ps
    return i :: r

/-- acoular/grids.py 504-517 (`indices` with three arguments: centre and radius). -/
def circleIndices (g : RectGrid K) (x y r : K) : Except PyErr GridSel := do
  let inside := g.pos.filter fun p => decide ((p.1 - x) ^ 2 + (p.2.1 - y) ^ 2 ≤ r ^ 2)
  let l ← indexAll g inside
  if l.isEmpty then
    let c ← g.index x y
    return .point c.1 c.2
  else return .pairs l

/-- acoular/grids.py 518-521 (`indices` with four arguments: two corners). -/
def rectIndices (g : RectGrid K) (x1 y1 x2 y2 : K) : Except PyErr GridSel := do
  let a ← g.index (min x1 x2) (min y1 y2)
  let b ← g.index (max x1 x2) (max y1 y2)
  return .slices a.1 (b.1 + 1) a.2 (b.2 + 1)

end

/-! ## RectGrid3D -/

/-- acoular/grids.py 571-613: traits of `RectGrid3D`; a scalar increment (stored as its absolute value) counts
for all three axes. -/
structure RectGrid3D (K : Type*) where
  lo : Fin 3 → K
  hi : Fin 3 → K
  inc : Fin 3 → K

/-- acoular/grids.py 601-613 (`_set_increment`): a scalar is made positive, three values are stored as they are. -/
def setIncrement3D {K : Type*} [Field K] [LinearOrder K] : K ⊕ (Fin 3 → K) → (Fin 3 → K)
  | .inl s => fun _ => |s|
  | .inr v => v

namespace RectGrid3D
variable {K : Type*} [Field K] [LinearOrder K] [FloorRing K]

/-- acoular/grids.py 628-647. -/
def n (g : RectGrid3D K) (a : Fin 3) : ℕ := (nSteps (g.lo a) (g.hi a) (g.inc a)).toNat
/-- acoular/grids.py 620-622. -/
def size (g : RectGrid3D K) : ℕ := g.n 0 * g.n 1 * g.n 2

/-- acoular/grids.py 649-657 (`_get_pos`). -/
def pos (g : RectGrid3D K) : List (K × K × K) :=
  (List.range (g.n 0)).flatMap fun i => (List.range (g.n 1)).flatMap fun j => (List.range (g.n 2)).map fun k =>
    (mgridPoint (g.lo 0) (g.hi 0) (g.n 0) i, mgridPoint (g.lo 1) (g.hi 1) (g.n 1) j,
      mgridPoint (g.lo 2) (g.hi 2) (g.n 2) k)

/-- acoular/grids.py 663-714 (`index`). -/
def index (g : RectGrid3D K) (x : Fin 3 → K) : Except PyErr (ℤ × ℤ × ℤ) :=
  if x 0 < g.lo 0 ∨ x 0 > g.hi 0 then .error .valueError
  else if x 1 < g.lo 1 ∨ x 1 > g.hi 1 then .error .valueError
  else if x 2 < g.lo 2 ∨ x 2 > g.hi 2 then .error .valueError
  else if g.inc 0 = 0 ∨ g.inc 1 = 0 ∨ g.inc 2 = 0 then .error .zeroDivisionError
  else .ok (pyRound ((x 0 - g.lo 0) / g.inc 0), pyRound ((x 1 - g.lo 1) / g.inc 1),
    pyRound ((x 2 - g.lo 2) / g.inc 2))
/-- acoular/grids.py 716-760 (`indices`): start and stop of the slices along the axes. -/
def indices (g : RectGrid3D K) (p q : Fin 3 → K) : Except PyErr ((ℤ × ℤ) × (ℤ × ℤ) × (ℤ × ℤ)) := do
  let a ← g.index fun i => min (p i) (q i)
  let b ← g.index fun i => max (p i) (q i)
  return ((a.1, b.1 + 1), (a.2.1, b.2.1 + 1), (a.2.2, b.2.2 + 1))
end RectGrid3D

/-! ## Sectors -/

/-- acoular/grids.py 1140-1167: the traits of `SingleSector`. -/
structure SectorOpts (K : Type*) where
  border : Bool
  tol : K
  nearest : Bool

/-- `numpy.argmin` of a list: first index of the smallest element (`0` for the empty list, where numpy
raises). -/
def argminList {K : Type*} [LinearOrder K] : List K → ℕ
  | [] => 0
  | [_] => 0
  | a :: b :: l =>
    let k := argminList (b :: l)
    if a ≤ (b :: l).getD k a then 0 else k + 1

/-- `inds[k] = True`. -/
def setTrue (l : List Bool) (k : ℕ) : List Bool := l.set k true

section
variable {K : Type*} [Field K] [LinearOrder K]

/-- The fallback common to acoular/grids.py 1246-1250, 1334-1338 and 1405-1406: if nothing is selected and
`default_nearest` is set, the point with the smallest `dr2` is selected.  With no points at all
`argmin` raises ValueError. -/
def withNearest (o : SectorOpts K) (dr2 : List K) (inds : List Bool) : Except PyErr (List Bool) :=
  if !(inds.any id) && o.nearest then
    if dr2.isEmpty then .error .valueError else .ok (setTrue inds (argminList dr2))
  else .ok inds

/-- acoular/grids.py 1196-1252 (`RectSector.contains`). -/
def rectContains (o : SectorOpts K) (x1 x2 y1 y2 : K) (pos : List (K × K × K)) : Except PyErr (List Bool) :=
  let xmin := min x1 x2
  let xmax := max x1 x2
  let ymin := min y1 y2
  let ymax := max y1 y2
  let inds := pos.map fun p =>
    if o.border then
      decide (p.1 - xmin > -o.tol) && decide (p.1 - xmax < o.tol) && decide (p.2.1 - ymin > -o.tol) &&
        decide (p.2.1 - ymax < o.tol)
    else
      decide (p.1 - xmin > o.tol) && decide (p.1 - xmax < -o.tol) && decide (p.2.1 - ymin > o.tol) &&
        decide (p.2.1 - ymax < -o.tol)
  let x := (xmin + xmax) / 2
  let y := (ymin + ymax) / 2
  withNearest o (pos.map fun p => (p.1 - x) ^ 2 + (p.2.1 - y) ^ 2) inds

/-- acoular/grids.py 1274-1340 (`RectSector3D.contains`).  The fallback uses only x and y. -/
def rect3Contains (o : SectorOpts K) (x1 x2 y1 y2 z1 z2 : K) (pos : List (K × K × K)) : Except PyErr (List Bool) :=
  let xmin := min x1 x2
  let xmax := max x1 x2
  let ymin := min y1 y2
  let ymax := max y1 y2
  let zmin := min z1 z2
  let zmax := max z1 z2
  let inds := pos.map fun p =>
    if o.border then
      decide (p.1 - xmin > -o.tol) && decide (p.1 - xmax < o.tol) && decide (p.2.1 - ymin > -o.tol) &&
        decide (p.2.1 - ymax < o.tol) && decide (p.2.2 - zmin > -o.tol) && decide (p.2.2 - zmax < o.tol)
    else
      decide (p.1 - xmin > o.tol) && decide (p.1 - xmax < -o.tol) && decide (p.2.1 - ymin > o.tol) &&
        decide (p.2.1 - ymax < -o.tol) && decide (p.2.2 - zmin > o.tol) && decide (p.2.2 - zmax < -o.tol)
  let x := (xmin + xmax) / 2
  let y := (ymin + ymax) / 2
  withNearest o (pos.map fun p => (p.1 - x) ^ 2 + (p.2.1 - y) ^ 2) inds

/-- acoular/grids.py 1366-1408 (`CircSector.contains`). -/
def circContains (o : SectorOpts K) (x y r : K) (pos : List (K × K × K)) : Except PyErr (List Bool) :=
  let dr2 := pos.map fun p => (p.1 - x) ^ 2 + (p.2.1 - y) ^ 2
  let inds := dr2.map fun d => if o.border then decide (d - r ^ 2 < o.tol) else decide (d - r ^ 2 < -o.tol)
  withNearest o dr2 inds

/-- acoular/grids.py 1467-1472 and 1525-1530 (`PolySector.contains`, `ConvexSector.contains`): the fallback of
the polygon sectors.  `argmin` is taken of the *two coordinates of the mean of the vertices*, so the
grid point number 0 or 1 is selected. -/
def polyFallback (o : SectorOpts K) (meanX meanY : K) (inds : List Bool) : Except PyErr (List Bool) :=
  if !(inds.any id) && o.nearest then
    let k := argminList [meanX, meanY]
    if k < inds.length then .ok (setTrue inds k) else .error .indexError
  else .ok inds

/-- The sectors of acoular/grids.py 1086-1589 (polygon sectors carry the result of the point-in-polygon test
as a function of the position; see `Verif.Model.Polygon`). -/
inductive Sector (K : Type*) where
  | whole
  | rect (o : SectorOpts K) (x1 x2 y1 y2 : K)
  | rect3 (o : SectorOpts K) (x1 x2 y1 y2 z1 z2 : K)
  | circ (o : SectorOpts K) (x y r : K)
  | poly (o : SectorOpts K) (inside : K → K → Bool) (meanX meanY : K)
  | multi (l : List (Sector K))

mutual
/-- `sector.contains(pos)` for all sector classes; `MultiSector.contains` is acoular/grids.py 1548-1589. -/
def Sector.contains (pos : List (K × K × K)) : Sector K → Except PyErr (List Bool)
  | .whole => .ok (pos.map fun _ => true)
  | .rect o x1 x2 y1 y2 => rectContains o x1 x2 y1 y2 pos
  | .rect3 o x1 x2 y1 y2 z1 z2 => rect3Contains o x1 x2 y1 y2 z1 z2 pos
  | .circ o x y r => circContains o x y r pos
  | .poly o f mx my => polyFallback o mx my (pos.map fun p => f p.1 p.2.1)
  | .multi l => Sector.containsAll pos (pos.map fun _ => false) l
/-- The loop `for sec in self.sectors: inds += sec.contains(pos)`. -/
def Sector.containsAll (pos : List (K × K × K)) (acc : List Bool) : List (Sector K) → Except PyErr (List Bool)
  | [] => .ok acc
  | s :: l =>
    match Sector.contains pos s with
    | .error e => .error e
    | .ok m => Sector.containsAll pos (acc.zipWith (· || ·) m) l
end

/-- acoular/grids.py 351-376 (`subdomain`) for a grid of shape `(nx, ny)`: `where(contains(pos).reshape(shape))`,
the pairs of indices of the selected points in C order. -/
def subdomain (ny : ℕ) (mask : List Bool) : List (ℕ × ℕ) :=
  ((List.range mask.length).filter fun k => mask.getD k false).map fun k => (k / ny, k % ny)

/-- `data.reshape(gshape)[ind].sum()` for the index lists of `subdomain`
(acoular/fbeamform.py 2550 and 2554, `integrate`; 688-690, `BeamformerBase.integrate`). -/
def sumAt (ny : ℕ) (data : List K) (ind : List (ℕ × ℕ)) : K :=
  (ind.map fun p => data.getD (p.1 * ny + p.2) 0).sum

/-- acoular/fbeamform.py 2493-2555 (`integrate`) with a `Sector`: `data` has as many values as the grid has points
(one value is returned), or one row of such values per frequency; otherwise `h` is unbound.  A one-row array has as
many entries as the grid has points and gives a single value. -/
def integrate [FloorRing K] (g : RectGrid K) (data : List (List K)) (s : Sector K) : Except PyErr (List K) :=
  match s.contains g.pos with
  | .error e => .error e
  | .ok mask =>
    let ind := subdomain g.ny mask
    if data.flatten.length = g.size then .ok [sumAt g.ny data.flatten ind]
    else if data.all fun r => r.length = g.size then .ok (data.map fun r => sumAt g.ny r ind)
    else .error .unboundLocalError

end

/-! ## `BeamformerBase.integrate` without frequency range -/

/-- The part of a beamformer that `integrate` uses: how many lines the data has now, and the number of lines
stored in `_numfreq` by the last access to `result` (0 before the first access)
(acoular/fbeamform.py 355-356, 424-425). -/
structure IntegrateState where
  lines : ℕ
  numfreq : ℕ
  deriving DecidableEq

/-- acoular/fbeamform.py 664-691: the range of lines and the length of the returned array, for `frange=None`.
`indLow`/`indHigh` are the limits of the frequency data (`none` stands for `None`).  The attribute
`_numfreq` is read *before* `self.result` updates it. -/
def integrateRange (s : IntegrateState) (indLow indHigh : Option ℤ) : ℤ × ℤ :=
  let lo : ℤ := match indLow with | none => 0 | some v => if v < 0 then v + s.numfreq else v
  let hi : ℤ := match indHigh with
    | none => s.numfreq
    | some v => if v < 0 then v + s.numfreq else v
  (lo, hi)

/-- acoular/fbeamform.py 684-691: the spectrum returned; `val i` is the sum over the sector of line `i` of the
result.  The loop runs over the range, so a range reaching beyond the array raises IndexError.  A lower limit that is
still negative after the adjustment is not modelled (error). -/
def integrateSpectrum {K : Type*} [Zero K] (s : IntegrateState) (indLow indHigh : Option ℤ) (val : ℕ → K) :
    Except PyErr (List K) :=
  let r := integrateRange s indLow indHigh
  if r.2 ≤ r.1 then .ok (List.replicate s.numfreq 0)
  else if r.1 < 0 ∨ r.2 > s.numfreq then .error .indexError
  else .ok ((List.range s.numfreq).map fun i : ℕ => if r.1 ≤ (i : ℤ) ∧ (i : ℤ) < r.2 then val i else 0)

/-- acoular/fbeamform.py 418-425: reading `result` stores the present number of lines. -/
def IntegrateState.readResult (s : IntegrateState) : IntegrateState := { s with numfreq := s.lines }

end Acoular
