import Verif.Model.Gridless
import Mathlib.Algebra.Group.Defs

/-!
# Model: integration of maps without predefined grid (`acoular/fbeamform.py`, `BeamformerAdaptiveGrid.integrate`)
-/

namespace Acoular

variable {P V : Type*}

/-- A gridless beamformer object: before the first access to `result` the positions `_gpos` are `None`
(acoular/fbeamform.py 2300); `current` is whether the property `result` is up to date (no parameter of the digest changed
since it was accessed). -/
structure GridlessObj (P V : Type*) where
  arrays : Option (GridlessState P V)
  current : Bool

/-- Parameters of the calculation: found positions, levels, `n`, the components and the number of frequencies. -/
structure GridlessPar (P V : Type*) where
  pos : ℕ → ℕ → P
  lev : ℕ → ℕ → V
  n : ℕ
  evas : List ℕ
  F : ℕ

/-- Access to `result` without a cache file (acoular/fbeamform.py 417-449): new arrays of zeros, if not up to date. -/
def GridlessPar.access (par : GridlessPar P V) (p0 : P) (v0 : V) (o : GridlessObj P V) : GridlessState P V :=
  match o.current, o.arrays with
  | true, some s => s
  | _, _ => GridlessState.zeros par.F (gridlessSize par.n par.F) p0 v0

/-- `self.result[i]` (acoular/fbeamform.py 292-305): the line is calculated if that has not been done. -/
def GridlessPar.line (par : GridlessPar P V) (i : ℕ) (s : GridlessState P V) : Except PyErr (GridlessState P V) :=
  if s.fr[i]? = some false then gridlessCalc par.pos par.lev par.n par.evas [i] s else .ok s

/-- `self.subdomain(sector)` (acoular/grids.py 372-376): which slots are in the sector; TypeError without positions,
ValueError if their number is not the size of the grid. -/
def GridlessPar.subdomain (par : GridlessPar P V) (contains : P → Bool) (o : GridlessObj P V) : Except PyErr (List Bool) :=
  match o.arrays with
  | none => .error .typeError
  | some s => if s.gpos.length = gridlessSize par.n par.F then .ok (s.gpos.map contains) else .error .valueError

/-- `r[i][ind].sum()` (acoular/fbeamform.py 2335). -/
def maskedSum [AddCommMonoid V] (mask : List Bool) (row : List V) : V :=
  (((mask.zip row).filter (·.1)).map (·.2)).sum

/-- acoular/fbeamform.py 2334-2335: `for i in range(r.shape[0])`. -/
def GridlessPar.integrateLoop [AddCommMonoid V] (par : GridlessPar P V) (mask : List Bool) :
    List ℕ → GridlessState P V → Except PyErr (List V × GridlessState P V)
  | [], s => .ok ([], s)
  | i :: is, s =>
    match par.line i s with
    | .error e => .error e
    | .ok s' =>
      match par.integrateLoop mask is s' with
      | .error e => .error e
      | .ok (h, s'') => .ok (maskedSum mask (s'.ac.getD i []) :: h, s'')

/-- acoular/fbeamform.py 2308-2336 (`integrate`): the slots in the sector are determined first, then the result is accessed
and calculated. A sector of another type (`none`) gives NotImplementedError. -/
def GridlessPar.integrate [AddCommMonoid V] (par : GridlessPar P V) (p0 : P) (sector : Option (P → Bool))
    (o : GridlessObj P V) : Except PyErr (List V × GridlessObj P V) :=
  match sector with
  | none => .error .notImplementedError
  | some contains =>
    match par.subdomain contains o with
    | .error e => .error e
    | .ok mask =>
      match par.integrateLoop mask (List.range par.F) (par.access p0 0 o) with
      | .error e => .error e
      | .ok (h, s) => .ok (h, ⟨some s, true⟩)

/-- The whole map is requested (`self.result[:]`, acoular/fbeamform.py 292-305 and 417-449). -/
def GridlessPar.compute [AddCommMonoid V] (par : GridlessPar P V) (p0 : P) (o : GridlessObj P V) :
    Except PyErr (GridlessObj P V) :=
  let s := par.access p0 0 o
  match gridlessCalc par.pos par.lev par.n par.evas ((List.range par.F).filter fun i => s.fr[i]? == some false) s with
  | .error e => .error e
  | .ok s' => .ok ⟨some s', true⟩

end Acoular
