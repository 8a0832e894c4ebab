import Verif.Model.Py
import Verif.Model.Cache
import Mathlib.Data.Nat.Notation
import Mathlib.Tactic.TypeStar
import Mathlib.Algebra.Order.Round

/-!
# Model: point spread function (`acoular/fbeamform.py`, `PointSpreadFunction`)

`V` is the type of a column (the values at all grid points for one source point); `val i` is the column that
`_psf_call([i])` delivers.  The stored state (arrays `ac` and `gp`, in a file or in memory) changes by single writes.
-/

namespace Acoular

variable {V : Type*}

/-- acoular/fbeamform.py 984-995 (`calcmode`). -/
inductive PsfMode
  | single | block | full | readonly
  deriving DecidableEq

/-- acoular/fbeamform.py 1039-1047, 1079-1080: the columns of `ac` and the flags `gp`. -/
structure PsfState (V : Type*) where
  ac : List V
  gp : List Bool

/-- New arrays. -/
def PsfState.zeros (gs : ℕ) (zero : V) : PsfState V := ⟨List.replicate gs zero, List.replicate gs false⟩

/-- Single writes to the arrays. -/
inductive PsfAct (V : Type*)
  /-- `gp[i] = 1` -/
  | flag (i : ℕ)
  /-- `ac[:, i] = v` -/
  | col (i : ℕ) (v : V)
  /-- `gp[:] = 1` -/
  | flagAll
  /-- `ac[:] = ...` -/
  | cols (v : List V)

/-- Effect of a write. -/
def PsfAct.apply (s : PsfState V) : PsfAct V → PsfState V
  | .flag i => ⟨s.ac, s.gp.set i true⟩
  | .col i v => ⟨s.ac.set i v, s.gp⟩
  | .flagAll => ⟨s.ac, s.gp.map fun _ => true⟩
  | .cols v => ⟨v, s.gp⟩

/-- Effect of several writes. -/
def applyPsf (acts : List (PsfAct V)) (s : PsfState V) : PsfState V := acts.foldl PsfAct.apply s

/-- acoular/fbeamform.py 1091-1097: the indices that are calculated.  `gp[:][grid_indices]` is an array of `int8`, so
`invert` gives -1 for "not calculated" and -2 for "calculated"; used as indices these select the last and the last but
one of the grid indices.  `gi` has at least one entry. -/
def psfCalcInd (gi : List ℕ) (gp : List Bool) : List ℕ :=
  if gi.length = 1 then gi
  else gi.map fun i => if gp.getD i false then gi.getD (gi.length - 2) 0 else gi.getD (gi.length - 1) 0

/-- acoular/fbeamform.py 1089-1111 (`calc_psf`): the writes in their order. -/
def psfActs (val : ℕ → V) (mode : PsfMode) (gi : List ℕ) (s : PsfState V) : List (PsfAct V) :=
  match mode with
  | .single => (psfCalcInd gi s.gp).flatMap fun i => [.col i (val i), .flag i]
  | .full => [.flagAll, .cols ((List.range s.ac.length).map val)]
  | .block | .readonly => (psfCalcInd gi s.gp).flatMap fun i => [.flag i, .col i (val i)]

/-- `ac[:, grid_indices]`. -/
def psfColumns (zero : V) (gi : List ℕ) (s : PsfState V) : List V := gi.map fun i => s.ac.getD i zero

/-- acoular/fbeamform.py 1050-1087 (`_get_psf`) and 1016-1048 (`_get_filecache`): the answer and the node in the cache
file afterwards; `node` is the node of the frequency before.  An empty list of grid indices means all points; an index
beyond the grid raises IndexError (negative indices are not modelled). -/
def psfGet (val : ℕ → V) (zero : V) (gs : ℕ) (caching : CacheMode) (mode : PsfMode) (indices : List ℕ)
    (node : Option (PsfState V)) : Except PyErr (List V) × Option (PsfState V) :=
  let gi := if indices = [] then List.range gs else indices
  let fresh := PsfState.zeros gs zero
  if gi.any fun i => decide (gs ≤ i) then (.error .indexError, node)
  else
    match caching with
    | .none => (.ok (psfColumns zero gi (applyPsf (psfActs val mode gi fresh) fresh)), node)
    | .readonly =>
      match node with
      | none => (.ok (psfColumns zero gi (applyPsf (psfActs val mode gi fresh) fresh)), none)
      | some s =>
        if gi.all fun i => s.gp.getD i false then (.ok (psfColumns zero gi s), some s)
        else if mode = .readonly then (.error .valueError, some s)
        else (.ok (psfColumns zero gi (applyPsf (psfActs val mode gi s) s)), some s)
    | _ =>
      let s := if caching = .overwrite then fresh else node.getD fresh
      if gi.all fun i => s.gp.getD i false then (.ok (psfColumns zero gi s), some s)
      else if mode = .readonly then (.error .valueError, some s)
      else
        let s' := applyPsf (psfActs val mode gi s) s
        (.ok (psfColumns zero gi s'), some s')

/-- A history of requests to objects that share one cache file, for one frequency: the answers and the node. -/
def psfHistory (val : ℕ → V) (zero : V) (gs : ℕ) :
    List (CacheMode × PsfMode × List ℕ) → Option (PsfState V) → List (Except PyErr (List V)) × Option (PsfState V)
  | [], node => ([], node)
  | (c, m, gi) :: l, node =>
    let r := psfGet val zero gs c m gi node
    let q := psfHistory val zero gs l r.2
    (r.1 :: q.1, q.2)

/-- acoular/fbeamform.py 1022: the name of the node is the frequency with two decimals, `f'Hz_{freq:.2f}'`; modelled by
the number of hundredths (rounding of halves is immaterial here). -/
def psfNodeName {K : Type*} [Field K] [LinearOrder K] [FloorRing K] (freq : K) : ℤ := round (100 * freq)

/-- Requests at several frequencies: the file maps node names to nodes (1021-1047: the name of the file contains the
digest of steering vector and precision only). -/
def psfGetFreq {K : Type*} [Field K] [LinearOrder K] [FloorRing K] (val : K → ℕ → V) (zero : V) (gs : ℕ)
    (caching : CacheMode) (mode : PsfMode) (indices : List ℕ) (freq : K) (file : ℤ → Option (PsfState V)) :
    Except PyErr (List V) × (ℤ → Option (PsfState V)) :=
  let r := psfGet (val freq) zero gs caching mode indices (file (psfNodeName freq))
  (r.1, fun k => if k = psfNodeName freq then r.2 else file k)

end Acoular
