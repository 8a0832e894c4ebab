import Mathlib.Algebra.BigOperators.Group.List.Basic
import Verif.Model.Cache

/-!
# Model of digests, of imported spectra and of the spectra file cache
-/

namespace Acoular

/-! ## Digests (`acoular/internal.py`) -/

/-- The bytes hashed by `digest(obj)`, `acoular/internal.py` 8-18: the class name and the values of the
listed traits, one after the other; a dependency that cannot be read (`none`) is left out. -/
def digestPreimage (cls : String) (deps : List (Option String)) : List Char :=
  (cls :: deps.filterMap id).flatMap String.toList

/-- `digest(obj)`, `acoular/internal.py` 8-18, for a hash function `md5`. -/
def digestOf (md5 : List Char → String) (cls : String) (deps : List (Option String)) : String :=
  "_" ++ md5 (digestPreimage cls deps)

/-- `MaskedTimeOut.digest`, `acoular/tprocess.py` 160: dependencies `source.digest`, `start`, `stop`,
`invalid_channels`; `stop = None` is printed as `None`, the list as `str(list)`. -/
def MaskedTimeOut.digest (md5 : List Char → String) (sourceDigest : String) (start : Int) (stop : Option Int)
    (invalid : String) : String :=
  digestOf md5 "<class 'acoular.tprocess.MaskedTimeOut'>"
    [some sourceDigest, some (toString start), some (match stop with | none => "None" | some s => toString s),
     some invalid]

/-- `RectGrid.digest`, `acoular/grids.py` 413-415: six floats, printed by `str`. -/
def RectGrid.digest (md5 : List Char → String) (xmin xmax ymin ymax z increment : String) : String :=
  digestOf md5 "<class 'acoular.grids.RectGrid'>"
    [some xmin, some xmax, some ymin, some ymax, some z, some increment]

/-- The digest dependencies of `TimeSamples`, `acoular/sources.py` 400-407: of the data only the sum of the first
row enters (`_datachecksum`), and the shape.  `show_` prints a number. -/
def TimeSamples.digest {K : Type*} [AddCommMonoid K] (md5 : List Char → String) (show_ : K → String)
    (basename fs : String) (calibDigest : Option String) (data : List (List K)) (numCh : Nat) : String :=
  digestOf md5 "<class 'acoular.sources.TimeSamples'>"
    [some basename, calibDigest, data.head?.map fun r => show_ r.sum, some fs, some (toString numCh),
     some (toString data.length)]

/-! ## `PowerSpectraImport` (`acoular/spectra.py` 615-725) -/

/-- `_csm`, `_csmsum` and the cached value of `eva` (or `eve`). -/
structure ImportState (C S E : Type*) where
  csm : C
  csmsum : S
  cache : Option E

/-- What a user does. -/
inductive ImportOp (C : Type*) where
  | assign (csm : C)
  | readEva

/-- `_set_csm`, `acoular/spectra.py` 691-697: the checksum is taken from the matrix that is being replaced; a
change of it changes `digest` and thereby clears the cached eigenvalues (698-704).  Shape check left
out (all matrices have the right shape). -/
def ImportState.assign {C S E : Type*} [DecidableEq S] (sum : C → S) (s : ImportState C S E) (c : C) :
    ImportState C S E :=
  { csm := c, csmsum := sum s.csm, cache := if sum s.csm = s.csmsum then s.cache else none }

/-- `_get_eva`, `acoular/spectra.py` 699-701, a cached property: value and new state. -/
def ImportState.read {C S E : Type*} (eva : C → E) (s : ImportState C S E) : E × ImportState C S E :=
  let v := s.cache.getD (eva s.csm)
  (v, { s with cache := some v })

/-- State after one operation. -/
def ImportState.step {C S E : Type*} [DecidableEq S] (sum : C → S) (eva : C → E) (s : ImportState C S E) :
    ImportOp C → ImportState C S E
  | .assign c => s.assign sum c
  | .readEva => (s.read eva).2

/-- The digest of the object, `acoular/spectra.py` 673 and 685-686: it depends on `_csmsum` only. -/
def ImportState.digest {C S E : Type*} (md5 : List Char → String) (show_ : S → String) (s : ImportState C S E) : String :=
  digestOf md5 "<class 'acoular.spectra.PowerSpectraImport'>" [some (show_ s.csmsum)]

/-! ## File cache of the spectra (`acoular/spectra.py` 492-532) -/

/-- File operations of `_get_filecache`; `fill` is `ac[:] = func()`. -/
inductive SpecAct (K : Type*)
  | openCreate
  | remove
  | create (n : Nat)
  | fill (values : List K)
  deriving DecidableEq

/-- The cache file: `none` no file, `some none` no node, otherwise the content of the node. -/
abbrev SpecFile (K : Type*) := Option (Option (List K))

/-- Effect of a file operation; a new array is filled with zeros by the HDF5 library. -/
def SpecAct.apply {K : Type*} [Zero K] : SpecAct K → SpecFile K → SpecFile K
  | .openCreate, f => some (f.getD none)
  | .remove, f => f.map fun _ => none
  | .create n, f => f.map fun _ => some (List.replicate n 0)
  | .fill v, f => f.map fun n => n.map fun _ => v

/-- The file after some operations. -/
def applySpec {K : Type*} [Zero K] (acts : List (SpecAct K)) (f : SpecFile K) : SpecFile K :=
  acts.foldl (fun f a => a.apply f) f

/-- `_get_csm` / `_get_eva` / `_get_eve` with `_get_filecache`, `acoular/spectra.py` 492-550, for one node;
`value` is what `func()` computes (all entries in a row), `mode` is `config.global_caching` (mode
`individual` with `cached = True`).  Result: file operations in order, and the value returned.  In mode
`readonly` the file is open for reading only, so filling an initialised array fails (`OSError`). -/
def specAccess {K : Type*} [AddCommMonoid K] [DecidableEq K] (mode : CacheMode) (value : List K) (f : SpecFile K) :
    List (SpecAct K) × Except PyErr (List K) :=
  match mode with
  | .none => ([], .ok value)
  | .readonly =>
    match f with
    | none => ([], .ok value)
    | some none => ([], .ok value)
    | some (some ac) => if ac.sum = 0 then ([], .error .osError) else ([], .ok ac)
  | .overwrite =>
    match f with
    | none => ([.openCreate, .create value.length, .fill value], .ok value)
    | some none => ([.create value.length, .fill value], .ok value)
    | some (some _) => ([.remove, .create value.length, .fill value], .ok value)
  | .individual | .all =>
    match f with
    | none => ([.openCreate, .create value.length, .fill value], .ok value)
    | some none => ([.create value.length, .fill value], .ok value)
    | some (some ac) => if ac.sum = 0 then ([.fill value], .ok value) else ([], .ok ac)

/-- A history of accesses: caching mode and number of file operations executed before the process died (or
anything at least the total number). -/
def specHistory {K : Type*} [AddCommMonoid K] [DecidableEq K] (value : List K) :
    List (CacheMode × Nat) → SpecFile K → SpecFile K
  | [], f => f
  | (m, k) :: rest, f => specHistory value rest (applySpec ((specAccess m value f).1.take k) f)

end Acoular
