import Verif.Model.Cache
import Mathlib.Tactic.TypeStar

/-!
# Lazily filled beamformer results (`acoular/fbeamform.py`)

The result arrays `_ac` (one row per frequency line) and `_fr` (flags), either in memory or in the cache
file, as values; changes as actions, so that an interruption is a prefix of the list of actions.  Assumed: the
changes reach the file in the order in which they are made (buffering by PyTables is not modelled).
-/

namespace Acoular

variable {V : Type*}

/-- `BeamformerBase._ac`, `_fr` (fbeamform.py:353-354). -/
structure BfState (V : Type*) where
  ac : List V
  fr : List Bool
  deriving DecidableEq

/-- The three kinds of change that `_calc` makes. -/
inductive BfAct (V : Type*) where
  /-- `self._ac[i] = v` -/
  | setAc (i : Nat) (v : V)
  /-- `self._ac[i, j] += ...` -/
  | modAc (i : Nat) (f : V → V)
  /-- `self._fr[i] = 1` -/
  | setFr (i : Nat)

/-- Effect of one change. -/
def BfAct.apply (s : BfState V) : BfAct V → BfState V
  | .setAc i v => ⟨s.ac.set i v, s.fr⟩
  | .modAc i f => ⟨s.ac.modify i f, s.fr⟩
  | .setFr i => ⟨s.ac, s.fr.set i true⟩

/-- Effect of changes made one after the other. -/
def applyBf (acts : List (BfAct V)) (s : BfState V) : BfState V := acts.foldl BfAct.apply s

/-- Keys accepted by `LazyBfResult.__getitem__` (fbeamform.py:292-296): an integer, or a slice with a positive
step.  A tuple `(key, more)` behaves like `key` followed by `[more]` on the lines returned.  Negative steps
and other keys (arrays, masks) are not modelled; arrays raise `AttributeError`. -/
inductive BfKey where
  | int (k : Int)
  | slice (start : Int) (stop : Option Int) (step : Nat)
  deriving DecidableEq

/-- `arange(*slice(start, stop, step).indices(n))` for positive `step`. -/
def arangeIdx (start : Int) (stop : Option Int) (step n : Nat) : List Nat :=
  let (a, b) := sliceIndices start stop n
  (List.range ((b - a + step - 1) / step)).map fun j => a + j * step

/-- The indices a key is expanded to (fbeamform.py:294-298); an integer `k` becomes `slice(k, k+1)`. -/
def BfKey.indices (n : Nat) : BfKey → List Nat
  | .int k => arangeIdx k (some (k + 1)) 1 n
  | .slice a b st => arangeIdx a b st n

/-- `missingind` (fbeamform.py:298). -/
def missingInd (n : Nat) (key : BfKey) (fr : List Bool) : List Nat :=
  (key.indices n).filter fun i => fr[i]? == some false

/-- What `_ac.__getitem__(key)` returns: one line, or lines. -/
inductive BfAns (V : Type*) where
  | line (v : V)
  | lines (l : List V)
  deriving DecidableEq

/-- `_ac.__getitem__(key)` (fbeamform.py:305): numpy indexing of the first axis. -/
def getItem (ac : List V) : BfKey → Except PyErr (BfAns V)
  | .int k =>
    let i := if k < 0 then k + ac.length else k
    if i < 0 then .error .indexError
    else match ac[i.toNat]? with
      | some v => .ok (.line v)
      | none => .error .indexError
  | .slice a b st => .ok (.lines ((arangeIdx a b st ac.length).filterMap (ac[·]?)))

/-- `BeamformerBase._calc` (fbeamform.py:485-520), the sequence of changes; `value i` is the map computed for
line `i`.  The same sequence is made by `BeamformerFunctional` (747-788), `BeamformerCapon` (830-834),
`BeamformerEig` (888-902), `BeamformerMusic` (949-960), `BeamformerDamas` (1223-1240), `BeamformerDamasPlus`
(1306-1356), `BeamformerCleansc` (1511-1546), `BeamformerClean` (1637-1666), `BeamformerGIB` (2175-2293);
`BeamformerCMF` (1776-1895) writes `_ac[i]` twice before the flag. -/
def calcActs (value : Nat → V) (ind : List Nat) : List (BfAct V) :=
  ind.flatMap fun i => [.setAc i (value i), .setFr i]

/-- `BeamformerOrth._calc` (fbeamform.py:1442-1454): the contributions of the components are added to the row
that is there, then the flag is set. -/
def orthActs (contrib : Nat → List (V → V)) (ind : List Nat) : List (BfAct V) :=
  ind.flatMap fun i => (contrib i).map (.modAc i) ++ [.setFr i]

/-- `BeamformerSODIX._calc` (fbeamform.py:1978-2054): all lines `1 … ind.max()` that are not flagged, in ascending
order; the start value of the optimisation is taken from the previous line if that is flagged.
`solve i start` is the optimisation for line `i`. -/
def sodixActs (solve : Nat → Option V → V) : List Nat → BfState V → List (BfAct V)
  | [], _ => []
  | i :: is, s =>
    if s.fr[i]? = some false then
      let start := if s.fr[i - 1]? = some true then s.ac[i - 1]? else none
      let acts : List (BfAct V) := [.setAc i (solve i start), .setFr i]
      acts ++ sodixActs solve is (applyBf acts s)
    else sodixActs solve is s

/-- The indices SODIX looks at: `range(1, ind.max() + 1)` (fbeamform.py:1977). -/
def sodixRange (ind : List Nat) : List Nat := (List.range (ind.foldl max 0)).map (· + 1)

/-- `LazyBfResult.__getitem__` (fbeamform.py:292-305): the changes made and the value returned. `cal` are the
changes that `_calc` makes for the given missing indices. -/
def lazyGet (cal : List Nat → BfState V → List (BfAct V)) (n : Nat) (key : BfKey) (s : BfState V) :
    List (BfAct V) × Except PyErr (BfAns V) :=
  let missing := missingInd n key s.fr
  let acts := if missing = [] then [] else cal missing s
  (acts, getItem (applyBf acts s).ac key)

/-- One request after the other: all changes, and all values returned. -/
def lazyRequests (cal : List Nat → BfState V → List (BfAct V)) (n : Nat) :
    List BfKey → BfState V → List (BfAct V) × List (Except PyErr (BfAns V))
  | [], _ => ([], [])
  | key :: keys, s =>
    let (acts, ans) := lazyGet cal n key s
    let (acts', anss) := lazyRequests cal n keys (applyBf acts s)
    (acts ++ acts', ans :: anss)

/-- The group of the beamformer in the cache file: the two arrays, each if it exists. -/
structure BfNode (V : Type*) where
  freqs : Option (List Bool)
  result : Option (List V)
  deriving DecidableEq

/-- The cache file, as far as this beamformer is concerned: its group, if it exists. -/
abbrev BfFile (V : Type*) := Option (BfNode V)

/-- Changes of the cache file. -/
inductive BfFileAct (V : Type*) where
  | removeNode
  | createGroup
  | createFreqs (n : Nat)
  | createResult (n : Nat) (zero : V)
  | cell (a : BfAct V)

/-- Effect of a change of the cache file. -/
def BfFileAct.apply (f : BfFile V) : BfFileAct V → BfFile V
  | .removeNode => none
  | .createGroup => some ⟨none, none⟩
  | .createFreqs n => f.map fun nd => ⟨some (List.replicate n false), nd.result⟩
  | .createResult n z => f.map fun nd => ⟨nd.freqs, some (List.replicate n z)⟩
  | .cell a => f.map fun nd => match nd.freqs, nd.result with
      | some fr, some ac => let s := a.apply ⟨ac, fr⟩; ⟨some s.fr, some s.ac⟩
      | _, _ => nd

/-- Effect of changes one after the other. -/
def applyBfFile (acts : List (BfFileAct V)) (f : BfFile V) : BfFile V := acts.foldl BfFileAct.apply f

/-- `get_data_by_reference` on both arrays (fbeamform.py:404-405; h5files.py); a missing array raises
`NoSuchNodeError` (here `keyError`). -/
def BfNode.arrays (nd : BfNode V) : Except PyErr (BfState V) :=
  match nd.result, nd.freqs with
  | some ac, some fr => .ok ⟨ac, fr⟩
  | _, _ => .error .keyError

/-- New arrays of zeros (fbeamform.py:445-446). -/
def BfState.zeros (n : Nat) (zero : V) : BfState V := ⟨List.replicate n zero, List.replicate n false⟩

/-- The three changes that create the node (fbeamform.py:384-402). -/
def createActs (n : Nat) (zero : V) : List (BfFileAct V) := [.createGroup, .createFreqs n, .createResult n zero]

/-- `_get_filecache` and `_get_result` (fbeamform.py:362-449) of a beamformer with `cached = True`: changes made
and arrays used.  In mode `none` no file is used; in mode `readonly` the arrays are copied to memory. -/
def bfOpen (mode : CacheMode) (n : Nat) (zero : V) (f : BfFile V) :
    List (BfFileAct V) × Except PyErr (BfState V) :=
  match mode, f with
  | .none, _ => ([], .ok (.zeros n zero))
  | .readonly, none => ([], .ok (.zeros n zero))
  | .readonly, some nd => ([], nd.arrays)
  | .overwrite, none => (createActs n zero, .ok (.zeros n zero))
  | .overwrite, some _ => (.removeNode :: createActs n zero, .ok (.zeros n zero))
  | _, none => (createActs n zero, .ok (.zeros n zero))
  | _, some nd => ([], nd.arrays)

/-- Whether the arrays of a session are those of the file. -/
def CacheMode.writes : CacheMode → Bool
  | .none | .readonly => false
  | _ => true

/-- A session: one beamformer object whose `result` is opened and then asked for keys.  Changes of the file, and
the answers (or the exception raised on opening). -/
def bfSession (cal : List Nat → BfState V → List (BfAct V)) (mode : CacheMode) (n : Nat) (zero : V)
    (keys : List BfKey) (f : BfFile V) : List (BfFileAct V) × Except PyErr (List (Except PyErr (BfAns V))) :=
  match bfOpen mode n zero f with
  | (acts, .error e) => (acts, .error e)
  | (acts, .ok s) =>
    let (changes, answers) := lazyRequests cal n keys s
    (acts ++ (if mode.writes then changes.map .cell else []), .ok answers)

/-- The file after a history of sessions `(mode, keys, k)`, each of which dies after `k` changes of the file (or
completes, if it makes no more than `k`). -/
def bfHistory (cal : List Nat → BfState V → List (BfAct V)) (n : Nat) (zero : V) :
    List (CacheMode × List BfKey × Nat) → BfFile V → BfFile V
  | [], f => f
  | (mode, keys, k) :: rest, f =>
    bfHistory cal n zero rest (applyBfFile ((bfSession cal mode n zero keys f).1.take k) f)

end Acoular
