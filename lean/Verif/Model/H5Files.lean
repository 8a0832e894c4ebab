import Verif.Model.Stream
import Mathlib.Data.Nat.Notation

/-!
# Recording to and loading from `.h5` files (`acoular/h5files.py`, `WriteH5` in `acoular/tprocess.py`, `TimeSamples` in
`acoular/sources.py`)

A file is what the two libraries store: the array `time_data` with its attribute `sample_freq`, and the group `metadata`.
Rows have type `α`, other stored values type `ν`.
-/

namespace Acoular

/-- Entry of the dictionary `metadata` of `WriteH5` (acoular/tprocess.py 1870): a string or something else. -/
inductive MetaVal (ν : Type) where
  | str (s : List Char)
  | other (v : ν)
  deriving DecidableEq

/-- What is stored for it: bytes or the value. -/
inductive StoredVal (ν : Type) where
  | bytes (s : List Char)
  | other (v : ν)
  deriving DecidableEq

/-- acoular/tprocess.py 1905-1906: `array(value, dtype='S')` encodes as ASCII and raises `UnicodeEncodeError`, a
`ValueError`, for other characters. (Zero bytes at the end, which numpy drops, are not modelled.) -/
def MetaVal.store {ν : Type} : MetaVal ν → Except PyErr (StoredVal ν)
  | .str s => if s.all fun c => decide (c.toNat < 128) then .ok (.bytes s) else .error .valueError
  | .other v => .ok (.other v)

/-- Nodes of a file below `/metadata`. -/
inductive H5Node (ν : Type) where
  | leaf (v : StoredVal ν)
  | group (entries : List (List Char × H5Node ν))

/-- The libraries: PyTables with its check of node names, h5py. -/
inductive H5Lib where
  | tables (valid : List Char → Bool)
  | h5py

/-- The components of a path as HDF5 reads it; empty ones are ignored. -/
def splitSlash : List Char → List (List Char)
  | [] => [[]]
  | c :: cs =>
    if c = '/' then [] :: splitSlash cs
    else match splitSlash cs with
      | [] => [[c]]
      | h :: t => (c :: h) :: t

/-- Path of a key below `/metadata` (acoular/h5files.py 130-131, h5py: `create_dataset(f'{where}/{name}')`). -/
def keyPath (key : List Char) : List (List Char) := (splitSlash key).filter fun c => !c.isEmpty

/-- Name already taken. -/
def lookupEntry {ν : Type} (k : List Char) (es : List (List Char × H5Node ν)) : Option (H5Node ν) :=
  match es with
  | [] => none
  | e :: es => if e.1 = k then some e.2 else lookupEntry k es

/-- `h5py.Group.create_dataset` with a path: groups in between are created; a name that exists raises `ValueError`. -/
def insertPath {ν : Type} (v : StoredVal ν) : List (List Char) → List (List Char × H5Node ν) →
    Except PyErr (List (List Char × H5Node ν))
  | [], _ => .error .valueError
  | [k], es => match lookupEntry k es with
    | none => .ok (es ++ [(k, .leaf v)])
    | some _ => .error .valueError
  | k :: ks, es => match lookupEntry k es with
    | none => match insertPath v ks [] with
      | .ok sub => .ok (es ++ [(k, .group sub)])
      | .error e => .error e
    | some (.leaf _) => .error .valueError
    | some (.group sub) => match insertPath v ks sub with
      | .ok sub => .ok (es.map fun e => if e.1 = k then (k, .group sub) else e)
      | .error e => .error e

/-- `create_array('/metadata', key, value)`: acoular/h5files.py 132-133 (h5py), `tables.File.create_array` (PyTables), which
refuses names that are not valid and names that exist (`NodeError`, here `ValueError`). -/
def createArray {ν : Type} (lib : H5Lib) (es : List (List Char × H5Node ν)) (key : List Char) (v : StoredVal ν) :
    Except PyErr (List (List Char × H5Node ν)) :=
  match lib with
  | .tables valid => if valid key then insertPath v [key] es else .error .valueError
  | .h5py => insertPath v (keyPath key) es

/-- The loop of `WriteH5.add_metadata` (acoular/tprocess.py 1904-1907): what is in the group at the end or when an exception
is raised, and the exception. -/
def addEntries {ν : Type} (lib : H5Lib) : List (List Char × MetaVal ν) → List (List Char × H5Node ν) →
    List (List Char × H5Node ν) × Option PyErr
  | [], es => (es, none)
  | (k, v) :: rest, es =>
    match v.store with
    | .error e => (es, some e)
    | .ok v => match createArray lib es k v with
      | .error e => (es, some e)
      | .ok es => addEntries lib rest es

/-- A file. -/
structure Recording (α ν : Type) where
  /-- `time_data` and the length of its rows -/
  rows : List α
  channels : ℕ
  /-- attribute `sample_freq` of `time_data` -/
  freq : ν
  /-- group `metadata`, if there is one -/
  info : Option (List (List Char × H5Node ν))

/-- Settings of `WriteH5` and its source. -/
structure WriteSet (α β ν : Type) where
  lib : H5Lib
  channels : ℕ
  freq : ν
  info : List (List Char × MetaVal ν)
  /-- conversion to `precision` -/
  cast : α → β

/-- `WriteH5.get_initialized_file` (acoular/tprocess.py 1881-1889) and `add_metadata` (1899-1907): the file is opened with mode
`'w'`, that is, emptied, before anything else. -/
def WriteSet.init {α β ν : Type} (s : WriteSet α β ν) : Recording β ν × Option PyErr :=
  let f : Recording β ν := ⟨[], s.channels, s.freq, none⟩
  if s.info.length > 0 then
    let r := addEntries s.lib s.info []
    ({ f with info := some r.1 }, r.2)
  else (f, none)

/-- `WriteH5.save` (acoular/tprocess.py 1891-1897); `blocks` are those of `source.result(4096)`. -/
def WriteSet.save {α β ν : Type} (s : WriteSet α β ν) (blocks : List (List α)) : Recording β ν × Option PyErr :=
  match s.init with
  | (f, some e) => (f, some e)
  | (f, none) => ({ f with rows := blocks.foldl (fun rows b => rows ++ b.map s.cast) f.rows }, none)

/-- The file (flushed after every block) when `WriteH5.result(num)` has yielded `k` blocks and is not continued
(acoular/tprocess.py 1928-1949): the generator has run through the loop for the first `k` blocks of the source. -/
def WriteSet.after {α β ν : Type} (s : WriteSet α β ν) (blocks : List (List α)) (limit : Int) (num : ℕ) (flags : ℕ → Bool) (k : ℕ) :
    Recording β ν × Option PyErr :=
  match s.init with
  | (f, some e) => (f, some e)
  | (f, none) => ({ f with rows := f.rows ++ (WriteH5.result (blocks.take k) limit num flags).1.map s.cast }, none)

/-- Result of `node_to_dict`: a node of the file or a dictionary. -/
inductive MetaOut (ν : Type) where
  | node (v : StoredVal ν)
  | dict (entries : List (List Char × MetaOut ν))

mutual
/-- `node_to_dict` (acoular/h5files.py 94-109, 164-178). Groups written by `WriteH5` have no attributes of their own. -/
def nodeToDict {ν : Type} : H5Node ν → MetaOut ν
  | .leaf v => .node v
  | .group es => .dict (entriesToDict es)
/-- The loop over the children. (The order in which the libraries list them is left open.) -/
def entriesToDict {ν : Type} : List (List Char × H5Node ν) → List (List Char × MetaOut ν)
  | [] => []
  | (k, e) :: es => (k, nodeToDict e) :: entriesToDict es
end

/-- `TimeSamples`: the traits set when a file is loaded. -/
structure TsState (β ν : Type) where
  file : List Char
  data : List β
  numSamples : ℕ
  numChannels : ℕ
  freq : ν
  info : List (List Char × MetaOut ν)

/-- What a user does. -/
inductive TsOp (β ν : Type) where
  | setFile (p : List Char)
  | setData (d : List β) (channels : ℕ)
  | setFreq (f : ν)

/-- `_load_data`, `_load_timedata`, `_load_metadata`, `_load_shapes` (acoular/sources.py 418-444; 636-662 for
`MaskedTimeSamples`, where the two numbers are the `_total` ones). -/
def TsState.load {β ν : Type} (_ : TsState β ν) (p : List Char) (r : Recording β ν) : TsState β ν where
  file := p
  data := r.rows
  numSamples := r.rows.length
  numChannels := r.channels
  freq := r.freq
  info := match r.info with
    | none => []
    | some es => entriesToDict es

/-- Assignments to the traits. `file` must exist (sources.py 372, `TraitError`); assigning the value it has announces no change;
otherwise `basename`, a property of `file` (375), announces a change and `_load_data` is called. -/
def TsState.step {β ν : Type} (disk : List Char → Option (Recording β ν)) (s : TsState β ν) : TsOp β ν → Except PyErr (TsState β ν)
  | .setFile p => match disk p with
    | none => .error .traitError
    | some r => .ok (if p = s.file then s else s.load p r)
  | .setData d n => .ok { s with data := d, numSamples := d.length, numChannels := n }
  | .setFreq f => .ok { s with freq := f }

/-- A history; a failed assignment changes nothing. -/
def TsState.run {β ν : Type} (disk : List Char → Option (Recording β ν)) (s : TsState β ν) : List (TsOp β ν) → TsState β ν
  | [] => s
  | op :: ops => match s.step disk op with
    | .error _ => s.run disk ops
    | .ok s' => s'.run disk ops

end Acoular
