import Verif.Model.Cache
import Mathlib.Data.Nat.Notation

/-!
# Beamformers whose settings change between requests (acoular/fbeamform.py 281-449)

Several beamformer objects of one process share the cache file.  Arrays have an identity: an object keeps the arrays it opened (`_ac`, `_fr`)
also after its settings have changed or after another object has replaced the node in the file.  Creating the node is one step
(`Model/Lazy.lean` has the steps in between); the file, once open, can be written; the steps of one request are not interleaved with others.
-/

namespace Acoular

/-- `_ac` and `_fr`, by line. -/
structure BfArrays (V : Type) where
  ac : ℕ → V
  fr : ℕ → Bool

/-- What belongs to a beamformer object. -/
structure BfObject (S : Type) where
  /-- all settings -/
  set : S
  /-- `cached` -/
  cached : Bool
  /-- `_ac` and `_fr`, and the settings of the time when they were opened (`_f` and `_numfreq` stem from these, 425-426) -/
  cur : Option (ℕ × S)
  /-- the value of the property `result` is cached: no announcement of a new `digest` since it was read (418, `property_depends_on`) -/
  fresh : Bool

/-- Cache file, arrays and objects. -/
structure BfWorld (S N V : Type) where
  /-- all arrays ever created, in the file or in memory -/
  arrays : ℕ → BfArrays V
  /-- number of arrays created -/
  next : ℕ
  /-- removed from the file -/
  removed : ℕ → Bool
  /-- the nodes of the cache file by name: name of the class and `digest` (373), and the file (366) -/
  file : N → Option ℕ
  objs : ℕ → BfObject S
  /-- `config.global_caching` -/
  mode : CacheMode

/-- The code the histories are about: name of the node, number of lines and calculation of one line, where the frequency is that of the
settings at the time of opening (first argument) and everything else that of the present ones (508-519); what an array contains when
created. `tables`: PyTables, otherwise h5py. -/
structure BfCode (S N V : Type) where
  node : S → N
  lines : S → ℕ
  line : S → S → ℕ → V
  zero : V
  tables : Bool

variable {S N V : Type}

/-- A new pair of arrays, which becomes that of object `j`. -/
def BfWorld.alloc (w : BfWorld S N V) (j : ℕ) (a : BfArrays V) : BfWorld S N V :=
  { w with
    arrays := fun u => if u = w.next then a else w.arrays u
    next := w.next + 1
    objs := fun u => if u = j then { w.objs j with cur := some (w.next, (w.objs j).set), fresh := true } else w.objs u }

/-- 374-377: in the mode `overwrite` the node is removed if there is one. -/
def BfWorld.unlink [DecidableEq N] (w : BfWorld S N V) (d : N) : BfWorld S N V :=
  match w.file d with
  | none => w
  | some id => { w with file := fun u => if u = d then none else w.file u, removed := fun u => if u = id then true else w.removed u }

/-- `_get_filecache` and the rest of `_get_result` (362-449) with a cache file. -/
def BfWorld.openFile [DecidableEq N] (c : BfCode S N V) (w : BfWorld S N V) (j : ℕ) : BfWorld S N V :=
  let d := c.node (w.objs j).set
  let w := if w.mode = .overwrite then w.unlink d else w
  match w.file d with
  | some id =>
    if w.mode = .readonly then w.alloc j (w.arrays id)
    else { w with objs := fun u => if u = j then { w.objs j with cur := some (id, (w.objs j).set), fresh := true } else w.objs u }
  | none =>
    if w.mode = .readonly then w.alloc j ⟨fun _ => c.zero, fun _ => false⟩
    else { w.alloc j ⟨fun _ => c.zero, fun _ => false⟩ with file := fun u => if u = d then some w.next else w.file u }

/-- `bf.result` (418-449): nothing happens if the value of the property is still cached. -/
def BfWorld.openResult [DecidableEq N] (c : BfCode S N V) (w : BfWorld S N V) (j : ℕ) : BfWorld S N V :=
  if (w.objs j).fresh then w
  else if w.mode = .none ∨ (w.mode = .individual ∧ (w.objs j).cached = false) then w.alloc j ⟨fun _ => c.zero, fun _ => false⟩
  else w.openFile c j

/-- `LazyBfResult.__getitem__` (292-305) with key `i`, of an object returned by `bf.result` now or before: all of them refer to the
beamformer only. Nothing is returned if there is no such object. -/
def BfWorld.getItem (c : BfCode S N V) (w : BfWorld S N V) (j i : ℕ) : BfWorld S N V × Option (Except PyErr V) :=
  match (w.objs j).cur with
  | none => (w, none)
  | some (id, s0) =>
    if c.tables && w.removed id then (w, some (.error .runtimeError))
    else if c.lines s0 ≤ i then (w, some (.error .indexError))
    else if (w.arrays id).fr i then (w, some (.ok ((w.arrays id).ac i)))
    else
      let v := c.line s0 (w.objs j).set i
      let a : BfArrays V := ⟨fun l => if l = i then v else (w.arrays id).ac l, fun l => if l = i then true else (w.arrays id).fr l⟩
      ({ w with arrays := fun u => if u = id then a else w.arrays u }, some (.ok v))

/-- The same, but the process dies between the assignment of the line and that of its flag (518-519). -/
def BfWorld.brokenItem (c : BfCode S N V) (w : BfWorld S N V) (j i : ℕ) : BfWorld S N V :=
  match (w.objs j).cur with
  | none => w
  | some (id, s0) =>
    if (c.tables && w.removed id) || decide (c.lines s0 ≤ i) || (w.arrays id).fr i then w
    else
      let a : BfArrays V := ⟨fun l => if l = i then c.line s0 (w.objs j).set i else (w.arrays id).ac l, (w.arrays id).fr⟩
      { w with arrays := fun u => if u = id then a else w.arrays u }

/-- What can happen. -/
inductive BfOp (S : Type) where
  /-- one or more settings are changed -/
  | change (j : ℕ) (s : S)
  | setCached (j : ℕ) (b : Bool)
  | setMode (m : CacheMode)
  /-- `bf.result[i]` -/
  | request (j i : ℕ)
  /-- `res = bf.result` -/
  | hold (j : ℕ)
  /-- `res[i]` with what was returned by `bf.result` earlier -/
  | held (j i : ℕ)
  /-- the process ends and a new one with the same script begins; its objects have calculated nothing -/
  | restart
  /-- `bf.result[i]`, but the process dies while it is executed, and a new one begins -/
  | died (j i : ℕ)

/-- All objects forget their arrays. -/
def BfWorld.forget (w : BfWorld S N V) : BfWorld S N V :=
  { w with objs := fun u => { w.objs u with cur := none, fresh := false } }

/-- One operation, and what it returns. A trait announces a change only if its value differs. -/
def BfWorld.step [DecidableEq N] [DecidableEq S] (c : BfCode S N V) (w : BfWorld S N V) : BfOp S → BfWorld S N V × Option (Except PyErr V)
  | .change j s =>
    if s = (w.objs j).set then (w, none)
    else ({ w with objs := fun u => if u = j then { w.objs j with set := s, fresh := false } else w.objs u }, none)
  | .setCached j b => ({ w with objs := fun u => if u = j then { w.objs j with cached := b } else w.objs u }, none)
  | .setMode m => ({ w with mode := m }, none)
  | .request j i => (w.openResult c j).getItem c j i
  | .hold j => (w.openResult c j, none)
  | .held j i => w.getItem c j i
  | .restart => (w.forget, none)
  | .died j i => (((w.openResult c j).brokenItem c j i).forget, none)

/-- A history. -/
def BfWorld.run [DecidableEq N] [DecidableEq S] (c : BfCode S N V) (w : BfWorld S N V) (ops : List (BfOp S)) : BfWorld S N V :=
  ops.foldl (fun w op => (w.step c op).1) w

/-- Objects with the given settings, in a process that has just begun, without cache file. -/
def BfWorld.init (c : BfCode S N V) (sets : ℕ → S) (mode : CacheMode) : BfWorld S N V where
  arrays := fun _ => ⟨fun _ => c.zero, fun _ => false⟩
  next := 0
  removed := fun _ => false
  file := fun _ => none
  objs := fun j => ⟨sets j, true, none, false⟩
  mode := mode

end Acoular
