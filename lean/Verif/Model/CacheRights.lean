import Verif.Model.Cache
import Verif.Model.Py
import Mathlib.Data.Nat.Notation

/-!
# Access rights of an open cache file (`acoular/h5cache.py`, `acoular/spectra.py`)

One cache file, any number of objects that keep results in it under node names. The file is opened for reading only or for
reading and writing, once for all objects. One thread; PyTables (an open file stays in `open_files` until it is closed).
-/

namespace Acoular

/-- The cache file and the objects. -/
structure RightsWorld (O N V : Type) where
  /-- `config.global_caching` -/
  mode : CacheMode
  /-- the attribute `cached` of the objects -/
  cached : O → Bool
  /-- the file exists -/
  onDisk : Bool
  /-- the nodes of the file -/
  nodes : N → Option V
  /-- the entry of `open_files`: `some true` if opened with mode `'a'`, `some false` with mode `'r'` -/
  handle : Option Bool
  /-- objects whose `h5f` is this file -/
  users : List O

/-- What happens. -/
inductive RightsAct (O N : Type) where
  /-- `config.global_caching = m` -/
  | setMode (m : CacheMode)
  /-- `obj.cached = b` -/
  | setCached (o : O) (b : Bool)
  /-- a result of an object is requested (and not kept in memory by it) -/
  | request (o : O) (n : N)
  /-- the object is deleted -/
  | drop (o : O)
  /-- some object attaches another cache file -/
  | other
  /-- end of the process, new process -/
  | restart

variable {O N V : Type} [DecidableEq O] [DecidableEq N]

/-- `get_cache_file` (acoular/h5cache.py 82-113) reduced to one file and the rights; the result says whether `obj.h5f` is the
file. -/
def RightsWorld.getFile (w : RightsWorld O N V) (o : O) : RightsWorld O N V × Bool :=
  if w.mode = .readonly ∧ w.onDisk = false then ({ w with users := w.users.filter (· ≠ o) }, false)
  else if o ∈ w.users then (w, true)
  else
    ({ w with
        handle := some (w.handle.getD (decide (w.mode ≠ .readonly)))
        onDisk := true
        users := o :: w.users }, true)

/-- `_get_filecache` (acoular/spectra.py 512-532; the same order of operations in acoular/fbeamform.py 368-410 and 1024-1048).
Writing to a file that is open for reading only raises (`FileModeError` is a `ValueError`). `value n`: what is calculated. -/
def RightsWorld.fileCache (value : N → V) (w : RightsWorld O N V) (o : O) (n : N) : RightsWorld O N V × Except PyErr V :=
  match w.getFile o with
  | (w, false) => (w, .ok (value n))
  | (w, true) =>
    let writable := w.handle = some true
    if w.mode = .overwrite ∧ (w.nodes n).isSome ∧ ¬ writable then (w, .error .valueError)
    else
      let w := if w.mode = .overwrite then { w with nodes := fun k => if k = n then none else w.nodes k } else w
      match w.nodes n with
      | some v => (w, .ok v)
      | none =>
        if w.mode = .readonly then (w, .ok (value n))
        else if writable then ({ w with nodes := fun k => if k = n then some (value n) else w.nodes k }, .ok (value n))
        else (w, .error .valueError)

/-- `_get_csm`, `_get_eva`, `_get_eve` (acoular/spectra.py 534-550). -/
def RightsWorld.request (value : N → V) (w : RightsWorld O N V) (o : O) (n : N) : RightsWorld O N V × Except PyErr V :=
  if w.mode = .none ∨ (w.mode = .individual ∧ w.cached o = false) then (w, .ok (value n)) else w.fileCache value o n

/-- One step; requests have a result. `other`: `close_unreferenced_cachefiles` (acoular/h5cache.py 43-46). -/
def RightsWorld.step (value : N → V) (w : RightsWorld O N V) : RightsAct O N → RightsWorld O N V × Option (Except PyErr V)
  | .setMode m => ({ w with mode := m }, none)
  | .setCached o b => ({ w with cached := fun u => if u = o then b else w.cached u }, none)
  | .request o n => ((w.request value o n).1, some (w.request value o n).2)
  | .drop o => ({ w with users := w.users.filter (· ≠ o) }, none)
  | .other => (if w.users = [] then { w with handle := none } else w, none)
  | .restart => ({ w with handle := none, users := [] }, none)

/-- All steps of a history, with the requested nodes and the results. -/
def RightsWorld.run (value : N → V) : List (RightsAct O N) → RightsWorld O N V → RightsWorld O N V × List (N × Except PyErr V)
  | [], w => (w, [])
  | a :: as, w =>
    let r := w.step value a
    let t := RightsWorld.run value as r.1
    (t.1, (match a, r.2 with | .request _ n, some x => [(n, x)] | _, _ => []) ++ t.2)

end Acoular
