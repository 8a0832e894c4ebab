import Verif.Model.Py
import Mathlib.Data.Nat.Notation
import Mathlib.Tactic.TypeStar

/-!
# Model: the registry of open cache files (`acoular/h5cache.py`)

One thread.  Objects are named by `O`, resolved file names by `P`.  A file name occurs as a dictionary key in two
forms, as `Path` object and as `str`; the two are never equal.
-/

namespace Acoular.H5

variable {O P : Type*} [DecidableEq O] [DecidableEq P]

/-- Keys of `open_file_reference`. -/
inductive Key (P : Type*) where
  | path (p : P)
  | str (p : P)
  deriving DecidableEq

/-- acoular/h5cache.py 16-27.  `users`: the live objects whose `h5f` is a file, with that file (at most one entry per
object). `openFiles`: keys of `open_files`; `onDisk`: files that exist. -/
structure Reg (O P : Type*) where
  busy : Bool
  users : List (O × P)
  openFiles : List P
  refs : Key P → Option ℕ
  onDisk : List P

/-- A registry at program start. -/
def Reg.empty (onDisk : List P) : Reg O P := ⟨false, [], [], fun _ => none, onDisk⟩

/-- `obj.h5f` as a file. -/
def fileOf (users : List (O × P)) (o : O) : Option P := (users.find? fun e => e.1 = o).map Prod.snd

/-- What a call does: return, raise, or spin in `_idle_if_busy` for ever (nothing else runs that could reset `busy`). -/
inductive CallOut where
  | returned
  | raised (e : PyErr)
  | blocked
  deriving DecidableEq

/-- acoular/h5cache.py 61-62 (`_increase_file_reference_counter`). -/
def incr (refs : Key P → Option ℕ) (k : Key P) : Key P → Option ℕ :=
  fun x => if x = k then some ((refs k).getD 0 + 1) else refs x

/-- acoular/h5cache.py 64-65 (`_decrease_file_reference_counter`): KeyError if the key is missing. -/
def decr (refs : Key P → Option ℕ) (k : Key P) : Option (Key P → Option ℕ) :=
  match refs k with
  | none => none
  | some n => some fun x => if x = k then some (n - 1) else refs x

/-- acoular/h5cache.py 43-59, 33-35 (`close_unreferenced_cachefiles`, `is_reference_existent`, `close_cachefile`): files
that no live object refers to are closed, their counters removed.  The KeyError that `pop` raises on a missing counter
is not modelled: every open file has one. -/
def closeUnreferenced (r : Reg O P) : Reg O P :=
  let keep := fun p => r.users.any fun e => e.2 = p
  ⟨r.busy, r.users, r.openFiles.filter keep,
    fun k => match k with
      | .path p => if p ∈ r.openFiles ∧ keep p = false then none else r.refs k
      | .str _ => r.refs k,
    r.onDisk⟩

/-- acoular/h5cache.py 82-113 (`get_cache_file`).  `readonly`: `config.global_caching == 'readonly'` at the time of
the call. -/
def getCacheFile (r : Reg O P) (readonly : Bool) (o : O) (p : P) : Reg O P × CallOut :=
  if r.busy then (r, .blocked)
  else if readonly && !(decide (p ∈ r.onDisk)) then
    (⟨false, r.users.filter (fun e => e.1 ≠ o), r.openFiles, r.refs, r.onDisk⟩, .returned)
  else
    match fileOf r.users o with
    | some q =>
      if q = p then (r, .returned)
      else
        match decr r.refs (.str q) with
        | none => (⟨true, r.users, r.openFiles, r.refs, r.onDisk⟩, .raised .keyError)
        | some refs' => (attach r refs', .returned)
    | none => (attach r r.refs, .returned)
where
  /-- acoular/h5cache.py 100-113. -/
  attach (r : Reg O P) (refs : Key P → Option ℕ) : Reg O P :=
    let opened := if p ∈ r.openFiles then r.openFiles else p :: r.openFiles
    let disk := if p ∈ r.onDisk then r.onDisk else p :: r.onDisk
    closeUnreferenced ⟨false, (o, p) :: r.users.filter (fun e => e.1 ≠ o), opened, incr refs (.path p), disk⟩

/-- What happens to the registry: a call, or an object that is no longer referenced. -/
inductive Act (O P : Type*) where
  | call (readonly : Bool) (o : O) (p : P)
  | drop (o : O)

/-- One step. -/
def step (r : Reg O P) : Act O P → Reg O P
  | .call ro o p => (getCacheFile r ro o p).1
  | .drop o => ⟨r.busy, r.users.filter (fun e => e.1 ≠ o), r.openFiles, r.refs, r.onDisk⟩

end Acoular.H5
