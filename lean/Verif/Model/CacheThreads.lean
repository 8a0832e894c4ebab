import Mathlib.Data.Nat.Notation
import Mathlib.Tactic.TypeStar

/-!
# `HDF5Cache.get_cache_file` called by several threads (acoular/h5cache.py 29-31, 82-112)

Thread `t` calls `get_cache_file` once, for an object of its own and the file `want t`.  One step is one access to shared data.
Reference counters, the closing of unreferenced files and the mode 'readonly' are those of `Model/H5Cache.lean` and left out here:
every object keeps its file.
-/

namespace Acoular

/-- Where a thread is in `get_cache_file`. -/
inductive CachePc
  /-- in `while self.busy`, 29-31 -/
  | wait
  /-- before `self.busy = True`, 85 -/
  | enter
  /-- before `filename not in self.open_files`, 100 -/
  | lookup
  /-- before opening and registering the file, 103-104 -/
  | opening
  /-- before `obj.h5f = self.open_files[filename]`, 106 -/
  | attach
  /-- before `self.busy = False`, 111 -/
  | leave
  | done
  /-- the library refused to open the file -/
  | raised
  deriving DecidableEq, Repr

/-- Shared data and threads: files are numbered in the order in which they are opened; `opened` are their names. -/
structure CacheThreads (P : Type) where
  busy : Bool
  files : P → Option ℕ
  opened : List P
  pc : ℕ → CachePc
  handle : ℕ → Option ℕ

/-- Thread `t` goes on at `p`. -/
def CacheThreads.goto {P : Type} (s : CacheThreads P) (t : ℕ) (p : CachePc) : CacheThreads P :=
  { s with pc := fun u => if u = t then p else s.pc u }

/-- One step of thread `t`.  `twice`: the library opens a file that is open for writing already a second time (h5py); otherwise
(PyTables) this raises, and `busy` is not reset. -/
def CacheThreads.step {P : Type} [DecidableEq P] (twice : Bool) (want : ℕ → P) (s : CacheThreads P) (t : ℕ) : CacheThreads P :=
  match s.pc t with
  | .wait => if s.busy then s else s.goto t .enter
  | .enter => ({ s with busy := true } : CacheThreads P).goto t .lookup
  | .lookup => s.goto t (if (s.files (want t)).isNone then .opening else .attach)
  | .opening =>
    if twice = false ∧ want t ∈ s.opened then s.goto t .raised
    else ({ s with files := fun p => if p = want t then some s.opened.length else s.files p, opened := s.opened ++ [want t] } : CacheThreads P).goto t .attach
  | .attach => ({ s with handle := fun u => if u = t then s.files (want t) else s.handle u } : CacheThreads P).goto t .leave
  | .leave => ({ s with busy := false } : CacheThreads P).goto t .done
  | .done | .raised => s

/-- A schedule. -/
def CacheThreads.run {P : Type} [DecidableEq P] (twice : Bool) (want : ℕ → P) (s : CacheThreads P) (sched : List ℕ) : CacheThreads P :=
  sched.foldl (CacheThreads.step twice want) s

/-- No file is open and every thread is about to call. -/
def CacheThreads.init (P : Type) : CacheThreads P := ⟨false, fun _ => none, [], fun _ => .wait, fun _ => none⟩

end Acoular
