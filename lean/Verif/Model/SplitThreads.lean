import Verif.Model.Splitter

/-!
# `SampleSplitter` used by several threads (acoular/process.py 36-76, 509-549, 656-675)

Each registered object iterates its generator of `SampleSplitter.result(num)` in a thread of its own.  One step is one access to shared
data by one thread: the order of the steps of different threads is arbitrary.  Operations of a `deque` are atomic, and so is
`next` of the `LockedGenerator`, which holds a lock; nothing else is locked.
-/

namespace Acoular

/-- Where a thread is in `SampleSplitter.result`. -/
inductive SplitPc (β : Type)
  /-- before the test of `_source_generator_exist`, 660 -/
  | start
  /-- before `_create_source_generator`, 661 -/
  | create
  /-- before the test of `_buffer_overflow`, 663 -/
  | head
  /-- before the test of its own buffer, 664 -/
  | check
  /-- before `pop`, 665 -/
  | pop
  /-- in `_inspect_buffer_levels`, 525-532: these objects are still to be inspected -/
  | inspect (rest : List Nat)
  /-- before `next(self._source_generator)`, 542 -/
  | fetch
  /-- in the list comprehension of 543: this block is still to be appended to the buffers of these objects -/
  | give (b : β) (rest : List Nat)
  /-- the generator has returned, 669-671 -/
  | done
  /-- `OSError` for an overflow, 672-674 -/
  | raised
  /-- `IndexError`: `pop` from an empty deque -/
  | indexError
  deriving DecidableEq, Repr

/-- Shared data and threads. `out o` is what object `o` received so far, in order. -/
structure SplitThreads (β : Type) where
  objs : List Nat
  cap : Nat → Nat
  treat : Nat → Treatment
  globalSize : Option Nat
  queue : Nat → List β
  src : List β
  sourceExists : Bool
  overflow : Bool
  pc : Nat → SplitPc β
  out : Nat → List β

/-- Thread `t` goes on at `p`. -/
def SplitThreads.goto {β : Type} (s : SplitThreads β) (t : Nat) (p : SplitPc β) : SplitThreads β :=
  { s with pc := fun u => if u = t then p else s.pc u }

/-- `_get_objs_to_inspect`, 522-523. -/
def SplitThreads.inspected {β : Type} (s : SplitThreads β) : List Nat := s.objs.filter fun o => decide (s.treat o ≠ .none)

/-- One step of thread `t`; `all` is what a new generator of the source delivers.  Creating the source generator (534-539) is one
step here. -/
def SplitThreads.step {β : Type} (all : List β) (s : SplitThreads β) (t : Nat) : SplitThreads β :=
  match s.pc t with
  | .start => s.goto t (if s.sourceExists then .head else .create)
  | .create => ({ s with queue := fun o => if o ∈ s.objs then [] else s.queue o, overflow := false, src := all, sourceExists := true } : SplitThreads β).goto t .head
  | .head => s.goto t (if s.overflow then .raised else .check)
  | .check => s.goto t (if (s.queue t).isEmpty then .inspect s.inspected else .pop)
  | .pop => match s.queue t with
    | [] => s.goto t .indexError
    | b :: q => ({ s with queue := fun o => if o = t then q else s.queue o, out := fun o => if o = t then s.out o ++ [b] else s.out o } : SplitThreads β).goto t .head
  | .inspect [] => s.goto t .fetch
  | .inspect (o :: rest) => ({ s with overflow := s.overflow || decide (s.treat o = .error ∧ some (s.queue o).length = s.globalSize) } : SplitThreads β).goto t (.inspect rest)
  | .fetch => match s.src with
    | [] => ({ s with sourceExists := false } : SplitThreads β).goto t .done
    | b :: rest => ({ s with src := rest } : SplitThreads β).goto t (.give b s.objs)
  | .give _ [] => s.goto t .head
  | .give b (o :: rest) => ({ s with queue := fun p => if p = o then dequePush (s.cap o) (s.queue o) b else s.queue p } : SplitThreads β).goto t (.give b rest)
  | .done | .raised | .indexError => s

/-- A schedule: the threads in the order of their steps. -/
def SplitThreads.run {β : Type} (all : List β) (s : SplitThreads β) (sched : List Nat) : SplitThreads β := sched.foldl (SplitThreads.step all) s

/-- Registered objects, nothing requested yet (499-507, 551-587). -/
def SplitThreads.init {β : Type} (objs : List Nat) (cap : Nat → Nat) (treat : Nat → Treatment) (globalSize : Option Nat) : SplitThreads β :=
  { objs, cap, treat, globalSize, queue := fun _ => [], src := [], sourceExists := false, overflow := false, pc := fun _ => .start,
    out := fun _ => [] }

end Acoular
