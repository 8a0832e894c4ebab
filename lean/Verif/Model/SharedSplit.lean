import Verif.Model.HeapChain

/-!
# Consumers of a sample splitter share arrays

`SampleSplitter.result` (acoular/process.py 383-675) with the arrays behind the blocks: a block of the source is put into the buffers of all
registered objects without being copied.  Buffers are long enough here (their size and what happens then: `Verif/Model/Splitter.lean`); one thread.
-/

namespace Acoular

variable {V : Type}

/-- Traits of a `SampleSplitter` during a run (acoular/process.py 470-497): memory, what is left of the source generator, `block_buffer` (the block
popped next first). -/
structure SharedSplit (V : Type) where
  mem : Memory V
  rest : List (Deed V)
  queue : Nat → List View

/-- `yield self.block_buffer[calling_obj].pop()` (acoular/process.py 665): the consumer `o` looks at the block when it gets it and then does
`env o` to the memory before anybody asks for the next one. -/
def SharedSplit.pop (env : Nat → View → Memory V → Memory V) (o : Nat) (s : SharedSplit V) : SharedSplit V × Option (List V) :=
  match s.queue o with
  | [] => (s, none)
  | r :: q => (⟨env o r s.mem, s.rest, fun p => if p = o then q else s.queue p⟩, some (s.mem.read r))

/-- One `next` of the generator of a registered object `o` (acoular/process.py 663-672): its oldest block if there is one, otherwise the source is
asked (`_fill_block_buffers`, 541-543) and what it hands out is put into the buffers of all registered objects; `none`: the generator ends. -/
def SharedSplit.next (objs : List Nat) (env : Nat → View → Memory V → Memory V) (o : Nat) (s : SharedSplit V) : SharedSplit V × Option (List V) :=
  match s.queue o with
  | _ :: _ => s.pop env o
  | [] =>
    match nextDeed s.rest with
    | (as, none) => (⟨afterDeeds s.mem as, [], s.queue⟩, none)
    | (as, some (r, rest)) =>
      SharedSplit.pop env o ⟨afterDeeds s.mem as, rest, fun p => if p ∈ objs then s.queue p ++ [r] else s.queue p⟩

/-- What the objects get in turn, and the state afterwards. -/
def SharedSplit.run (objs : List Nat) (env : Nat → View → Memory V → Memory V) : SharedSplit V → List Nat → SharedSplit V × List (Nat × Option (List V))
  | s, [] => (s, [])
  | s, o :: os =>
    let n := s.next objs env o
    let rr := SharedSplit.run objs env n.1 os
    (rr.1, (o, n.2) :: rr.2)

/-- `_create_source_generator` (acoular/process.py 534-539) at the first request; the source is connected at the place `[0]`. -/
def SharedSplit.start [Add V] (m : Memory V) (source : HObj V) (num : Nat) : SharedSplit V := ⟨m, source.deeds [0] num, fun _ => []⟩

/-- What the object `o` got, `none` at its end. -/
def gotten (o : Nat) (outs : List (Nat × Option (List V))) : List (Option (List V)) := outs.filterMap fun x => if x.1 = o then some x.2 else none

end Acoular
