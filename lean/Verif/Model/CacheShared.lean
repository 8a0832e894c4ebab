import Verif.Model.Cache

/-!
# Several generators of one cached source at the same time (acoular/process.py 265-380)

A step is one `next` of one of the generators, as when two branches of a chain read from the same `Cache` object.  Array nodes have an
identity: a generator keeps the node it works on (`ac`) also after another one has removed it from the file and created a new node of the
same name.
-/

namespace Acoular

/-- Where a generator of `Cache.result` is. -/
inductive CacheGen (α : Type)
  /-- nothing requested yet: `config.global_caching` at the first request and the block size -/
  | fresh (mode : CacheMode) (num : Nat)
  /-- in `_pass_data`, 265-266; the blocks still to come -/
  | pass (rest : List (List α))
  /-- in `_get_data_from_cache`, 281-287 -/
  | read (num id i : Nat)
  /-- in the first loop of `_get_data_from_incomplete_cache`, 292-297 -/
  | scan (num id i nblocks : Nat)
  /-- in the loop of `_write_data_to_cache`, 270-278, or in the second loop of `_get_data_from_incomplete_cache` after its first yield,
  299-308; the blocks still to come -/
  | write (id : Nat) (rest : List (List α))
  | ended
  | failed (e : PyErr)
  deriving DecidableEq, Repr

/-- The file, all nodes ever created, the one that has the name `'tc_' + digest` now, the generators, and what they delivered. -/
structure CacheWorld (α : Type) where
  file : Bool
  nodes : List (CacheNode α)
  linked : Option Nat
  gen : Nat → CacheGen α
  out : Nat → List (List α)

variable {α : Type}

/-- Generator `g` delivers `o` (no or one block) and goes on at `st`. -/
def CacheWorld.put (w : CacheWorld α) (g : Nat) (st : CacheGen α) (o : List (List α)) : CacheWorld α :=
  { w with gen := fun u => if u = g then st else w.gen u, out := fun u => if u = g then w.out u ++ o else w.out u }

/-- Whether using node `id` raises. PyTables (`tables`) closes a node and clears its attributes when it is removed (80-81 of h5files.py), so
that every further use raises (which exception is not distinguished, shown as `runtimeError`); with h5py (155-157) a removed dataset stays
usable for those who hold it. -/
def CacheWorld.gone (tables : Bool) (w : CacheWorld α) (id : Nat) : Bool := tables && decide (w.linked ≠ some id)

/-- 265-266 -/
def CacheWorld.stepPass (w : CacheWorld α) (g : Nat) : List (List α) → CacheWorld α
  | [] => w.put g .ended []
  | b :: rest => w.put g (.pass rest) [b]

/-- 281-287 -/
def CacheWorld.stepRead (tables : Bool) (w : CacheWorld α) (g num id i : Nat) : CacheWorld α :=
  if w.gone tables id then w.put g (.failed .runtimeError) []
  else match w.nodes[id]? with
    | none => w.put g (.failed .keyError) []
    | some n => if i < n.rows.length then w.put g (.read num id (i + num)) [slice n.rows i (i + num)] else w.put g .ended []

/-- Up to the first yield of a writing generator: the node is created, the first `skip` blocks are appended but not delivered, and the next
one is delivered (270-278 with `skip = 0`, 299-308 with `skip = nblocks`); without a further block the node is marked complete (279, 309).
A source without any block: 279 or 309 raises. -/
def CacheWorld.beginWrite (w : CacheWorld α) (g : Nat) (blocks : List (List α)) (skip : Nat) (e : PyErr) : CacheWorld α :=
  if blocks = [] then ({ w with linked := none } : CacheWorld α).put g (.failed e) []
  else match blocks.drop skip with
    | [] => ({ w with nodes := w.nodes ++ [⟨blocks.flatten, some true⟩], linked := some w.nodes.length } : CacheWorld α).put g .ended []
    | b :: rest => ({ w with nodes := w.nodes ++ [⟨(blocks.take skip).flatten ++ b, some false⟩], linked := some w.nodes.length } :
        CacheWorld α).put g (.write w.nodes.length rest) [b]

/-- 289-298: read what is there, as long as there is a full block (the length is looked up again each time), then remove the node. -/
def CacheWorld.stepScan (tables : Bool) (source : Nat → List (List α)) (w : CacheWorld α) (g num id i nblocks : Nat) : CacheWorld α :=
  if w.gone tables id then w.put g (.failed .runtimeError) []
  else match w.nodes[id]? with
    | none => w.put g (.failed .keyError) []
    | some n => if i + num ≤ n.rows.length then w.put g (.scan num id (i + num) (nblocks + 1)) [slice n.rows i (i + num)]
      else w.beginWrite g (source num) nblocks .runtimeError

/-- 276-279, 305-309 -/
def CacheWorld.stepWrite (tables : Bool) (w : CacheWorld α) (g id : Nat) (rest : List (List α)) : CacheWorld α :=
  if w.gone tables id then w.put g (.failed .runtimeError) []
  else match w.nodes[id]? with
    | none => w.put g (.failed .keyError) []
    | some n => match rest with
      | [] => ({ w with nodes := w.nodes.set id { n with complete := some true } } : CacheWorld α).put g .ended []
      | b :: rest => ({ w with nodes := w.nodes.set id { n with rows := n.rows ++ b } } : CacheWorld α).put g (.write id rest) [b]

/-- One `next` of generator `g`; the choice of the method is 346-380. `source num` is `list(self.source.result(num))`. -/
def CacheWorld.step (tables : Bool) (source : Nat → List (List α)) (w : CacheWorld α) (g : Nat) : CacheWorld α :=
  match w.gen g with
  | .fresh .none num => w.stepPass g (source num)
  | .fresh .readonly num =>
    match w.linked with
    | none => w.stepPass g (source num)
    | some id =>
      if w.file ∧ (w.nodes[id]?.bind CacheNode.complete) = some true then w.stepRead tables g num id 0
      else w.stepPass g (source num)
  | .fresh .overwrite num => ({ w with file := true } : CacheWorld α).beginWrite g (source num) 0 .unboundLocalError
  | .fresh .individual num | .fresh .all num =>
    match w.linked with
    | none => ({ w with file := true } : CacheWorld α).beginWrite g (source num) 0 .unboundLocalError
    | some id =>
      if (w.nodes[id]?.bind CacheNode.complete) = some true then w.stepRead tables g num id 0
      else w.stepScan tables source g num id 0 0
  | .pass rest => w.stepPass g rest
  | .read num id i => w.stepRead tables g num id i
  | .scan num id i nblocks => w.stepScan tables source g num id i nblocks
  | .write id rest => w.stepWrite tables g id rest
  | .ended | .failed _ => w

/-- A schedule of requests. -/
def CacheWorld.run (tables : Bool) (source : Nat → List (List α)) (w : CacheWorld α) (sched : List Nat) : CacheWorld α :=
  sched.foldl (CacheWorld.step tables source) w

/-- The file as `Model/Cache.lean` sees it. -/
def CacheWorld.view (w : CacheWorld α) : CacheFile α :=
  if w.file then some (w.linked.bind fun id => w.nodes[id]?) else none

/-- Generators with the given modes and block sizes on a file in any state. -/
def CacheWorld.init (f : CacheFile α) (req : Nat → CacheMode × Nat) : CacheWorld α :=
  { file := f.isSome
    nodes := match f with | some (some n) => [n] | _ => []
    linked := match f with | some (some _) => some 0 | _ => none
    gen := fun g => .fresh (req g).1 (req g).2
    out := fun _ => [] }

end Acoular
