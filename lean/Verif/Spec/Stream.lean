/-!
# Specification of block-wise streaming

The vocabulary used by the property theorems about generators `result(num)`.
Nothing in this file refers to the model of the code.
-/

namespace Acoular.Spec

/-- The documented contract of every `result(num)` generator (`acoular/base.py` 62-86, 149-172: "blocks
of shape (num, num_channels); the last block may be shorter than num"): the blocks, put one after the
other, are the data; all blocks but the last have exactly `num` rows; the last one has at least one and
at most `num` rows. -/
structure IsBlocking {α : Type _} (num : Nat) (data : List α) (blocks : List (List α)) : Prop where
  /-- nothing lost, nothing repeated, order kept -/
  cover : blocks.flatten = data
  /-- all blocks but the last are full -/
  full : ∀ b ∈ blocks.dropLast, b.length = num
  /-- the last block is neither empty nor too long -/
  last : ∀ b, blocks.getLast? = some b → 0 < b.length ∧ b.length ≤ num

/-- Cutting `data` into blocks of `num` rows, block `k` holding rows `k*num, ..., k*num+num-1`. -/
def chunks {α : Type _} (num : Nat) (data : List α) : List (List α) :=
  (List.range ((data.length + num - 1) / num)).map fun k => (data.drop (k * num)).take num

/-- The entries of `data` whose position satisfies `p`, in order. -/
def selectIdx {α : Type _} (p : Nat → Bool) (data : List α) : List α :=
  (data.zipIdx.filter fun x => p x.2).map Prod.fst

end Acoular.Spec

namespace Acoular.Spec

/-- Python's meaning of `data[start:stop]` for a sequence of `n` entries: entry `i` is selected iff it
lies at or after `start` and before `stop`, negative bounds counting from the end, `stop = None` meaning
"to the end". -/
def inPySlice (start : Int) (stop : Option Int) (n i : Nat) : Bool :=
  let resolve (v : Int) : Int := if v < 0 then v + n else v
  decide (resolve start ≤ i) && (match stop with | none => true | some v => decide ((i : Int) < resolve v))

/-- Channel `i` is valid: not listed as invalid. -/
def validChannel (invalid : List Int) (i : Nat) : Bool := !invalid.contains (i : Int)

end Acoular.Spec
