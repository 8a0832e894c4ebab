import Verif.Model.Stream

/-!
# Model of `Cache` (acoular/process.py 197-380)

One cache file and one node name (`'tc_' + digest`).  A run of `Cache.result` is a sequence of file
operations and yields; an abandoned or killed run executes only a prefix of it.
-/

namespace Acoular

/-- `config.global_caching`, `acoular/configuration.py` 85-95. -/
inductive CacheMode
  | individual | all | none | readonly | overwrite
  deriving DecidableEq, Repr

/-- The array node: its rows, and the attribute `complete` (absent directly after creation). -/
structure CacheNode (α : Type _) where
  rows : List α
  complete : Option Bool
  deriving DecidableEq, Repr

/-- `none`: the file does not exist; `some none`: the file holds no node for this digest. -/
abbrev CacheFile (α : Type _) := Option (Option (CacheNode α))

/-- File operations (`acoular/h5files.py` 59-200) and yields.  `flush` changes nothing in the model. -/
inductive CacheAct (α : Type _)
  | openCreate                       -- file_cls(filename, 'a')
  | create                           -- create_extendable_array
  | setComplete (b : Bool)           -- set_node_attribute(ac, 'complete', b)
  | append (rows : List α)           -- append_data
  | remove                           -- remove_data
  | yld (block : List α)
  | fail (e : PyErr)
  deriving DecidableEq, Repr

/-- Effect of one action on the file. -/
def CacheAct.apply {α : Type _} : CacheAct α → CacheFile α → CacheFile α
  | .openCreate, f => some (f.getD none)
  | .create, f => f.map fun _ => some ⟨[], none⟩
  | .setComplete b, f => f.map fun n => n.map fun n => { n with complete := some b }
  | .append rows, f => f.map fun n => n.map fun n => { n with rows := n.rows ++ rows }
  | .remove, f => f.map fun _ => none
  | .yld _, f => f
  | .fail _, f => f

/-- File after a list of actions. -/
def applyActs {α : Type _} (acts : List (CacheAct α)) (f : CacheFile α) : CacheFile α :=
  acts.foldl (fun f a => a.apply f) f

/-- The blocks yielded by a list of actions. -/
def yields {α : Type _} (acts : List (CacheAct α)) : List (List α) :=
  acts.filterMap fun a => match a with
    | .yld b => some b
    | _ => none

/-- Whether the list of actions ends in an exception. -/
def failure {α : Type _} (acts : List (CacheAct α)) : Option PyErr :=
  acts.findSome? fun a => match a with
    | .fail e => some e
    | _ => none

/-- The body of the `enumerate` loop shared by the two writing generators: on the first block the node is
created and marked incomplete, the block is appended and, if `j >= skip`, yielded.
`acoular/process.py` 270-278 (`skip = 0`) and 299-308 (`skip = nblocks`). -/
def writeLoop {α : Type _} (skip : Nat) : (j : Nat) → List (List α) → List (CacheAct α)
  | _, [] => []
  | j, b :: rest =>
    (if j = 0 then [.create, .setComplete false] else []) ++ [.append b] ++
      (if j ≥ skip then [.yld b] else []) ++ writeLoop skip (j + 1) rest

/-- `_write_data_to_cache`, `acoular/process.py` 268-279.  Without any block the name `ac` is unbound. -/
def writeActs {α : Type _} (blocks : List (List α)) : List (CacheAct α) :=
  writeLoop 0 0 blocks ++ (if blocks = [] then [.fail .unboundLocalError] else [.setComplete true])

/-- The yields of `while i + num <= ac.shape[0]`, `acoular/process.py` 292-297. -/
def fullBlocks {α : Type _} (rows : List α) (num : Nat) : List (List α) :=
  (List.range (rows.length / num)).map fun k => slice rows (k * num) (k * num + num)

/-- `_get_data_from_incomplete_cache`, `acoular/process.py` 289-309.  Without any source block the
attribute is set on the removed node, which raises (`ClosedNodeError`, shown as `runtimeError`). -/
def incompleteActs {α : Type _} (node : CacheNode α) (blocks : List (List α)) (num : Nat) : List (CacheAct α) :=
  let full := fullBlocks node.rows num
  full.map .yld ++ [.remove] ++ writeLoop full.length 0 blocks ++
    (if blocks = [] then [.fail .runtimeError] else [.setComplete true])

/-- `_get_data_from_cache`, `acoular/process.py` 281-287 (for `num >= 1`). -/
def readActs {α : Type _} (node : CacheNode α) (num : Nat) : List (CacheAct α) :=
  (blockLoop node.rows num node.rows.length 0).blocks.map .yld

/-- `Cache.result`, `acoular/process.py` 312-380, with `get_cache_file`
(`acoular/h5cache.py` 82-113) reduced to its effect on one file: in mode `readonly` a missing file is not
created and `h5f` becomes `None`, otherwise it is created.  `blocks` = `list(self.source.result(num))`. -/
def Cache.result {α : Type _} (mode : CacheMode) (num : Nat) (blocks : List (List α)) (f : CacheFile α) :
    List (CacheAct α) :=
  let pass : List (CacheAct α) := blocks.map .yld
  match mode with
  | .none => pass
  | .readonly =>
    match f with
    | none => pass
    | some none => pass
    | some (some node) =>
      if node.complete = some true then readActs node num else pass
  | .overwrite =>
    match f with
    | none => .openCreate :: writeActs blocks
    | some none => writeActs blocks
    | some (some _) => .remove :: writeActs blocks
  | .individual | .all =>
    match f with
    | none => .openCreate :: writeActs blocks
    | some none => writeActs blocks
    | some (some node) =>
      if node.complete = some true then readActs node num else incompleteActs node blocks num

/-- One entry of a history: mode, block size, and the number of actions that were executed before the
run was abandoned or killed (anything at least the total number: run to the end). -/
structure CacheRun where
  mode : CacheMode
  num : Nat
  steps : Nat
  deriving DecidableEq, Repr

/-- The file after a history of runs.  `source num` = `list(self.source.result(num))`. -/
def cacheHistory {α : Type _} (source : Nat → List (List α)) : List CacheRun → CacheFile α → CacheFile α
  | [], f => f
  | r :: rs, f => cacheHistory source rs (applyActs ((Cache.result r.mode r.num (source r.num) f).take r.steps) f)

end Acoular
