import Mathlib.Algebra.Module.Pi
import Mathlib.Data.Rat.Floor
import Mathlib.Data.List.FinRange
import Verif.Model.Average
import Verif.Model.Filter
import Verif.Model.Cache
import Verif.Model.Alias

/-!
# Processing blocks connected to chains

The models of the single classes, connected through `source`.  A row of `n` channels is a function on `Fin n`.  Blocks are
values (for what `Mixer` does to the arrays of its sources see `Verif/Model/Alias.lean`).
-/

namespace Acoular

/-- A Python number: `int` or `float` (idealised). -/
inductive PyNum where
  | int (n : Int)
  | float (q : ℚ)
  deriving DecidableEq

/-- The channels left by `invalid_channels` (acoular/tprocess.py 182-192). -/
def keptChannels (invalid : List Int) (n : Nat) : List (Fin n) := (List.finRange n).filter fun i => decide (((i : Nat) : Int) ∉ invalid)

/-- Objects connected through `source` (and `sources`); the index is the number of channels. -/
inductive Chain (K : Type) : Nat → Type where
  /-- `TimeSamples` with these data, no calibration -/
  | samples {n : Nat} (data : List (Fin n → K)) : Chain K n
  /-- `MaskedTimeOut` -/
  | mask {n : Nat} (start : Int) (stop : Option Int) (invalid : List Int) (c : Chain K n) : Chain K (keptChannels invalid n).length
  /-- `Calib` with these factors, no invalid channels -/
  | calib {n : Nat} (factors : List K) (c : Chain K n) : Chain K n
  /-- `TimePower` -/
  | power {n : Nat} (c : Chain K n) : Chain K n
  /-- `ChannelMixer` -/
  | channels {n : Nat} (weights : List K) (c : Chain K n) : Chain K 1
  /-- `Average` -/
  | average {n : Nat} (nav : Nat) (c : Chain K n) : Chain K n
  /-- `TimeCumAverage` -/
  | cumAverage {n : Nat} (c : Chain K n) : Chain K n
  /-- `Filter` and derived classes (`FiltOctave`, `FiltFreqWeight`, `TimeExpAverage`) with these sections -/
  | filter {n : Nat} (sos : List (Spec.Sos K)) (c : Chain K n) : Chain K n
  /-- `FiltFiltOctave`: scipy's `sosfiltfilt`, and the uninitialised rows of `empty` -/
  | zeroPhase {n : Nat} (filtfilt : List (Fin n → K) → List (Fin n → K)) (junk : Nat → Fin n → K) (c : Chain K n) : Chain K n
  /-- `TimeReverse`, with the uninitialised rows of `empty_like` -/
  | reverse {n : Nat} (junk : Nat → Fin n → K) (c : Chain K n) : Chain K n
  /-- `Cache` after a history of runs, in the given mode -/
  | cache {n : Nat} (mode : CacheMode) (history : List CacheRun) (c : Chain K n) : Chain K n
  /-- `WriteH5` without limit -/
  | write {n : Nat} (c : Chain K n) : Chain K n
  /-- `Mixer` with one additional source -/
  | mixer {n : Nat} (c d : Chain K n) : Chain K n

variable {K : Type}

/-- `num_samples` of the last object: acoular/sources.py 431-433 (`TimeSamples`), acoular/tprocess.py 195-197
(`MaskedTimeOut`: `slice.indices` wants an integer), acoular/process.py 148-151 (`Average`: true division), acoular/base.py 180
and acoular/tprocess.py 1284 (all others: delegated to `source`). -/
def Chain.numSamples : {n : Nat} → Chain K n → Except PyErr PyNum
  | _, .samples data => .ok (.int data.length)
  | _, .mask start stop _ c =>
    match c.numSamples with
    | .error e => .error e
    | .ok (.float _) => .error .typeError
    | .ok (.int t) => .ok (.int (maskedNumSamples start stop t.toNat))
  | _, .average nav c =>
    match c.numSamples with
    | .error e => .error e
    | .ok (.int t) => if nav = 0 then .error .zeroDivisionError else .ok (.float (t / nav))
    | .ok (.float q) => if nav = 0 then .error .zeroDivisionError else .ok (.float (q / nav))
  | _, .calib _ c | _, .power c | _, .cumAverage c | _, .filter _ c | _, .zeroPhase _ _ c | _, .reverse _ c
  | _, .cache _ _ c | _, .write c | _, .mixer c _ => c.numSamples
  | _, .channels _ c => c.numSamples

/-- The objects named by `source` and `sources`. -/
def Chain.sources : {n : Nat} → Chain K n → List (Σ m, Chain K m)
  | _, .samples _ => []
  | _, .mask _ _ _ c | _, .calib _ c | _, .power c | _, .channels _ c | _, .average _ c | _, .cumAverage c | _, .filter _ c
  | _, .zeroPhase _ _ c | _, .reverse _ c | _, .cache _ _ c | _, .write c => [⟨_, c⟩]
  | _, .mixer c d => [⟨_, c⟩, ⟨_, d⟩]

variable {α β : Type}

/-- A generator that handles the blocks of its source one by one: if the source ends with an exception, so does the
generator, after what it made of the blocks before. -/
def Trace.through (src : Trace α) (f : List α → Trace β) : Trace β :=
  let out := f src.blocks
  if src.exit = .returned ∨ out.exit ≠ .returned then out else ⟨out.blocks, src.exit⟩

/-- A generator that first collects all blocks of its source. -/
def Trace.collected (src : Trace α) (f : List α → Trace β) : Trace β :=
  if src.exit = .returned then f src.blocks else ⟨[], src.exit⟩

/-- Rows as lists and back. -/
def rowsOut {n : Nat} (blocks : List (List (Fin n → K))) : List (List (List K)) := blocks.map (List.map List.ofFn)

/-- Rows of `m` entries as functions. -/
def rowsIn [Zero K] (m : Nat) (t : Trace (List (List K))) : Trace (List (Fin m → K)) :=
  ⟨t.blocks.map (List.map fun row (j : Fin m) => row.getD j 0), t.exit⟩

/-- Arrays for the blocks of two sources, each block in an array of its own. -/
def twoHeap {V : Type} (a b : List (List V)) : Heap V := fun i => if i % 2 = 0 then a.getD (i / 2) [] else b.getD (i / 2) []

/-- The views of these arrays: even numbers (`par = 0`) and odd numbers (`par = 1`). -/
def twoRefs {V : Type} (par : Nat) (a : List (List V)) : List Ref :=
  (List.range a.length).map fun k => ⟨2 * k + par, 0, (a.getD k []).length⟩

/-- `Mixer.result` on blocks that are arrays of their own (acoular/tprocess.py 1311-1344). -/
def mixBlocks {V : Type} [Add V] (a b : List (List V)) : Trace (List V) :=
  let r := Mixer.acts (V := V) (twoRefs 0 a) [twoRefs 1 b]
  ⟨seenNow (twoHeap a b) r.1, r.2⟩

/-- What a `Cache` object (mode, history, source) delivers for a block size, from what its source delivers for every block
size. -/
abbrev CacheHandler (K : Type) := {n : Nat} → CacheMode → List CacheRun → Chain K n → (Nat → Trace (List (Fin n → K))) →
  Nat → Trace (List (Fin n → K))

/-- `Cache.result` (acoular/process.py 312-380) with a node of its own in a file of its own, after the given history of runs.
Inner caches have the state given by their own histories in all runs of a history.  A source that fails is taken to make the cache
fail also if the file is complete (in the code the source is not read then). -/
def privateCache : CacheHandler K := fun mode history _ src num => (src num).through fun blocks =>
  let acts := Cache.result mode num blocks (cacheHistory (fun k => (src k).blocks) history none)
  ⟨yields acts, match failure acts with | none => .returned | some e => .raised e⟩

/-- `result(num)` of the last object.  `MaskedTimeOut` and `FiltFiltOctave` read `num_samples` of their source
(acoular/tprocess.py 214, 1579: `slice.indices` and `empty` want an integer).  If the source of `Mixer` fails, so does `Mixer`;
what it yields before that is left out.  `handler` is what `Cache` makes of its source. -/
def Chain.resultWith [Field K] (handler : CacheHandler K) : {n : Nat} → Chain K n → Nat → Trace (List (Fin n → K))
  | n, .samples data, num => rowsIn n (TimeSamples.result (data.map List.ofFn) n none num)
  | _, .mask (n := n) start stop invalid c, num =>
    match c.numSamples with
    | .error e => .raise e
    | .ok (.float _) => .raise .typeError
    | .ok (.int t) => (c.resultWith handler num).through fun blocks =>
        rowsIn _ (MaskedTimeOut.result (rowsOut blocks) t.toNat n start stop invalid num)
  | n, .calib factors c, num => (c.resultWith handler num).through fun blocks => rowsIn n (Calib.result (rowsOut blocks) n factors [])
  | n, .power c, num => (c.resultWith handler num).through fun blocks => rowsIn n (TimePower.result (rowsOut blocks))
  | _, .channels (n := n) weights c, num =>
    (c.resultWith handler num).through fun blocks => rowsIn 1 (ChannelMixer.result (rowsOut blocks) n weights)
  | _, .average nav c, num =>
    if nav = 0 then .raise .zeroDivisionError
    else (c.resultWith handler (num * nav)).through fun blocks => ⟨Average.result K nav blocks, .returned⟩
  | _, .cumAverage c, num => (c.resultWith handler num).through fun blocks => TimeCumAverage.result K blocks
  | _, .filter sos c, num => (c.resultWith handler num).through fun blocks => Filter.result sos (fun _ => sos) blocks
  | _, .zeroPhase filtfilt junk c, num =>
    match c.numSamples with
    | .error e => .raise e
    | .ok (.float _) => .raise .typeError
    | .ok (.int t) => (c.resultWith handler num).collected fun blocks => FiltFiltOctave.result filtfilt t.toNat junk blocks num
  | _, .reverse junk c, num => (c.resultWith handler num).collected fun blocks =>
      TimeReverse.result ((List.range (blocks.headD []).length).map junk) blocks
  | _, .cache mode history c, num => handler mode history c (c.resultWith handler) num
  | _, .write c, num => (c.resultWith handler num).through fun blocks => ⟨(WriteH5.result blocks (-1) num fun _ => true).2, .returned⟩
  | _, .mixer c d, num =>
    if (d.resultWith handler num).exit = .returned then (c.resultWith handler num).through fun blocks => mixBlocks blocks (d.resultWith handler num).blocks
    else ⟨[], (d.resultWith handler num).exit⟩

/-- `result(num)` of the last object, every cache with a file of its own. -/
def Chain.result [Field K] {n : Nat} (c : Chain K n) (num : Nat) : Trace (List (Fin n → K)) := c.resultWith privateCache num

end Acoular
