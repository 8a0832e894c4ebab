import Verif.Model.Chain
import Verif.Model.Digest

/-!
# One cache file for many objects

`Cache` finds its array by the name `'tc_' + digest` (acoular/process.py 351) in a file named after the recording
(`'void_cache.h5'` for all sources without file), so that objects of different chains, in the same or in later sessions, share
the file.  All chains considered here have the same base name.
-/

namespace Acoular

variable {K : Type}

/-- `str` of the settings. `samples` stands for the settings of `TimeSamples` (base name, sum of the first row, sampling
frequency and shape: `TimeSamples.digest` in `Verif/Model/Digest.lean`), `sos` and `zero` for those from which the filter
is designed. -/
structure ChainPrint (K : Type) where
  samples : {n : Nat} → List (Fin n → K) → String
  int : Int → String
  stop : Option Int → String
  ints : List Int → String
  nums : List K → String
  nat : Nat → String
  sos : List (Spec.Sos K) → String
  zero : {n : Nat} → (List (Fin n → K) → List (Fin n → K)) → String

/-- `str(obj.__class__)`. The class of a filter is that of `Filter` in the model; those of the derived classes are part of
what `sos` prints. -/
def Chain.className : {n : Nat} → Chain K n → String
  | _, .samples _ => "<class 'acoular.sources.TimeSamples'>"
  | _, .mask .. => "<class 'acoular.tprocess.MaskedTimeOut'>"
  | _, .calib .. => "<class 'acoular.calib.Calib'>"
  | _, .power _ => "<class 'acoular.tprocess.TimePower'>"
  | _, .channels .. => "<class 'acoular.tprocess.ChannelMixer'>"
  | _, .average .. => "<class 'acoular.process.Average'>"
  | _, .cumAverage _ => "<class 'acoular.tprocess.TimeCumAverage'>"
  | _, .filter .. => "<class 'acoular.tprocess.Filter'>"
  | _, .zeroPhase .. => "<class 'acoular.tprocess.FiltFiltOctave'>"
  | _, .reverse .. => "<class 'acoular.tprocess.TimeReverse'>"
  | _, .cache .. => "<class 'acoular.process.Cache'>"
  | _, .write _ => "<class 'acoular.tprocess.WriteH5'>"
  | _, .mixer .. => "<class 'acoular.tprocess.Mixer'>"

/-- The printed settings other than sources, in the order of `depends_on`. -/
def Chain.settings (pr : ChainPrint K) : {n : Nat} → Chain K n → List String
  | _, .samples data => [pr.samples data]
  | _, .mask start stop invalid _ => [pr.int start, pr.stop stop, pr.ints invalid]
  | _, .calib factors _ => [pr.nums factors]
  | _, .channels weights _ => [pr.nums weights]
  | _, .average nav _ => [pr.nat nav]
  | _, .filter sos _ => [pr.sos sos]
  | _, .zeroPhase filtfilt _ _ => [pr.zero filtfilt]
  | _, .power _ | _, .cumAverage _ | _, .reverse .. | _, .cache .. | _, .write _ | _, .mixer .. => []

/-- What is hashed, from the identifiers of the sources: acoular/sources.py 403-405, acoular/tprocess.py 163, 276, 1294,
1498, 1535, 1863, acoular/calib.py 101, acoular/process.py 135, 255, acoular/base.py 183, 240, 289. -/
def Chain.preimageOf (pr : ChainPrint K) {n : Nat} (c : Chain K n) (sources : List String) : List Char :=
  digestPreimage c.className ((sources ++ c.settings pr).map some)

/-- `ldigest` of a list with one object (acoular/internal.py 21-25). -/
def ldigestOne (md5 : List Char → String) (d : String) : String := "_" ++ md5 d.toList

/-- `digest`. The additional sources of `Mixer` enter through `sdigest` (acoular/tprocess.py 1287-1294). Neither mode nor
history of a cache enters. -/
def Chain.digest (md5 : List Char → String) (pr : ChainPrint K) : {n : Nat} → Chain K n → String
  | _, .samples data => "_" ++ md5 ((Chain.samples data).preimageOf pr [])
  | _, .mask a b i c => "_" ++ md5 ((Chain.mask a b i c).preimageOf pr [c.digest md5 pr])
  | _, .calib f c => "_" ++ md5 ((Chain.calib f c).preimageOf pr [c.digest md5 pr])
  | _, .power c => "_" ++ md5 ((Chain.power c).preimageOf pr [c.digest md5 pr])
  | _, .channels w c => "_" ++ md5 ((Chain.channels w c).preimageOf pr [c.digest md5 pr])
  | _, .average k c => "_" ++ md5 ((Chain.average k c).preimageOf pr [c.digest md5 pr])
  | _, .cumAverage c => "_" ++ md5 ((Chain.cumAverage c).preimageOf pr [c.digest md5 pr])
  | _, .filter s c => "_" ++ md5 ((Chain.filter s c).preimageOf pr [c.digest md5 pr])
  | _, .zeroPhase f j c => "_" ++ md5 ((Chain.zeroPhase f j c).preimageOf pr [c.digest md5 pr])
  | _, .reverse j c => "_" ++ md5 ((Chain.reverse j c).preimageOf pr [c.digest md5 pr])
  | _, .cache m h c => "_" ++ md5 ((Chain.cache m h c).preimageOf pr [c.digest md5 pr])
  | _, .write c => "_" ++ md5 ((Chain.write c).preimageOf pr [c.digest md5 pr])
  | _, .mixer c d => "_" ++ md5 ((Chain.mixer c d).preimageOf pr [c.digest md5 pr, ldigestOne md5 (d.digest md5 pr)])

/-- The identifiers of the sources as they enter the identifier. -/
def Chain.sourceIds (md5 : List Char → String) (pr : ChainPrint K) : {n : Nat} → Chain K n → List String
  | _, .samples _ => []
  | _, .mask _ _ _ c | _, .calib _ c | _, .power c | _, .channels _ c | _, .average _ c | _, .cumAverage c | _, .filter _ c
  | _, .zeroPhase _ _ c | _, .reverse _ c | _, .cache _ _ c | _, .write c => [c.digest md5 pr]
  | _, .mixer c d => [c.digest md5 pr, ldigestOne md5 (d.digest md5 pr)]

/-- The text hashed for the identifier. -/
def Chain.preimage (md5 : List Char → String) (pr : ChainPrint K) {n : Nat} (c : Chain K n) : List Char :=
  c.preimageOf pr (c.sourceIds md5 pr)

/-- The cache file: whether it exists, and its nodes. -/
structure CacheStore (α : Type) where
  there : Bool
  node : String → Option (CacheNode α)

/-- What an object with this identifier finds. -/
def CacheStore.view {α : Type} (s : CacheStore α) (d : String) : CacheFile α := if s.there then some (s.node d) else none

/-- The file after operations on one node. -/
def CacheStore.put {α : Type} (s : CacheStore α) (d : String) (f : CacheFile α) : CacheStore α :=
  match f with
  | none => s
  | some n => ⟨true, fun e => if e = d then n else s.node e⟩

/-- Identifier of a `Cache` object with this source. -/
def cacheKey (md5 : List Char → String) (pr : ChainPrint K) {n : Nat} (c : Chain K n) : String :=
  (Chain.cache .individual [] c).digest md5 pr

/-- `Cache.result` (acoular/process.py 312-380) in the shared file. -/
def sharedCache [Zero K] (md5 : List Char → String) (pr : ChainPrint K) (s : CacheStore (List K)) : CacheHandler K :=
  fun {n} mode _ c src num => (src num).through fun blocks =>
    let acts := Cache.result mode num (rowsOut blocks) (s.view (cacheKey md5 pr c))
    rowsIn n ⟨yields acts, match failure acts with | none => .returned | some e => .raised e⟩

/-- A run of a `Cache` object: number of channels, source, mode, block size, and the number of actions (file operations and
yields) until the run was ended, abandoned or killed. -/
structure SharedRun (K : Type) where
  channels : Nat
  source : Chain K channels
  mode : CacheMode
  num : Nat
  steps : Nat

/-- The file after a run. The caches among the sources read the file as it is at the beginning of the run; what they write to
it are runs of their own in a history. -/
def SharedRun.after [Field K] (md5 : List Char → String) (pr : ChainPrint K) (r : SharedRun K) (s : CacheStore (List K)) :
    CacheStore (List K) :=
  let key := cacheKey md5 pr r.source
  let blocks := rowsOut (r.source.resultWith (sharedCache md5 pr s) r.num).blocks
  s.put key (applyActs ((Cache.result r.mode r.num blocks (s.view key)).take r.steps) (s.view key))

/-- The file after a history, starting without a file. -/
def sharedHistory [Field K] (md5 : List Char → String) (pr : ChainPrint K) (h : List (SharedRun K)) : CacheStore (List K) :=
  h.foldl (fun s r => r.after md5 pr s) ⟨false, fun _ => none⟩

end Acoular
