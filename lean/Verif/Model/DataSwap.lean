import Verif.Model.Py
import Mathlib.Data.Nat.Notation
/-!
Replacing the samples of a time data source between evaluations:
`acoular/sources.py` `TimeSamples` and `MaskedTimeSamples` (traits `data`, `start`, `digest`) and the
cached results of `acoular/spectra.py` `PowerSpectra` that depend on the digest of the source.

Traits is modelled by its documented rule: a cached property keeps its value until one of the names in
its `depends_on` list announces a change, a plain trait announces a change when its value differs from
the previous one, and a property without `depends_on` (such as `_datachecksum`, sources.py 400) never
announces anything.  An invalidated cached property announces a change itself, so invalidation
propagates along `depends_on` chains.
-/

namespace Acoular

/-- The two classes (sources.py 333 and 531): they differ in the `depends_on` list of `digest`
(403-405 and 612). -/
inductive SwapKind
  | plain
  | masked
deriving DecidableEq

/-- `numpy.ndarray.shape` of a rectangular array given as list of rows (all rows as long as the first). -/
def arrShape {α : Type} (d : List (List α)) : ℕ × ℕ := (d.length, (d.headD []).length)

/-- The source and the spectra object looking at it: the trait values and the cached properties
`TimeSamples.digest` (sources.py 410-412), and `PowerSpectra.csm` (spectra.py 534-538, depends on the
digest of the spectra, 280-282, which depends on `source.digest`).
`start` only exists in `MaskedTimeSamples` (583); in `TimeSamples` it stays 0.
`stop`, `invalid_channels`, `calib`, `basename` are left out: they are all listed as dependencies and
behave like `start`. -/
structure SwapState (α D V : Type) where
  data : List (List α)
  start : ℕ
  digestCache : Option D
  csmCache : Option V

/-- What a user may do. -/
inductive SwapOp (α : Type)
  | setData (d : List (List α))
  | setStart (k : ℕ)
  | readDigest
  | readCsm

/-- What a user sees. -/
inductive SwapOut (D V : Type)
  | digest (x : D)
  | csm (v : V)
deriving DecidableEq

/-- The change notification of one of the dependencies of `digest` reaches `digest` and, through
`source.digest`, the digest of the spectra and its results: both caches are dropped. -/
def SwapState.invalidate {α D V : Type} (s : SwapState α D V) : SwapState α D V :=
  { s with digestCache := none, csmCache := none }

/-- Does assigning `new` to `data` announce a change of a dependency of `digest`?
`_load_shapes` (sources.py 429-433) sets `num_samples` and `num_channels`, both dependencies of
`TimeSamples.digest` (404), which announce a change if the shape differs.  In `MaskedTimeSamples` it sets
the `_total` numbers (652-656); neither they nor the properties computed from them are dependencies of
its `digest` (612).  `_datachecksum` is a property without dependencies in both. -/
def dataFires {α : Type} : SwapKind → List (List α) → List (List α) → Bool
  | .plain, old, new => arrShape old != arrShape new
  | .masked, _, _ => false

/-- Does assigning `start` announce a change? (`TimeSamples` has no such trait; 612 for the masked). -/
def startFires : SwapKind → ℕ → ℕ → Bool
  | .plain, _, _ => false
  | .masked, old, new => old != new

variable {α D V : Type}

/-- One user action.  `dg` is what `_get_digest` computes from the current trait values, `csm` what
`calc_csm` computes from the samples the source delivers (rows from `start` on, sources.py 716-757). -/
def swapStep (k : SwapKind) (dg : List (List α) → ℕ → D) (csm : List (List α) → V)
    (s : SwapState α D V) : SwapOp α → SwapState α D V × List (SwapOut D V)
  | .setData d =>
    let s' := if dataFires k s.data d then s.invalidate else s
    ({ s' with data := d }, [])
  | .setStart n =>
    match k with
    | .plain => (s, [])
    | .masked =>
      let s' := if startFires k s.start n then s.invalidate else s
      ({ s' with start := n }, [])
  | .readDigest =>
    match s.digestCache with
    | some x => (s, [.digest x])
    | none => let x := dg s.data s.start
              ({ s with digestCache := some x }, [.digest x])
  | .readCsm =>
    match s.csmCache with
    | some v => (s, [.csm v])
    | none => let v := csm (s.data.drop s.start)
              ({ s with csmCache := some v }, [.csm v])

/-- A session of user actions. -/
def swapRun (k : SwapKind) (dg : List (List α) → ℕ → D) (csm : List (List α) → V) :
    SwapState α D V → List (SwapOp α) → List (SwapOut D V)
  | _, [] => []
  | s, op :: ops =>
    let r := swapStep k dg csm s op
    r.2 ++ swapRun k dg csm r.1 ops

/-- A new object with samples `d`. -/
def swapInit (d : List (List α)) : SwapState α D V := ⟨d, 0, none, none⟩

end Acoular
