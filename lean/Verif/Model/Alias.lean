import Mathlib.Algebra.Group.Defs
import Verif.Model.Py
import Verif.Model.Stream

/-!
# Arrays that are shared between generators

numpy arrays live in a heap; a block is a view (array, first row, number of rows).  The generators of this
file change arrays in place and hand out views, so what a consumer sees depends on when it looks.
-/

namespace Acoular

/-- The arrays in memory, by identity. -/
abbrev Heap (V : Type*) := Nat → List V

/-- A view: rows `off ≤ i < off + len` of array `arr`. -/
structure Ref where
  arr : Nat
  off : Nat
  len : Nat
  deriving DecidableEq, Repr

/-- Content of a view. -/
def Heap.read {V : Type*} (h : Heap V) (r : Ref) : List V := ((h r.arr).drop r.off).take r.len

/-- Overwrite the rows of a view. -/
def Heap.write {V : Type*} (h : Heap V) (r : Ref) (rows : List V) : Heap V := fun a =>
  if a = r.arr then (h a).take r.off ++ rows ++ (h a).drop (r.off + r.len) else h a

/-- What the modelled generators do with arrays. -/
inductive Act (V : Type*)
  /-- `dst[...] = rows` -/
  | assign (dst : Ref) (rows : List V)
  /-- `dst += f(src)` (same number of rows) -/
  | add (dst src : Ref) (f : V → V)
  /-- `dst *= w` and similar operations on every row -/
  | map (dst : Ref) (f : V → V)
  /-- `yield r` -/
  | yield (r : Ref)

variable {V : Type*} [Add V]

/-- Effect of one action on memory. -/
def Act.exec (h : Heap V) : Act V → Heap V
  | .assign d rows => h.write d rows
  | .add d s f => h.write d (List.zipWith (· + ·) (h.read d) ((h.read s).map f))
  | .map d f => h.write d ((h.read d).map f)
  | .yield _ => h

/-- Memory after a run. -/
def runHeap (h : Heap V) (acts : List (Act V)) : Heap V := acts.foldl Act.exec h

/-- What a consumer sees that uses every block before it asks for the next one. -/
def seenNow : Heap V → List (Act V) → List (List V)
  | _, [] => []
  | h, .yield r :: rest => h.read r :: seenNow h rest
  | h, a :: rest => seenNow (a.exec h) rest

/-- The views handed out. -/
def yielded {V : Type*} (acts : List (Act V)) : List Ref :=
  acts.filterMap fun a => match a with | .yield r => some r | _ => none

/-- What a consumer sees that collects the blocks without copying and looks at them afterwards. -/
def seenLate (h : Heap V) (acts : List (Act V)) : List (List V) :=
  (yielded acts).map (runHeap h acts).read

/-- The loop over the additional sources in `Mixer.result`, `acoular/tprocess.py` 1334-1341, and in
`SourceMixer.result`, `acoular/sources.py` 2320-2325: `t` is `temp`; `gens` are the blocks the additional
generators will still deliver, with the factor applied to each of them (`Mixer`: none, so the identity).
Result: the actions, and `none` if one of the generators is exhausted (`StopIteration`), else the (possibly
shortened) `temp` and the remaining blocks. -/
def mixInner {V : Type*} : Ref → List ((V → V) × List Ref) → List (Act V) × Option (Ref × List ((V → V) × List Ref))
  | t, [] => ([], some (t, []))
  | _, (_, []) :: _ => ([], none)
  | t, (f, r :: g) :: gens =>
    let t' : Ref := if t.len > r.len then ⟨t.arr, t.off, r.len⟩ else t
    let rest := mixInner t' gens
    (.add t' ⟨r.arr, r.off, t'.len⟩ f :: rest.1, rest.2.map fun p => (p.1, (f, g) :: p.2))

/-- `temp *= weights[0]` in `SourceMixer.result`, `acoular/sources.py` 2318; nothing in `Mixer.result`. -/
def mixPre {V : Type*} (pre : Option (V → V)) (t : Ref) : List (Act V) :=
  match pre with
  | none => []
  | some f => [.map t f]

/-- The outer loop of `Mixer.result` (`pre = none`, `onStop = returned`) and of `SourceMixer.result`
(`pre` = multiplication with the first weight, `onStop` = `RuntimeError`, which is what Python makes of a
`StopIteration` inside a generator).  `ts` are the blocks of the main source, all as views.  Sources that
create new arrays for their blocks are described by views of arrays nobody else uses. -/
def mixActs {V : Type*} (pre : Option (V → V)) (onStop : Exit) :
    List Ref → List ((V → V) × List Ref) → List (Act V) × Exit
  | [], _ => ([], .returned)
  | t :: ts, gens =>
    match mixInner t gens with
    | (as, none) => (mixPre pre t ++ as, onStop)
    | (as, some (u, gens')) =>
      if t.len > u.len then (mixPre pre t ++ (as ++ [.yield u]), .returned)
      else
        let rest := mixActs pre onStop ts gens'
        (mixPre pre t ++ (as ++ .yield u :: rest.1), rest.2)

/-- `Mixer.result`, `acoular/tprocess.py` 1311-1344 (`validate_sources` left out). -/
def Mixer.acts {V : Type*} (source : List Ref) (sources : List (List Ref)) : List (Act V) × Exit :=
  mixActs none .returned source (sources.map fun g => (id, g))

/-- `SourceMixer.result`, `acoular/sources.py` 2282-2328, for `sources[0]` and the rest, each with the
multiplication by its weight (`validate_sources` and the length check of the weights left out). -/
def SourceMixer.acts {V : Type*} (w0 : V → V) (source : List Ref) (sources : List ((V → V) × List Ref)) :
    List (Act V) × Exit :=
  mixActs (some w0) (.raised .runtimeError) source sources

/-- The views `self.data[i : i + num]` that `TimeSamples.result` yields without calibration,
`acoular/sources.py` 519-521, for `n` rows in array `arr`. -/
def TimeSamples.views (arr n num : Nat) : List Ref :=
  (List.range ((n + num - 1) / num)).map fun k => ⟨arr, k * num, min num (n - k * num)⟩

/-- `TimeReverse.result`, `acoular/tprocess.py` 1426-1438, as actions on the array `temp` (identity `t`);
`blocks` are the contents of `result_list`. -/
def TimeReverse.acts {V : Type*} (t : Nat) (blocks : List (List V)) : List (Act V) :=
  match blocks.getLast?, blocks.head? with
  | some h, some b0 =>
    let nsh := h.length
    .assign ⟨t, 0, nsh⟩ h.reverse ::
      ((blocks.dropLast.reverse.flatMap fun h =>
        [.assign ⟨t, nsh, b0.length - nsh⟩ (h.drop nsh).reverse, .yield ⟨t, 0, b0.length⟩,
         .assign ⟨t, 0, nsh⟩ (h.take nsh).reverse]) ++ [.yield ⟨t, 0, nsh⟩])
  | _, _ => []

/-- `FilterBank.result`, `acoular/tprocess.py` 1718-1722, as actions on the array `res` (identity `t`):
every result block is written to the same array, which is handed out. -/
def FilterBank.acts {V : Type*} (t num : Nat) (results : List (List V)) : List (Act V) :=
  results.flatMap fun b => [.assign ⟨t, 0, num⟩ b, .yield ⟨t, 0, num⟩]

end Acoular
