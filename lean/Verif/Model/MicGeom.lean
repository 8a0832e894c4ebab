import Verif.Model.Py
import Verif.Model.Env

/-!
# Model: `MicGeom` (`acoular/microphones.py`)

Positions are the columns of the arrays.  The text of the XML file is represented by its elements and attribute
strings; conversion between numbers and text (`str`, `float`) is a pair of functions.
-/

namespace Acoular

section
variable {X : Type*} [Inhabited X]

/-- acoular/microphones.py 163-168 (`_get_pos`).  If all channels are invalid, `array(allr)` is an empty *float* array
and numpy refuses it as an index. -/
def micPos (total : List X) (invalid : List ℤ) : Except PyErr (List X) :=
  if invalid.length = 0 then .ok total
  else
    let allr := (List.range total.length).filter fun i : ℕ => !(invalid.contains (i : ℤ))
    if allr.length = 0 then .error .indexError else .ok (allr.map fun i => total.getD i default)

/-- acoular/microphones.py 170-172 (`_get_num_mics`). -/
def numMics (total : List X) (invalid : List ℤ) : Except PyErr ℕ := (micPos total invalid).map List.length

end

/-- acoular/microphones.py 163-187: what `pos_total` and `invalid_channels` are, with the cached `pos`.  Assigning
either of them empties the cache. -/
structure MicObj (X : Type*) where
  total : List X
  invalid : List ℤ
  cache : Option (List X)

/-- User actions on a geometry. -/
inductive MicAct (X : Type*) where
  | setTotal (l : List X)
  | setInvalid (l : List ℤ)
  | readPos

section
variable {X : Type*} [Inhabited X]

/-- One action. An exception leaves the cache empty. -/
def micAct (g : MicObj X) : MicAct X → MicObj X
  | .setTotal l => ⟨l, g.invalid, none⟩
  | .setInvalid l => ⟨g.total, l, none⟩
  | .readPos =>
    match g.cache with
    | some _ => g
    | none => ⟨g.total, g.invalid, (micPos g.total g.invalid).toOption⟩

/-- Reading `pos`. -/
def readPos (g : MicObj X) : Except PyErr (List X) :=
  match g.cache with
  | some p => .ok p
  | none => micPos g.total g.invalid

end

/-- The document written by `export_mpos`: the name of the array and one element per microphone (attributes x, y, z as
text; the attribute `Name` is written but its value is not used). -/
structure MicDoc where
  name : List Char
  pos : List (List Char × List Char × List Char)

/-- acoular/microphones.py 254-262 (`export_mpos`). -/
def exportMpos {K : Type*} (fmt : K → List Char) (basename : List Char) (pos : List (Fin 3 → K)) : MicDoc :=
  ⟨basename, pos.map fun p => (fmt (p 0), fmt (p 1), fmt (p 2))⟩

/-- An attribute value that an XML parser accepts as it was written between double quotes. -/
def xmlClean (s : List Char) : Bool := s.all fun c => c != '<' && c != '&' && c != '"'

/-- acoular/microphones.py 218-224 (`_import_mpos`): the XML parser refuses (ExpatError, here valueError) a document
with a malformed attribute; numbers that cannot be read raise ValueError; without any element
`array([]).swapaxes(0, 1)` raises AxisError (an IndexError). -/
def importMpos {K : Type*} (parse : List Char → Option K) (d : MicDoc) : Except PyErr (List (Fin 3 → K)) :=
  if xmlClean d.name && d.pos.all (fun e => xmlClean e.1 && xmlClean e.2.1 && xmlClean e.2.2) then
    match d.pos.mapM (fun e => do
        let x ← parse e.1
        let y ← parse e.2.1
        let z ← parse e.2.2
        pure (fun i : Fin 3 => if i = 0 then x else if i = 1 then y else z)) with
    | none => .error .valueError
    | some [] => .error .indexError
    | some l => .ok l
  else .error .valueError

/-- acoular/microphones.py 174-181 (`_get_center`): coordinate `i`; `None` if all coordinates of all microphones are
zero. -/
noncomputable def micCenter (pos : List (Fin 3 → ℝ)) : Option (Fin 3 → ℝ) :=
  if ∃ p ∈ pos, p ≠ 0 then
    some fun i =>
      let c := (pos.map fun p => p i).sum / pos.length
      if |c| < 1e-16 then 0 else c
  else none

/-- acoular/microphones.py 183-187 (`_get_aperture`). -/
noncomputable def micAperture (pos : List (Fin 3 → ℝ)) : Option ℝ :=
  if ∃ p ∈ pos, p ≠ 0 then
    some ((pos.flatMap fun p => pos.map fun q => distEntry p q).foldl max 0)
  else none

end Acoular
