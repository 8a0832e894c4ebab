import Verif.Model.Py
import Mathlib.Data.Fin.VecNotation

/-!
# Geometries, grids and calibration factors from XML files

`MicGeom`, `ImportGrid` and `Calib` (`acoular/microphones.py`, `acoular/grids.py`, `acoular/calib.py`). A file is represented by its elements
with tag `pos`, an element by its attributes. `parse` is Python's `float` for the text of an attribute (`none`: ValueError).
-/

namespace Acoular

/-- An element with tag `pos`: its attributes. -/
abbrev XmlElement := List (String × String)

/-- `xml.dom.minidom.parse(file)` and `getElementsByTagName('pos')`. -/
inductive XmlFile where
  /-- not well-formed: `ExpatError`, here a ValueError -/
  | malformed
  /-- the elements with tag `pos`, in the order of the document -/
  | pos (elements : List XmlElement)

/-- `getAttribute`: the empty string if there is no such attribute. -/
def XmlElement.get (el : XmlElement) (name : String) : String := (el.lookup name).getD ""

variable {K : Type}

/-- `float(el.getAttribute(name))`. -/
def XmlElement.float (parse : String → Option K) (el : XmlElement) (name : String) : Except PyErr K :=
  match parse (XmlElement.get el name) with
  | none => .error .valueError
  | some v => .ok v

/-- `[float(el.getAttribute(a)) for a in 'xyz']` (acoular/microphones.py 223, acoular/grids.py 926). -/
def XmlElement.xyz (parse : String → Option K) (el : XmlElement) : Except PyErr (Fin 3 → K) := do
  let x ← XmlElement.float parse el "x"
  let y ← XmlElement.float parse el "y"
  let z ← XmlElement.float parse el "z"
  .ok ![x, y, z]

/-- `MicGeom._import_mpos` (acoular/microphones.py 189-224): the value of `pos_total`, by columns. Without elements,
`array([], 'd').swapaxes(0, 1)` is an AxisError (an IndexError). The names are collected and not used. -/
def micImport (parse : String → Option K) : XmlFile → Except PyErr (List (Fin 3 → K))
  | .malformed => .error .valueError
  | .pos els => do
    let l ← els.mapM (XmlElement.xyz parse)
    if l = [] then .error .indexError else .ok l

/-- `ImportGrid.import_gpos` (acoular/grids.py 920-928): positions and names of the subgrids. -/
def gridImport (parse : String → Option K) : XmlFile → Except PyErr (List (Fin 3 → K) × List String)
  | .malformed => .error .valueError
  | .pos els => do
    let l ← els.mapM (XmlElement.xyz parse)
    if l = [] then .error .indexError else .ok (l, els.map fun el => XmlElement.get el "subgrid")

/-- `Calib.import_data` (acoular/calib.py 118-128): the value of `data`. The names are collected and not used. -/
def calibImport (parse : String → Option K) : XmlFile → Except PyErr (List K)
  | .malformed => .error .valueError
  | .pos els => els.mapM fun el => XmlElement.float parse el "factor"

/-- Files on disk, and an object with the trait `file` and what is read from it. -/
structure FileWorld (D : Type) where
  disk : String → Option XmlFile
  file : String
  data : D

/-- What may happen. -/
inductive FileAct (D : Type) where
  /-- assignment to `file` -/
  | setFile (name : String)
  /-- assignment to the data (`pos_total`, `pos`, `data`) -/
  | change (f : D → D)
  /-- a file is written, changed or removed -/
  | rewrite (name : String) (content : Option XmlFile)

/-- One action, and the exception the user sees. `File(exists = True)` refuses names of files that do not exist (acoular/microphones.py
131, acoular/grids.py 773, acoular/calib.py 81); the function with `on_trait_change('file')` is called by the package traits if the name is a
new one; an exception of such a function is logged by traits and not passed on to the assignment. -/
def FileWorld.act {D : Type} (imp : XmlFile → Except PyErr D) (w : FileWorld D) : FileAct D → FileWorld D × Option PyErr
  | .rewrite name content => ({ w with disk := fun n => if n = name then content else w.disk n }, none)
  | .change f => ({ w with data := f w.data }, none)
  | .setFile name =>
    match w.disk name with
    | none => (w, some .traitError)
    | some doc =>
      if name = w.file then (w, none)
      else match imp doc with
        | .ok d => ({ w with file := name, data := d }, none)
        | .error _ => ({ w with file := name }, none)

/-- A sequence of actions (the user goes on after exceptions). -/
def FileWorld.acts {D : Type} (imp : XmlFile → Except PyErr D) (w : FileWorld D) (l : List (FileAct D)) : FileWorld D :=
  l.foldl (fun w a => (w.act imp a).1) w

end Acoular
