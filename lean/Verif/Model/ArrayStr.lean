import Verif.Model.Digest
import Verif.Model.Stream

/-!
# Digests of objects with array-valued traits

`digest(obj)` (`acoular/internal.py` 8-18) hashes `str(value)`. For numpy arrays with more than 1000 entries (the default
`threshold` of `numpy.set_printoptions`, which acoular does not change) `str` shows the first and last three rows and
columns only, with `...` in between; the number format is chosen from the entries shown.
-/

namespace Acoular

/-- The entries of an axis that are shown in a summary (`edgeitems = 3`). -/
def edgeItems {α : Type*} (l : List α) : List α := if 6 < l.length then l.take 3 ++ l.drop (l.length - 3) else l

/-- The entries shown by `str` of a two-dimensional array, and whether rows or columns are left out. One-dimensional
arrays are taken as arrays with one row. -/
def npShown {K : Type*} (a : List (List K)) : List (List K) × Bool × Bool :=
  if 1000 < (a.map List.length).sum then
    ((edgeItems a).map edgeItems, decide (6 < a.length), decide (6 < (a.headD []).length))
  else (a, false, false)

/-- `str(array)`: a function of what is shown. -/
def npStr {K : Type*} (fmt : List (List K) × Bool × Bool → String) (a : List (List K)) : String := fmt (npShown a)

/-- `ImportGrid.digest` (acoular/grids.py 782-786): depends on the array of positions, `(3, size)`. -/
def ImportGrid.digest {K : Type*} (md5 : List Char → String) (fmt : List (List K) × Bool × Bool → String)
    (gpos : List (List K)) : String :=
  digestOf md5 "<class 'acoular.grids.ImportGrid'>" [some (npStr fmt gpos)]

/-- `TimeConvolve.digest` (acoular/tprocess.py 1975-1979). -/
def TimeConvolve.digest {K : Type*} (md5 : List Char → String) (fmt : List (List K) × Bool × Bool → String)
    (source : String) (kernel : List (List K)) : String :=
  digestOf md5 "<class 'acoular.tprocess.TimeConvolve'>" [some source, some (npStr fmt kernel)]

/-- `Calib.digest` (acoular/calib.py 101 and 114-116): the invalid channels do not enter. -/
def Calib.digest {K : Type*} (md5 : List Char → String) (fmt : List (List K) × Bool × Bool → String)
    (source : String) (data : List K) (_invalid : List Int) : String :=
  digestOf md5 "<class 'acoular.calib.Calib'>" [some source, some (npStr fmt [data])]

end Acoular
