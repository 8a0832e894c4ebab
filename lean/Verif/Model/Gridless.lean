import Verif.Model.Py
import Mathlib.Algebra.Field.Defs

/-!
# Model: gridless orthogonal beamforming (`acoular/fbeamform.py`, `BeamformerGridlessOrth`)

The search for the position (`shgo`) is a function `pos` of the frequency index and the eigenvalue index.
-/

namespace Acoular

/-- The result arrays: `_gpos` (one position per slot), `_ac` (frequencies × slots) and the flags `_fr`. -/
structure GridlessState (P V : Type*) where
  gpos : List P
  ac : List (List V)
  fr : List Bool

/-- acoular/fbeamform.py 2384-2387 (`set_eva_list`): `arange(-1, -1 - n, -1)`. -/
def evaOfN (n : ℕ) : List ℤ := (List.range n).map fun j : ℕ => -1 - (j : ℤ)

/-- acoular/fbeamform.py 2415: `unique(eva_list % num_mics)[::-1]`: the distinct remainders from the largest to the
smallest (remainders of python are not negative). -/
def evaIndices (M : ℕ) (evas : List ℤ) : List ℕ :=
  ((List.range M).filter fun m : ℕ => decide ((m : ℤ) ∈ evas.map (· % (M : ℤ)))).reverse

/-- acoular/fbeamform.py 2389-2391 (`_get_size`). -/
def gridlessSize (n F : ℕ) : ℕ := n * F

/-- acoular/fbeamform.py 435-440: fresh result arrays. -/
def GridlessState.zeros {P V : Type*} (F size : ℕ) (p0 : P) (v0 : V) : GridlessState P V :=
  ⟨List.replicate size p0, List.replicate F (List.replicate size v0), List.replicate F false⟩

/-- acoular/fbeamform.py 2459-2464: the result for component `m` (number `j` of the list) of frequency `i` goes to slot
`i * n + j`; IndexError beyond the arrays. -/
def gridlessStore {P V : Type*} (pos : ℕ → ℕ → P) (lev : ℕ → ℕ → V) (n i j m : ℕ) (s : GridlessState P V) :
    Except PyErr (GridlessState P V) :=
  let i1 := i * n + j
  if s.gpos.length ≤ i1 then .error .indexError
  else .ok ⟨s.gpos.set i1 (pos i m), s.ac.set i ((s.ac.getD i []).set i1 (lev i m)), s.fr⟩

/-- acoular/fbeamform.py 2441: `for j, n in enumerate(eva_list)`, from number `j` on. -/
def gridlessFreq {P V : Type*} (pos : ℕ → ℕ → P) (lev : ℕ → ℕ → V) (n i : ℕ) :
    ℕ → List ℕ → GridlessState P V → Except PyErr (GridlessState P V)
  | _, [], s => .ok s
  | j, m :: l, s =>
    match gridlessStore pos lev n i j m s with
    | .ok s' => gridlessFreq pos lev n i (j + 1) l s'
    | .error e => .error e

/-- acoular/fbeamform.py 2393-2466 (`_calc`): `for i in ind`, flag at the end of each frequency. -/
def gridlessCalc {P V : Type*} (pos : ℕ → ℕ → P) (lev : ℕ → ℕ → V) (n : ℕ) (evas : List ℕ) :
    List ℕ → GridlessState P V → Except PyErr (GridlessState P V)
  | [], s => .ok s
  | i :: ind, s =>
    match gridlessFreq pos lev n i 0 evas s with
    | .ok s' => gridlessCalc pos lev n evas ind ⟨s'.gpos, s'.ac, s'.fr.set i true⟩
    | .error e => .error e

end Acoular
