import Verif.Model.Env
import Mathlib.Algebra.Polynomial.Derivative
import Mathlib.Algebra.Polynomial.Eval.Defs

/-!
# Angles and modes of spherical harmonic sources (`acoular/sources.py`)

Real and complex numbers instead of floating point numbers.
-/

namespace Acoular

open Real

/-- numpy's `mod(x, 2 * pi)`. -/
noncomputable def mod2pi (x : ℝ) : ℝ := x - 2 * π * ⌊x / (2 * π)⌋

/-- acoular/sources.py 229-245 (`get_radiation_angles`), one microphone: azimuth and elevation. -/
noncomputable def radiationAngles (direction mpos source : Fin 3 → ℝ) : ℝ × ℝ :=
  let n := √(direction 0 ^ 2 + direction 1 ^ 2 + direction 2 ^ 2)
  let d : Fin 3 → ℝ := fun i => direction i / n
  let v0 : Fin 3 → ℝ := fun i => mpos i - source i
  let v : Fin 3 → ℝ := ![v0 0, v0 1, v0 2 * -1]
  let ele := arctan2 √(v 0 ^ 2 + v 2 ^ 2) (v 1)
  let ele := ele + arctan2 √(d 0 ^ 2 + d 2 ^ 2) (d 1)
  let ele := ele + π * 0.5
  let azi := arctan2 (v 2) (v 0)
  let azi := azi + arctan2 (d 2) (d 0)
  (mod2pi azi, ele)

/-- The associated Legendre function `P_l^m` with the Condon-Shortley phase for `0 ≤ m`, as in scipy's `lpmv`:
`(-1)^m (1-x²)^(m/2) / (2^l l!) · d^(l+m)/dx^(l+m) (x²-1)^l`. -/
noncomputable def legendreP (l m : ℕ) (x : ℝ) : ℝ :=
  (-1) ^ m * √(1 - x ^ 2) ^ m / (2 ^ l * (l.factorial : ℝ)) *
    (Polynomial.derivative^[l + m] ((Polynomial.X ^ 2 - 1 : Polynomial ℝ) ^ l)).eval x

/-- scipy's `sph_harm(m, l, azi, ele)` (not part of acoular; stated as in scipy's documentation), for `|m| ≤ l`:
`sqrt((2l+1)/(4π) (l-m)!/(l+m)!) exp(i m azi) P_l^m(cos ele)` for `0 ≤ m`, and `(-1)^m` times the conjugate of the value
for `-m` otherwise. -/
noncomputable def sphHarm (m : ℤ) (l : ℕ) (azi ele : ℝ) : ℂ :=
  let k := m.natAbs
  let y : ℂ := ((√((2 * l + 1) / (4 * π) * ((l - k).factorial / (l + k).factorial)) * legendreP l k (cos ele) : ℝ) : ℂ) *
    Complex.exp (k * azi * Complex.I)
  if 0 ≤ m then y else (-1) ^ k * (starRingEnd ℂ) y

/-- The pairs `(lidx, m)` in the order of the two loops, acoular/sources.py 311-312. -/
def modePairs (L : ℕ) : List (ℕ × ℤ) :=
  (List.range (L + 1)).flatMap fun l => (List.range (2 * l + 1)).map fun j : ℕ => (l, (j : ℤ) - l)

/-- acoular/sources.py 313-315: the value of one column. -/
noncomputable def modeValue (azi ele : ℝ) (p : ℕ × ℤ) : ℂ :=
  let y := sphHarm p.2 p.1 azi ele
  if p.2 < 0 then (starRingEnd ℂ) y * Complex.I else y

/-- acoular/sources.py 307-317 (`get_modes`), the row of one microphone: columns are overwritten one after the other. -/
noncomputable def getModes (L : ℕ) (direction mpos : Fin 3 → ℝ) (source : Option (Fin 3 → ℝ)) : List ℂ :=
  let s := source.getD fun _ => 0
  let ae := radiationAngles direction mpos s
  ((modePairs L).foldl (fun (st : List ℂ × ℕ) p => (st.1.set st.2 (modeValue ae.1 ae.2 p), st.2 + 1))
    (List.replicate ((L + 1) ^ 2) 0, 0)).1

end Acoular
