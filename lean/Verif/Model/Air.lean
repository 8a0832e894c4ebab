import Verif.Model.Py
import Mathlib.Analysis.SpecialFunctions.Exp

/-!
# Speed of sound in air (`acoular/tools/helpers.py`: `c_air`, `acoular/tools/utils.py`: `mole_fraction_of_water_vapor`)

Real numbers instead of floating point numbers.
-/

namespace Acoular

/-- `mole_fraction_of_water_vapor` (acoular/tools/utils.py 108-115): `h` as a fraction, `t` in K, `p` in Pa. -/
noncomputable def moleFraction (h t p : ℝ) : ℝ :=
  let f := 1.00062 + 3.14 * (10 : ℝ) ^ (-8 : ℤ) * p + 5.6 * (10 : ℝ) ^ (-7 : ℤ) * t ^ 2
  let A := 1.2378847 * (10 : ℝ) ^ (-5 : ℤ)
  let B := -1.9121316 * (10 : ℝ) ^ (-2 : ℤ)
  let C := 33.93711047
  let D := -6.3431645 * (10 : ℝ) ^ (3 : ℕ)
  let p_sv := Real.exp (A * t ^ 2 + B * t + C + D / t)
  h * f * p_sv / p

/-- The polynomial of `c_air` (acoular/tools/helpers.py 376-403). -/
noncomputable def airPoly (t x_w p x_c : ℝ) : ℝ :=
  let a0 := 331.5024
  let a1 := 0.603055
  let a2 := -0.000528
  let a3 := 51.471935
  let a4 := 0.1495874
  let a5 := -0.000782
  let a6 := -1.82 * (10 : ℝ) ^ (-7 : ℤ)
  let a7 := 3.73 * (10 : ℝ) ^ (-8 : ℤ)
  let a8 := -2.93 * (10 : ℝ) ^ (-10 : ℤ)
  let a9 := -85.20931
  let a10 := -0.228525
  let a11 := 5.91 * (10 : ℝ) ^ (-5 : ℤ)
  let a12 := -2.835149
  let a13 := -2.15 * (10 : ℝ) ^ (-13 : ℤ)
  let a14 := 29.179762
  let a15 := 0.000486
  a0 + a1 * t + a2 * t ^ 2 + (a3 + a4 * t + a5 * t ^ 2) * x_w + (a6 + a7 * t + a8 * t ^ 2) * p
    + (a9 + a10 * t + a11 * t ^ 2) * x_c + a12 * x_w ^ 2 + a13 * p ^ 2 + a14 * x_c ^ 2 + a15 * x_w * p * x_c

open Classical in
/-- `c_air` (acoular/tools/helpers.py 355-403): `t` in degrees Celsius, `h` and `co2` in percent, `p` in Pa. -/
noncomputable def cAir (t h p co2 : ℝ) : Except PyErr ℝ :=
  if t < 0 ∨ t > 30 then .error .valueError
  else if p < 60000 ∨ p > 110000 then .error .valueError
  else
    let x_w := moleFraction (h / 100) (t + 273.15) p
    if x_w > 0.06 then .error .valueError
    else if co2 > 1 then .error .valueError
    else
      let x_c := co2 / 100
      .ok (airPoly t x_w p x_c)

end Acoular
