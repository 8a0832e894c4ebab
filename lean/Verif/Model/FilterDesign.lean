import Verif.Model.Filter
import Mathlib.Analysis.SpecialFunctions.Pow.Real
import Mathlib.Analysis.SpecialFunctions.Trigonometric.Bounds
import Mathlib.Analysis.SpecialFunctions.Sqrt

/-!
# Design of octave filters (`acoular/tprocess.py`): band edges, cache of the filter bank

Real numbers instead of floating point numbers. `scipy.signal.butter` is not modelled: a design is represented by the
parameters handed to it.
-/

namespace Acoular

open Real

/-- `fraction`: `'Octave'` or `'Third octave'`. -/
inductive Fraction where
  | octave
  | third
  deriving DecidableEq

/-- `fraction_` (acoular/tprocess.py 1490 and 1735). -/
def Fraction.val : Fraction → ℕ
  | .octave => 1
  | .third => 3

/-- `alpha` before line 1516: `pow(2.0, 1.0 / (2.0 * self.fraction_))`. -/
noncomputable def octaveHalf (f : Fraction) : ℝ := (2 : ℝ) ^ ((1 : ℝ) / (2 * (f.val : ℝ)))

/-- `alpha` after line 1518 of acoular/tprocess.py: the ratio of the upper edge to the centre. -/
noncomputable def octaveAlpha (order : ℕ) (f : Fraction) : ℝ :=
  let beta := π / (2 * order)
  let alpha := octaveHalf f
  let beta := 2 * beta / sin beta / (alpha - 1 / alpha)
  (1 + √(1 + beta * beta)) / beta

/-- What is handed to `butter`: order and the two edges in units of half the sampling frequency. -/
structure BandDesign where
  /-- order -/
  order : ℕ
  /-- lower edge `om1` -/
  lower : ℝ
  /-- upper edge `om2` -/
  upper : ℝ

/-- `FiltOctave._get_sos` (acoular/tprocess.py 1507-1525), for a positive order. -/
noncomputable def filtOctaveDesign (fs band : ℝ) (order : ℕ) (f : Fraction) : Except PyErr BandDesign :=
  let alpha := octaveAlpha order f
  let fr := 2 * band / fs
  if fr > 1 / √2 then .error .valueError
  else .ok ⟨order, fr / alpha, fr * alpha⟩

/-- The additional correction of `FiltFiltOctave._get_sos` (acoular/tprocess.py 1551-1553), before the power. -/
noncomputable def filtfiltCorrection : ℕ → ℝ
  | 6 => 1.01
  | 5 => 1.012
  | 4 => 1.016
  | 3 => 1.022
  | 2 => 1.036
  | 1 => 1.083
  | _ => 1

/-- `FiltFiltOctave._get_sos` (acoular/tprocess.py 1541-1560): the check of the band does not involve the correction.
`3 / fraction_` is 3 or 1. -/
noncomputable def filtfiltOctaveDesign (fs band : ℝ) (order : ℕ) (f : Fraction) : Except PyErr BandDesign :=
  let alpha := octaveAlpha order f * filtfiltCorrection order ^ (3 / f.val)
  let fr := 2 * band / fs
  if fr > 1 / √2 then .error .valueError
  else .ok ⟨order, fr / alpha, fr * alpha⟩

/-- `range(lband, hband, 4 - fraction_)` (acoular/tprocess.py 1755 and 1765). -/
def bandNumbers (lband hband : ℤ) (f : Fraction) : List ℤ :=
  let step : ℤ := 4 - f.val
  (List.range ((hband - lband + step - 1) / step).toNat).map fun (k : ℕ) => lband + k * step

/-- A filter bank object: its settings (the sampling frequency of the source stands for the source) and the cache of
`sos`. The filters are represented by the settings they were designed for: band number, fraction, sampling frequency. -/
structure OctBank where
  /-- `lband` -/
  lband : ℤ
  /-- `hband` -/
  hband : ℤ
  /-- `fraction` -/
  fraction : Fraction
  /-- `source.sample_freq` -/
  fs : ℚ
  /-- cached value of `sos` -/
  cache : Option (List (ℤ × Fraction × ℚ))

/-- `OctaveFilterBank._get_sos` (acoular/tprocess.py 1761-1769), without the error for frequencies that are too high. -/
def OctBank.design (b : OctBank) : List (ℤ × Fraction × ℚ) :=
  (bandNumbers b.lband b.hband b.fraction).map fun i => (i, b.fraction, b.fs)

/-- What a user does with the object. -/
inductive OctAct where
  | setLband (l : ℤ)
  | setHband (h : ℤ)
  | setFraction (f : Fraction)
  | setFs (fs : ℚ)
  | readSos

/-- `sos` is cached (1761) but declared as `Property()` without dependencies (1679); the dependencies are listed for the
name `ba` (1738), which is not used. So no change of a setting clears the cache. -/
def octAct (b : OctBank) : OctAct → OctBank
  | .setLband l => ⟨l, b.hband, b.fraction, b.fs, b.cache⟩
  | .setHband h => ⟨b.lband, h, b.fraction, b.fs, b.cache⟩
  | .setFraction f => ⟨b.lband, b.hband, f, b.fs, b.cache⟩
  | .setFs fs => ⟨b.lband, b.hband, b.fraction, fs, b.cache⟩
  | .readSos => ⟨b.lband, b.hband, b.fraction, b.fs, some (b.cache.getD b.design)⟩

/-- The value of `sos`. -/
def OctBank.sos (b : OctBank) : List (ℤ × Fraction × ℚ) := b.cache.getD b.design

/-- The filters that `FilterBank.result` applies to a block (acoular/tprocess.py 1713-1721): number `i` of `sos` for
every `i` below `num_bands`, whose cache has its dependencies; `sos[i]` raises if there are fewer. -/
def OctBank.applied (b : OctBank) : Except PyErr (List (ℤ × Fraction × ℚ)) :=
  let numBands := (bandNumbers b.lband b.hband b.fraction).length
  if numBands ≤ b.sos.length then .ok (b.sos.take numBands) else .error .indexError

end Acoular
