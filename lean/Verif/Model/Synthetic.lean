import Verif.Model.Spectra
import Verif.Model.Lazy
import Mathlib.Analysis.SpecialFunctions.Pow.Real

/-!
# Frequency bands (`BeamformerBase.synthetic`, `tools.helpers.synthetic`)

Frequencies and band limits are real numbers instead of doubles.  A value of a line is an element of an additive
monoid (a number, or a map).  Warnings are not modelled.
-/

namespace Acoular

open Classical in
/-- `searchsorted(freqs, v)` for real numbers. -/
noncomputable def searchR (freqs : List ℝ) (v : ℝ) : ℕ := searchsorted freqs v

/-- `f1, f2 = f * 2.0 ** (-0.5 / num), f * 2.0 ** (+0.5 / num)` (fbeamform.py:584-585, tools/helpers.py:109-110). -/
noncomputable def bandLimits (f : ℝ) (num : ℕ) : ℝ × ℝ := (f * 2 ^ (-0.5 / num : ℝ), f * 2 ^ (0.5 / num : ℝ))

/-- Body of the loop of `tools.helpers.synthetic` (tools/helpers.py:84-124) for one centre frequency; `data[0]` on
empty data raises `IndexError`. -/
noncomputable def helperSyntheticOne {V : Type*} [AddCommMonoid V] (data : List V) (freqs : List ℝ) (num : ℕ) (f : ℝ) :
    Except PyErr V :=
  if num = 0 then
    let ind := searchR freqs f
    if ind ≥ freqs.length then
      if data = [] then .error .indexError else .ok 0
    else match data[ind]? with
      | some v => .ok v
      | none => .error .indexError
  else
    let (f1, f2) := bandLimits f num
    let ind1 := searchR freqs f1
    let ind2 := searchR freqs f2
    if ind1 = ind2 then
      if data = [] then .error .indexError else .ok 0
    else .ok (slice data ind1 ind2).sum

/-- `tools.helpers.synthetic` (tools/helpers.py:33-125) for a list of centre frequencies. -/
noncomputable def helperSynthetic {V : Type*} [AddCommMonoid V] (data : List V) (freqs : List ℝ) (fs : List ℝ) (num : ℕ) :
    Except PyErr (List V) :=
  fs.mapM (helperSyntheticOne data freqs num)

/-- The last argument of `BeamformerBase.synthetic` (fbeamform.py:522): an integer, or a list whose first and last
entries are the limits. -/
inductive BandNum where
  | num (n : ℕ)
  | limits (f1 f2 : ℝ)

/-- One line of an answer. -/
def BfAns.toLine {V : Type*} : BfAns V → Option V
  | .line v => some v
  | .lines _ => none

/-- `sum(res[a:b], 0)`. -/
def BfAns.sumLines {V : Type*} [AddCommMonoid V] : BfAns V → Option V
  | .line _ => none
  | .lines l => some l.sum

/-- `BeamformerBase.synthetic` (fbeamform.py:553-603) before the final reshape; `res` is the lazy result, asked with
keys.  `zeros_like(res[0])` asks for line 0 as well, and returns zeros.  The outer option is `None` (no
lines). -/
noncomputable def bfSynthetic {V : Type*} [AddCommMonoid V] (res : BfKey → Except PyErr (BfAns V)) (freqs : List ℝ)
    (f : ℝ) (num : BandNum) : Option (Except PyErr V) :=
  if freqs.length = 0 then none
  else some (match num with
    | .num 0 =>
      let ind := searchR freqs f
      if ind ≥ freqs.length then (res (.int 0)).map fun _ => 0
      else (res (.int ind)).map fun a => a.toLine.getD 0
    | .num (n + 1) =>
      let (f1, f2) := bandLimits f (n + 1)
      let ind1 := searchR freqs f1
      let ind2 := searchR freqs f2
      if ind1 = ind2 then (res (.int 0)).map fun _ => 0
      else (res (.slice ind1 (some ind2) 1)).map fun a => a.sumLines.getD 0
    | .limits f1 f2 =>
      let ind1 := searchR freqs f1
      let ind2 := searchR freqs f2
      if ind1 = ind2 then (res (.int 0)).map fun _ => 0
      else (res (.slice ind1 (some ind2) 1)).map fun a => a.sumLines.getD 0)

end Acoular
