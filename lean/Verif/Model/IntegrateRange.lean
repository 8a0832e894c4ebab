import Verif.Model.Synthetic

/-!
# `BeamformerBase.integrate` with a frequency range or bands (`acoular/fbeamform.py` 605-697)

`ind` are the grid points of the sector; `val k` is the sum over them of line `k`; `res` is the lazy result, asked with keys.  Frequencies are real numbers.
-/

namespace Acoular

/-- What `integrate` uses of a beamformer: the frequencies of `freq_data` now, and those stored in `_f` by the last evaluation of
`result` (none before the first), `acoular/fbeamform.py` 355, 424. -/
structure BandState where
  freqs : List ℝ
  stored : List ℝ

/-- `acoular/fbeamform.py` 418-425: evaluating `result` stores the frequencies. -/
def BandState.readResult (s : BandState) : BandState := { s with stored := s.freqs }

/-- `acoular/fbeamform.py` 677-692: `frange` of length 2 and `num == 0`.  The limits are looked up in the frequencies stored before `self.result`
is evaluated; `h` has their number, the loop reads lines of the present result, the slices are taken from the present frequencies. -/
noncomputable def integrateFrange {V : Type*} [AddCommMonoid V] (s : BandState) (fmin fmax : ℝ) (val : ℕ → V) : Except PyErr (List ℝ × List V) :=
  let lo := searchR s.stored fmin
  let hi := searchR s.stored fmax
  if lo < hi ∧ s.freqs.length < hi then .error .indexError
  else .ok (slice s.freqs lo hi, slice ((List.range s.stored.length).map fun i : ℕ => if lo ≤ i ∧ i < hi then val i else 0) lo hi)

/-- `.reshape(gshape)[ind].sum()`: the sum over the points of the sector. -/
def sectorSum {V P : Type*} [AddCommMonoid V] (ind : List P) (m : P → V) : V := (ind.map m).sum

/-- `acoular/fbeamform.py` 678-683, 694-697: any `frange`; `num == 0` needs two entries; otherwise `synthetic` is called for each entry.
Without any line `synthetic` returns `None`, which has no `reshape`. -/
noncomputable def integrateBands {V P : Type*} [AddCommMonoid V] (s : BandState) (ind : List P) (res : BfKey → Except PyErr (BfAns (P → V))) (num : ℕ) (centres : List ℝ) :
    Except PyErr (List V) :=
  centres.mapM fun f =>
    match bfSynthetic res s.freqs f (.num num) with
    | none => .error .attributeError
    | some r => r.map (sectorSum ind)

end Acoular
