import Verif.Model.Py
import Mathlib.Algebra.Field.Defs
import Mathlib.Algebra.Order.Ring.Nat
import Mathlib.Data.Nat.Log

/-!
# Model: signal generators (`acoular/signals.py`)

Signals are lists.  Random numbers are values of functions `draw j i` (the `i`-th value of the `j`-th call of
`standard_normal` after seeding).
-/

namespace Acoular

section
variable {K : Type*}

/-- `track[a:b] = vals` where `a <= b` and `vals` has the `b - a` values (clipped to the length of `track`); numpy raises
ValueError if the numbers do not fit. -/
def assignSlice (track : List K) (a b : ℕ) (vals : List K) : Except PyErr (List K) :=
  let b' := min b track.length
  if vals.length = b' - min a b' then .ok (track.take (min a b') ++ vals ++ track.drop (max (min a b') b')) else .error .valueError

/-- acoular/signals.py 653-661: the loop over the blocks of the source, from block `i` on; result: the track and the
last value of `stop` (`none`: never set). -/
def genericFill (block nums : ℕ) : ℕ → List (List K) → List K → Option ℕ → Except PyErr (List K × Option ℕ)
  | _, [], track, stop => .ok (track, stop)
  | i, temp :: l, track, _ =>
    let start := block * i
    let stop := start + temp.length
    if nums > stop then
      match assignSlice track start stop temp with
      | .error e => .error e
      | .ok track' => genericFill block nums (i + 1) l track' (some stop)
    else
      match assignSlice track start nums (temp.take (nums - start)) with
      | .error e => .error e
      | .ok track' => .ok (track', some stop)

/-- acoular/signals.py 608-611 (`_get_num_samples`). -/
def genericNumSamples (own sourceSamples : ℕ) : ℕ := if own ≠ 0 then own else sourceSamples

/-- acoular/signals.py 629-673 (`GenericSignalGenerator.signal`): `blocks` is channel 0 of `source.result(1024)`.
`stop` is an unbound variable if there are no blocks. -/
def genericSignal [Field K] (amplitude : K) (loop : Bool) (nums : ℕ) (block : ℕ) (blocks : List (List K)) :
    Except PyErr (List K) :=
  match genericFill block nums 0 blocks (List.replicate nums 0) none with
  | .error e => .error e
  | .ok (track, stop?) =>
    match loop, stop? with
    | false, _ => .ok (track.map (amplitude * ·))
    | true, none => .error .unboundLocalError
    | true, some stop =>
      if nums > stop then
        let nloops := nums / stop
        match (if nloops > 1 then
            assignSlice track stop (stop * nloops) (List.replicate (nloops - 1) (track.take stop)).flatten
          else .ok track) with
        | .error e => .error e
        | .ok t1 =>
          let res := nums % stop
          match (if res > 0 then assignSlice t1 (stop * nloops) nums (t1.take res) else .ok t1) with
          | .error e => .error e
          | .ok t2 => .ok (t2.map (amplitude * ·))
      else .ok (track.map (amplitude * ·))

/-- acoular/signals.py 263-264 (`WNoiseGenerator.signal`). -/
def whiteNoise [Field K] (rms : K) (draw : ℕ → K) (nums : ℕ) : List K :=
  (List.range nums).map fun i : ℕ => rms * draw i

/-- `repeat(v, d)`. -/
def repeatEach (v : List K) (d : ℕ) : List K := v.flatMap fun x => List.replicate d x

/-- acoular/signals.py 336-340: `s[ind:] += repeat(...)[:lind]` for one octave; ValueError if the lengths differ. -/
def pinkStep [Field K] (draw : ℕ → ℕ → K) (nums j : ℕ) (s : List K) : Except PyErr (List K) :=
  let ind := 2 ^ j - 1
  let lind := nums - ind
  let dind := 2 ^ (j + 1)
  let add := (repeatEach ((List.range (nums / dind + 1)).map (draw (j + 1))) dind).take lind
  if add.length = (s.drop ind).length then .ok (s.take ind ++ List.zipWith (· + ·) (s.drop ind) add) else .error .valueError

/-- The loop of 336-340. -/
def pinkLoop [Field K] (draw : ℕ → ℕ → K) (nums : ℕ) : ℕ → ℕ → List K → Except PyErr (List K)
  | 0, _, s => .ok s
  | d + 1, j, s =>
    match pinkStep draw nums j s with
    | .error e => .error e
    | .ok s' => pinkLoop draw nums d (j + 1) s'

/-- acoular/signals.py 325-342 (`PNoiseGenerator.signal`); `scale d` is `rms / sqrt(d + 1.5)`; `int(log(nums)/log(2))` is
the exact logarithm rounded down, `nums >= 1`. -/
def pinkNoise [Field K] (scale : ℕ → K) (draw : ℕ → ℕ → K) (nums depth : ℕ) : Except PyErr (List K) :=
  let maxDepth := Nat.log 2 nums
  let d := if depth > maxDepth then maxDepth else depth
  match pinkLoop draw nums d 0 ((List.range nums).map (draw 0)) with
  | .error e => .error e
  | .ok s => .ok (s.map (scale d * ·))

/-- Python's `round(0.5 * k)` (halves to even). -/
def roundHalf (k : ℕ) : ℕ := if k % 2 = 0 then k / 2 else (if (k / 2) % 2 = 0 then k / 2 else k / 2 + 1)

/-- acoular/signals.py 453-462 (`FiltWNoiseGenerator.signal`); `filt` is `sosfilt` with the sections of the filter. -/
def filteredNoise [Field K] (rms : K) (draw : ℕ → K) (filt : List K → List K) (ntaps nums : ℕ) : List K :=
  let sdelay := roundHalf (ntaps - 1)
  (filt (whiteNoise rms draw (nums + sdelay))).drop sdelay

/-- acoular/signals.py 555-556 (`SineGenerator.signal`); `sin2pi x` is `sin(2 pi x)` of the phase in periods. -/
def sineSignal [Field K] (amplitude freq fs : K) (sinAt : K → K) (nums : ℕ) : List K :=
  (List.range nums).map fun i : ℕ => amplitude * sinAt (freq * (i / fs))

end

end Acoular
