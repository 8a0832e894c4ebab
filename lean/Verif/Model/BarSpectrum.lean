import Verif.Model.Synthetic

/-!
# Bar graphs of band spectra (`acoular/tools/helpers.py`: `barspectrum`, `bardata`)

Frequencies are real numbers instead of doubles; the nominal centre frequencies are given as rationals.
-/

namespace Acoular

/-- `fcbase` (acoular/tools/helpers.py 204). -/
def nominalBase : List ℚ := [31.5, 40, 50, 63, 80, 100, 125, 160, 200, 250]

/-- `concatenate((fcbase, fcbase * 10.0, fcbase[:] * 100.0))` (206). -/
def nominalAll : List ℚ := nominalBase ++ nominalBase.map (· * 10) ++ nominalBase.map (· * 100)

/-- `l[::step]`. -/
def everyNth {α : Type*} (step : ℕ) (l : List α) : List α :=
  (List.range l.length).filterMap fun i => if i % step = 0 then l[i]? else none

/-- `fc` (206). -/
def nominalCentres (num : ℕ) : List ℚ := everyNth (3 / num) nominalAll

open Classical in
/-- `i_low` (216): `0 if fc[0] >= f_low else where(fc < f_low)[0][-1]`. -/
noncomputable def barLow (fc : List ℝ) (fLow : ℝ) : ℕ :=
  if fc.getD 0 0 ≥ fLow then 0
  else ((List.range fc.length).filter fun i => fc.getD i 0 < fLow).getLast?.getD 0

open Classical in
/-- `i_high` (218): `fc.shape[0] if fc[-1] <= f_high else where(fc > f_high)[0][0]`. -/
noncomputable def barHigh (fc : List ℝ) (fHigh : ℝ) : ℕ :=
  if fc.getD (fc.length - 1) 0 ≤ fHigh then fc.length
  else ((List.range fc.length).filter fun i => fc.getD i 0 > fHigh).head?.getD 0

/-- Sum of two one-dimensional arrays with broadcasting: equal lengths, or one of them 1; otherwise `ValueError`. -/
def broadcastAdd (a b : List ℝ) : Except PyErr (List ℝ) :=
  if a.length = b.length then .ok (List.zipWith (· + ·) a b)
  else if a.length = 1 then .ok (b.map (a.getD 0 0 + ·))
  else if b.length = 1 then .ok (a.map (· + b.getD 0 0))
  else .error .valueError

/-- `(array([1, 1])[:, newaxis] * l[newaxis, :]).T.reshape(-1)` (233, 235): every entry twice. -/
def twice {α : Type*} (l : List α) : List α := l.flatMap fun x => [x, x]

/-- `flu` (225-231): the borders of the bars. A bound `i_high - 1 = -1` counts from the end. -/
noncomputable def barBorders (fc : List ℝ) (lo hi : ℕ) (ep : ℝ) : Except PyErr (List ℝ) := do
  let hi1 := if hi = 0 then fc.length - 1 else hi - 1
  let mid ← broadcastAdd ((slice fc lo hi1).map (· * 2 ^ ep)) ((slice fc (lo + 1) hi).map (· * 2 ^ (-ep)))
  return (slice fc lo (lo + 1)).map (· * 2 ^ (-ep)) ++ mid.map (· / 2) ++ (slice fc hi1 hi).map (· * 2 ^ ep)

/-- What `barspectrum` returns: the tuple of three zeros for a number of bands that is not supported, else
`(flulist, plist, fc)`. -/
inductive BarResult where
  | unsupported
  | curve (flulist plist fc : List ℝ)

/-- `barspectrum` (acoular/tools/helpers.py 199-240). -/
noncomputable def barspectrum (data fftfreqs : List ℝ) (num : ℕ) (bar : Bool) (xoffset : ℝ) : Except PyErr BarResult :=
  if ¬ (num = 1 ∨ num = 3) then .ok .unsupported
  else do
    let fc := (nominalCentres num).map ((↑) : ℚ → ℝ)
    let ep : ℝ := 1 / (2 * num)
    match fftfreqs[1]? with
    | none => .error .indexError
    | some f1 =>
      let fLow := f1 * 2 ^ ep
      let fHigh := fftfreqs.getLastD 0 * 2 ^ (-ep)
      let lo := barLow fc fLow
      let hi := barHigh fc fHigh
      let p ← helperSynthetic data fftfreqs (slice fc lo hi) num
      if bar then
        let flu ← barBorders fc lo hi ep
        return .curve ((twice flu).tail.dropLast.map (2 ^ (2 * xoffset * ep) * ·)) (twice p) (slice fc lo hi)
      else return .curve (slice fc lo hi) p (slice fc lo hi)

/-- `bardata` (acoular/tools/helpers.py 277-292) without masking (`masked = -360`): `fc[:-1]` and `fc[1:]` have the same
length. -/
noncomputable def bardata (data fc : List ℝ) (num : ℕ) (bar : Bool) (xoffset : ℝ) : List ℝ × List ℝ :=
  let ep : ℝ := 1 / (2 * num)
  if bar then
    let mid := List.zipWith (fun x y => (x + y) / 2) (fc.dropLast.map (· * 2 ^ ep)) (fc.tail.map (· * 2 ^ (-ep)))
    let flu := (fc.take 1).map (· * 2 ^ (-ep)) ++ mid ++ (fc.drop (fc.length - 1)).map (· * 2 ^ ep)
    ((twice flu).tail.dropLast.map (2 ^ (xoffset * 1 / num) * ·), twice data)
  else (fc, data)

end Acoular
