import Verif.Model.FreqAxis
import Verif.Model.Irfft
import Verif.Model.Average

/-!
# The chain `RFFT` – `CrossPowerSpectra` / `AutoPowerSpectra` – `Average` (`acoular/fprocess.py`, `acoular/process.py`)

Complex numbers instead of floating point numbers; arrays that are written again after a `yield` are taken as copies (see
`Verif/Model/Alias.lean` for the reuse). Rows of the flattened arrays are functions on their index.
-/

namespace Acoular

variable {c : ℕ}

/-- One row of `RFFT.result` (acoular/fprocess.py 156-167) before `reshape(-1)`: frequency line, channel. -/
noncomputable def rfftRow (scaling : RfftScaling) (bs : ℕ) [NeZero bs] (wind : List ℝ) (w : List (Fin c → ℝ)) :
    Fin (bs / 2 + 1) → Fin c → ℂ :=
  fun f m => (rfftSnapshot scaling bs wind (w.map fun row => row m)).getD f 0

/-- `CrossPowerSpectra.result`, acoular/fprocess.py 431-452, mode 'full': `blocks` are the blocks of the source. -/
noncomputable def CrossPowerSpectra.result {nf : ℕ} (scale : ℝ) (blocks : List (List (Fin nf → Fin c → ℂ))) :
    Except PyErr (List (List (Fin (CrossPowerSpectra.numChannels c .full * nf) → ℂ))) :=
  blocks.mapM fun b => b.mapM fun X => (CrossPowerSpectra.snapshot scale .full X).map fun row i => row.getD i 0

/-- `AutoPowerSpectra.result`, acoular/fprocess.py 348-350: rows flattened with the channel as fast index. -/
noncomputable def AutoPowerSpectra.result {nf : ℕ} (scale : ℝ) (blocks : List (List (Fin nf → Fin c → ℂ))) :
    List (List (Fin (nf * c) → ℝ)) :=
  blocks.map fun b => b.map fun X i => autoPower scale (X i.divNat i.modNat)

/-- `Average(num_per_average = nav)` behind `CrossPowerSpectra(calc_mode = 'full', scaling = 'power')` behind `RFFT`:
`result(num)` (acoular/process.py 153-194, acoular/fprocess.py 314-320, 423-452, 126-170). -/
noncomputable def averagedCross (scaling : RfftScaling) (fs : ℝ) (singleSided : Bool) (bs ov : ℕ) [NeZero bs] (wind : List ℝ)
    (junk : List (Fin c → ℝ)) (blocks : List (List (Fin c → ℝ))) (nav num : ℕ) :
    Except PyErr (List (List (Fin (CrossPowerSpectra.numChannels c .full * (bs / 2 + 1)) → ℂ))) :=
  (CrossPowerSpectra.result (autoScale bs fs singleSided false)
    (RFFT.result (rfftRow scaling bs wind) (fun _ _ => 0) (getSourceData bs ov junk blocks) (num * nav))).map
      (Average.result ℂ nav)

/-- The same with `AutoPowerSpectra` (acoular/fprocess.py 322-350). -/
noncomputable def averagedAuto (scaling : RfftScaling) (fs : ℝ) (singleSided : Bool) (bs ov : ℕ) [NeZero bs] (wind : List ℝ)
    (junk : List (Fin c → ℝ)) (blocks : List (List (Fin c → ℝ))) (nav num : ℕ) : List (List (Fin ((bs / 2 + 1) * c) → ℝ)) :=
  Average.result ℝ nav (AutoPowerSpectra.result (autoScale bs fs singleSided false)
    (RFFT.result (rfftRow scaling bs wind) (fun _ _ => 0) (getSourceData bs ov junk blocks) (num * nav)))

end Acoular
