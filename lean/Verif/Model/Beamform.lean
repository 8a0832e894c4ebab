import Verif.Spec.Beamform

/-!
# Beamforming kernels (`acoular/fastFuncs.py`, `acoular/fbeamform.py`, `acoular/tfastfuncs.py`)

Real and complex numbers instead of floating point numbers (in particular the rounding of the phase to
`float32` is left out); accumulation loops are finite sums.  One grid point at a time: the kernels loop over the grid
points independently.  The formulations are those of `Spec.Formulation` (`steer_type` 1 to 4).
-/

namespace Acoular

open Matrix Complex Spec

variable {n e : ℕ}

/-- `cos(a) - 1j * sin(a)` (fastFuncs.py:254-255 and elsewhere). -/
noncomputable def phase (a : ℝ) : ℂ := (Real.cos a : ℂ) - I * (Real.sin a : ℂ)

/-- `steerVec` of the kernels (fastFuncs.py:253-268, 348-363): without its normalisation. -/
noncomputable def kernelSteer (st : Formulation) (rm : Fin n → ℝ) (k : ℝ) (m : Fin n) : ℂ :=
  match st with
  | .classic => phase (k * rm m)
  | .inverse => phase (k * rm m) * (rm m : ℂ)
  | .trueLevel => phase (k * rm m) / (rm m : ℂ)
  | .trueLocation => phase (k * rm m) / (rm m : ℂ)

/-- `helpNormalize` (fastFuncs.py:256-268, 351-363). -/
noncomputable def helpNormalize (st : Formulation) (rm : Fin n → ℝ) : ℝ :=
  match st with
  | .classic => 0
  | .inverse => ∑ m, rm m * rm m
  | .trueLevel => ∑ m, 1 / (rm m * rm m)
  | .trueLocation => ∑ m, 1 / (rm m * rm m)

/-- `scalarProd` of the full-CSM kernels (fastFuncs.py:272-286, 428-446, 467-482): the strictly upper triangle counts
twice, the diagonal is added unless it is removed. -/
noncomputable def scalarProdFull (csm : Matrix (Fin n) (Fin n) ℂ) (rDiag : Bool) (h : Fin n → ℂ) : ℝ :=
  (∑ m, 2 * ((∑ m2 ∈ Finset.univ.filter (· < m), csm m2 m * (starRingEnd ℂ) (h m2)) * h m).re) +
    if rDiag then 0 else ∑ m, (csm m m * (starRingEnd ℂ) (h m) * h m).re

/-- `scalarProd` of the eigenvalue kernels (fastFuncs.py:366-385, 504-519, 537-555). -/
noncomputable def scalarProdEig (eva : Fin e → ℝ) (eve : Fin n → Fin e → ℂ) (rDiag : Bool) (h : Fin n → ℂ) : ℝ :=
  ∑ l,
    let full := ∑ m, (starRingEnd ℂ) (eve m l) * h m
    let diag := ∑ m, (((starRingEnd ℂ) (eve m l) * h m) * (starRingEnd ℂ) ((starRingEnd ℂ) (eve m l) * h m)).re
    let absSquared := (full * (starRingEnd ℂ) full).re
    (if rDiag then absSquared - diag else absSquared) * eva l

/-- The final normalisation (fastFuncs.py:289-304, 388-403): `result[gi]`. -/
noncomputable def kernelResult (st : Formulation) (r0 : ℝ) (rm : Fin n → ℝ) (loss scalarProd : ℝ) : ℝ :=
  match st with
  | .classic => scalarProd / ((n : ℝ) * n) * loss
  | .inverse => scalarProd / ((n * r0) * (n * r0)) * loss
  | .trueLevel => scalarProd / ((r0 * helpNormalize .trueLevel rm) * (r0 * helpNormalize .trueLevel rm)) * loss
  | .trueLocation => scalarProd / (n * helpNormalize .trueLocation rm) * loss

/-- The final normalisation (fastFuncs.py:289-304, 388-403): `normalizeSteer[gi]`. -/
noncomputable def kernelNorm (st : Formulation) (r0 : ℝ) (rm : Fin n → ℝ) : ℝ :=
  match st with
  | .classic => 1 / n
  | .inverse => helpNormalize .inverse rm / ((n * r0) * (n * r0))
  | .trueLevel => 1 / (r0 * r0) / helpNormalize .trueLevel rm
  | .trueLocation => 1 / n

/-- `_freqBeamformer_FullCSM` (fastFuncs.py:232-304) at one grid point. -/
noncomputable def fullCsmKernel (st : Formulation) (rDiag : Bool) (loss r0 : ℝ) (rm : Fin n → ℝ) (k : ℝ)
    (csm : Matrix (Fin n) (Fin n) ℂ) : ℝ :=
  kernelResult st r0 rm loss (scalarProdFull csm rDiag (kernelSteer st rm k))

/-- `_freqBeamformer_EigValues` (fastFuncs.py:327-403) at one grid point. -/
noncomputable def eigKernel (st : Formulation) (rDiag : Bool) (loss r0 : ℝ) (rm : Fin n → ℝ) (k : ℝ)
    (eva : Fin e → ℝ) (eve : Fin n → Fin e → ℂ) : ℝ :=
  kernelResult st r0 rm loss (scalarProdEig eva eve rDiag (kernelSteer st rm k))

/-- `_freqBeamformer_SpecificSteerVec_FullCSM` and `..._CsmRemovedDiag` (fastFuncs.py:414-464): `result`. -/
noncomputable def customKernel (rDiag : Bool) (loss : ℝ) (h : Fin n → ℂ) (csm : Matrix (Fin n) (Fin n) ℂ) : ℝ :=
  scalarProdFull csm rDiag h * loss

/-- `_freqBeamformer_EigValProb_SpecificSteerVec_FullCSM` and `..._CsmRemovedDiag` (fastFuncs.py:475-543): `result`. -/
noncomputable def customEigKernel (rDiag : Bool) (loss : ℝ) (h : Fin n → ℂ) (eva : Fin e → ℝ) (eve : Fin n → Fin e → ℂ) : ℝ :=
  scalarProdEig eva eve rDiag h * loss

/-- `normalizeSteer` of the custom kernels (fastFuncs.py:421-423, 434 and the other three). -/
noncomputable def customNorm (h : Fin n → ℂ) : ℝ := (∑ m, h m * (starRingEnd ℂ) (h m)).re

/-- `_transferCoreFunc` (fastFuncs.py:860-864). -/
noncomputable def transfer (r0 : ℝ) (rm : Fin n → ℝ) (k : ℝ) (m : Fin n) : ℂ :=
  phase (k * (rm m - r0)) * r0 / rm m

/-- `SteeringVector._steer_funcs_freq` (fbeamform.py:166-174) applied to one row of the transfer matrix. -/
noncomputable def steerFuncFreq (st : Formulation) (x : Fin n → ℂ) (m : Fin n) : ℂ :=
  match st with
  | .classic => x m / (‖x m‖ : ℂ) / n
  | .inverse => 1 / (starRingEnd ℂ) (x m) / n
  | .trueLevel => x m / ∑ l, x l * (starRingEnd ℂ) (x l)
  | .trueLocation => x m / (√((∑ l, x l * (starRingEnd ℂ) (x l)).re * n) : ℂ)

/-- `SteeringVector.steer_vector` (fbeamform.py:257-277): the function applied to the transfer matrix. (The square root
is taken of a complex number with zero imaginary part; the model takes the real root of its real part.) -/
noncomputable def steerVector (st : Formulation) (r0 : ℝ) (rm : Fin n → ℝ) (k : ℝ) : Fin n → ℂ :=
  steerFuncFreq st (transfer r0 rm k)

/-- `_steer_I` … `_steer_IV` (tfastfuncs.py:132-207): amplitudes of the time domain beamformers. -/
noncomputable def steerTime (st : Formulation) (r0 : ℝ) (rm : Fin n → ℝ) (m : Fin n) : ℝ :=
  match st with
  | .classic => 1 / n
  | .inverse => rm m * (1 / n / r0)
  | .trueLevel => 1 / (rm m * ((∑ l, 1 / (rm l) ^ 2) * r0))
  | .trueLocation => √(1 / n) / (rm m * √(∑ l, 1 / (rm l) ^ 2))

/-- `sig_loss_norm` (fbeamform.py:451-462). -/
noncomputable def sigLossNorm (rDiag : Bool) (rDiagNorm : ℝ) (nMics : ℕ) : ℝ :=
  if rDiag = false then 1
  else if rDiagNorm = 0 then nMics / (nMics - 1)
  else rDiagNorm

/-- `BeamformerBase._calc` (fbeamform.py:508-519) at one line and grid point: the kernel, then (with diagonal removal)
negative values are set to zero. -/
noncomputable def bfCalcPoint (st : Formulation) (rDiag : Bool) (rDiagNorm r0 : ℝ) (rm : Fin n → ℝ) (k : ℝ)
    (csm : Matrix (Fin n) (Fin n) ℂ) : ℝ :=
  let out := fullCsmKernel st rDiag (sigLossNorm rDiag rDiagNorm n) r0 rm k csm
  if rDiag then (if out < 0 then 0 else out) else out

/-- `_psf_Formulation1AkaClassic` … `_psf_Formulation4AkaTrueLocation` (fastFuncs.py:636-774) at one grid point
(`r0`, `rm`) and one source (`s0`, `sm`). -/
noncomputable def psfKernel (st : Formulation) (r0 : ℝ) (rm : Fin n → ℝ) (s0 : ℝ) (sm : Fin n → ℝ) (k : ℝ) : ℝ :=
  match st with
  | .classic =>
    let p := ∑ m, phase (k * (rm m - sm m)) / (sm m : ℂ)
    let f := s0 / n
    (p * (starRingEnd ℂ) p).re * (f * f)
  | .inverse =>
    let p := ∑ m, phase (k * (rm m - sm m)) / (sm m : ℂ) * (rm m : ℂ)
    let f := s0 / r0 / n
    (p * (starRingEnd ℂ) p).re * (f * f)
  | .trueLevel =>
    let p := ∑ m, phase (k * (rm m - sm m)) / (sm m : ℂ) / (rm m : ℂ)
    let f := s0 / r0 / ∑ m, 1 / (rm m * rm m)
    (p * (starRingEnd ℂ) p).re * (f * f)
  | .trueLocation =>
    let p := ∑ m, phase (k * (rm m - sm m)) / (sm m : ℂ) / (rm m : ℂ)
    let f := s0
    (p * (starRingEnd ℂ) p).re * (f * f) / n / ∑ m, 1 / (rm m * rm m)

end Acoular
