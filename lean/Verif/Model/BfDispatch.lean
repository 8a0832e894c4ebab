import Verif.Model.Beamform
import Verif.Model.Py

/-!
# Choice of the kernel (`acoular/fastFuncs.py`, `acoular/fbeamform.py`)

Steering vectors are objects of class `SteeringVector` itself, for which specialised kernels exist, or of a derived class, whose
methods are arbitrary. `g` grid points, `n` microphones.
-/

namespace Acoular

open Spec

/-- First argument of `beamformerFreq` (acoular/fastFuncs.py 65-67). -/
inductive SteerType where
  | form (st : Formulation)
  | custom

/-- A steering vector object. -/
structure SteerObj (g n : ℕ) where
  /-- `type(self.steer) is SteeringVector` -/
  plain : Bool
  /-- `steer_type` (acoular/fbeamform.py 141) -/
  steerType : Formulation
  /-- speed of sound of the environment -/
  c : ℝ
  r0 : Fin g → ℝ
  rm : Fin g → Fin n → ℝ
  /-- method `steer_vector` of a derived class -/
  ownSteer : ℝ → Fin g → Fin n → ℂ
  /-- method `transfer` of a derived class -/
  ownTransfer : ℝ → Fin g → Fin n → ℂ

variable {g n e : ℕ}

/-- Wave number `2 * pi * f / self.steer.env.c`. -/
noncomputable def SteerObj.k (s : SteerObj g n) (f : ℝ) : ℝ := 2 * Real.pi * f / s.c

/-- `steer_vector(f)` (acoular/fbeamform.py 276-277). -/
noncomputable def SteerObj.vector (s : SteerObj g n) (f : ℝ) : Fin g → Fin n → ℂ :=
  if s.plain then fun p => steerVector s.steerType (s.r0 p) (s.rm p) (s.k f) else s.ownSteer f

/-- `transfer(f)` (acoular/fbeamform.py 248-255). -/
noncomputable def SteerObj.field (s : SteerObj g n) (f : ℝ) : Fin g → Fin n → ℂ :=
  if s.plain then fun p => transfer (s.r0 p) (s.rm p) (s.k f) else s.ownTransfer f

/-- `inputTupleSteer` (acoular/fastFuncs.py 75-88). -/
inductive SteerInput (g n : ℕ) where
  | distances (r0 : Fin g → ℝ) (rm : Fin g → Fin n → ℝ) (k : ℝ)
  | vectors (h : Fin g → Fin n → ℂ)

/-- `inputTupleCsm` (acoular/fastFuncs.py 89-101). -/
inductive CsmInput (n e : ℕ) where
  | full (csm : Matrix (Fin n) (Fin n) ℂ)
  | eig (eva : Fin e → ℝ) (eve : Fin n → Fin e → ℂ)

/-- `_beamformer_params` (acoular/fbeamform.py 464-483), the function applied to `f`. -/
noncomputable def SteerObj.params (s : SteerObj g n) (f : ℝ) : SteerType × SteerInput g n :=
  if s.plain then (.form s.steerType, .distances s.r0 s.rm (s.k f)) else (.custom, .vectors (s.vector f))

/-- `beamformerFreq` (acoular/fastFuncs.py 144-210): map and normalisation factors. A tuple instead of an array has no
`shape` (AttributeError), an array of steering vectors cannot be unpacked into three values in general (ValueError). -/
noncomputable def beamformerFreq (t : SteerType) (rDiag : Bool) (loss : ℝ) (steer : SteerInput g n) (csm : CsmInput n e) :
    Except PyErr ((Fin g → ℝ) × (Fin g → ℝ)) :=
  match t, steer with
  | .custom, .vectors h => .ok (fun p => (match csm with
      | .full C => customKernel rDiag loss (h p) C
      | .eig eva eve => customEigKernel rDiag loss (h p) eva eve), fun p => customNorm (h p))
  | .custom, .distances _ _ _ => .error .attributeError
  | .form st, .distances r0 rm k => .ok (fun p => (match csm with
      | .full C => fullCsmKernel st rDiag loss (r0 p) (rm p) k C
      | .eig eva eve => eigKernel st rDiag loss (r0 p) (rm p) k eva eve), fun p => kernelNorm st (r0 p) (rm p))
  | .form _, .vectors _ => .error .valueError

/-- What the beamformers do for one frequency (e.g. acoular/fbeamform.py 505-515, 829-832, 891-897). -/
noncomputable def SteerObj.map (s : SteerObj g n) (rDiag : Bool) (loss f : ℝ) (csm : CsmInput n e) :
    Except PyErr ((Fin g → ℝ) × (Fin g → ℝ)) :=
  beamformerFreq (s.params f).1 rDiag loss (s.params f).2 csm

/-- `_psf_call` (acoular/fbeamform.py 1113-1140) and `calcPointSpreadFunction` (acoular/fastFuncs.py 590-622): one column
for each source in `ind`. -/
noncomputable def SteerObj.psf (s : SteerObj g n) (f : ℝ) (ind : List (Fin g)) : Fin g → List ℝ :=
  if s.plain then fun p => ind.map fun j => psfKernel s.steerType (s.r0 p) (s.rm p) (s.r0 j) (s.rm j) (s.k f)
  else fun p => ind.map fun j =>
    let product := ∑ m, (starRingEnd ℂ) (s.vector f p m) * s.field f j m
    (product * (starRingEnd ℂ) product).re

/-- `clip(xy, bmin, bmax)` (acoular/fbeamform.py 2434-2435, 2445) with `bounds` as pairs. -/
noncomputable def clipBounds (bounds : Fin 3 → ℝ × ℝ) (x : Fin 3 → ℝ) : Fin 3 → ℝ :=
  fun i => min (max (x i) (min (bounds i).1 (bounds i).2)) (max (bounds i).1 (bounds i).2)

/-- The function that `BeamformerGridlessOrth` minimises for one eigenvector `v` (acoular/fbeamform.py 2443-2454): `dist` are
the distances in the environment, `mics` the microphone positions; the check for `'custom'` (2417) has no effect, as
`steer_type` has no such value. -/
noncomputable def gridlessObjective (s : SteerObj g n) (dist : (Fin 3 → ℝ) → (Fin 3 → ℝ) → ℝ) (mics : Fin n → Fin 3 → ℝ)
    (bounds : Fin 3 → ℝ × ℝ) (rDiag : Bool) (loss f : ℝ) (v : Fin n → ℂ) (x : Fin 3 → ℝ) : Except PyErr ℝ :=
  let xy := clipBounds bounds x
  match beamformerFreq (g := 1) (e := 1) (.form s.steerType) rDiag loss
      (.distances (fun _ => dist xy 0) (fun _ m => dist xy (mics m)) (s.k f)) (.eig (fun _ => 1) fun m _ => v m) with
  | .error er => .error er
  | .ok (b, _) => .ok (-(b 0))

end Acoular
