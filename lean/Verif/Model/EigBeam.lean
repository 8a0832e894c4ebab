import Verif.Model.Deconv
import Mathlib.Analysis.SpecialFunctions.Pow.Real
import Mathlib.LinearAlgebra.Matrix.NonsingularInverse

/-!
# Beamformers based on eigenvalues and on the inverse (`acoular/fbeamform.py`): functional, Capon, Eig, MUSIC, orthogonal

Real and complex numbers instead of floating point numbers.  Eigenvalues in ascending order, as `eigh` returns them.
-/

namespace Acoular

open Spec Matrix Complex

variable {n e g : ℕ}

/-- `BeamformerFunctional._calc` (fbeamform.py:775-787) for one line and grid point; `normfactor` is 1 as `r_diag` is
False. -/
noncomputable def functionalPoint (st : Formulation) (gamma r0 : ℝ) (rm : Fin n → ℝ) (k : ℝ) (eva : Fin e → ℝ)
    (eve : Fin n → Fin e → ℂ) : ℝ :=
  let eva' := fun l => eva l ^ (1 / gamma)
  let steerNorm := kernelNorm st r0 rm
  let out := eigKernel st false 1 r0 rm k eva' eve / steerNorm
  out ^ gamma * steerNorm * sigLossNorm false 1 n

/-- `BeamformerCapon._calc` (fbeamform.py:827-833) for one line and grid point. -/
noncomputable def caponPoint (st : Formulation) (r0 : ℝ) (rm : Fin n → ℝ) (k : ℝ) (csm : Matrix (Fin n) (Fin n) ℂ) : ℝ :=
  1 / fullCsmKernel st false (sigLossNorm false 1 n * (n : ℝ) ^ 2) r0 rm k csm⁻¹

/-- `BeamformerEig.na` (fbeamform.py:858-864), `nm` microphones. -/
def eigNa (nm n : ℤ) : ℤ :=
  let na := n
  let na := if na < 0 then max (nm + na) 0 else na
  min (nm - 1) na

/-- What of a `BeamformerEig` object matters for `na`: microphones in use, `n`, and the cache of `na`. -/
structure EigObj where
  /-- `steer.mics.num_mics` -/
  numMics : ℤ
  /-- `n` -/
  n : ℤ
  /-- cached value of `na` -/
  cache : Option ℤ

/-- What a user does with the object. -/
inductive EigAct where
  /-- set `n` -/
  | setN (n : ℤ)
  /-- assign a new microphone object with this number of microphones -/
  | newMics (nm : ℤ)
  /-- change `invalid_channels` (or positions) of the microphone object in use, so that this many are valid -/
  | editMics (nm : ℤ)
  /-- read `na` -/
  | readNa

/-- `na` is cached and depends on `steer.mics` and `n` (fbeamform.py:858), not on what is inside the microphone
object. (Assigning an equal `n` does not invalidate; recomputing gives the same then.) -/
def eigAct (s : EigObj) : EigAct → EigObj
  | .setN n => ⟨s.numMics, n, if n = s.n then s.cache else none⟩
  | .newMics nm => ⟨nm, s.n, none⟩
  | .editMics nm => ⟨nm, s.n, s.cache⟩
  | .readNa => ⟨s.numMics, s.n, some (s.cache.getD (eigNa s.numMics s.n))⟩

/-- The value `na` returns. -/
def eigReadNa (s : EigObj) : ℤ := s.cache.getD (eigNa s.numMics s.n)

/-- The eigenpairs `BeamformerEig._calc` uses (fbeamform.py:885-897): `eva[na:na+1]`, with `na ≥ 0`. -/
def eigComponents {α : Type} (na : ℤ) (eva : List α) : List α := (eva.drop na.toNat).take 1

/-- The eigenpairs `BeamformerMusic._calc` uses (fbeamform.py:946-957): `eva[:n]`, `n = num_mics - na`. -/
def musicComponents {α : Type} (nm na : ℤ) (eva : List α) : List α := eva.take (nm - na).toNat

/-- `BeamformerMusic._calc` (fbeamform.py:959): `4e-10 * out.min() / out`. -/
noncomputable def musicMap (out : Fin (g + 1) → ℝ) (p : Fin (g + 1)) : ℝ :=
  (4 / 10 ^ 10) * (- (fun i => - out i) (argmax fun i => - out i)) / out p

/-- Python's index into an array of length `n` (fbeamform.py:1451-1453 `eve[:, n]`, `eva[n]`). -/
def pyIndex (n : ℕ) (i : ℤ) : Option (Fin n) :=
  if h : 0 ≤ i ∧ i < n then some ⟨i.toNat, by omega⟩
  else if h : -n ≤ i ∧ i < 0 then some ⟨(n + i).toNat, by omega⟩
  else none

/-- `eva_list` after `n` was set (fbeamform.py:1418): `arange(-1, -1 - n, -1)`. -/
def orthEvaList (n : ℕ) : List ℤ := (List.range n).map fun k : ℕ => -1 - (k : ℤ)

/-- `BeamformerOrth._calc` (fbeamform.py:1442-1453) for one line, with its row of `_ac`; `none`: IndexError. `eve p l` is
the unit eigenvector of eigenvalue `l`. -/
noncomputable def orthCalc (geo : SteerGeo n (g + 1)) (rDiag : Bool) (normfactor : ℝ) (eva : Fin n → ℝ)
    (eve : Fin n → Fin n → ℂ) : List ℤ → (Fin (g + 1) → ℝ) → Option (Fin (g + 1) → ℝ)
  | [], ac => some ac
  | i :: is, ac =>
    match pyIndex n i with
    | none => none
    | some l =>
      let out := fun p => eigKernel (e := 1) geo.st rDiag normfactor (geo.r0 p) (geo.rm p) geo.k (fun _ => 1) (fun m _ => eve m l)
      let q := argmax out
      orthCalc geo rDiag normfactor eva eve is (Function.update ac q (ac q + eva l / n))

/-! ## The buffer of CLEAN-SC, with not-a-number -/

/-- A floating point number: real or NaN (`none`). -/
abbrev Fl := Option ℝ

/-- Product and sum: NaN if one operand is. -/
def Fl.mul (a b : Fl) : Fl := match a, b with
  | some a, some b => some (a * b)
  | _, _ => none
/-- Product and sum: NaN if one operand is. -/
noncomputable def Fl.add (a b : Fl) : Fl := match a, b with
  | some a, some b => some (a + b)
  | _, _ => none

/-- Adding the components of one line (fbeamform.py:1520). -/
noncomputable def flAccum (comps : List (Fin g × Fl)) (buf : Fin g → Fl) : Fin g → Fl :=
  comps.foldl (fun b c => Function.update b c.1 (Fl.add (b c.1) c.2)) buf

/-- `result` over the lines of one request (fbeamform.py:1506-1545): the buffer is cleared by `result *= 0.0`, the
components found are added and the buffer is stored. The map gives each line with what is stored for it. -/
noncomputable def cleanscLines {ι : Type} (comps : ι → List (Fin g × Fl)) : List ι → (Fin g → Fl) → List (ι × (Fin g → Fl))
  | [], _ => []
  | i :: is, buf =>
    let buf := fun p => Fl.mul (buf p) (some 0)
    let buf := flAccum (comps i) buf
    (i, buf) :: cleanscLines comps is buf

/-- Components of a line whose cross spectral matrix is zero (fbeamform.py:1518-1543), `J` passes: the map is zero, the
first maximum is entry 0 with value 0; `D1` is `0/0`, hence `hh`, `h1` and the map are NaN, and from then on `argmax` gives
the first NaN. -/
noncomputable def silentComponents (J : ℕ) : List (Fin (g + 1) × Fl) :=
  match J with
  | 0 => []
  | J + 1 => (0, some 0) :: List.replicate J (0, none)

end Acoular
