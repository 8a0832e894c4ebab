import Verif.Model.Digest
import Verif.Model.EigBeam
import Verif.Model.BfDispatch
import Verif.Model.Inverse
import Verif.Model.Gridless
import Verif.Model.Steering

/-!
# Identifiers of frequency domain beamformers and what their results depend on (`acoular/fbeamform.py`)

Real and complex numbers instead of floating point numbers, so `precision` and `psf_precision` have no influence on the
results of the model. The environment is a homogeneous medium at rest. `g + 1` grid points, `n` microphones.
-/

namespace Acoular

open Spec

variable {n g : ℕ}

/-- The settings of a beamformer; every class uses some of them. -/
structure BfSet (n g : ℕ) where
  /-- frequencies and matrices of `freq_data` -/
  freqs : ℕ → ℝ
  csm : ℕ → Matrix (Fin n) (Fin n) ℂ
  /-- `steer.grid.pos`, `steer.mics.pos`, speed of sound of `steer.env`, `steer.ref`, `steer.steer_type` -/
  gpos : Fin (g + 1) → Fin 3 → ℝ
  mpos : Fin n → Fin 3 → ℝ
  c : ℝ
  ref : SteerRef
  form : Formulation
  /-- value of `steer.steer_type` when `steer.inv_digest` was calculated -/
  invForm : Formulation
  rDiag : Bool
  rDiagNorm : ℝ
  precision : String
  psfPrecision : String
  gamma : ℝ
  /-- `n` -/
  comps : ℤ
  evaList : List ℤ
  damp : ℝ
  stopn : ℕ
  nIter : ℕ
  alpha : ℝ
  unitMult : ℝ
  method : String
  epsPerc : ℝ
  pnorm : ℝ
  beta : ℝ
  /-- `m` of `BeamformerGIB` -/
  first : ℕ
  bounds : Fin 3 → ℝ × ℝ
  shgo : String

/-- The classes modelled here. -/
inductive BfClass where
  | base | functional | capon | eig | music | damas | damasPlus | orth | cleansc | clean | cmf | gib | gridless
  deriving DecidableEq

/-- `str` of the settings; `freqData`, `grid`, `mics` and `env` stand for the identifiers of these objects. -/
structure BfPrint (n g : ℕ) where
  freqData : (ℕ → ℝ) → (ℕ → Matrix (Fin n) (Fin n) ℂ) → String
  grid : (Fin (g + 1) → Fin 3 → ℝ) → String
  mics : (Fin n → Fin 3 → ℝ) → String
  env : ℝ → String
  ref : SteerRef → String
  form : Formulation → String
  bool : Bool → String
  num : ℝ → String
  int : ℤ → String
  list : List ℤ → String
  bounds : (Fin 3 → ℝ × ℝ) → String

/-- Values of `depends_on` of `SteeringVector.digest` (acoular/fbeamform.py 201). -/
def BfSet.steerDepends (pr : BfPrint n g) (s : BfSet n g) : List String :=
  [pr.form s.form, pr.env s.c, pr.grid s.gpos, pr.mics s.mpos, pr.ref s.ref]

/-- `steer.digest` (acoular/internal.py 8-18, acoular/fbeamform.py 218-220). -/
def BfSet.steerDigest (md5 : List Char → String) (pr : BfPrint n g) (s : BfSet n g) : String :=
  digestOf md5 "<class 'acoular.fbeamform.SteeringVector'>" ((s.steerDepends pr).map some)

/-- `steer.inv_digest` (acoular/fbeamform.py 204, 222-224): `digest(self)` with its default second argument, thus the hash of
the dependencies of `digest`, `steer_type` among them; but cached, and calculated again only after a change of environment,
grid, microphones or reference, so that the value of `steer_type` is the one at the time of the last calculation. -/
def BfSet.invDigest (md5 : List Char → String) (pr : BfPrint n g) (s : BfSet n g) : String :=
  ({ s with form := s.invForm } : BfSet n g).steerDigest md5 pr

/-- `BEAMFORMER_BASE_DIGEST_DEPENDENCIES` (acoular/fbeamform.py 125). -/
def BfSet.baseDepends (md5 : List Char → String) (pr : BfPrint n g) (s : BfSet n g) : List String :=
  [pr.freqData s.freqs s.csm, pr.bool s.rDiag, pr.num s.rDiagNorm, s.precision, s.steerDigest md5 pr]

/-- Values of `depends_on` of `digest`, by class: acoular/fbeamform.py 350, 720, 350 (Capon), 852 (Eig, MUSIC), 1171-1173,
1275-1277, 1385-1387, 1479, 1577-1579, 1721-1732, 2120-2135, 2376-2378. -/
def BfSet.depends (md5 : List Char → String) (pr : BfPrint n g) (s : BfSet n g) : BfClass → List String
  | .base | .capon => s.baseDepends md5 pr
  | .functional => s.baseDepends md5 pr ++ [pr.num s.gamma]
  | .eig | .music => s.baseDepends md5 pr ++ [pr.int s.comps]
  | .damas | .clean => s.baseDepends md5 pr ++ [pr.int s.nIter, pr.num s.damp, s.psfPrecision]
  | .damasPlus => s.baseDepends md5 pr ++ [pr.num s.alpha, s.method, pr.int s.nIter, pr.num s.unitMult]
  | .orth => s.baseDepends md5 pr ++ [pr.list s.evaList]
  | .cleansc => s.baseDepends md5 pr ++ [pr.int s.nIter, pr.num s.damp, pr.int s.stopn]
  | .cmf => [pr.freqData s.freqs s.csm, pr.num s.alpha, s.method, pr.int s.nIter, pr.num s.unitMult, pr.bool s.rDiag,
      s.precision, s.invDigest md5 pr]
  | .gib => [s.invDigest md5 pr, pr.freqData s.freqs s.csm, s.precision, pr.num s.alpha, s.method, pr.int s.nIter,
      pr.num s.unitMult, pr.num s.epsPerc, pr.num s.pnorm, pr.num s.beta, pr.int s.comps, pr.int s.first]
  | .gridless => [pr.freqData s.freqs s.csm, s.steerDigest md5 pr, s.precision, pr.bool s.rDiag, pr.list s.evaList,
      pr.bounds s.bounds, s.shgo]

/-- Name of the class as printed by `str`. -/
def BfClass.name : BfClass → String
  | .base => "<class 'acoular.fbeamform.BeamformerBase'>"
  | .functional => "<class 'acoular.fbeamform.BeamformerFunctional'>"
  | .capon => "<class 'acoular.fbeamform.BeamformerCapon'>"
  | .eig => "<class 'acoular.fbeamform.BeamformerEig'>"
  | .music => "<class 'acoular.fbeamform.BeamformerMusic'>"
  | .damas => "<class 'acoular.fbeamform.BeamformerDamas'>"
  | .damasPlus => "<class 'acoular.fbeamform.BeamformerDamasPlus'>"
  | .orth => "<class 'acoular.fbeamform.BeamformerOrth'>"
  | .cleansc => "<class 'acoular.fbeamform.BeamformerCleansc'>"
  | .clean => "<class 'acoular.fbeamform.BeamformerClean'>"
  | .cmf => "<class 'acoular.fbeamform.BeamformerCMF'>"
  | .gib => "<class 'acoular.fbeamform.BeamformerGIB'>"
  | .gridless => "<class 'acoular.fbeamform.BeamformerGridlessOrth'>"

/-- `digest` of the beamformer (acoular/internal.py 8-18). -/
def BfSet.digest (md5 : List Char → String) (pr : BfPrint n g) (s : BfSet n g) (k : BfClass) : String :=
  digestOf md5 k.name ((s.depends md5 pr k).map some)

/-- Distance in a homogeneous medium at rest (acoular/environments.py 205-242). -/
noncomputable def pointDist (x y : Fin 3 → ℝ) : ℝ := √((x 0 - y 0) ^ 2 + (x 1 - y 1) ^ 2 + (x 2 - y 2) ^ 2)

/-- `steer.r0`, `steer.rm` (acoular/fbeamform.py 206-216), wave number `2 * pi * f / env.c`. -/
noncomputable def BfSet.geo (s : BfSet n g) (i : ℕ) : SteerGeo n (g + 1) where
  st := s.form
  r0 := fun p => match s.ref with
    | .dist d => d
    | .pos x => pointDist (s.gpos p) x
  rm := fun p m => pointDist (s.gpos p) (s.mpos m)
  k := 2 * Real.pi * s.freqs i / s.c

/-- Routines of other packages: eigenvalues and eigenvectors, solvers with the parameters they are given (`method`, `alpha`,
`n_iter`, `unit_mult`, matrix, right hand side), the solver for one mode of GIB (parameters, transfer matrix, mode), the
global minimiser (function, bounds, options). -/
structure BfRoutines (n g : ℕ) where
  eigh : Matrix (Fin n) (Fin n) ℂ → (Fin n → ℝ) × (Fin n → Fin n → ℂ)
  psfSolve : String → ℝ → ℕ → ℝ → (Fin (g + 1) → Fin (g + 1) → ℝ) → (Fin (g + 1) → ℝ) → Fin (g + 1) → ℝ
  cmfSolve : (rDiag : Bool) → String → ℝ → ℕ → ℝ → (CmfRow n rDiag → Fin (g + 1) → ℝ) → (CmfRow n rDiag → ℝ) → Fin (g + 1) → ℝ
  gibMode : String → ℝ → ℕ → ℝ → ℝ → ℝ → ℝ → (Fin (g + 1) → Fin n → ℂ) → ℝ → (Fin n → ℂ) → GibMode (g + 1)
  shgo : ((Fin 3 → ℝ) → ℝ) → (Fin 3 → ℝ × ℝ) → String → Fin 3 → ℝ

/-- Eigenvector number `l` (0 if there is none, which does not happen below). -/
noncomputable def BfRoutines.col (rt : BfRoutines n g) (R : Matrix (Fin n) (Fin n) ℂ) (l : ℤ) (m : Fin n) : ℂ :=
  match pyIndex n l with
  | none => 0
  | some l => (rt.eigh R).2 m l

/-- Eigenvalue number `l`. -/
noncomputable def BfRoutines.val (rt : BfRoutines n g) (R : Matrix (Fin n) (Fin n) ℂ) (l : ℤ) : ℝ :=
  match pyIndex n l with
  | none => 0
  | some l => (rt.eigh R).1 l

open Classical in
/-- acoular/fbeamform.py 2186: `eva[eva < max(eva) / 1e12] = 0`; the largest eigenvalue is the first. -/
noncomputable def smallToZero (eva : List ℝ) : List ℝ :=
  eva.map fun v => if v < eva.headD 0 / 10 ^ 12 then 0 else v

/-- What is stored for a line: a row of `_ac`, `IndexError`, or (gridless) a row and positions. -/
inductive BfRow (g : ℕ) where
  | map (v : Fin (g + 1) → ℝ)
  | gib (v : Except PyErr ((Fin (g + 1) → ℝ) × Option (List (Fin (g + 1)))))
  | indexError
  | gridless (s : Except PyErr (GridlessState (Fin 3 → ℝ) ℝ))

/-- Map of the conventional beamformer (acoular/fbeamform.py 508-519, 1226-1237, 1311-1325, 1631-1643). -/
noncomputable def BfSet.dirty (s : BfSet n g) (i : ℕ) : Fin (g + 1) → ℝ :=
  let geo := s.geo i
  fun p => bfCalcPoint s.form s.rDiag s.rDiagNorm (geo.r0 p) (geo.rm p) geo.k (s.csm i)

/-- Point spread functions (acoular/fbeamform.py 1113-1140): value at `p`, source `q`. -/
noncomputable def BfSet.psf (s : BfSet n g) (i : ℕ) (p q : Fin (g + 1)) : ℝ :=
  let geo := s.geo i
  psfKernel s.form (geo.r0 p) (geo.rm p) (geo.r0 q) (geo.rm q) geo.k

/-- Row `i` of the result, by class, calculated from nothing: acoular/fbeamform.py 508-519, 775-787, 827-833, 885-901, 946-959,
1226-1240, 1311-1362, 1442-1453, 1512-1545, 1631-1665, 1776-1800, 2168-2293, 2415-2466. (`r_diag` has the only value `False`
for functional, Capon and MUSIC.) GIB: line `i` alone. -/
noncomputable def BfSet.row (rt : BfRoutines n g) (s : BfSet n g) (F i : ℕ) : BfClass → BfRow g
  | .base => .map (s.dirty i)
  | .functional => .map fun p => functionalPoint s.form s.gamma ((s.geo i).r0 p) ((s.geo i).rm p) (s.geo i).k
      (rt.eigh (s.csm i)).1 (rt.eigh (s.csm i)).2
  | .capon => .map fun p => caponPoint s.form ((s.geo i).r0 p) ((s.geo i).rm p) (s.geo i).k (s.csm i)
  | .eig =>
    match pyIndex n (eigNa n s.comps) with
    | none => .indexError
    | some l => .map fun p =>
      let out := eigKernel (e := 1) s.form s.rDiag (sigLossNorm s.rDiag s.rDiagNorm n) ((s.geo i).r0 p) ((s.geo i).rm p)
        (s.geo i).k (fun _ => (rt.eigh (s.csm i)).1 l) fun m _ => (rt.eigh (s.csm i)).2 m l
      if s.rDiag then (if out < 0 then 0 else out) else out
  | .music => .map (musicMap fun p =>
      let keep := fun l : Fin n => (l : ℤ) < n - eigNa n s.comps
      eigKernel s.form false ((n : ℝ) ^ 2) ((s.geo i).r0 p) ((s.geo i).rm p) (s.geo i).k
        (fun l => if keep l then (rt.eigh (s.csm i)).1 l else 0) (rt.eigh (s.csm i)).2)
  | .damas => .map (damasCalc (s.psf i) (s.dirty i) s.rDiag s.nIter s.damp)
  | .damasPlus => .map (rt.psfSolve s.method s.alpha s.nIter s.unitMult (s.psf i) (s.dirty i))
  | .orth =>
    match orthCalc (s.geo i) s.rDiag (sigLossNorm s.rDiag s.rDiagNorm n) (rt.eigh (s.csm i)).1 (rt.eigh (s.csm i)).2 s.evaList
      (fun _ => 0) with
    | none => .indexError
    | some v => .map v
  | .cleansc => .map (cleanscCalc (s.geo i) s.rDiag (sigLossNorm s.rDiag s.rDiagNorm n) s.damp s.stopn s.nIter (s.csm i)).result
  | .clean => .map (cleanCalc (s.psf i) s.damp s.nIter s.rDiag (s.dirty i)).clean
  | .cmf =>
    let t := fun p => transfer ((s.geo i).r0 p) ((s.geo i).rm p) (s.geo i).k
    .map (rt.cmfSolve s.rDiag s.method s.alpha s.nIter s.unitMult (cmfA s.rDiag t) (cmfR s.rDiag (s.csm i) s.unitMult))
  | .gib =>
    let t := fun p => transfer ((s.geo i).r0 p) ((s.geo i).rm p) (s.geo i).k
    let eva := smallToZero (List.ofFn (rt.eigh (s.csm i)).1).reverse
    .gib (gibLine s.first (eigNa n s.comps).toNat eva
      (fun j => rt.gibMode s.method s.alpha s.nIter s.unitMult s.epsPerc s.pnorm s.beta t (eva.getD j 0)
        (rt.col (s.csm i) (n - 1 - j))) none)
  | .gridless =>
    let geo := s.geo i
    let func := fun (l : ℕ) (x : Fin 3 → ℝ) =>
      -eigKernel (e := 1) s.form s.rDiag (sigLossNorm s.rDiag 1 n) (pointDist (clipBounds s.bounds x) 0)
        (fun m => pointDist (clipBounds s.bounds x) (s.mpos m)) geo.k (fun _ => 1) fun m _ => rt.col (s.csm i) l m
    let pos := fun (_ : ℕ) (l : ℕ) => rt.shgo (func l) s.bounds s.shgo
    let lev := fun (_ : ℕ) (l : ℕ) => rt.val (s.csm i) l / n
    .gridless (gridlessCalc pos lev s.comps.toNat (evaIndices n s.evaList) [i]
      (GridlessState.zeros F (gridlessSize s.comps.toNat F) 0 0))

end Acoular
