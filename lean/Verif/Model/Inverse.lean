import Verif.Spec.Inverse
import Verif.Model.Py
import Mathlib.Analysis.SpecialFunctions.Pow.Real
import Mathlib.Analysis.SpecialFunctions.Sqrt
import Mathlib.LinearAlgebra.Matrix.NonsingularInverse

/-!
# Inverse methods (`acoular/fbeamform.py`): covariance matrix fitting, DAMAS+, SODIX, generalised inverse beamforming

Real and complex numbers instead of floating point numbers.  What the solvers of scipy, scikit-learn and pylops do is
not modelled; their results are taken to be solutions of the problem they are documented to solve (`Spec.IsFit`).
`t p m` stands for `steer.transfer(f)[p, m]`, so `h[m, p] = t p m`.
-/

namespace Acoular

open Spec Matrix Complex

variable {N n : ℕ}

/-! ## `BeamformerCMF._calc` (fbeamform.py:1750-1895) -/

/-- Rows of the real system of equations: entry `(l, m)` of the transposed matrices, `false` for the real parts that
`realify` puts first, `true` for the imaginary parts. -/
abbrev CmfIndex (n : ℕ) := Fin n × Fin n × Bool

/-- Rows that are kept (fbeamform.py:1786-1795): lower triangle `m ≤ l` (`tril`, `ind`); real parts without the main
diagonal if `r_diag` and with it otherwise; imaginary parts without the main diagonal. (`ind_reim[0] = True` concerns
the real part of entry `(0, 0)`, which is kept anyway.) -/
def cmfKeep (rDiag : Bool) (i : CmfIndex n) : Prop :=
  i.2.1 ≤ i.1 ∧ (if i.2.2 || rDiag then i.1 ≠ i.2.1 else True)

instance (rDiag : Bool) (i : CmfIndex n) : Decidable (cmfKeep rDiag i) := by unfold cmfKeep; infer_instance

/-- The rows as a type; the fits do not depend on the order of the rows. -/
abbrev CmfRow (n : ℕ) (rDiag : Bool) := {i : CmfIndex n // cmfKeep rDiag i}

/-- `Ac` (fbeamform.py:1782-1783): row `l * nc + m`, column `p` is `h[m, p] * conj(h[l, p])`. -/
noncomputable def cmfAc (t : Fin N → Fin n → ℂ) (l m : Fin n) (p : Fin N) : ℂ := t p m * star (t p l)

/-- `A = realify(Ac[ind, :])[ind_reim, :]` (fbeamform.py:1797). -/
noncomputable def cmfA (rDiag : Bool) (t : Fin N → Fin n → ℂ) (i : CmfRow n rDiag) (p : Fin N) : ℝ :=
  if i.1.2.2 then (cmfAc t i.1.1 i.1.2.1 p).im else (cmfAc t i.1.1 i.1.2.1 p).re

/-- `R = realify(reshape(csm.T, (nc * nc, 1))[ind, :])[ind_reim, :] * unit` (fbeamform.py:1799): row `l * nc + m` is
`csm[m, l]`. -/
noncomputable def cmfR (rDiag : Bool) (csm : Matrix (Fin n) (Fin n) ℂ) (unit : ℝ) (i : CmfRow n rDiag) : ℝ :=
  (if i.1.2.2 then (csm i.1.2.1 i.1.1).im else (csm i.1.2.1 i.1.1).re) * unit

/-- `function` of the method `'fmin_l_bfgs_b'`, value (fbeamform.py:1851): `x.T @ A.T @ A @ x - 2 * R.T @ A @ x +
R.T @ R`. -/
noncomputable def cmfFunc {ι : Type} [Fintype ι] (A : ι → Fin N → ℝ) (R : ι → ℝ) (x : Fin N → ℝ) : ℝ :=
  ∑ p, (∑ q, x q * ∑ i, A i q * A i p) * x p - 2 * ∑ p, (∑ i, R i * A i p) * x p + ∑ i, R i * R i

/-- `function` of the method `'fmin_l_bfgs_b'`, derivative (fbeamform.py:1853): `2 * A.T @ A @ x - 2 * A.T @ R`. -/
noncomputable def cmfDer {ι : Type} [Fintype ι] (A : ι → Fin N → ℝ) (R : ι → ℝ) (x : Fin N → ℝ) (p : Fin N) : ℝ :=
  2 * ∑ q, (∑ i, A i p * A i q) * x q - 2 * ∑ i, A i p * R i

/-- The methods whose results are `model.coef_[:] / norms / unit` (fbeamform.py:1883-1894; for DAMAS+ 1334-1353): `x` is
a possible result if it comes from a best fit of the scaled data by the normalised columns. The estimators are created
without `fit_intercept`, whose default is True, so the fit has an offset. The penalty handed over is `alpha * unit`
(`LassoLars`, fbeamform.py:1802 and 1336) or none (`LinearRegression`, 1808). -/
def SklearnResult {ι : Type} [Fintype ι] (alpha unit : ℝ) (norms : Fin N → ℝ) (A : ι → Fin N → ℝ) (y : ι → ℝ)
    (x : Fin N → ℝ) : Prop :=
  ∃ coef : Fin N → ℝ, IsFit true (alpha * unit) (fun i p => A i p / norms p) (fun i => y i * unit) coef ∧
    x = fun p => coef p / norms p / unit

/-- `nnls(psf, y)[0] / unit` (DAMAS+, fbeamform.py:1323) and `fmin_l_bfgs_b` with bounds `(0, inf)` (CMF,
fbeamform.py:1859-1881): a best fit of the scaled data without offset, divided by the unit. -/
def NnlsResult {ι : Type} [Fintype ι] (unit : ℝ) (A : ι → Fin N → ℝ) (y : ι → ℝ) (x : Fin N → ℝ) : Prop :=
  ∃ coef : Fin N → ℝ, IsFit false 0 A (fun i => y i * unit) coef ∧ x = fun p => coef p / unit

/-- `fista(…, y=R[:, 0], eps=self.alpha, …)` then `/= unit` (fbeamform.py:1834-1846): pylops minimises
`‖y - A x‖² + eps ‖x‖₁`; the penalty is not multiplied by the unit. -/
def FistaResult {ι : Type} [Fintype ι] (alpha unit : ℝ) (A : ι → Fin N → ℝ) (y : ι → ℝ) (x : Fin N → ℝ) : Prop :=
  ∃ coef : Fin N → ℝ,
    (∀ c : Fin N → ℝ, ∑ i, (y i * unit - ∑ p, A i p * coef p) ^ 2 + alpha * ∑ p, |coef p| ≤
      ∑ i, (y i * unit - ∑ p, A i p * c p) ^ 2 + alpha * ∑ p, |c p|) ∧
    x = fun p => coef p / unit

/-- `splitbregman(Op=A, RegsL1=[alpha * Identity], y=R[:, 0], mu=1.0, epsRL1s=[1], …)` then `/= unit`
(fbeamform.py:1810-1832): pylops minimises `mu / 2 ‖y - A x‖² + ‖alpha x‖₁`; the penalty is not multiplied by the unit.
The limit of many iterations. -/
def BregmanResult {ι : Type} [Fintype ι] (alpha unit : ℝ) (A : ι → Fin N → ℝ) (y : ι → ℝ) (x : Fin N → ℝ) : Prop :=
  ∃ coef : Fin N → ℝ,
    (∀ c : Fin N → ℝ, 1 / 2 * ∑ i, (y i * unit - ∑ p, A i p * coef p) ^ 2 + ∑ p, |alpha * coef p| ≤
      1 / 2 * ∑ i, (y i * unit - ∑ p, A i p * c p) ^ 2 + ∑ p, |alpha * c p|) ∧
    x = fun p => coef p / unit

/-- Method `'LP'` of DAMAS+ (fbeamform.py:1320-1333): `linprog(c=-psf.sum(1), A_ub=psf, b_ub=y).x / unit`, where scipy
minimises `c x` over all `x` with `A_ub x ≤ b_ub` and, by default, `x ≥ 0`; `psf.sum(1)` are the sums of the rows. `y` is
the map before `y *= unit`. -/
def LpResult (unit : ℝ) (psf : Fin N → Fin N → ℝ) (y x : Fin N → ℝ) : Prop :=
  ∃ z : Fin N → ℝ,
    ((∀ p, 0 ≤ z p) ∧ (∀ i, ∑ p, psf i p * z p ≤ y i * unit)) ∧
    (∀ z' : Fin N → ℝ, (∀ p, 0 ≤ z' p) → (∀ i, ∑ p, psf i p * z' p ≤ y i * unit) →
      ∑ p, -1 * (∑ j, psf p j) * z p ≤ ∑ p, -1 * (∑ j, psf p j) * z' p) ∧
    x = fun p => z p / unit

/-! ## `BeamformerSODIX._calc` (fbeamform.py:1949-2054) -/

/-- `csm_mod = dot(p.T, p.conj())` with `p = h.T * Djm` (fbeamform.py:2001-2003). -/
noncomputable def sodixMod (t : Fin N → Fin n → ℂ) (D : Fin N → Fin n → ℝ) (m l : Fin n) : ℂ :=
  ∑ r, (t r m * D r m) * star (t r l * D r l)

/-- `Q = csm - csm_mod` (fbeamform.py:2004). -/
noncomputable def sodixQ (t : Fin N → Fin n → ℂ) (csm : Matrix (Fin n) (Fin n) ℂ) (D : Fin N → Fin n → ℝ)
    (m l : Fin n) : ℂ := csm m l - sodixMod t D m l

/-- `func = sum((absolute(Q)) ** 2)` (fbeamform.py:2005). Neither `r_diag` nor `alpha` nor `unit_mult` is used. -/
noncomputable def sodixFunc (t : Fin N → Fin n → ℂ) (csm : Matrix (Fin n) (Fin n) ℂ) (D : Fin N → Fin n → ℝ) : ℝ :=
  ∑ m, ∑ l, ‖sodixQ t csm D m l‖ ^ 2

/-- `derdrl = -4 * real(einsum('rl,rm,ml->rl', h.T, h.T.conj() * Djm, Q))` (fbeamform.py:2008-2014). -/
noncomputable def sodixDer (t : Fin N → Fin n → ℂ) (csm : Matrix (Fin n) (Fin n) ℂ) (D : Fin N → Fin n → ℝ)
    (r : Fin N) (l : Fin n) : ℝ :=
  -4 * (∑ m, t r l * (star (t r m) * D r m) * sodixQ t csm D m l).re

/-! ## `BeamformerGIB._calc` (fbeamform.py:2149-2293) -/

/-- What the solution for one eigenmode leaves behind: the row `qi[s, :]` and `locpoints`. -/
structure GibMode (N : ℕ) where
  /-- amplitudes -/
  row : Fin N → ℂ
  /-- points still in use -/
  loc : List (Fin N)

/-- The loop over the eigenmodes (fbeamform.py:2188-2287). `qi` starts with zeros; a mode with eigenvalue ≤ 0 leaves its
row and `locpoints` unchanged. `locpoints` is `none` while the name is not bound. The rows below `m` stay zero and are
left out. -/
noncomputable def gibModes (eva : List ℝ) (solve : ℕ → GibMode N) :
    List ℕ → Option (List (Fin N)) → Except PyErr (List (Fin N → ℂ) × Option (List (Fin N)))
  | [], loc => .ok ([], loc)
  | s :: ss, loc =>
    match eva[s]? with
    | none => .error .indexError
    | some v =>
      if 0 < v then
        match gibModes eva solve ss (some (solve s).loc) with
        | .error e => .error e
        | .ok r => .ok ((solve s).row :: r.1, r.2)
      else
        match gibModes eva solve ss loc with
        | .error e => .error e
        | .ok r => .ok ((fun _ => 0) :: r.1, r.2)

/-- One line (fbeamform.py:2175-2293): `temp = zeros(num_points)`, `temp[locpoints] = sum(absolute(qi[:, locpoints]) **
2, axis=0)`. `loc` is what the lines before left in the local variable `locpoints`; `eva` descending. The result is the
line of `_ac` and what is left in `locpoints`. -/
noncomputable def gibLine (m n : ℕ) (eva : List ℝ) (solve : ℕ → GibMode N) (loc : Option (List (Fin N))) :
    Except PyErr ((Fin N → ℝ) × Option (List (Fin N))) :=
  match gibModes eva solve (List.range' m n) loc with
  | .error e => .error e
  | .ok (_, none) => .error .unboundLocalError
  | .ok (rows, some l) => .ok (fun p => if p ∈ l then (rows.map fun q => ‖q p‖ ^ 2).sum else 0, some l)

/-- The loop over the lines of one call of `_calc`. -/
noncomputable def gibCalc (m n : ℕ) : List (List ℝ × (ℕ → GibMode N)) → Option (List (Fin N)) →
    Except PyErr (List (Fin N → ℝ))
  | [], _ => .ok []
  | (eva, solve) :: ls, loc =>
    match gibLine m n eva solve loc with
    | .error e => .error e
    | .ok (line, loc') =>
      match gibCalc m n ls loc' with
      | .error e => .error e
      | .ok r => .ok (line :: r)

/-- State of the iteration of method `'Suzuki'`: row `qi[s, :]`, `locpoints`, diagonal of `weights` (a number for every
position in `locpoints`). -/
structure SuzukiState (N : ℕ) where
  /-- `qi[s, :]` -/
  row : Fin N → ℂ
  /-- `locpoints` -/
  loc : List (Fin N)
  /-- diagonal of `weights`, by point -/
  weight : Fin N → ℝ

/-- `A[:, locpoints]`. -/
def gibColumns (A : Matrix (Fin n) (Fin N) ℂ) (loc : List (Fin N)) : Matrix (Fin n) (Fin loc.length) ℂ :=
  fun i j => A i (loc.get j)

/-- The regularised solution (fbeamform.py:2202-2218). `radius` stands for `max(absolute(eigvals(·)))`; `epsilon` is an
array of integers (`arange(n_iter)`), so what is stored in it loses its fraction. -/
noncomputable def suzukiSolve (radius : ∀ k : ℕ, Matrix (Fin k) (Fin k) ℂ → ℝ) (epsPerc : ℝ) (A : Matrix (Fin n) (Fin N) ℂ)
    (e : Fin n → ℂ) (s : SuzukiState N) : Fin s.loc.length → ℂ :=
  let B := gibColumns A s.loc
  let W : Matrix (Fin s.loc.length) (Fin s.loc.length) ℂ := Matrix.diagonal fun j => (s.weight (s.loc.get j) : ℂ)
  if n ≤ s.loc.length then
    let AWA := B * W * Bᴴ
    let eps : ℤ := ⌊radius n AWA * epsPerc⌋
    ((W * Bᴴ) * (AWA + (1 : Matrix (Fin n) (Fin n) ℂ) * Matrix.diagonal fun _ => (eps : ℂ))⁻¹).mulVec e
  else
    let AA := Bᴴ * B
    let eps : ℤ := ⌊radius s.loc.length AA * epsPerc⌋
    ((AA + W⁻¹ * Matrix.diagonal fun _ => (eps : ℂ))⁻¹ * Bᴴ).mulVec e

/-- `qi[s, locpoints] = …` -/
def suzukiStore (row : Fin N → ℂ) : List (Fin N × ℂ) → Fin N → ℂ
  | [] => row
  | (p, v) :: r => suzukiStore (Function.update row p v) r

/-- `delete(locpoints, [idx[leftpoints::]])` with `idx = argsort(abs(qi[s, locpoints]))[::-1]`
(fbeamform.py:2224-2226): the points behind the `left` strongest go, the order of the others stays. Sorting is stable
here; numpy does not say how it breaks ties. -/
noncomputable def suzukiKeep (mag : Fin N → ℝ) (loc : List (Fin N)) (left : ℕ) : List (Fin N) :=
  let idx := (loc.mergeSort fun p q => decide (mag p ≤ mag q)).reverse
  loc.filter fun p => !decide (p ∈ idx.drop left)

/-- One iteration (fbeamform.py:2202-2232). `left it` is `int(round(num_points * beta ** (it + 1)))`. (With `beta`
between 0 and 1 it never exceeds the length of `locpoints`, so that `qix[s, :] = qi[s, locpoints]` fits.) -/
noncomputable def suzukiStep (radius : ∀ k : ℕ, Matrix (Fin k) (Fin k) ℂ → ℝ) (epsPerc pnorm beta : ℝ) (left : ℕ → ℕ)
    (A : Matrix (Fin n) (Fin N) ℂ) (e : Fin n → ℂ) (s : SuzukiState N) (it : ℕ) : SuzukiState N :=
  let q := suzukiSolve radius epsPerc A e s
  let row := suzukiStore s.row ((List.finRange s.loc.length).map fun j => (s.loc.get j, q j))
  let loc := if beta < 1 ∧ 1 < it then suzukiKeep (fun p => ‖row p‖) s.loc (left it) else s.loc
  ⟨row, loc, fun p => ‖row p‖ ^ (2 - pnorm)⟩

/-- All iterations for one eigenmode `e` (fbeamform.py:2196-2232). -/
noncomputable def suzukiMode (radius : ∀ k : ℕ, Matrix (Fin k) (Fin k) ℂ → ℝ) (epsPerc pnorm beta : ℝ) (left : ℕ → ℕ)
    (nIter : ℕ) (A : Matrix (Fin n) (Fin N) ℂ) (e : Fin n → ℂ) : GibMode N :=
  let s := (List.range nIter).foldl (suzukiStep radius epsPerc pnorm beta left A e)
    ⟨fun _ => 0, List.finRange N, fun _ => 1⟩
  ⟨s.row, s.loc⟩

/-- `int(round(num_points * beta ** (it + 1)))` (fbeamform.py:2223), ties to even. -/
noncomputable def gibLeft (N : ℕ) (beta : ℝ) (it : ℕ) : ℕ :=
  let v := (N : ℝ) * beta ^ (it + 1)
  let f := ⌊v⌋₊
  if v - f < 1 / 2 then f else if v - f = 1 / 2 then (if f % 2 = 0 then f else f + 1) else f + 1

/-- Rows of the real system that the other methods solve (fbeamform.py:2252): `AB = [[Re A, -Im A], [Im A, Re A]]`. -/
noncomputable def gibAB (A : Matrix (Fin n) (Fin N) ℂ) : (Fin n × Bool) → Fin (N + N) → ℝ := fun i =>
  Fin.append (fun p => if i.2 then (A i.1 p).im else (A i.1 p).re)
    (fun p => if i.2 then (A i.1 p).re else -(A i.1 p).im)

/-- Right hand side `R = [Re emode, Im emode]` without the unit (fbeamform.py:2253). -/
noncomputable def gibR (e : Fin n → ℂ) (i : Fin n × Bool) : ℝ := if i.2 then (e i.1).im else (e i.1).re

/-- `qi[s, locpoints] = qi_real + qi_imag * 1j` with `hsplit` (fbeamform.py:2279-2281). -/
noncomputable def gibJoin (x : Fin (N + N) → ℝ) (p : Fin N) : ℂ := x (Fin.castAdd N p) + x (Fin.natAdd N p) * I

/-- Possible amplitudes of a mode with the methods that fit non negative coefficients (`'NNLS'`, `'LassoLars'`). -/
def GibFitResult (alpha unit : ℝ) (norms : Fin (N + N) → ℝ) (A : Matrix (Fin n) (Fin N) ℂ) (e : Fin n → ℂ)
    (q : Fin N → ℂ) : Prop :=
  ∃ x, SklearnResult alpha unit norms (gibAB A) (gibR e) x ∧ q = gibJoin x

end Acoular
