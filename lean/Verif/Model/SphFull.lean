import Verif.Model.SourceDigest
import Verif.Model.SphHarm
import Verif.Model.SphSource

/-!
# `SphericalHarmonicSource` (`acoular/sources.py`): the generator, from the settings to the blocks
-/

namespace Acoular

open Real

variable {M : ℕ}

/-- The settings of a spherical harmonic source: those of a point source with `direction`, the order and the coefficients. -/
structure SphSet (M : ℕ) extends SrcSet M where
  order : ℕ
  alpha : List ℂ

/-- `digest` (acoular/sources.py 974-992): `direction` is not listed. `pr` and `prAlpha` print the values. -/
def SphSet.digest (md5 : List Char → String) (pr : SrcPrint M) (prAlpha : List ℂ → String) (s : SphSet M) : String :=
  digestOf md5 "<class 'acoular.sources.SphericalHarmonicSource'>" ([pr.mics s.mics, pr.signal s.signal, pr.vec s.loc, pr.env s.c,
    pr.num s.startT, pr.num s.start, pr.nat s.up, prAlpha s.alpha, pr.nat s.order, "loop"].map some)

/-- `(Y_lm @ self.alpha)[m]` (acoular/sources.py 1024-1030) if there are as many coefficients as modes. -/
noncomputable def SphSet.directivity (s : SphSet M) (m : Fin (M + 1)) : ℂ :=
  (List.zipWith (· * ·) (getModes s.order s.direction (s.mics m) (some s.loc)) s.alpha).sum

/-- `transform` (acoular/sources.py 1024-1030): every column of the block. -/
noncomputable def SphSet.transform (s : SphSet M) (block : List (Fin (M + 1) → ℝ)) : List (Fin (M + 1) → ℝ) :=
  (List.range block.length).map fun t m => (sphTransform (s.directivity m) (block.map (· m))).getD t 0

/-- `ind` for sample `k` (acoular/sources.py 1061, 1071): with the constant `pi / 30`. -/
noncomputable def SphSet.index (s : SphSet M) (k : ℕ) (m : Fin (M + 1)) : ℝ :=
  (-s.dist s.loc m / s.c - s.startT + s.start) * s.signal.fs + π / 30 + k

/-- `SphericalHarmonicSource.result` (acoular/sources.py 1058-1079). `@` raises ValueError if the number of coefficients is not
the number of modes. -/
noncomputable def SphSet.result (s : SphSet M) (num : ℕ) : Trace (List (Fin (M + 1) → ℝ)) :=
  let blocks := sourceLoop (monopoleRow (s.signal.u s.up) (s.up : ℝ) (fun _ => s.dist s.loc) s.index) num true s.signal.n 0 []
  if blocks = [] then .stop
  else if s.alpha.length = (s.order + 1) ^ 2 then ⟨blocks.map s.transform, .returned⟩
  else .raise .valueError

end Acoular
