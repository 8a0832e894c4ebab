import Verif.Model.SourceDigest

/-!
# Fixed dipoles (`PointSourceDipole`, `acoular/sources.py` 1264-1350)

Real numbers; the environment is a homogeneous medium at rest, as in `Verif/Model/SourceDigest.lean`.
-/

namespace Acoular

variable {M : ℕ}

/-- `direc_mag` (acoular/sources.py 1298-1299): the length of the scaled direction. -/
noncomputable def SrcSet.direcMag (s : SrcSet M) : ℝ := absVec fun i => s.direction i * (1 / 100000)

/-- `dist` (acoular/sources.py 1306-1307): the distance of the poles. -/
noncomputable def SrcSet.poleDist (s : SrcSet M) : ℝ := s.c / s.signal.fs * s.direcMag

/-- `dir2` (acoular/sources.py 1301-1302, 1309-1310): half of the vector between the poles. -/
noncomputable def SrcSet.halfVector (s : SrcSet M) (i : Fin 3) : ℝ :=
  s.direction i * (1 / 100000) / s.direcMag * s.poleDist / 2

/-- `ind1`, `ind2` (acoular/sources.py 1322-1324) from the distances. -/
noncomputable def SrcSet.firstIndex (s : SrcSet M) (r : Fin (M + 1) → ℝ) (m : Fin (M + 1)) : ℝ :=
  (-r m / s.c - s.startT + s.start) * s.signal.fs

/-- Row `t` of `PointSourceDipole.result` (acoular/sources.py 1294-1341). For a direction of length zero all numbers are
not a number and the conversion to an index gives an invalid one (`none`). -/
noncomputable def SrcSet.dipoleRow (s : SrcSet M) (t : ℕ) : Option (Fin (M + 1) → ℝ) :=
  if s.direcMag = 0 then none
  else
    let rm := s.dist s.loc
    let rm1 := s.dist fun i => s.loc i + s.halfVector i
    let rm2 := s.dist fun i => s.loc i - s.halfVector i
    Acoular.dipoleRow (s.signal.u s.up) s.up s.poleDist rm rm1 rm2 (s.firstIndex rm1) (s.firstIndex rm2) t

/-- `PointSourceDipole.result` (acoular/sources.py 1326-1350): blocks of rows. -/
noncomputable def SrcSet.dipoleResult (s : SrcSet M) (num : ℕ) : List (List (Fin (M + 1) → ℝ)) :=
  sourceLoop s.dipoleRow num false s.signal.n 0 []

end Acoular
