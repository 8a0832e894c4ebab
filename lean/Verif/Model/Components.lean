import Verif.Model.EigBeam
import Verif.Model.Gridless

/-!
# Which components `BeamformerOrth` and `BeamformerGridlessOrth` consider

The two attributes `n` and `eva_list` (`acoular/fbeamform.py`), the same in both classes.
-/

namespace Acoular

/-- `n` and `eva_list` (acoular/fbeamform.py 1375-1381, 2347-2353). -/
structure CompState where
  n : ℤ
  eva : List ℤ

/-- The defaults: `Int(1)`, `array([-1])`. -/
def CompState.fresh : CompState := ⟨1, [-1]⟩

/-- Assignments (keyword arguments of the constructor are assignments in the order given). -/
inductive CompAct where
  | setN (n : ℤ)
  | setEva (l : List ℤ)

/-- `set_eva_list` (acoular/fbeamform.py 1415-1418, 2384-2387) is called by the package traits if the value of `n` is a new one. Nothing
happens to `n` if `eva_list` is assigned. `arange(-1, -1 - n, -1)` is empty for `n ≤ 0`. -/
def CompState.act (s : CompState) : CompAct → CompState
  | .setN m => if m = s.n then s else ⟨m, orthEvaList m.toNat⟩
  | .setEva l => ⟨s.n, l⟩

/-- A sequence of assignments. -/
def CompState.acts (s : CompState) (l : List CompAct) : CompState := l.foldl CompState.act s

/-- The row of a frequency line of `BeamformerOrth`, beginning with zeros (acoular/fbeamform.py 437-440, 1437-1454). -/
noncomputable def CompState.orth {n g : ℕ} (s : CompState) (geo : SteerGeo n (g + 1)) (rDiag : Bool) (normfactor : ℝ) (eva : Fin n → ℝ)
    (eve : Fin n → Fin n → ℂ) : Except PyErr (Fin (g + 1) → ℝ) :=
  match orthCalc geo rDiag normfactor eva eve s.eva (fun _ => 0) with
  | none => .error .indexError
  | some row => .ok row

/-- The components `BeamformerGridlessOrth` looks for, in this order (acoular/fbeamform.py 2414-2415, 2441). -/
def CompState.gridless (s : CompState) (numMics : ℕ) : List ℕ := evaIndices numMics s.eva

end Acoular
