import Verif.Model.Steering
import Verif.Props.Env
import Mathlib.Tactic.Linarith
import Mathlib.Tactic.NormNum
import Mathlib.Tactic.Ring

/-!
# Property theorems: reference, distances and transfer matrix of a steering vector (C104)
-/

namespace Acoular

/-- The transfer factor between a source at distance `d` from a microphone and `d0` from the reference position, for wave
number `k`: amplitude `d0 / d`, and the phase of a wave that has travelled `d - d0`. -/
noncomputable def Spec.transferFactor (k d0 d : ℝ) : ℂ := ((d0 / d : ℝ) : ℂ) * Complex.exp (-(Complex.I * (k * (d - d0) : ℝ)))

open Spec

section Lemmas

private theorem row_factor (k d0 : ℝ) (row : List ℝ) : transferRow k d0 row = row.map (transferFactor k d0) := by
  unfold transferRow
  apply List.map_congr_left
  intro r _
  unfold transferFactor phase
  have e : (-(Complex.I * (k * (r - d0) : ℝ)) : ℂ) = ((-(k * (r - d0)) : ℝ) : ℂ) * Complex.I := by push_cast; ring
  rw [e, Complex.exp_mul_I, ← Complex.ofReal_cos, ← Complex.ofReal_sin, Real.cos_neg, Real.sin_neg]
  push_cast
  ring

private theorem rm_of_ne (entry : (Fin 3 → ℝ) → (Fin 3 → ℝ) → ℝ) (gpos mpos : List (Fin 3 → ℝ))
    (h : mpos.length ≠ 1 ∨ gpos.length = 1) : steerRm entry gpos mpos = gpos.map fun g => mpos.map fun m => entry g m := by
  unfold steerRm distTable
  by_cases h1 : mpos.length = 1
  · have hg : gpos.length = 1 := h.resolve_left (fun hh => hh h1)
    obtain ⟨m, rfl⟩ := List.length_eq_one_iff.1 h1
    obtain ⟨g, rfl⟩ := List.length_eq_one_iff.1 hg
    simp
  · simp [h1]

private theorem pyIndex_some {n : ℕ} {i : ℤ} (h : -n ≤ i ∧ i < n) :
    ∃ a : Fin n, pyIndex n i = some a ∧ (a.val : ℤ) = if 0 ≤ i then i else n + i := by
  unfold pyIndex
  by_cases h0 : 0 ≤ i
  · rw [dif_pos ⟨h0, h.2⟩, if_pos h0]
    exact ⟨_, rfl, by simp [h0]⟩
  · rw [dif_neg (fun hh => h0 hh.1), dif_pos ⟨h.1, by omega⟩, if_neg h0]
    refine ⟨_, rfl, ?_⟩
    show ((n + i).toNat : ℤ) = n + i
    exact Int.toNat_of_nonneg (by omega)

end Lemmas

/-- **C104.** A number other than zero assigned to `ref` is used, without its sign, as the reference distance of every grid
point. -/
theorem C104_distance (entry : (Fin 3 → ℝ) → (Fin 3 → ℝ) → ℝ) (gpos : List (Fin 3 → ℝ)) (x : ℝ) (hx : x ≠ 0) :
    ∃ ref l, setRef (.num x) = .ok ref ∧ steerR0 entry gpos ref = .ok l ∧ l.length = gpos.length ∧ ∀ d ∈ l, d = |x| := by
  refine ⟨_, List.replicate gpos.length |x|, rfl, ?_, List.length_replicate, fun d hd => List.eq_of_mem_replicate hd⟩
  unfold steerR0
  simp only
  rw [if_pos (abs_pos.2 hx)]

/-- The hypotheses of `C104_distance` are met: -/
example := C104_distance distEntry [![0, 0, 1], ![1, 0, 1]] (-2) (by norm_num)

/-- **C104.** Three coordinates assigned to `ref` are the reference position: the reference distance of a grid point is its
travel distance to that position. -/
theorem C104_position (entry : (Fin 3 → ℝ) → (Fin 3 → ℝ) → ℝ) (gpos : List (Fin 3 → ℝ)) (x y z : ℝ) :
    ∃ ref l, setRef (.seq [x, y, z]) = .ok ref ∧ steerR0 entry gpos ref = .ok l ∧ l.length = gpos.length ∧
      ∀ (n : ℕ) g, gpos[n]? = some g → l[n]? = some (entry g ![x, y, z]) := by
  refine ⟨.pos ![x, y, z], gpos.map fun g => entry g ![x, y, z], ?_, ?_, List.length_map _, ?_⟩
  · unfold setRef
    simp only
    rw [dif_pos (show [x, y, z].length = 3 from rfl)]
    congr 2
    funext i
    fin_cases i <;> rfl
  · unfold steerR0 distTable
    simp [Function.comp_def]
  · intro n g h
    rw [List.getElem?_map, h]; rfl

/-- **C104.** Sequences of other lengths and strings are refused with `TraitError`. -/
theorem C104_refused (l : List ℝ) (hl : l.length ≠ 3) :
    setRef (.seq l) = .error .traitError ∧ setRef .str = .error .traitError := by
  refine ⟨?_, rfl⟩
  unfold setRef
  simp only
  rw [dif_neg hl]

/-- The hypotheses of `C104_refused` are met: -/
example := C104_refused [1, 2] (by decide)

/-- **C104 is violated for the reference distance zero**, which is accepted: any use of the reference distances then raises
`TypeError` (an array is called), for every grid. -/
theorem C104_zero_violated (entry : (Fin 3 → ℝ) → (Fin 3 → ℝ) → ℝ) (gpos : List (Fin 3 → ℝ)) :
    ∃ ref, setRef (.num 0) = .ok ref ∧ steerR0 entry gpos ref = .error .typeError := by
  refine ⟨_, rfl, ?_⟩
  unfold steerR0
  simp only
  rw [if_neg (by simp)]

/-- **C104 (partial).** The transfer matrix has one row per grid point and one column per microphone, with the transfer
factors for the respective distances. Missing: arrays of one microphone with more than one grid point. -/
theorem C104_transfer_partial (entry : (Fin 3 → ℝ) → (Fin 3 → ℝ) → ℝ) (gpos mpos : List (Fin 3 → ℝ)) (ref : SteerRef)
    (r0 : List ℝ) (hr : steerR0 entry gpos ref = .ok r0) (k : ℝ) (h : mpos.length ≠ 1 ∨ gpos.length = 1) :
    ∃ t, steerTransfer r0 (steerRm entry gpos mpos) k .all = .ok t ∧ t.length = gpos.length ∧
      ∀ (n : ℕ) g d0, gpos[n]? = some g → r0[n]? = some d0 →
        t[n]? = some (mpos.map fun m => transferFactor k d0 (entry g m)) := by
  have hl : r0.length = gpos.length := by
    cases ref with
    | dist d =>
      unfold steerR0 at hr
      simp only at hr
      split at hr
      · injection hr with hr; rw [← hr, List.length_replicate]
      · cases hr
    | pos x =>
      unfold steerR0 distTable at hr
      simp only [Option.getD_some, List.length_singleton, if_true] at hr
      injection hr with hr
      rw [← hr]; simp
  rw [rm_of_ne entry gpos mpos h]
  refine ⟨_, by unfold steerTransfer calcTransfer; rw [if_pos (by rw [hl, List.length_map])], by simp [hl], ?_⟩
  intro n g d0 hg hd
  rw [List.getElem?_zipWith, hd, List.getElem?_map, hg]
  simp only [Option.map_some, row_factor, List.map_map]
  rfl

/-- **C104.** Asking for a list of grid points gives the rows of the full transfer matrix, in the order of the list;
negative indices count from the end. For a single index the result has one row. -/
theorem C104_index (r0 : List ℝ) (rm : List (List ℝ)) (hl : r0.length = rm.length) (k : ℝ) (t : List (List ℂ))
    (ht : steerTransfer r0 rm k .all = .ok t) :
    (∀ i : ℤ, -r0.length ≤ i → i < r0.length → ∃ row, steerTransfer r0 rm k (.int i) = .ok [row] ∧
      t[(if 0 ≤ i then i else r0.length + i).toNat]? = some row) ∧
    ∀ l : List ℤ, (∀ i ∈ l, -r0.length ≤ i ∧ i < r0.length) → ∃ rows, steerTransfer r0 rm k (.array l) = .ok rows ∧
      List.Forall₂ (fun (i : ℤ) row => t[(if 0 ≤ i then i else r0.length + i).toNat]? = some row) l rows := by
  have ht' : t = List.zipWith (transferRow k) r0 rm := by
    unfold steerTransfer calcTransfer at ht
    simp only at ht
    rw [if_pos hl] at ht
    injection ht with ht
    exact ht.symm
  have hrow : ∀ i : ℤ, -r0.length ≤ i → i < r0.length → ∃ a b, rowAt r0 rm i = .ok (a, b) ∧
      t[(if 0 ≤ i then i else r0.length + i).toNat]? = some (transferRow k a b) := by
    intro i h1 h2
    obtain ⟨a, ha, hav⟩ := pyIndex_some ⟨h1, h2⟩
    obtain ⟨b, hb, hbv⟩ := pyIndex_some (n := rm.length) ⟨by omega, by omega⟩ (i := i)
    have hba : b.val = a.val := by
      have : (rm.length : ℤ) = r0.length := by omega
      rw [this] at hbv
      omega
    refine ⟨r0[a.val], rm[b.val], ?_, ?_⟩
    · unfold rowAt; rw [ha, hb]
    · rw [← hav, Int.toNat_natCast, ht', List.getElem?_zipWith, List.getElem?_eq_getElem a.isLt,
        List.getElem?_eq_getElem (by omega)]
      simp only [hba]
  constructor
  · intro i h1 h2
    obtain ⟨a, b, e1, e2⟩ := hrow i h1 h2
    refine ⟨_, ?_, e2⟩
    unfold steerTransfer
    simp only
    rw [e1]
    rfl
  · intro l hin
    have key : ∀ l : List ℤ, (∀ i ∈ l, -r0.length ≤ i ∧ i < r0.length) → ∃ rows, l.mapM (rowAt r0 rm) = .ok rows ∧
        List.Forall₂ (fun (i : ℤ) (q : ℝ × List ℝ) => t[(if 0 ≤ i then i else r0.length + i).toNat]? =
          some (transferRow k q.1 q.2)) l rows := by
      intro l
      induction l with
      | nil => intro _; exact ⟨[], rfl, .nil⟩
      | cons i l ih =>
        intro hin
        obtain ⟨rows, e, hf⟩ := ih fun j hj => hin j (List.mem_cons_of_mem _ hj)
        obtain ⟨a, b, e1, e2⟩ := hrow i (hin i (by simp)).1 (hin i (by simp)).2
        refine ⟨(a, b) :: rows, ?_, .cons e2 hf⟩
        rw [List.mapM_cons, e1, e]
        rfl
    obtain ⟨rows, e, hf⟩ := key l hin
    refine ⟨rows.map fun q => transferRow k q.1 q.2, ?_, ?_⟩
    · unfold steerTransfer
      simp only
      rw [e]
      show calcTransfer _ _ _ = _
      unfold calcTransfer
      rw [if_pos (by simp), List.zipWith_map, List.zipWith_self]
    · rw [List.forall₂_map_right_iff]
      exact hf

/-- **C104 is violated for arrays of a single microphone.** For more than one grid point the table of the distances to the
microphone has one row with an entry per grid point instead of one row per grid point, and the transfer matrix
cannot be computed (`ValueError`). -/
theorem C104_single_mic_violated (entry : (Fin 3 → ℝ) → (Fin 3 → ℝ) → ℝ) (gpos : List (Fin 3 → ℝ)) (m : Fin 3 → ℝ)
    (hg : 2 ≤ gpos.length) (r0 : List ℝ) (hl : r0.length = gpos.length) (k : ℝ) :
    steerRm entry gpos [m] = [gpos.map fun g => entry g m] ∧
    steerTransfer r0 (steerRm entry gpos [m]) k .all = .error .valueError := by
  have e : steerRm entry gpos [m] = [gpos.map fun g => entry g m] := by
    unfold steerRm distTable
    simp
  refine ⟨e, ?_⟩
  rw [e]
  unfold steerTransfer calcTransfer
  simp only [List.length_singleton]
  rw [if_neg (by omega), if_neg (by omega)]

/-- The hypotheses of `C104_transfer_partial` and `C104_index` are met: two grid points, two microphones, reference at the
origin. -/
example : ∃ r0 t, steerR0 distEntry [![0, 0, 1], ![1, 0, 1]] (.pos ![0, 0, 0]) = .ok r0 ∧
    steerTransfer r0 (steerRm distEntry [![0, 0, 1], ![1, 0, 1]] [![0, 1, 0], ![1, 1, 0]]) 3 .all = .ok t ∧
    r0.length = (steerRm distEntry [![0, 0, 1], ![1, 0, 1]] [![0, 1, 0], ![1, 1, 0]]).length := by
  obtain ⟨ref, r0, e1, e2, e3, _⟩ := C104_position distEntry [![0, 0, 1], ![1, 0, 1]] 0 0 0
  have e4 : ref = .pos ![0, 0, 0] := by
    unfold setRef at e1
    simp only at e1
    rw [dif_pos (show [(0 : ℝ), 0, 0].length = 3 from rfl)] at e1
    injection e1 with e1
    rw [← e1]
    congr 1
    funext i
    fin_cases i <;> rfl
  subst e4
  obtain ⟨t, ht, -⟩ := C104_transfer_partial distEntry [![0, 0, 1], ![1, 0, 1]] [![0, 1, 0], ![1, 1, 0]] _ r0 e2 3
    (Or.inl (by simp))
  refine ⟨r0, t, e2, ht, ?_⟩
  rw [e3, rm_of_ne _ _ _ (Or.inl (by simp)), List.length_map]

end Acoular
