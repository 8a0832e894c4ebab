import Verif.Model.BfDigest
import Verif.Props.Gib
import Verif.Props.SingleSource

/-!
# C83: the map of GIB from the eigenvalues and eigenvectors of the cross spectral matrix
-/

namespace Acoular

open Spec

variable {n g : ℕ}

private theorem getD_reverse_ofFn (v : Fin n → ℝ) (j : ℕ) (hj : j < n) :
    (List.ofFn v).reverse.getD j 0 = v ⟨n - 1 - j, by omega⟩ := by
  have h : j < (List.ofFn v).reverse.length := by simpa using hj
  rw [List.getD_eq_getElem?_getD, List.getElem?_eq_getElem h]
  simp

private theorem getD_smallToZero (v : Fin n → ℝ) (j : ℕ) (hj : j < n) :
    (smallToZero (List.ofFn v).reverse).getD j 0 =
      if v ⟨n - 1 - j, by omega⟩ < v ⟨n - 1, by omega⟩ / 10 ^ 12 then 0 else v ⟨n - 1 - j, by omega⟩ := by
  have hd : (List.ofFn v).reverse.headD 0 = v ⟨n - 1, by omega⟩ := by
    have := getD_reverse_ofFn v 0 (by omega)
    simp only [Nat.sub_zero] at this
    rw [← this]
    cases (List.ofFn v).reverse <;> rfl
  have h := getD_reverse_ofFn v j hj
  unfold smallToZero
  rw [hd]
  have hl : j < (List.ofFn v).reverse.length := by simpa using hj
  rw [List.getD_eq_getElem?_getD, List.getElem?_eq_getElem hl, Option.getD_some] at h
  rw [List.getD_eq_getElem?_getD, List.getElem?_map, List.getElem?_eq_getElem hl, h]
  rfl

private theorem col_eq (rt : BfRoutines n g) (R : Matrix (Fin n) (Fin n) ℂ) (j : ℕ) (hj : j < n) :
    rt.col R ((n : ℤ) - 1 - j) = fun m => (rt.eigh R).2 m ⟨n - 1 - j, by omega⟩ := by
  funext m
  have e : pyIndex n ((n : ℤ) - 1 - j) = some ⟨n - 1 - j, by omega⟩ := by
    unfold pyIndex
    rw [dif_pos (by omega)]
    congr 2
    omega
  unfold BfRoutines.col
  rw [e]

/-- **C83** (part) The map of GIB for a cross spectral matrix, with the eigenvalues counted from the last one (`v 0` is the
largest, since `eigh` delivers them in ascending order), if all points stay in use for every eigenmode and the modes asked for exist: the sum, over the modes number `m` to `m + k - 1` counted
from the strongest, of the squared magnitudes of the amplitudes found for eigenvalue and eigenvector; modes that are weaker than the
strongest one by 120 dB or more contribute nothing. -/
theorem C83_row_partial (rt : BfRoutines n g) (s : BfSet n g) (F i : ℕ) (k : ℕ) (hk : eigNa n s.comps = k)
    (hm : s.first + k ≤ n)
    (v : ℕ → ℝ) (hv : ∀ j (hj : j < n), v j = (rt.eigh (s.csm i)).1 ⟨n - 1 - j, by omega⟩)
    (q : ℕ → Fin (g + 1) → ℂ)
    (hq : ∀ j (hj : j < n), v 0 / 10 ^ 12 ≤ v j →
      (rt.gibMode s.method s.alpha s.nIter s.unitMult s.epsPerc s.pnorm s.beta
        (fun p => transfer ((s.geo i).r0 p) ((s.geo i).rm p) (s.geo i).k) (v j)
        (fun m => (rt.eigh (s.csm i)).2 m ⟨n - 1 - j, by omega⟩)).row = q j)
    (hall : ∀ (val : ℝ) (vec : Fin n → ℂ) p, p ∈ (rt.gibMode s.method s.alpha s.nIter s.unitMult s.epsPerc s.pnorm s.beta
        (fun p => transfer ((s.geo i).r0 p) ((s.geo i).rm p) (s.geo i).k) val vec).loc)
    (hpos : ∃ j, s.first ≤ j ∧ j < s.first + k ∧ 0 < v j ∧ v 0 / 10 ^ 12 ≤ v j) :
    ∃ line l, s.row rt F i .gib = .gib (.ok (line, l)) ∧
      ∀ p, line p = ∑ j ∈ Finset.Ico s.first (s.first + k), if 0 < v j ∧ v 0 / 10 ^ 12 ≤ v j then ‖q j p‖ ^ 2 else 0 := by
  have hlen : (smallToZero (List.ofFn (rt.eigh (s.csm i)).1).reverse).length = n := by simp [smallToZero]
  have hval : ∀ j, j < n → (smallToZero (List.ofFn (rt.eigh (s.csm i)).1).reverse).getD j 0 =
      if v j < v 0 / 10 ^ 12 then 0 else v j := by
    intro j hj
    rw [getD_smallToZero _ j hj, ← hv j hj]
    have := hv 0 (by omega)
    simp only [Nat.sub_zero] at this
    rw [← this]
  have hposval : ∀ j, j < n → (0 < (smallToZero (List.ofFn (rt.eigh (s.csm i)).1).reverse).getD j 0 ↔
      0 < v j ∧ v 0 / 10 ^ 12 ≤ v j) := by
    intro j hj
    rw [hval j hj]
    split
    · rename_i h
      exact ⟨fun h0 => absurd h0 (lt_irrefl _), fun h0 => absurd h (not_lt.2 h0.2)⟩
    · rename_i h
      exact ⟨fun h0 => ⟨h0, not_lt.1 h⟩, fun h0 => h0.1⟩
  obtain ⟨line, l, h1, h2⟩ := C83_sum_partial s.first k (smallToZero (List.ofFn (rt.eigh (s.csm i)).1).reverse)
    (fun j => rt.gibMode s.method s.alpha s.nIter s.unitMult s.epsPerc s.pnorm s.beta
      (fun p => transfer ((s.geo i).r0 p) ((s.geo i).rm p) (s.geo i).k)
      ((smallToZero (List.ofFn (rt.eigh (s.csm i)).1).reverse).getD j 0) (rt.col (s.csm i) ((n : ℤ) - 1 - j))) none
    (by rw [hlen]; exact hm) (fun _ _ _ _ p => hall _ _ p) (by
      obtain ⟨j, a, b, c, d⟩ := hpos
      exact ⟨j, a, b, (hposval j (by omega)).2 ⟨c, d⟩⟩)
  refine ⟨line, l, ?_, fun p => ?_⟩
  · show BfRow.gib _ = _
    rw [hk, Int.toNat_natCast, h1]
  · rw [h2 p]
    refine Finset.sum_congr rfl fun j hj => ?_
    have hj' := Finset.mem_Ico.1 hj
    have hjn : j < n := by omega
    by_cases hc : 0 < v j ∧ v 0 / 10 ^ 12 ≤ v j
    · rw [if_pos hc, if_pos ((hposval j hjn).2 hc), hval j hjn, if_neg (not_lt.2 hc.2), col_eq rt _ j hjn, hq j hjn hc.2]
    · rw [if_neg hc, if_neg fun h => hc ((hposval j hjn).1 h)]

/-- The hypotheses are met: two eigenvalues, of which the weaker one is 130 dB below. -/
private noncomputable def gibRt : BfRoutines 2 1 where
  eigh := fun _ => (![1 / 10 ^ 13, 1], fun _ _ => 1)
  psfSolve := fun _ _ _ _ _ _ _ => 0
  cmfSolve := fun _ _ _ _ _ _ _ _ => 0
  gibMode := fun _ _ _ _ _ _ _ _ v _ => ⟨fun _ => (v : ℂ), [0, 1]⟩
  shgo := fun _ _ _ => 0

private noncomputable def gibVal (j : ℕ) : ℝ := if j = 0 then 1 else 1 / 10 ^ 13

example : ∃ line l, { oneEx .classic 3 0 with first := 0 }.row gibRt 1 0 .gib = .gib (.ok (line, l)) ∧
    ∀ p, line p = ∑ j ∈ Finset.Ico 0 (0 + 1), if 0 < gibVal j ∧ gibVal 0 / 10 ^ 12 ≤ gibVal j then ‖((1 : ℂ))‖ ^ 2 else 0 := by
  refine C83_row_partial gibRt { oneEx .classic 3 0 with first := 0 } 1 0 1 rfl (by decide) gibVal ?_
    (fun _ _ => 1) ?_ ?_ ⟨0, le_refl _, by decide, by simp [gibVal], by simp [gibVal]; norm_num⟩
  · intro j hj
    rcases (by omega : j = 0 ∨ j = 1) with rfl | rfl <;> simp [gibVal, gibRt]
  · intro j hj h
    rcases (by omega : j = 0 ∨ j = 1) with rfl | rfl
    · simp [gibRt, gibVal]
    · norm_num [gibVal] at h
  · intro _ _ p
    fin_cases p <;> simp [gibRt]

end Acoular
