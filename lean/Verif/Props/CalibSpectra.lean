import Verif.Model.CsmChain
import Verif.Model.Stream
import Verif.Props.Windows
import Verif.Props.Csm
import Mathlib.Tactic.Ring

/-!
# C164: calibration before and after the transform
-/

namespace Acoular

open Spec
open scoped ComplexConjugate

variable {c : ℕ}

namespace Spec

/-- A row of spectra, written frequency by frequency. -/
def spectraRow {nf : ℕ} (X : Fin nf → Fin c → ℂ) : List ℂ := (List.ofFn fun f => List.ofFn fun m => X f m).flatten

/-- The factors of the channels, for every frequency. -/
def factorsAllLines (nf : ℕ) (cal : Fin c → ℝ) : List ℂ := (List.replicate nf (List.ofFn fun m => ((cal m : ℝ) : ℂ))).flatten

/-- The signals in physical units. -/
def calibratedRows (cal : Fin c → ℝ) (rows : List (Fin c → ℝ)) : List (Fin c → ℝ) := rows.map fun row m => row m * cal m

end Spec

private theorem windows_map {α β : Type} (bs ov : ℕ) (f : α → β) (data : List α) :
    windows bs ov (data.map f) = (windows bs ov data).map (List.map f) := by
  unfold windows
  rw [List.length_map, List.map_map]
  refine List.map_congr_left fun k _ => ?_
  simp [List.map_drop, List.map_take]

private theorem dft_mul (n : ℕ) [NeZero n] (f : ZMod n → ℂ) (a : ℂ) (k : ZMod n) :
    ZMod.dft (fun p => f p * a) k = ZMod.dft f k * a := by
  have : (fun p => f p * a) = a • f := by
    funext p
    simp [mul_comm]
  rw [this, map_smul]
  simp [mul_comm]

private theorem rfftLines_mul (n : ℕ) [NeZero n] (w : List ℝ) (a : ℝ) :
    rfftLines n (w.map (· * a)) = (rfftLines n w).map (· * (a : ℂ)) := by
  unfold rfftLines
  rw [List.map_map]
  refine List.map_congr_left fun k _ => ?_
  simp only [Function.comp]
  rw [← dft_mul]
  refine congrArg (fun g => ZMod.dft g (k : ZMod n)) (funext fun p => ?_)
  have : (w.map (· * a)).getD p.val 0 = w.getD p.val 0 * a := by
    simp only [List.getD_eq_getElem?_getD, List.getElem?_map]
    cases w[p.val]? <;> simp
  rw [this]
  push_cast
  ring

private theorem zipWith_mul (w wind : List ℝ) (a : ℝ) :
    List.zipWith (· * ·) (w.map (· * a)) wind = (List.zipWith (· * ·) w wind).map (· * a) := by
  induction w generalizing wind with
  | nil => rfl
  | cons x w ih =>
    cases wind with
    | nil => rfl
    | cons y wind =>
      simp only [List.map_cons, List.zipWith_cons_cons, ih]
      rw [mul_right_comm]

private theorem rfftSnapshot_mul (scaling : RfftScaling) (n : ℕ) [NeZero n] (wind w : List ℝ) (a : ℝ) :
    rfftSnapshot scaling n wind (w.map (· * a)) = (rfftSnapshot scaling n wind w).map (· * (a : ℂ)) := by
  unfold rfftSnapshot
  rw [zipWith_mul, rfftLines_mul]
  generalize rfftLines n (List.zipWith (· * ·) w wind) = L
  unfold rfftScale
  cases scaling
  all_goals
    refine List.ext_getElem? fun i => ?_
    simp only [List.getElem?_map, List.getElem?_mapIdx, List.length_map]
    cases L[i]? with
    | none => simp
    | some x =>
      simp only [Option.map_some]
      congr 1
      try split
      all_goals ring

private theorem rfftRow_mul (scaling : RfftScaling) (bs : ℕ) [NeZero bs] (wind : List ℝ) (cal : Fin c → ℝ) (w : List (Fin c → ℝ)) :
    rfftRow scaling bs wind (calibratedRows cal w) = fun f m => rfftRow scaling bs wind w f m * (cal m : ℂ) := by
  funext f m
  unfold rfftRow calibratedRows
  have : (w.map fun row m => row m * cal m).map (fun row => row m) = (w.map fun row => row m).map (· * cal m) := by
    rw [List.map_map, List.map_map]
    rfl
  rw [this, rfftSnapshot_mul]
  simp only [List.getD_eq_getElem?_getD, List.getElem?_map]
  cases (rfftSnapshot scaling bs wind (w.map fun row => row m))[(f : ℕ)]? <;> simp

private theorem zipWith_flatten {nf : ℕ} (X : Fin nf → Fin c → ℂ) (cal : Fin c → ℝ) :
    List.zipWith (· * ·) (spectraRow X) (factorsAllLines nf cal) = spectraRow fun f m => X f m * (cal m : ℂ) := by
  unfold spectraRow factorsAllLines
  induction nf with
  | zero => rfl
  | succ nf ih =>
    rw [List.ofFn_succ, List.flatten_cons, List.replicate_succ, List.flatten_cons, List.ofFn_succ, List.flatten_cons,
      List.zipWith_append (by simp), ih fun f => X f.succ]
    congr 1
    refine List.ext_getElem (by simp) fun i h1 h2 => ?_
    simp

private theorem length_factors (nf : ℕ) (cal : Fin c → ℝ) : (factorsAllLines nf cal).length = c * nf := by
  unfold factorsAllLines
  rw [List.length_flatten]
  simp [Nat.mul_comm]

private theorem calib_no_mask {K : Type} [Mul K] (blocks : List (List (List K))) (n : ℕ) (data : List K) (h : data.length = n) :
    Calib.result blocks n data [] = ⟨blocks.map (List.map fun row => List.zipWith (· * ·) row data), .returned⟩ := by
  simp [Calib.result, channelMask, applyMask, h]

private theorem calib_time (blocks : List (List (Fin c → ℝ))) (cal : Fin c → ℝ) :
    Calib.result (blocks.map (List.map List.ofFn)) c (List.ofFn cal) [] =
      ⟨(blocks.map (calibratedRows cal)).map (List.map List.ofFn), .returned⟩ := by
  rw [calib_no_mask _ _ _ (by simp)]
  congr 1
  rw [List.map_map, List.map_map]
  refine List.map_congr_left fun b _ => ?_
  simp only [Function.comp, calibratedRows, List.map_map]
  refine List.map_congr_left fun row _ => ?_
  refine List.ext_getElem (by simp) fun i h1 h2 => ?_
  simp

private theorem matrix_sum_apply (l : List (Matrix (Fin c) (Fin c) ℂ)) (a b : Fin c) :
    l.sum a b = (l.map fun v => v a b).sum := by
  induction l with
  | nil => rfl
  | cons x l ih => rw [List.sum_cons, List.map_cons, List.sum_cons, Matrix.add_apply, ih]

section

variable {bs ov num : ℕ} [NeZero bs] (ho : 0 < ov) (hn : 0 < num) (data junk : List (Fin c → ℝ)) (hj : junk.length = 2 * bs)
  (blocks : List (List (Fin c → ℝ))) (hsrc : IsBlocking bs data blocks) (hlen : bs ≤ data.length) (wind : List ℝ)
  (cal : Fin c → ℝ)

include ho hn hj hsrc hlen

/-- **C164.** Calibration of the signals with one factor per channel, followed by `RFFT`, delivers the same blocks as `RFFT` followed by
the calibration with these factors for every frequency. -/
theorem C164_transform (scaling : RfftScaling) :
    ∃ cb, Calib.result (blocks.map (List.map List.ofFn)) c (List.ofFn cal) [] = ⟨cb.map (List.map List.ofFn), .returned⟩ ∧
      Calib.result ((RFFT.result (rfftRow scaling bs wind) (fun _ _ => 0) (getSourceData bs ov junk blocks) num).map
          (List.map spectraRow)) (c * (bs / 2 + 1)) (factorsAllLines (bs / 2 + 1) cal) [] =
        ⟨(RFFT.result (rfftRow scaling bs wind) (fun _ _ => 0) (getSourceData bs ov junk cb) num).map (List.map spectraRow),
          .returned⟩ := by
  have hb : 0 < bs := Nat.pos_of_ne_zero (NeZero.ne bs)
  refine ⟨blocks.map (calibratedRows cal), calib_time blocks cal, ?_⟩
  · rw [calib_no_mask _ _ _ (length_factors _ _)]
    congr 1
    have h1 := C14_rfft_snapshots hb ho hn data junk hj blocks hsrc (rfftRow scaling bs wind) (fun _ _ => 0) hlen
    have hsrc2 : IsBlocking bs (calibratedRows cal data) (blocks.map (calibratedRows cal)) :=
      hsrc.map hb fun (row : Fin c → ℝ) m => row m * cal m
    have h2 := C14_rfft_snapshots hb ho hn (calibratedRows cal data) junk hj _ hsrc2 (rfftRow scaling bs wind) (fun _ _ => 0)
      (by simpa [calibratedRows] using hlen)
    have h3 : (windows bs ov (calibratedRows cal data)).map (rfftRow scaling bs wind) =
        ((windows bs ov data).map (rfftRow scaling bs wind)).map fun X f m => X f m * (cal m : ℂ) := by
      unfold calibratedRows
      rw [windows_map, List.map_map, List.map_map]
      refine List.map_congr_left fun w _ => ?_
      exact rfftRow_mul scaling bs wind cal w
    rw [h3] at h2
    have h4 := h1.map hn fun (X : Fin (bs / 2 + 1) → Fin c → ℂ) f m => X f m * (cal m : ℂ)
    rw [isBlocking_iff hn] at h2 h4
    rw [h2, ← h4, List.map_map, List.map_map]
    refine List.map_congr_left fun b _ => ?_
    simp only [Function.comp, List.map_map]
    refine List.map_congr_left fun X _ => ?_
    exact zipWith_flatten X cal

omit hn hlen in
/-- **C164: the cross spectral matrix.** With calibrated signals, the entry for two channels is multiplied by the product of their
factors. -/
theorem C164_csm :
    ∃ cb, Calib.result (blocks.map (List.map List.ofFn)) c (List.ofFn cal) [] = ⟨cb.map (List.map List.ofFn), .returned⟩ ∧
      ∀ (f : ℕ) (a b : Fin c), csmFromBlocks bs ov wind data.length junk cb f a b =
        (cal a : ℂ) * (cal b : ℂ) * csmFromBlocks bs ov wind data.length junk blocks f a b := by
  have hb : 0 < bs := Nat.pos_of_ne_zero (NeZero.ne bs)
  refine ⟨blocks.map (calibratedRows cal), calib_time blocks cal, fun f a b => ?_⟩
  have hsrc2 : IsBlocking bs (calibratedRows cal data) (blocks.map (calibratedRows cal)) :=
    hsrc.map hb fun (row : Fin c → ℝ) m => row m * cal m
  have hline : ∀ (w : List (Fin c → ℝ)) (m : Fin c),
      (rfftLines bs (List.zipWith (· * ·) ((calibratedRows cal w).map fun row => row m) wind)).getD f 0 =
        (rfftLines bs (List.zipWith (· * ·) (w.map fun row => row m) wind)).getD f 0 * (cal m : ℂ) := by
    intro w m
    have e : (calibratedRows cal w).map (fun row => row m) = (w.map fun row => row m).map (· * cal m) := by
      unfold calibratedRows
      rw [List.map_map, List.map_map]
      rfl
    rw [e, zipWith_mul, rfftLines_mul]
    simp only [List.getD_eq_getElem?_getD, List.getElem?_map]
    cases (rfftLines bs (List.zipWith (· * ·) (w.map fun row => row m) wind))[f]? <;> simp
  unfold csmFromBlocks
  rw [C15_csm_eq, C15_csm_eq, C14_windows hb ho data junk hj blocks hsrc,
    C14_windows hb ho (calibratedRows cal data) junk hj _ hsrc2]
  unfold averagedCsm
  rw [Matrix.smul_apply, Matrix.smul_apply, smul_eq_mul, smul_eq_mul, matrix_sum_apply, matrix_sum_apply]
  conv_rhs => rw [mul_left_comm, ← List.sum_map_mul_left]
  congr 2
  have e : windows bs ov (calibratedRows cal data) = (windows bs ov data).map (calibratedRows cal) := windows_map bs ov _ data
  rw [e]
  simp only [List.map_map]
  refine List.map_congr_left fun w _ => ?_
  simp only [Function.comp, outer, hline, map_mul, Complex.conj_ofReal]
  ring

end

/-- The hypotheses are met: two channels, five samples, blocks of two with half overlap. -/
example : ∃ (data junk : List (Fin 2 → ℝ)) (blocks : List (List (Fin 2 → ℝ))), junk.length = 2 * 2 ∧ IsBlocking 2 data blocks ∧
    2 ≤ data.length :=
  ⟨List.replicate 5 fun _ => 1, List.replicate 4 fun _ => 0, chunks 2 (List.replicate 5 fun _ => 1), by simp,
    isBlocking_chunks (by decide) _, by simp⟩

/-- **C164: the auto power spectra.** Squared factors behind the auto power spectra stand for the factors before the transform. -/
theorem C164_auto {nf : ℕ} (scale : ℝ) (cal : Fin c → ℝ) (blocks : List (List (Fin nf → Fin c → ℂ))) :
    AutoPowerSpectra.result scale (blocks.map (List.map fun X f m => X f m * (cal m : ℂ))) =
      (AutoPowerSpectra.result scale blocks).map (List.map fun row i => row i * cal i.modNat ^ 2) := by
  unfold AutoPowerSpectra.result
  rw [List.map_map, List.map_map]
  refine List.map_congr_left fun b _ => ?_
  simp only [Function.comp, List.map_map]
  refine List.map_congr_left fun X _ => ?_
  funext i
  simp only [Function.comp, autoPower, Complex.mul_conj, Complex.normSq_mul, Complex.normSq_ofReal, Complex.ofReal_re]
  ring

/-- **C164: cross power spectra** with calibrated signals: the entry for two channels is multiplied by the product of their factors,
for every frequency. -/
theorem C164_cross {nf : ℕ} (scale : ℝ) (cal : Fin c → ℝ) (X : Fin nf → Fin c → ℂ) (f : Fin nf) (a b : Fin c) :
    ∃ row crow, CrossPowerSpectra.snapshot scale .full X = .ok row ∧
      CrossPowerSpectra.snapshot scale .full (fun f m => X f m * (cal m : ℂ)) = .ok crow ∧
      crow[(f : ℕ) * (c * c) + ((a : ℕ) * c + b)]? =
        (row[(f : ℕ) * (c * c) + ((a : ℕ) * c + b)]?).map fun v => v * ((cal a : ℂ) * (cal b : ℂ)) := by
  obtain ⟨row, h1, _, h3⟩ := C56_full scale X
  obtain ⟨crow, h4, _, h6⟩ := C56_full scale fun f m => X f m * (cal m : ℂ)
  refine ⟨row, crow, h1, h4, ?_⟩
  rw [h3, h6]
  simp only [Option.map_some, map_mul, Complex.conj_ofReal]
  congr 1
  ring

end Acoular
