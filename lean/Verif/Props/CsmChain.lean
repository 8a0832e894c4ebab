import Verif.Model.CsmChain
import Verif.Props.Average
import Verif.Props.Windows
import Verif.Props.Csm
import Verif.Props.Irfft
import Mathlib.Tactic.FieldSimp
import Mathlib.Tactic.LinearCombination

/-!
# C126: two ways to the cross spectral matrix
-/

namespace Acoular

open Spec
open scoped ComplexConjugate

variable {c : ℕ}

private theorem mapM_ok {α β : Type} (f : α → Except PyErr β) (g : α → β) (h : ∀ a, f a = .ok (g a)) (l : List α) :
    l.mapM f = .ok (l.map g) := by
  have : f = fun a => pure (g a) := funext h
  rw [this, List.mapM_pure]
  rfl

private theorem cross_ok {nf : ℕ} (scale : ℝ) :
    ∃ g : (Fin nf → Fin c → ℂ) → (Fin (CrossPowerSpectra.numChannels c .full * nf) → ℂ),
      (∀ (X : Fin nf → Fin c → ℂ) (f : Fin nf) (a b : Fin c) (i : Fin (CrossPowerSpectra.numChannels c .full * nf)),
        (i : ℕ) = f * (c * c) + (a * c + b) → g X i = X f a * conj (X f b) * scale) ∧
      ∀ blocks, CrossPowerSpectra.result scale blocks = .ok (blocks.map fun b => b.map g) := by
  choose row h1 _ h3 using fun X : Fin nf → Fin c → ℂ => C56_full scale X
  refine ⟨fun X i => (row X).getD i 0, ?_, ?_⟩
  · intro X f a b i hi
    simp only [List.getD_eq_getElem?_getD, hi, h3, Option.getD_some]
  · intro blocks
    unfold CrossPowerSpectra.result
    refine mapM_ok _ _ (fun b => ?_) blocks
    refine mapM_ok _ _ (fun X => ?_) b
    rw [h1]
    rfl

private theorem list_sum_apply {ι : Type} {K : Type} [AddCommMonoid K] (l : List (ι → K)) (i : ι) : l.sum i = (l.map fun v => v i).sum := by
  induction l with
  | nil => rfl
  | cons a l ih => rw [List.sum_cons, List.map_cons, List.sum_cons, Pi.add_apply, ih]

private theorem matrix_sum_apply (l : List (Matrix (Fin c) (Fin c) ℂ)) (a b : Fin c) :
    l.sum a b = (l.map fun v => v a b).sum := by
  induction l with
  | nil => rfl
  | cons x l ih => rw [List.sum_cons, List.map_cons, List.sum_cons, Matrix.add_apply, ih]

private theorem groupAverages_all {K V : Type} [Field K] [AddCommGroup V] [Module K V] (data : List V) (h : 0 < data.length) :
    groupAverages K data.length data = [((data.length : K))⁻¹ • data.sum] := by
  unfold groupAverages
  rw [Nat.div_self h]
  simp

private theorem blocking_single {V : Type} {num : ℕ} (hn : 0 < num) (v : V) (out : List (List V)) (h : IsBlocking num [v] out) :
    out = [[v]] := by
  rw [(isBlocking_iff hn).1 h, chunks_short (by simp) (by rw [List.length_singleton]; exact hn)]

section

variable {bs ov num : ℕ} [NeZero bs] (ho : 0 < ov) (hn : 0 < num) (data junk : List (Fin c → ℝ)) (hj : junk.length = 2 * bs)
  (blocks : List (List (Fin c → ℝ))) (hsrc : IsBlocking bs data blocks) (hlen : bs ≤ data.length) (wind : List ℝ)

include ho hn hj hsrc hlen

omit hn hj hsrc in
private theorem windows_pos : 0 < (windows bs ov data).length := by
  rw [C14_windows_length (Nat.pos_of_ne_zero (NeZero.ne bs)) ho data hlen]
  exact Nat.succ_pos _

/-- The single row delivered, in terms of the rows of `RFFT`. -/
private theorem averagedCross_eq (scaling : RfftScaling) (fs : ℝ) (ss : Bool) :
    ∃ r, averagedCross scaling fs ss bs ov wind junk blocks (windows bs ov data).length num = .ok [[r]] ∧
      ∀ (f : Fin (bs / 2 + 1)) (a b : Fin c) (i : Fin (CrossPowerSpectra.numChannels c .full * (bs / 2 + 1))),
        (i : ℕ) = f * (c * c) + (a * c + b) →
        r i * (windows bs ov data).length = ((windows bs ov data).map fun w =>
          rfftRow scaling bs wind w f a * conj (rfftRow scaling bs wind w f b) * (autoScale bs fs ss false : ℂ)).sum := by
  have hb : 0 < bs := Nat.pos_of_ne_zero (NeZero.ne bs)
  have hnav := windows_pos ho data hlen
  obtain ⟨g, hg, hres⟩ := cross_ok (c := c) (nf := bs / 2 + 1) (autoScale bs fs ss false)
  have hsn := C14_rfft_snapshots hb ho (Nat.mul_pos hn hnav) data junk hj blocks hsrc (rfftRow scaling bs wind)
    (fun _ _ => 0) hlen
  have hav := C03_average (K := ℂ) _ _ num _ hn hnav (hsn.map (Nat.mul_pos hn hnav) g)
  have hl : (windows bs ov data).length = (((windows bs ov data).map (rfftRow scaling bs wind)).map g).length := by simp
  have hone := groupAverages_all (K := ℂ) (((windows bs ov data).map (rfftRow scaling bs wind)).map g) (by rw [← hl]; exact hnav)
  rw [← hl] at hone
  rw [hone] at hav
  refine ⟨((windows bs ov data).length : ℂ)⁻¹ • (((windows bs ov data).map (rfftRow scaling bs wind)).map g).sum, ?_, ?_⟩
  · unfold averagedCross
    rw [hres]
    exact congrArg Except.ok (blocking_single hn _ _ hav)
  · intro f a b i hi
    have h0 : ((windows bs ov data).length : ℂ) ≠ 0 := by exact_mod_cast hnav.ne'
    rw [Pi.smul_apply, smul_eq_mul, list_sum_apply, List.map_map, List.map_map, mul_comm, ← mul_assoc, mul_inv_cancel₀ h0,
      one_mul]
    refine congrArg List.sum (List.map_congr_left fun w _ => ?_)
    exact hg _ f a b i hi

omit hn hlen in
/-- The matrix of `PowerSpectra`, in terms of the same transforms. -/
private theorem csm_eq (f : ℕ) (a b : Fin c) :
    csmFromBlocks bs ov wind data.length junk blocks f a b =
      (csmScale bs (wind.map fun v => v * v).sum (numBlocks ov data.length bs) : ℂ) *
        ((windows bs ov data).map fun w =>
          (rfftLines bs (List.zipWith (· * ·) (w.map fun row => row a) wind)).getD f 0 *
            conj ((rfftLines bs (List.zipWith (· * ·) (w.map fun row => row b) wind)).getD f 0)).sum := by
  have hb : 0 < bs := Nat.pos_of_ne_zero (NeZero.ne bs)
  unfold csmFromBlocks
  rw [C15_csm_eq, C14_windows hb ho data junk hj blocks hsrc]
  unfold averagedCsm
  rw [Matrix.smul_apply, smul_eq_mul, matrix_sum_apply, List.map_map, List.map_map]
  rfl

omit ho hn hj hsrc hlen in
private theorem rfftRow_none (w : List (Fin c → ℝ)) (f : Fin (bs / 2 + 1)) (a : Fin c) :
    rfftRow .none bs wind w f a = (rfftLines bs (List.zipWith (· * ·) (w.map fun row => row a) wind)).getD f 0 *
      ((1 / √((wind.map fun v => v * v).sum / bs) : ℝ) : ℂ) := by
  unfold rfftRow
  rw [rfftSnapshot_none, List.getD_eq_getElem?_getD, List.getD_eq_getElem?_getD, List.getElem?_map]
  cases (rfftLines bs (List.zipWith (· * ·) (w.map fun row => row a) wind))[(f : ℕ)]? <;> simp

omit ho hn hj hsrc hlen in
private theorem rfftRow_energy (w : List (Fin c → ℝ)) (f : Fin (bs / 2 + 1)) (h1 : 1 ≤ (f : ℕ)) (h2 : (f : ℕ) < bs / 2) (a : Fin c) :
    rfftRow .energy bs wind w f a = 2 * rfftRow .none bs wind w f a := by
  unfold rfftRow rfftSnapshot rfftScale rfftScaleValue
  simp only [List.getD_eq_getElem?_getD, List.getElem?_map, List.getElem?_mapIdx]
  have hlen : (rfftLines bs (List.zipWith (· * ·) (w.map fun row => row a) wind)).length = bs / 2 + 1 := by
    simp [rfftLines]
  have hf : (f : ℕ) < (rfftLines bs (List.zipWith (· * ·) (w.map fun row => row a) wind)).length := by omega
  rw [List.getElem?_eq_getElem hf]
  simp only [Option.map_some, Option.getD_some]
  rw [if_pos ⟨h1, by omega⟩]
  ring

omit ho hn hj hsrc hlen in
private theorem scale_sq (hw : 0 < (wind.map fun v => v * v).sum) (fs : ℝ) :
    ((1 / √((wind.map fun v => v * v).sum / bs) : ℝ)) ^ 2 * autoScale bs fs true false =
      2 / bs / (wind.map fun v => v * v).sum := by
  have hb : (0 : ℝ) < bs := by exact_mod_cast Nat.pos_of_ne_zero (NeZero.ne bs)
  rw [div_pow, Real.sq_sqrt (by positivity)]
  unfold autoScale
  simp only [if_true, Bool.false_eq_true, if_false]
  field_simp

/-- **C126.** Averaging the cross power spectra of the windows of `RFFT` (one-sided, no scaling) over all windows delivers one
row; its entries are those of the matrix of `PowerSpectra` with the same block size, overlap and window, up to the ratio of
the divisor `num_blocks` and the number of windows. -/
theorem C126_cross_partial (hw : 0 < (wind.map fun v => v * v).sum) (fs : ℝ) :
    ∃ r, averagedCross .none fs true bs ov wind junk blocks (windows bs ov data).length num = .ok [[r]] ∧
      ∀ (f : Fin (bs / 2 + 1)) (a b : Fin c) (i : Fin (CrossPowerSpectra.numChannels c .full * (bs / 2 + 1))),
        (i : ℕ) = f * (c * c) + (a * c + b) →
        r i * (windows bs ov data).length =
          csmFromBlocks bs ov wind data.length junk blocks f a b * ((numBlocks ov data.length bs : ℚ) : ℂ) := by
  obtain ⟨r, h1, h2⟩ := averagedCross_eq ho hn data junk hj blocks hsrc hlen wind .none fs true
  refine ⟨r, h1, fun f a b i hi => ?_⟩
  have hb : 0 < bs := Nat.pos_of_ne_zero (NeZero.ne bs)
  have hnb : numBlocks ov data.length bs ≠ 0 := by
    have := C16_count_floor_partial hb ho data hlen
    have h0 := windows_pos ho data hlen
    intro h
    rw [h, Int.floor_zero] at this
    rw [Int.natCast_eq_zero.1 this] at h0
    exact lt_irrefl _ h0
  have hnb' : ((numBlocks ov data.length bs : ℚ) : ℂ) ≠ 0 := by exact_mod_cast hnb
  rw [h2 f a b i hi, csm_eq ho data junk hj blocks hsrc]
  rw [← List.sum_map_mul_left]
  have hs := scale_sq (bs := bs) wind hw fs
  have hs' : ((1 / √((wind.map fun v => v * v).sum / bs) : ℝ) : ℂ) ^ 2 * (autoScale bs fs true false : ℂ) =
      ((2 / bs / (wind.map fun v => v * v).sum : ℝ) : ℂ) := by exact_mod_cast congrArg (fun x : ℝ => (x : ℂ)) hs
  have hc : (csmScale bs (wind.map fun v => v * v).sum (numBlocks ov data.length bs) : ℂ) * ((numBlocks ov data.length bs : ℚ) : ℂ) =
      ((2 / bs / (wind.map fun v => v * v).sum : ℝ) : ℂ) := by
    unfold csmScale
    rw [Complex.ofReal_div]
    exact div_mul_cancel₀ _ (by simpa using hnb')
  rw [← List.sum_map_mul_right]
  refine congrArg List.sum (List.map_congr_left fun w _ => ?_)
  rw [rfftRow_none, rfftRow_none, map_mul, Complex.conj_ofReal]
  linear_combination (rfftLines bs (List.zipWith (· * ·) (w.map fun row => row a) wind)).getD f 0 *
            conj ((rfftLines bs (List.zipWith (· * ·) (w.map fun row => row b) wind)).getD f 0) * (hs' - hc)

omit hn hj hsrc in
private theorem windows_ne_zero : ((windows bs ov data).length : ℂ) ≠ 0 := by
  have : 0 < (windows bs ov data).length := by
    rw [C14_windows_length (Nat.pos_of_ne_zero (NeZero.ne bs)) ho data hlen]
    exact Nat.succ_pos _
  exact_mod_cast this.ne'

omit hn hj hsrc in
private theorem count_cast : ((numBlocks ov data.length bs : ℚ) : ℂ) = ((windows bs ov data).length : ℂ) ↔
    bs ∣ ov * data.length := by
  rw [← C16_count_iff (Nat.pos_of_ne_zero (NeZero.ne bs)) ho data hlen]
  constructor
  · intro h
    exact_mod_cast h
  · intro h
    rw [h]
    norm_cast

/-- **C126.** If the overlap factor times the number of samples is a multiple of the block size, the row delivered is the
matrix of `PowerSpectra`, flattened. -/
theorem C126_cross_equal_partial (hd : bs ∣ ov * data.length) (hw : 0 < (wind.map fun v => v * v).sum) (fs : ℝ) :
    ∃ r, averagedCross .none fs true bs ov wind junk blocks (windows bs ov data).length num = .ok [[r]] ∧
      ∀ (f : Fin (bs / 2 + 1)) (a b : Fin c) (i : Fin (CrossPowerSpectra.numChannels c .full * (bs / 2 + 1))),
        (i : ℕ) = f * (c * c) + (a * c + b) → r i = csmFromBlocks bs ov wind data.length junk blocks f a b := by
  obtain ⟨r, h1, h2⟩ := C126_cross_partial ho hn data junk hj blocks hsrc hlen wind hw fs
  refine ⟨r, h1, fun f a b i hi => ?_⟩
  have h := h2 f a b i hi
  rw [(count_cast ho data hlen).2 hd] at h
  exact mul_right_cancel₀ (windows_ne_zero ho data hlen) h

/-- **C126, violated.** Otherwise every entry of the matrix that is not zero differs. -/
theorem C126_cross_violated (hd : ¬ bs ∣ ov * data.length) (hw : 0 < (wind.map fun v => v * v).sum) (fs : ℝ)
    (r : Fin (CrossPowerSpectra.numChannels c .full * (bs / 2 + 1)) → ℂ)
    (hr : averagedCross .none fs true bs ov wind junk blocks (windows bs ov data).length num = .ok [[r]])
    (f : Fin (bs / 2 + 1)) (a b : Fin c) (i : Fin (CrossPowerSpectra.numChannels c .full * (bs / 2 + 1)))
    (hi : (i : ℕ) = f * (c * c) + (a * c + b)) (h0 : csmFromBlocks bs ov wind data.length junk blocks f a b ≠ 0) :
    r i ≠ csmFromBlocks bs ov wind data.length junk blocks f a b := by
  obtain ⟨r', h1, h2⟩ := C126_cross_partial ho hn data junk hj blocks hsrc hlen wind hw fs
  rw [hr] at h1
  simp only [Except.ok.injEq, List.cons.injEq, and_true] at h1
  subst h1
  intro e
  have h := h2 f a b i hi
  rw [e] at h
  exact hd ((count_cast ho data hlen).1 (mul_left_cancel₀ h0 h).symm)

/-- **C126, violated.** With `scaling = 'energy'` the entries between the first and the last frequency line are four times
as large. -/
theorem C126_energy_violated (hd : bs ∣ ov * data.length) (hw : 0 < (wind.map fun v => v * v).sum) (fs : ℝ) :
    ∃ r, averagedCross .energy fs true bs ov wind junk blocks (windows bs ov data).length num = .ok [[r]] ∧
      ∀ (f : Fin (bs / 2 + 1)) (a b : Fin c) (i : Fin (CrossPowerSpectra.numChannels c .full * (bs / 2 + 1))),
        1 ≤ (f : ℕ) → (f : ℕ) < bs / 2 → (i : ℕ) = f * (c * c) + (a * c + b) →
        r i = 4 * csmFromBlocks bs ov wind data.length junk blocks f a b := by
  obtain ⟨r, h1, h2⟩ := averagedCross_eq ho hn data junk hj blocks hsrc hlen wind .energy fs true
  obtain ⟨q, h3, h4⟩ := averagedCross_eq ho hn data junk hj blocks hsrc hlen wind .none fs true
  obtain ⟨q', h5, h6⟩ := C126_cross_equal_partial ho hn data junk hj blocks hsrc hlen wind hd hw fs
  rw [h3] at h5
  simp only [Except.ok.injEq, List.cons.injEq, and_true] at h5
  subst h5
  refine ⟨r, h1, fun f a b i hf1 hf2 hi => ?_⟩
  rw [← h6 f a b i hi]
  apply mul_right_cancel₀ (windows_ne_zero ho data hlen)
  rw [h2 f a b i hi, mul_assoc, h4 f a b i hi, ← List.sum_map_mul_left]
  refine congrArg List.sum (List.map_congr_left fun w _ => ?_)
  rw [rfftRow_energy _ _ _ hf1 hf2, rfftRow_energy _ _ _ hf1 hf2, map_mul, Complex.conj_ofNat]
  ring

/-- **C126.** The averaged auto power spectra are the diagonal of the averaged matrix: of the matrix of `PowerSpectra` under
the same condition. -/
theorem C126_auto_partial (hd : bs ∣ ov * data.length) (hw : 0 < (wind.map fun v => v * v).sum) (fs : ℝ) :
    ∃ r, averagedAuto .none fs true bs ov wind junk blocks (windows bs ov data).length num = [[r]] ∧
      ∀ (f : Fin (bs / 2 + 1)) (a : Fin c) (i : Fin ((bs / 2 + 1) * c)), (i : ℕ) = f * c + a →
        (r i : ℂ) = csmFromBlocks bs ov wind data.length junk blocks f a a := by
  have hb : 0 < bs := Nat.pos_of_ne_zero (NeZero.ne bs)
  have hnav := windows_pos ho data hlen
  have hsn := C14_rfft_snapshots hb ho (Nat.mul_pos hn hnav) data junk hj blocks hsrc (rfftRow .none bs wind)
    (fun _ _ => 0) hlen
  set g : (Fin (bs / 2 + 1) → Fin c → ℂ) → (Fin ((bs / 2 + 1) * c) → ℝ) := fun X i =>
    autoPower (autoScale bs fs true false) (X i.divNat i.modNat) with hg
  have hav := C03_average (K := ℝ) _ _ num _ hn hnav (hsn.map (Nat.mul_pos hn hnav) g)
  have hl : (windows bs ov data).length = (((windows bs ov data).map (rfftRow .none bs wind)).map g).length := by simp
  have hone := groupAverages_all (K := ℝ) (((windows bs ov data).map (rfftRow .none bs wind)).map g) (by rw [← hl]; exact hnav)
  rw [← hl] at hone
  rw [hone] at hav
  refine ⟨((windows bs ov data).length : ℝ)⁻¹ • (((windows bs ov data).map (rfftRow .none bs wind)).map g).sum,
    blocking_single hn _ _ hav, ?_⟩
  intro f a i hi
  obtain ⟨q, h1, h2⟩ := averagedCross_eq ho hn data junk hj blocks hsrc hlen wind .none fs true
  obtain ⟨q', h5, h6⟩ := C126_cross_equal_partial ho hn data junk hj blocks hsrc hlen wind hd hw fs
  rw [h1] at h5
  simp only [Except.ok.injEq, List.cons.injEq, and_true] at h5
  subst h5
  have hk : (f : ℕ) * (c * c) + (a * c + a) < CrossPowerSpectra.numChannels c .full * (bs / 2 + 1) := by
    have e : CrossPowerSpectra.numChannels c .full = c * c := by simp [CrossPowerSpectra.numChannels, pow_two]
    rw [e]
    have : (a : ℕ) * c + a < c * c := by nlinarith [a.2]
    nlinarith [f.2]
  rw [← h6 f a a ⟨_, hk⟩ rfl]
  apply mul_right_cancel₀ (windows_ne_zero ho data hlen)
  rw [h2 f a a ⟨_, hk⟩ rfl]
  have h0 : ((windows bs ov data).length : ℝ) ≠ 0 := by exact_mod_cast hnav.ne'
  have hdiv : i.divNat = f := by
    apply Fin.ext
    rw [Fin.coe_divNat, hi, Nat.mul_comm, Nat.mul_add_div (by have := a.2; omega), Nat.div_eq_of_lt a.2, Nat.add_zero]
  have hmod : i.modNat = a := by
    apply Fin.ext
    rw [Fin.coe_modNat, hi, Nat.mul_comm, Nat.mul_add_mod, Nat.mod_eq_of_lt a.2]
  rw [Pi.smul_apply, smul_eq_mul, list_sum_apply, List.map_map, List.map_map, ← Complex.ofReal_natCast, ← Complex.ofReal_mul,
    mul_comm, ← mul_assoc, mul_inv_cancel₀ h0, one_mul]
  rw [show (Complex.ofReal (List.map (((fun v => v i) ∘ g) ∘ rfftRow RfftScaling.none bs wind) (windows bs ov data)).sum) =
    Complex.ofRealHom (List.map (((fun v => v i) ∘ g) ∘ rfftRow RfftScaling.none bs wind) (windows bs ov data)).sum from rfl,
    map_list_sum, List.map_map]
  refine congrArg List.sum (List.map_congr_left fun w _ => ?_)
  simp only [Function.comp_apply, hg, hdiv, hmod, autoPower, Complex.ofRealHom_eq_coe, Complex.ofReal_mul]
  rw [Complex.mul_conj, Complex.ofReal_re]

end

/-- Two channels, five samples, blocks of two, overlap two (so that `2 ∣ 2 * 5`), Hann-like window. -/
example : ∃ (data : List (Fin 2 → ℝ)) (wind : List ℝ), IsBlocking 2 data (chunks 2 data) ∧ 2 ≤ data.length ∧ 2 ∣ 2 * data.length ∧
    0 < (wind.map fun v => v * v).sum ∧ (windows 2 2 data).length = 4 := by
  refine ⟨List.replicate 5 (fun i => i.val), [1 / 2, 1], isBlocking_chunks (by norm_num) _, by simp, ⟨5, by simp⟩, by norm_num, ?_⟩
  rw [C14_windows_length (by norm_num) (by norm_num) _ (by simp)]
  simp

end Acoular
