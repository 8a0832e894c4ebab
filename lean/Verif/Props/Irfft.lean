import Verif.Model.Irfft
import Verif.Props.Windows
import Verif.Props.SamplesBuffer
import Mathlib.Analysis.RCLike.Basic
import Mathlib.Tactic.Ring
import Mathlib.Tactic.FieldSimp

/-!
# C95: the inverse transform of the transform of a signal is the signal
-/

namespace Acoular

open Spec

open scoped ComplexConjugate

/-- The transform of a real signal is conjugate symmetric. -/
theorem dft_real_neg (n : ℕ) [NeZero n] (x : ZMod n → ℝ) (k : ZMod n) :
    ZMod.dft (fun p => (x p : ℂ)) (-k) = conj (ZMod.dft (fun p => (x p : ℂ)) k) := by
  rw [ZMod.dft_apply, ZMod.dft_apply, map_sum]
  refine Finset.sum_congr rfl fun j _ => ?_
  rw [smul_eq_mul, smul_eq_mul, map_mul, Complex.conj_ofReal, ← AddChar.map_neg_eq_conj]
  congr 2
  ring

theorem rfftLines_getD (n : ℕ) [NeZero n] (w : List ℝ) (k : ℕ) (hk : k ≤ n / 2) :
    (rfftLines n w).getD k 0 = ZMod.dft (fun p : ZMod n => ((w.getD p.val 0 : ℝ) : ℂ)) (k : ZMod n) := by
  unfold rfftLines
  have h : k < n / 2 + 1 := by omega
  simp only [List.getD, List.getElem?_map, List.getElem?_range h, Option.map_some, Option.getD_some]

/-- `irfft` inverts `rfft`, for lines that are multiplied by a real number, too. -/
theorem irfft_rfft (n : ℕ) [NeZero n] (w : List ℝ) (hw : w.length = n) (s : ℝ) :
    irfftBlock n ((rfftLines n w).map (· * (s : ℂ))) = w.map (· * s) := by
  set x : ZMod n → ℝ := fun p => w.getD p.val 0 with hx
  have hX : ∀ k : ℕ, k ≤ n / 2 → ((rfftLines n w).map (· * (s : ℂ))).getD k 0 = ZMod.dft (fun p => (x p : ℂ)) (k : ZMod n) * s := by
    intro k hk
    have h := rfftLines_getD n w k hk
    have hl : k < (rfftLines n w).length := by simp [rfftLines]; omega
    simp only [List.getD, List.getElem?_map, List.getElem?_eq_getElem hl, Option.map_some, Option.getD_some] at h ⊢
    rw [h]
    rfl
  unfold irfftBlock
  simp only
  have hfull : (fun k : ZMod n => if k.val ≤ n / 2 then ((rfftLines n w).map (· * (s : ℂ))).getD k.val 0
      else star (((rfftLines n w).map (· * (s : ℂ))).getD (n - k.val) 0)) = ZMod.dft ((s : ℂ) • fun p => (x p : ℂ)) := by
    funext k
    rw [map_smul, Pi.smul_apply, smul_eq_mul]
    split
    · rename_i h
      rw [hX _ h, ZMod.natCast_zmod_val, mul_comm]
    · rename_i h
      have hk : k.val < n := ZMod.val_lt k
      rw [hX _ (by omega), star_mul']
      have e : ((n - k.val : ℕ) : ZMod n) = -k := by
        rw [Nat.cast_sub hk.le, ZMod.natCast_self, ZMod.natCast_zmod_val, zero_sub]
      rw [e, dft_real_neg]
      simp [mul_comm]
  rw [hfull, LinearEquiv.symm_apply_apply]
  refine List.ext_getElem (by simp [hw]) fun t h1 h2 => ?_
  have ht : t < n := by simpa using h1
  have htw : t < w.length := by omega
  rw [List.getElem_map, List.getElem_range, List.getElem_map]
  have hv : (t : ZMod n).val = t := ZMod.val_natCast_of_lt ht
  simp only [Pi.smul_apply, smul_eq_mul, hx, hv, List.getD, List.getElem?_eq_getElem htw, Option.getD_some]
  rw [← Complex.ofReal_mul, Complex.ofReal_re, mul_comm]

/-- With `num = 1` every snapshot is a block. -/
theorem rfftResult_one {α β : Type*} (g : List α → β) (zero : β) (wins : List (List α)) :
    RFFT.result g zero wins 1 = wins.map fun w => [g w] := by
  have h : ∀ (snaps : List β) (i : ℕ) (v : β), RFFT.loop 1 i 0 [v] snaps = snaps.map fun s => [s] := by
    intro snaps
    induction snaps with
    | nil => intro i v; rfl
    | cons s l ih =>
      intro i v
      have e : RFFT.loop 1 i 0 [v] (s :: l) = [s] :: RFFT.loop 1 (i + 1) 0 [s] l := by
        rw [RFFT.loop]
        simp [Nat.mod_one]
      rw [e, ih]
      rfl
  unfold RFFT.result
  rw [show List.replicate 1 zero = [zero] from rfl, h, List.map_map]
  rfl

theorem windows_one_eq {α : Type*} {bs : ℕ} (hb : 0 < bs) (data : List α) :
    windows bs 1 data = chunks bs (data.take (data.length / bs * bs)) := by
  have hle : data.length / bs * bs ≤ data.length := Nat.div_mul_le_self _ _
  rw [windows_eq hb one_pos]
  unfold chunks
  have hc : winCount bs 1 data.length = data.length / bs := by
    unfold winCount
    split
    · rename_i h; rw [Nat.div_eq_of_lt h]
    · rename_i h
      rw [mul_one]
      conv_rhs => rw [show data.length = data.length - bs + bs by omega, Nat.add_div_right _ hb]
  rw [hc, List.length_take, Nat.min_eq_left hle]
  have hd : (data.length / bs * bs + bs - 1) / bs = data.length / bs := by
    refine Nat.div_eq_of_lt_le ?_ ?_
    · omega
    · rw [Nat.succ_mul]; omega
  rw [hd]
  refine List.map_congr_left fun k hk => ?_
  have hk' : k < data.length / bs := List.mem_range.1 hk
  rw [Nat.div_one, List.drop_take, List.take_take, Nat.min_eq_left]
  have : (k + 1) * bs ≤ data.length / bs * bs := Nat.mul_le_mul_right _ hk'
  rw [Nat.succ_mul] at this
  omega

theorem rfftSnapshot_none (n : ℕ) [NeZero n] (wind w : List ℝ) :
    rfftSnapshot .none n wind w = (rfftLines n (List.zipWith (· * ·) w wind)).map
      (· * ((1 / √((wind.map fun v => v * v).sum / n) : ℝ) : ℂ)) := rfl

/-- The time blocks recovered from an `RFFT` without scaling: the windowed blocks, multiplied by the correction for the
window. -/
theorem C95_windowed {bs : ℕ} [NeZero bs] (wind : List ℝ) (hw : wind.length = bs) (data junk : List ℝ)
    (hj : junk.length = 2 * bs) (blocks : List (List ℝ)) (hsrc : IsBlocking bs data blocks) (ov : ℕ) (ho : 0 < ov)
    (zero : List ℂ) :
    irfftBlocks bs (RFFT.result (rfftSnapshot .none bs wind) zero (getSourceData bs ov junk blocks) 1) =
      (windows bs ov data).map fun w => List.zipWith (fun x v => x * v / √((wind.map fun v => v * v).sum / bs)) w wind := by
  have hb : 0 < bs := Nat.pos_of_ne_zero (NeZero.ne bs)
  rw [C14_windows hb ho data junk hj blocks hsrc, rfftResult_one]
  unfold irfftBlocks
  rw [List.map_map]
  refine List.map_congr_left fun w hwm => ?_
  have hl := (C14_windows_inside hb ho data w hwm).1
  rw [Function.comp_apply, List.flatten_singleton, rfftSnapshot_none, irfft_rfft bs _ (by simp [hl, hw]), List.map_zipWith]
  simp only [mul_one_div]

/-- The hypotheses of `C95_windowed` are met: -/
example := C95_windowed (bs := 2) [1 / 2, 1] rfl [1, 2, 3, 4, 5] (List.replicate 4 0) rfl _ (isBlocking_chunks (by decide) _) 2 (by decide) []

/-- **C95** With a rectangular window, no overlap and no scaling, `IRFFT` delivers the samples of the signal that fill
complete blocks, in blocks of any size. -/
theorem C95_round_trip {bs : ℕ} [NeZero bs] (data junk : List ℝ) (hj : junk.length = 2 * bs) (blocks : List (List ℝ))
    (hsrc : IsBlocking bs data blocks) (zero : List ℂ) (num : ℕ) (hn : 0 < num) (fuel : ℕ) (hf : data.length < fuel) :
    ∃ out, irfftResult bs (RFFT.result (rfftSnapshot .none bs (List.replicate bs 1)) zero
        (getSourceData bs 1 junk blocks) 1) num fuel = ⟨out, .returned⟩ ∧
      IsBlocking num (data.take (data.length / bs * bs)) out := by
  have hb : 0 < bs := Nat.pos_of_ne_zero (NeZero.ne bs)
  have hbr : ((bs : ℕ) : ℝ) ≠ 0 := by exact_mod_cast hb.ne'
  have e : irfftBlocks bs (RFFT.result (rfftSnapshot .none bs (List.replicate bs 1)) zero (getSourceData bs 1 junk blocks) 1) =
      chunks bs (data.take (data.length / bs * bs)) := by
    rw [C95_windowed _ (by simp) data junk hj blocks hsrc 1 one_pos, ← windows_one_eq hb]
    conv_rhs => rw [← List.map_id (windows bs 1 data)]
    refine List.map_congr_left fun w hwm => ?_
    have hl := (C14_windows_inside hb one_pos data w hwm).1
    have hs : (List.map (fun v : ℝ => v * v) (List.replicate bs 1)).sum / (bs : ℝ) = 1 := by
      simp [hbr]
    rw [hs]
    refine List.ext_getElem (by simp [hl]) fun i h1 h2 => ?_
    simp
  unfold irfftResult
  by_cases hnum : num = bs
  · subst hnum
    rw [if_neg (by simp), e]
    exact ⟨_, rfl, isBlocking_chunks hn _⟩
  · rw [if_pos hnum]
    have hq : num ≤ (num + bs - 1) / bs * bs := by
      have := Nat.lt_div_mul_add (a := num + bs - 1) hb
      omega
    have hq2 : ((num + bs - 1) / bs + 1) * bs = (num + bs - 1) / bs * bs + bs := Nat.succ_mul _ _
    refine C07_reblock_partial 0 (data.take (data.length / bs * bs)) _ _ num (some bs) hn hb ?_ ?_ (Or.inl ?_) fuel ?_
    · show IsBlocking bs _ (irfftBlocks bs _)
      rw [e]
      exact isBlocking_chunks hb _
    · show bs < _
      omega
    · show num + bs ≤ _
      omega
    · rw [List.length_take]
      omega

/-- The hypotheses of `C95_round_trip` are met: -/
example := C95_round_trip (bs := 2) [1, 2, 3, 4, 5] (List.replicate 4 0) rfl _ (isBlocking_chunks (by decide) _) [] 3 (by decide) 6 (by decide)

/-- The announced number of samples is the delivered one. -/
theorem C95_num_samples {bs : ℕ} (data : List ℝ) :
    irfftNumSamples data.length bs = (data.take (data.length / bs * bs)).length := by
  have hle : data.length / bs * bs ≤ data.length := Nat.div_mul_le_self _ _
  rw [List.length_take, Nat.min_eq_left hle]
  unfold irfftNumSamples RFFT.numSamples
  rw [if_pos (Int.natCast_nonneg _)]
  have : ((data.length : ℤ) / (bs : ℤ)) = ((data.length / bs : ℕ) : ℤ) := by norm_cast
  rw [this, if_pos (Int.natCast_nonneg _)]
  norm_cast

/-- A signal of five samples, blocks of two. -/
example : IsBlocking 2 [1, 2, 3, 4, (5 : ℝ)] (chunks 2 [1, 2, 3, 4, 5]) ∧ (List.replicate 4 (0 : ℝ)).length = 2 * 2 :=
  ⟨isBlocking_chunks (by norm_num) _, rfl⟩

end Acoular
