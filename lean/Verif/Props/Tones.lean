import Verif.Model.FreqAxis
import Verif.Spec.Tone
import Verif.Props.Irfft
import Verif.Props.Csm
import Verif.Props.Windows
import Mathlib.NumberTheory.LegendreSymbol.AddCharacter
import Mathlib.Tactic.LinearCombination

/-!
# C120: lines, frequencies and tones;  C121: the power of the spectrum is the power of the signal
-/

namespace Acoular

open Spec
open scoped ComplexConjugate

/-! ## Frequency axis -/

/-- **C120.** For every even block size, the frequencies announced are `k fs / bs` for the lines `k = 0 ... bs / 2`. -/
theorem C120_axis {K : Type*} [Field K] [LinearOrder K] [IsStrictOrderedRing K] {bs : ℕ} (hb : 0 < bs) (he : 2 ∣ bs)
    (fs : K) (hfs : 0 ≤ fs) :
    spectraFreqs bs fs = (List.range (bs / 2 + 1)).map fun k : ℕ => (k : K) * fs / bs := by
  obtain ⟨h, rfl⟩ := he
  have hh : 0 < h := by omega
  have e1 : (2 * h - 1) / 2 + 1 = h := by omega
  have e2 : 2 * h / 2 = h := by omega
  have hd : ((2 * h : ℕ) : K) * (1 / fs) = ((2 * h : ℕ) : K) / fs := by rw [mul_one_div]
  refine List.ext_getElem ?_ fun k h1 h2 => ?_
  · simp only [spectraFreqs, npFftfreq, List.length_map, List.length_take, List.length_append, List.length_range, e1, e2]
    omega
  · have hk : k < h + 1 := by simpa [e2] using h2
    have hn : (0 : K) ≤ ((2 * h : ℕ) : K) := Nat.cast_nonneg _
    have hn0 : ((2 * h : ℕ) : K) ≠ 0 := by
      have : (2 * h : ℕ) ≠ 0 := by omega
      exact_mod_cast this
    simp only [spectraFreqs, npFftfreq, List.getElem_map, List.getElem_take, e1, e2, hd, List.getElem_range, one_div_div]
    by_cases hlt : k < h
    · rw [List.getElem_append_left (by simpa using hlt)]
      simp only [List.getElem_map, List.getElem_range, Int.cast_natCast]
      rw [abs_of_nonneg (mul_nonneg (Nat.cast_nonneg _) (div_nonneg hfs hn)), mul_div_assoc]
    · have hkh : k = h := by omega
      subst hkh
      rw [List.getElem_append_right (by simp)]
      simp only [List.length_map, List.length_range, List.getElem_map, List.getElem_range, Nat.sub_self, Nat.cast_zero,
        zero_sub, Int.cast_neg, Int.cast_natCast, neg_mul, abs_neg]
      rw [abs_of_nonneg (mul_nonneg (Nat.cast_nonneg _) (div_nonneg hfs hn)), mul_div_assoc]

/-- The frequency axis used for the selection of lines (C17) is this one. -/
theorem C120_axis_used {K : Type*} [Field K] [LinearOrder K] [IsStrictOrderedRing K] {bs : ℕ} (hb : 0 < bs)
    (he : 2 ∣ bs) (fs : K) (hfs : 0 ≤ fs) : fftfreq bs fs = spectraFreqs bs fs := by
  rw [C120_axis hb he fs hfs, fftfreq]

/-- The hypotheses of `C120_axis_used` are met: -/
example := C120_axis_used (K := ℚ) (bs := 8) (by decide) (by decide) 1000 (by norm_num)

/-- **C120.** An odd block size is refused, an even one taken; for every positive one taken the number of lines is the
number of frequencies, and the inverse transform accepts the spectra. -/
theorem C120_block_size (v : ℤ) :
    (v % 2 = 1 → RFFT.setBlockSize v = .error .valueError) ∧ (v % 2 = 0 → RFFT.setBlockSize v = .ok v) ∧
    (0 < v → v % 2 = 0 → RFFT.numFreqs v = (spectraFreqs v.toNat (1 : ℚ)).length ∧
      IRFFT.validate (some v) (RFFT.numFreqs v) = .ok ()) := by
  refine ⟨fun h => by simp [RFFT.setBlockSize, h], fun h => by simp [RFFT.setBlockSize, h], fun hv h => ?_⟩
  have e : RFFT.numFreqs v = v / 2 + 1 := by
    unfold RFFT.numFreqs
    rw [Int.tdiv_eq_ediv_of_nonneg (by omega)]
    omega
  constructor
  · rw [C120_axis (by omega) (by omega) _ (by norm_num), e, List.length_map, List.length_range]
    push_cast
    omega
  · rw [e]
    unfold IRFFT.validate
    simp only
    rw [if_neg (by omega), if_neg (by omega), if_neg (by omega)]

/-- **C120.** The inverse transform accepts exactly complete one-sided spectra of a known positive block size. -/
theorem C120_irfft_accepts (bs : Option ℤ) (nf : ℤ) :
    IRFFT.validate bs nf = .ok () ↔ ∃ b, bs = some b ∧ 0 < b ∧ b = 2 * (nf - 1) := by
  cases bs with
  | none => simp [IRFFT.validate]
  | some b =>
    unfold IRFFT.validate
    simp only [Option.some.injEq, exists_eq_left']
    split
    · simp; omega
    · split
      · simp; omega
      · split
        · simp; omega
        · simp; omega

/-! ## Tones -/

theorem char_nat (n : ℕ) [NeZero n] (t : ℕ) :
    ZMod.stdAddChar (N := n) (t : ZMod n) = Complex.exp (2 * Real.pi * Complex.I * t / n) := by
  have := ZMod.stdAddChar_coe (N := n) (t : ℤ)
  simpa using this

theorem cos_char (n : ℕ) [NeZero n] (k t : ℕ) (φ : ℝ) :
    ((Real.cos (2 * Real.pi * k * t / n + φ) : ℝ) : ℂ) =
      (Complex.exp (Complex.I * φ) * ZMod.stdAddChar (N := n) ((t : ZMod n) * k) +
        Complex.exp (-(Complex.I * φ)) * ZMod.stdAddChar (N := n) (-((t : ZMod n) * k))) / 2 := by
  have h1 : ZMod.stdAddChar (N := n) ((t : ZMod n) * k) = Complex.exp (2 * Real.pi * Complex.I * (t * k : ℕ) / n) := by
    rw [← char_nat]; push_cast; rfl
  rw [AddChar.map_neg_eq_inv, h1, ← Complex.exp_neg, ← Complex.exp_add, ← Complex.exp_add, Complex.ofReal_cos,
    Complex.cos]
  congr 3 <;> (push_cast; ring)

private theorem dft_char (n : ℕ) [NeZero n] (a k : ZMod n) :
    ZMod.dft (fun p : ZMod n => (ZMod.stdAddChar (p * a) : ℂ)) k = if a = k then (n : ℂ) else 0 := by
  rw [ZMod.dft_apply]
  have h := AddChar.sum_mulShift (a - k) (ZMod.isPrimitive_stdAddChar n)
  rw [ZMod.card] at h
  simp only [sub_eq_zero] at h
  rw [Nat.cast_ite, Nat.cast_zero] at h
  rw [← h]
  refine Finset.sum_congr rfl fun j _ => ?_
  rw [smul_eq_mul, ← AddChar.map_add_eq_mul]
  congr 1
  ring

private theorem tone_dft (n : ℕ) [NeZero n] (A φ : ℝ) (k : ℕ) (j : ZMod n) :
    ZMod.dft (fun p : ZMod n => ((A * Real.cos (2 * Real.pi * k * p.val / n + φ) : ℝ) : ℂ)) j =
      A / 2 * (Complex.exp (Complex.I * φ) * (if (k : ZMod n) = j then (n : ℂ) else 0) +
        Complex.exp (-(Complex.I * φ)) * (if -(k : ZMod n) = j then (n : ℂ) else 0)) := by
  have e : (fun p : ZMod n => ((A * Real.cos (2 * Real.pi * k * p.val / n + φ) : ℝ) : ℂ)) =
      (A / 2 * Complex.exp (Complex.I * φ) : ℂ) • (fun p : ZMod n => (ZMod.stdAddChar (p * (k : ZMod n)) : ℂ)) +
      (A / 2 * Complex.exp (-(Complex.I * φ)) : ℂ) • (fun p : ZMod n => (ZMod.stdAddChar (p * -(k : ZMod n)) : ℂ)) := by
    funext p
    have h := cos_char n k p.val φ
    rw [ZMod.natCast_zmod_val] at h
    rw [Complex.ofReal_mul, h]
    simp only [Pi.add_apply, Pi.smul_apply, smul_eq_mul, mul_neg]
    ring
  rw [e, map_add, map_smul, map_smul, Pi.add_apply, Pi.smul_apply, Pi.smul_apply, dft_char, dft_char, smul_eq_mul,
    smul_eq_mul]
  ring

private theorem natCast_eq_iff {n : ℕ} {a b : ℕ} (ha : a < n) (hb : b < n) : (a : ZMod n) = b ↔ a = b := by
  rw [ZMod.natCast_eq_natCast_iff', Nat.mod_eq_of_lt ha, Nat.mod_eq_of_lt hb]

private theorem neg_natCast_eq_iff {n : ℕ} {a b : ℕ} (h0 : 0 < a) (ha : a < n) (hb : b < n) :
    -(a : ZMod n) = b ↔ a + b = n := by
  rw [neg_eq_iff_add_eq_zero, ← Nat.cast_add, ZMod.natCast_eq_zero_iff]
  constructor
  · intro h
    obtain ⟨c, hc⟩ := h
    have : c = 1 := by
      rcases c with _ | _ | c
      · omega
      · rfl
      · exfalso
        have : n * 2 ≤ n * (c + 1 + 1) := Nat.mul_le_mul_left _ (by omega)
        omega
    subst this
    omega
  · intro h; rw [h]

/-- The lines of a window of samples of a tone with the frequency of line `k`. -/
private theorem tone_lines (n : ℕ) [NeZero n] (he : 2 ∣ n) (A φ : ℝ) (k : ℕ) (hk : 0 < k) (hk2 : k < n / 2) (w : List ℝ)
    (hw : w = (List.range n).map fun t : ℕ => A * Real.cos (2 * Real.pi * k * t / n + φ)) (j : ℕ) (hj : j ≤ n / 2) :
    (rfftLines n w).getD j 0 = if j = k then (n / 2 * A : ℂ) * Complex.exp (Complex.I * φ) else 0 := by
  have hn : 0 < n := NeZero.pos n
  rw [rfftLines_getD n w j hj]
  have e : (fun p : ZMod n => ((w.getD p.val 0 : ℝ) : ℂ)) =
      fun p : ZMod n => ((A * Real.cos (2 * Real.pi * k * p.val / n + φ) : ℝ) : ℂ) := by
    funext p
    rw [hw, List.getD_eq_getElem?_getD, List.getElem?_map, List.getElem?_range (ZMod.val_lt p)]
    rfl
  rw [e, tone_dft]
  have h1 : ((k : ZMod n) = (j : ZMod n)) ↔ j = k := by
    rw [natCast_eq_iff (by omega) (by omega)]; exact eq_comm
  have h2 : ¬ (-(k : ZMod n) = (j : ZMod n)) := by
    rw [neg_natCast_eq_iff hk (by omega) (by omega)]; omega
  rw [if_neg h2, mul_zero, add_zero]
  by_cases hjk : j = k
  · rw [if_pos (h1.2 hjk), if_pos hjk]; ring
  · rw [if_neg (fun h => hjk (h1.1 h)), if_neg hjk]; ring

theorem tone_phase {n : ℕ} [NeZero n] (A φ fs : ℝ) (hfs : fs ≠ 0) (k s t : ℕ) :
    toneSample A (k * fs / n) φ fs (s + t) =
      A * Real.cos (2 * Real.pi * k * t / n + (φ + 2 * Real.pi * k * s / n)) := by
  unfold toneSample
  have hn : (n : ℝ) ≠ 0 := by exact_mod_cast NeZero.ne n
  congr 2
  push_cast
  field_simp
  ring

theorem scale_getD (scaling : RfftScaling) (sv : ℝ) (L : List ℂ) (j : ℕ) :
    (rfftScale scaling sv L).getD j 0 =
      (if scaling ≠ .none ∧ 1 ≤ j ∧ j + 1 < L.length then L.getD j 0 * 2 else L.getD j 0) * sv := by
  unfold rfftScale
  cases scaling <;> simp only [List.getD_eq_getElem?_getD, List.getElem?_map, List.getElem?_mapIdx] <;>
    cases h : L[j]? <;> simp

/-- **C120.** A tone whose frequency is the one announced for line `k` (neither the first nor the last) appears,
wherever the window is placed, in line `k` only, and with amplitude scaling and no window function the value of this
line is the complex amplitude of the tone at the start of the window: independent of the block size. -/
theorem C120_tone {bs : ℕ} [NeZero bs] (he : 2 ∣ bs) (A φ fs : ℝ) (hfs : 0 < fs) (k : ℕ) (hk : 0 < k)
    (hk2 : k < bs / 2) (f : ℝ) (hf : (spectraFreqs bs fs)[k]? = some f) (s : ℕ) :
    rfftSnapshot .amplitude bs (List.replicate bs 1) ((List.range bs).map fun t => toneSample A f φ fs (s + t)) =
      (List.range (bs / 2 + 1)).map fun j =>
        if j = k then (A : ℂ) * Complex.exp (Complex.I * ((φ + 2 * Real.pi * f * (s / fs) : ℝ) : ℂ)) else 0 := by
  have hn : 0 < bs := NeZero.pos bs
  have hnC : (bs : ℂ) ≠ 0 := by exact_mod_cast hn.ne'
  have hnR : (bs : ℝ) ≠ 0 := by exact_mod_cast hn.ne'
  have hfv : f = k * fs / bs := by
    rw [C120_axis hn he fs hfs.le, List.getElem?_map, List.getElem?_range (by omega)] at hf
    simpa using hf.symm
  have hph : φ + 2 * Real.pi * f * (s / fs) = φ + 2 * Real.pi * k * s / bs := by
    rw [hfv]; field_simp
  have hw : List.zipWith (· * ·) ((List.range bs).map fun t => toneSample A f φ fs (s + t)) (List.replicate bs (1 : ℝ)) =
      (List.range bs).map fun t : ℕ => A * Real.cos (2 * Real.pi * k * t / bs + (φ + 2 * Real.pi * k * s / bs)) := by
    refine List.ext_getElem (by simp) fun t h1 h2 => ?_
    simp only [List.getElem_zipWith, List.getElem_map, List.getElem_range, List.getElem_replicate, mul_one, hfv]
    rw [tone_phase A φ fs hfs.ne']
  have hl := tone_lines bs he A (φ + 2 * Real.pi * k * s / bs) k hk hk2 _ hw
  have hlen : (rfftLines bs (List.zipWith (· * ·) ((List.range bs).map fun t => toneSample A f φ fs (s + t))
      (List.replicate bs (1 : ℝ)))).length = bs / 2 + 1 := by simp [rfftLines]
  have hsn : (rfftSnapshot .amplitude bs (List.replicate bs 1)
      ((List.range bs).map fun t => toneSample A f φ fs (s + t))).length = bs / 2 + 1 := by
    simp [rfftSnapshot, rfftScale, rfftLines]
  refine List.ext_getElem (by simp [hsn]) fun j h1 h2 => ?_
  have hj : j ≤ bs / 2 := by rw [hsn] at h1; omega
  have hg : ∀ (L : List ℂ) (h : j < L.length), L[j] = L.getD j 0 := by
    intro L h; rw [List.getD_eq_getElem?_getD, List.getElem?_eq_getElem h]; rfl
  rw [hg, rfftSnapshot, scale_getD, hl j hj, hlen, List.getElem_map, List.getElem_range, hph]
  have hsv : rfftScaleValue .amplitude (List.replicate bs 1) bs = 1 / bs := by
    simp [rfftScaleValue]
  rw [hsv]
  by_cases hjk : j = k
  · rw [if_pos ⟨by simp, by omega, by omega⟩, if_pos hjk, if_pos hjk]
    push_cast
    field_simp
  · simp [hjk]

theorem lineEx : (spectraFreqs 8 (1000 : ℝ))[2]? = some 250 := by
  rw [C120_axis (by omega) (by decide) _ (by norm_num)]
  norm_num [List.range_succ]

/-- The hypotheses of `C120_tone` are met: -/
example := C120_tone (bs := 8) (by decide) 2 1 1000 (by norm_num) 2 (by decide) (by decide) 250 lineEx 5

theorem zmod_sum {M : Type*} [AddCommMonoid M] (n : ℕ) [NeZero n] (f : ℕ → M) :
    ∑ p : ZMod n, f p.val = ∑ i ∈ Finset.range n, f i := by
  obtain ⟨m, rfl⟩ : ∃ m, n = m + 1 := ⟨n - 1, by have := NeZero.pos n; omega⟩
  exact Fin.sum_univ_eq_sum_range f (m + 1)

theorem sum_range_getD (L : List ℝ) : ∑ i ∈ Finset.range L.length, L.getD i 0 = L.sum := by
  induction L with
  | nil => simp
  | cons x L ih =>
    rw [List.length_cons, Finset.sum_range_succ', List.sum_cons]
    simp only [List.getD_cons_succ, List.getD_cons_zero, ih]
    ring

theorem dft_zero_list (n : ℕ) [NeZero n] (L : List ℝ) (hL : L.length = n) :
    ZMod.dft (fun p : ZMod n => ((L.getD p.val 0 : ℝ) : ℂ)) 0 = (L.sum : ℂ) := by
  rw [ZMod.dft_apply_zero, zmod_sum n (fun i => ((L.getD i 0 : ℝ) : ℂ)), ← hL, ← Complex.ofReal_sum, sum_range_getD]

/-- **C120.** With amplitude scaling the first line of a constant signal is the constant, for every window function
that does not sum up to zero. -/
theorem C120_constant {bs : ℕ} [NeZero bs] (wind : List ℝ) (hw : wind.length = bs) (hs : wind.sum ≠ 0) (c : ℝ) :
    (rfftSnapshot .amplitude bs wind (List.replicate bs c)).getD 0 0 = (c : ℂ) := by
  have hn : 0 < bs := NeZero.pos bs
  rw [rfftSnapshot, scale_getD, if_neg (by omega), rfftLines_getD _ _ _ (by omega), Nat.cast_zero,
    dft_zero_list _ _ (by simp [hw])]
  have e : List.zipWith (· * ·) (List.replicate bs c) wind = wind.map (c * ·) := by
    refine List.ext_getElem (by simp [hw]) fun t h1 h2 => ?_
    simp
  rw [e, List.sum_map_mul_left, List.map_id', rfftScaleValue]
  rw [← Complex.ofReal_mul]
  congr 1
  field_simp

/-- The hypotheses of `C120_constant` are met: -/
example := C120_constant (bs := 4) [1, 2, 2, 1] rfl (by norm_num) 3

/-- A multi-channel signal of tones of one frequency: channel `m` has amplitude `A m` and phase `φ m`. -/
noncomputable def Spec.toneArray {c : ℕ} (A φ : Fin c → ℝ) (f fs : ℝ) (T : ℕ) : List (Fin c → ℝ) :=
  (List.range T).map fun t => fun m => toneSample (A m) f (φ m) fs t

/-- **C120.** The cross spectral matrix of tones: with no window function, every overlap, and a number of samples that
is used up by the windows, the entry of channels `m` and `m'` is `A m A m' / 2 exp(i (φ m - φ m'))` in the line whose
announced frequency is that of the tone, and zero in all other lines.  In particular the diagonal holds the mean
squares of the tones. -/
theorem C120_csm_tone {c bs ov T : ℕ} [NeZero bs] (he : 2 ∣ bs) (ho : 0 < ov) (hT : bs ≤ T) (hd : bs ∣ ov * T)
    (A φ : Fin c → ℝ) (fs : ℝ) (hfs : 0 < fs) (k : ℕ) (hk : 0 < k) (hk2 : k < bs / 2) (f : ℝ)
    (hf : (spectraFreqs bs fs)[k]? = some f) (junk : List (Fin c → ℝ)) (hjunk : junk.length = 2 * bs)
    (blocks : List (List (Fin c → ℝ))) (hsrc : IsBlocking bs (toneArray A φ f fs T) blocks) (j : ℕ) (hj : j ≤ bs / 2)
    (m m' : Fin c) :
    csmFromBlocks bs ov (List.replicate bs 1) T junk blocks j m m' =
      if j = k then (A m * A m' / 2 : ℂ) * Complex.exp (Complex.I * (φ m - φ m')) else 0 := by
  have hn : 0 < bs := NeZero.pos bs
  have hnC : (bs : ℂ) ≠ 0 := by exact_mod_cast hn.ne'
  have hfv : f = k * fs / bs := by
    rw [C120_axis hn he fs hfs.le, List.getElem?_map, List.getElem?_range (by omega)] at hf
    simpa using hf.symm
  have hlenT : (toneArray A φ f fs T).length = T := by simp [toneArray]
  have hdef : csmFromBlocks bs ov (List.replicate bs 1) T junk blocks j = calcCsmLine
      (csmScale bs ((List.replicate bs (1 : ℝ)).map fun v => v * v).sum (numBlocks ov T bs))
      ((getSourceData bs ov junk blocks).map fun w => fun m : Fin c =>
        (rfftLines bs (List.zipWith (· * ·) (w.map fun row => row m) (List.replicate bs (1 : ℝ)))).getD j 0) := rfl
  rw [hdef, C14_windows hn ho _ junk hjunk blocks hsrc, C15_csm_eq]
  have hcount := (C16_count_iff hn ho (toneArray A φ f fs T) (by rw [hlenT]; exact hT)).2 (by rw [hlenT]; exact hd)
  rw [hlenT] at hcount
  have hpos : 0 < (windows bs ov (toneArray A φ f fs T)).length := by
    rw [C14_windows_length hn ho _ (by rw [hlenT]; exact hT)]; exact Nat.succ_pos _
  -- every window contributes the same
  have hwin : ∀ w ∈ windows bs ov (toneArray A φ f fs T),
      outer (fun m : Fin c => (rfftLines bs (List.zipWith (· * ·) (w.map fun row => row m)
        (List.replicate bs (1 : ℝ)))).getD j 0) m m' =
      if j = k then (bs / 2 * A m : ℂ) * (bs / 2 * A m') * Complex.exp (Complex.I * (φ m - φ m')) else 0 := by
    intro w hw
    unfold windows at hw
    simp only [List.mem_map, List.mem_filter, decide_eq_true_eq] at hw
    obtain ⟨q, ⟨_, h⟩, rfl⟩ := hw
    have h2 : q * bs / ov + bs ≤ T := by
      rw [← Nat.add_mul_div_right _ _ ho]
      rw [hlenT] at h
      exact Nat.div_le_of_le_mul (by rw [Nat.mul_comm ov]; exact h)
    have hcol : ∀ i : Fin c, List.zipWith (· * ·) ((((toneArray A φ f fs T).drop (q * bs / ov)).take bs).map
        fun row => row i) (List.replicate bs (1 : ℝ)) =
        (List.range bs).map fun t : ℕ => A i * Real.cos (2 * Real.pi * k * t / bs +
          (φ i + 2 * Real.pi * k * (q * bs / ov : ℕ) / bs)) := by
      intro i
      refine List.ext_getElem ?_ fun t h1 h3 => ?_
      · simp only [List.length_zipWith, List.length_map, List.length_take, List.length_drop, List.length_replicate,
          List.length_range, hlenT]
        omega
      · simp only [toneArray, List.getElem_zipWith, List.getElem_map, List.getElem_take, List.getElem_drop,
          List.getElem_range, List.getElem_replicate, mul_one, hfv]
        rw [tone_phase (A i) (φ i) fs hfs.ne']
    unfold outer
    simp only
    rw [hcol m, hcol m', tone_lines bs he (A m) _ k hk hk2 _ rfl j hj, tone_lines bs he (A m') _ k hk hk2 _ rfl j hj]
    split
    · rw [map_mul, ← Complex.exp_conj]
      simp only [map_mul, map_div₀, Complex.conj_ofReal, Complex.conj_I, map_natCast, map_ofNat]
      have e : ∀ a b c d : ℂ, a * b * (c * d) = a * c * (b * d) := by intros; ring
      rw [e, ← Complex.exp_add]
      congr 2
      push_cast
      ring
    · simp
  have hsum : ((windows bs ov (toneArray A φ f fs T)).map fun w => outer (fun m : Fin c => (rfftLines bs
      (List.zipWith (· * ·) (w.map fun row => row m) (List.replicate bs (1 : ℝ)))).getD j 0)).sum m m' =
      ((windows bs ov (toneArray A φ f fs T)).length : ℂ) *
      if j = k then (bs / 2 * A m : ℂ) * (bs / 2 * A m') * Complex.exp (Complex.I * (φ m - φ m')) else 0 := by
    generalize windows bs ov (toneArray A φ f fs T) = W at hwin
    clear hcount hpos
    induction W with
    | nil => simp
    | cons w W ih =>
      rw [List.map_cons, List.sum_cons, Matrix.add_apply, hwin w (by simp), ih fun w hw => hwin w (by simp [hw])]
      rw [List.length_cons]
      push_cast
      ring
  unfold averagedCsm
  rw [Matrix.smul_apply, List.map_map]
  erw [hsum]
  have hw : ((List.replicate bs (1 : ℝ)).map fun v => v * v).sum = bs := by simp
  rw [hw, hcount, csmScale, smul_eq_mul]
  have hLC : ((windows bs ov (toneArray A φ f fs T)).length : ℂ) ≠ 0 := by exact_mod_cast hpos.ne'
  split
  · push_cast
    field_simp
  · simp

/-- The hypotheses of `C120_csm_tone` are met: -/
example := C120_csm_tone (c := 2) (bs := 8) (ov := 2) (T := 24) (by decide) (by decide) (by decide) (by decide) ![1, 2] ![0, 1] 1000 (by norm_num)
  2 (by decide) (by decide) 250 lineEx (List.replicate 16 0) rfl _ (isBlocking_chunks (by decide) _) 2 (by decide) 0 1

/-! ## Power -/

private theorem parseval (n : ℕ) [NeZero n] (x : ZMod n → ℂ) :
    ∑ k, ZMod.dft x k * conj (ZMod.dft x k) = n * ∑ p, x p * conj (x p) := by
  have h1 : ∀ k, conj (ZMod.dft x k) = ∑ p, ZMod.stdAddChar (p * k) * conj (x p) := by
    intro k
    rw [ZMod.dft_apply, map_sum]
    refine Finset.sum_congr rfl fun p _ => ?_
    rw [smul_eq_mul, map_mul, ← AddChar.map_neg_eq_conj, neg_neg]
  simp only [h1, Finset.mul_sum]
  rw [Finset.sum_comm]
  refine Finset.sum_congr rfl fun p _ => ?_
  have h2 := congrFun (ZMod.dft_dft x) (-p)
  rw [neg_neg, ZMod.dft_apply, smul_eq_mul] at h2
  rw [← mul_assoc, ← h2, Finset.sum_mul]
  refine Finset.sum_congr rfl fun k _ => ?_
  rw [smul_eq_mul, mul_neg, neg_neg, mul_comm k p]
  ring

/-- Alternating sum `x 0 - x 1 + x 2 - ...`. -/
def Spec.alternatingSum (x : List ℝ) : ℝ := (x.mapIdx fun t v => (-1) ^ t * v).sum

private theorem fold_half (h : ℕ) (hh : 0 < h) (g : ℕ → ℝ) (hg : ∀ k, 0 < k → k < 2 * h → g (2 * h - k) = g k) :
    ∑ k ∈ Finset.range (h + 1), 2 * g k = (∑ k ∈ Finset.range (2 * h), g k) + g 0 + g h := by
  obtain ⟨q, rfl⟩ : ∃ q, h = q + 1 := ⟨h - 1, by omega⟩
  have e : 2 * (q + 1) = (q + 1 + 1) + q := by omega
  rw [e, Finset.sum_range_add g (q + 1 + 1) q, ← Finset.mul_sum]
  have hr : ∑ x ∈ Finset.range q, g (q + 1 + 1 + x) = ∑ x ∈ Finset.range q, g (x + 1) := by
    rw [← Finset.sum_range_reflect]
    refine Finset.sum_congr rfl fun x hx => ?_
    have hx' := Finset.mem_range.1 hx
    rw [← hg (x + 1) (by omega) (by omega)]
    congr 1
    omega
  rw [hr]
  have h3 : ∑ k ∈ Finset.range (q + 1 + 1), g k = (∑ x ∈ Finset.range q, g (x + 1)) + g 0 + g (q + 1) := by
    rw [Finset.sum_range_succ, Finset.sum_range_succ']
  rw [h3]
  ring

private theorem normSq_line_zero (n : ℕ) [NeZero n] (L : List ℝ) (hL : L.length = n) :
    Complex.normSq (ZMod.dft (fun p : ZMod n => ((L.getD p.val 0 : ℝ) : ℂ)) 0) = L.sum ^ 2 := by
  rw [dft_zero_list n L hL, Complex.normSq_ofReal, sq]

private theorem sum_mapIdx (f : ℕ → ℝ → ℝ) (L : List ℝ) :
    (L.mapIdx f).sum = ∑ i ∈ Finset.range L.length, f i (L.getD i 0) := by
  induction L generalizing f with
  | nil => simp
  | cons x L ih =>
    rw [List.mapIdx_cons, List.sum_cons, ih, List.length_cons, Finset.sum_range_succ']
    simp only [List.getD_cons_succ, List.getD_cons_zero]
    ring

private theorem normSq_line_half (n : ℕ) [NeZero n] (he : 2 ∣ n) (L : List ℝ) (hL : L.length = n) :
    Complex.normSq (ZMod.dft (fun p : ZMod n => ((L.getD p.val 0 : ℝ) : ℂ)) ((n / 2 : ℕ) : ZMod n)) =
      (alternatingSum L) ^ 2 := by
  obtain ⟨h, rfl⟩ := he
  have hh : 0 < h := by have := NeZero.pos (2 * h); omega
  have e2 : 2 * h / 2 = h := by omega
  have hc : ∀ p : ZMod (2 * h), ZMod.stdAddChar (-(p * ((h : ℕ) : ZMod (2 * h)))) = (-1 : ℂ) ^ p.val := by
    intro p
    have h1 := char_nat (2 * h) (p.val * h)
    push_cast at h1
    rw [ZMod.natCast_zmod_val] at h1
    rw [AddChar.map_neg_eq_inv, h1]
    have hhC : (h : ℂ) ≠ 0 := by exact_mod_cast hh.ne'
    have h2 : (2 * Real.pi * Complex.I * (p.val * h) / (2 * h) : ℂ) = p.val * (Real.pi * Complex.I) := by
      field_simp
    rw [h2, Complex.exp_nat_mul, Complex.exp_pi_mul_I, ← inv_pow]
    norm_num
  rw [e2, ZMod.dft_apply]
  have h3 : ∑ j : ZMod (2 * h), ZMod.stdAddChar (-(j * ((h : ℕ) : ZMod (2 * h)))) • ((L.getD j.val 0 : ℝ) : ℂ) =
      ((alternatingSum L : ℝ) : ℂ) := by
    unfold alternatingSum
    rw [sum_mapIdx, hL, Complex.ofReal_sum, ← zmod_sum (2 * h) (fun i => (((-1) ^ i * L.getD i 0 : ℝ) : ℂ))]
    refine Finset.sum_congr rfl fun j _ => ?_
    rw [hc, smul_eq_mul]
    push_cast
    rfl
  rw [h3, Complex.normSq_ofReal, sq]

theorem sum_range_sq (L : List ℝ) :
    ∑ i ∈ Finset.range L.length, L.getD i 0 * L.getD i 0 = (L.map fun v => v ^ 2).sum := by
  induction L with
  | nil => simp
  | cons x L ih =>
    rw [List.length_cons, Finset.sum_range_succ', List.map_cons, List.sum_cons]
    simp only [List.getD_cons_succ, List.getD_cons_zero, ih]
    ring

/-- Parseval's theorem for the one-sided spectrum. -/
private theorem lines_power (n : ℕ) [NeZero n] (he : 2 ∣ n) (L : List ℝ) (hL : L.length = n) :
    ∑ j ∈ Finset.range (n / 2 + 1), 2 * Complex.normSq ((rfftLines n L).getD j 0) =
      n * (L.map fun v => v ^ 2).sum + L.sum ^ 2 + (alternatingSum L) ^ 2 := by
  set x : ZMod n → ℝ := fun p => L.getD p.val 0 with hx
  have hlines : ∀ j ∈ Finset.range (n / 2 + 1), 2 * Complex.normSq ((rfftLines n L).getD j 0) =
      2 * (fun k : ℕ => Complex.normSq (ZMod.dft (fun p => (x p : ℂ)) (k : ZMod n))) j := by
    intro j hj
    rw [rfftLines_getD n L j (by have := Finset.mem_range.1 hj; omega)]
  rw [Finset.sum_congr rfl hlines]
  have hn : 0 < n := NeZero.pos n
  have hsym : ∀ k, 0 < k → k < 2 * (n / 2) →
      Complex.normSq (ZMod.dft (fun p => (x p : ℂ)) ((2 * (n / 2) - k : ℕ) : ZMod n)) =
        Complex.normSq (ZMod.dft (fun p => (x p : ℂ)) (k : ZMod n)) := by
    intro k _ hk
    have e : ((2 * (n / 2) - k : ℕ) : ZMod n) = -(k : ZMod n) := by
      have h2 : 2 * (n / 2) = n := by omega
      rw [Nat.cast_sub hk.le, h2, ZMod.natCast_self, zero_sub]
    rw [e, dft_real_neg, Complex.normSq_conj]
  rw [fold_half (n / 2) (by omega) _ hsym]
  have h2 : 2 * (n / 2) = n := by omega
  rw [h2]
  have hz := normSq_line_zero n L hL
  have hq := normSq_line_half n he L hL
  simp only [Nat.cast_zero]
  rw [hz, hq]
  congr 2
  have hp := parseval n (fun p => (x p : ℂ))
  simp only [Complex.mul_conj] at hp
  rw [← Complex.ofReal_sum, ← Complex.ofReal_sum] at hp
  have hp' : ∑ k : ZMod n, Complex.normSq (ZMod.dft (fun p => (x p : ℂ)) k) = n * ∑ p, Complex.normSq (x p : ℂ) := by
    exact_mod_cast hp
  have e3 : ∑ k ∈ Finset.range n, Complex.normSq (ZMod.dft (fun p => (x p : ℂ)) (k : ZMod n)) =
      ∑ k : ZMod n, Complex.normSq (ZMod.dft (fun p => (x p : ℂ)) k) := by
    rw [← zmod_sum n (fun k : ℕ => Complex.normSq (ZMod.dft (fun p => (x p : ℂ)) (k : ZMod n)))]
    refine Finset.sum_congr rfl fun k _ => ?_
    rw [ZMod.natCast_zmod_val]
  rw [e3, hp']
  congr 1
  simp only [Complex.normSq_ofReal, hx]
  rw [zmod_sum n (fun i => L.getD i 0 * L.getD i 0), ← hL]
  exact sum_range_sq L

/-- **C121.** For every window function, overlap and signal: the auto powers of a channel, summed up over all lines, are
the average over the windows of the weighted power in the window, plus a term with the sum and the alternating sum of
the weighted samples (the first and the last line are counted twice). -/
theorem C121_weighted {c bs ov T : ℕ} [NeZero bs] (he : 2 ∣ bs) (ho : 0 < ov) (wind : List ℝ) (hw : wind.length = bs)
    (data : List (Fin c → ℝ)) (junk : List (Fin c → ℝ)) (hjunk : junk.length = 2 * bs)
    (blocks : List (List (Fin c → ℝ))) (hsrc : IsBlocking bs data blocks) (m : Fin c) :
    ∑ j ∈ Finset.range (bs / 2 + 1), csmFromBlocks bs ov wind T junk blocks j m m =
      (((1 / (numBlocks ov T bs : ℝ)) * ((windows bs ov data).map fun w =>
        let v := List.zipWith (· * ·) (w.map fun row => row m) wind
        (v.map fun y => y ^ 2).sum / (wind.map fun y => y * y).sum +
          (v.sum ^ 2 + (alternatingSum v) ^ 2) / (bs * (wind.map fun y => y * y).sum)).sum : ℝ) : ℂ) := by
  have hn : 0 < bs := NeZero.pos bs
  have hnR : (bs : ℝ) ≠ 0 := by exact_mod_cast hn.ne'
  set W : ℝ := (wind.map fun y => y * y).sum with hW
  set nb : ℚ := numBlocks ov T bs with hnb
  set col : List (Fin c → ℝ) → List ℝ := fun w => List.zipWith (· * ·) (w.map fun row => row m) wind with hcol
  have hline : ∀ j, csmFromBlocks bs ov wind T junk blocks j m m =
      ((csmScale bs W nb * ((windows bs ov data).map fun w => Complex.normSq ((rfftLines bs (col w)).getD j 0)).sum : ℝ) : ℂ) := by
    intro j
    have hdef : csmFromBlocks bs ov wind T junk blocks j = calcCsmLine (csmScale bs W nb)
      ((getSourceData bs ov junk blocks).map fun w => fun m : Fin c =>
        (rfftLines bs (List.zipWith (· * ·) (w.map fun row => row m) wind)).getD j 0) := rfl
    rw [hdef, C14_windows hn ho _ junk hjunk blocks hsrc, C15_csm_eq]
    unfold averagedCsm
    rw [Matrix.smul_apply, smul_eq_mul, Complex.ofReal_mul]
    congr 1
    generalize windows bs ov data = Ws
    induction Ws with
    | nil => simp
    | cons w Ws ih =>
      rw [List.map_cons, List.map_cons, List.sum_cons, Matrix.add_apply, ih, List.map_cons, List.sum_cons,
        Complex.ofReal_add]
      congr 1
      simp only [outer, Complex.mul_conj, hcol]
  rw [Finset.sum_congr rfl fun j _ => hline j, ← Complex.ofReal_sum]
  congr 1
  rw [← Finset.mul_sum]
  have hlen : ∀ w ∈ windows bs ov data, (col w).length = bs := by
    intro w h
    have := (C14_windows_inside hn ho data w h).1
    simp [hcol, this, hw]
  generalize windows bs ov data = Ws at hlen
  have hsw : ∑ j ∈ Finset.range (bs / 2 + 1), (Ws.map fun w => Complex.normSq ((rfftLines bs (col w)).getD j 0)).sum =
      (Ws.map fun w => (bs * ((col w).map fun v => v ^ 2).sum + (col w).sum ^ 2 + (alternatingSum (col w)) ^ 2) / 2).sum := by
    induction Ws with
    | nil => simp
    | cons w Ws ih =>
      simp only [List.map_cons, List.sum_cons]
      rw [Finset.sum_add_distrib, ih fun w h => hlen w (by simp [h])]
      congr 1
      have := lines_power bs he (col w) (hlen w (by simp))
      rw [← Finset.mul_sum] at this
      linarith
  rw [hsw, csmScale]
  rw [← List.sum_map_mul_left, ← List.sum_map_mul_left]
  congr 1
  refine List.map_congr_left fun w _ => ?_
  simp only [hcol]
  by_cases h0 : W = 0
  · simp [h0]
  by_cases h1 : (nb : ℝ) = 0
  · simp [h1]
  field_simp
  ring

/-- The hypotheses of `C121_weighted` are met: -/
example := C121_weighted (c := 2) (bs := 4) (ov := 2) (T := 6) (by decide) (by decide) [1, 2, 2, 1] rfl
  [![1, 2], ![3, 4], ![5, 6], ![7, 8], ![9, 10], ![11, 12]] (List.replicate 8 0) rfl _ (isBlocking_chunks (by decide) _) 1

/-- **C121.** Without window function and overlap, for a signal of whole blocks: the auto powers of a channel, summed up
over all lines, are the mean square of its samples, plus the average of the squares of the mean values and of the
alternating mean values of the blocks. -/
theorem C121_power {c bs : ℕ} [NeZero bs] (he : 2 ∣ bs) (data : List (Fin c → ℝ)) (hd : bs ∣ data.length)
    (h0 : data ≠ []) (junk : List (Fin c → ℝ)) (hjunk : junk.length = 2 * bs) (blocks : List (List (Fin c → ℝ)))
    (hsrc : IsBlocking bs data blocks) (m : Fin c) :
    ∑ j ∈ Finset.range (bs / 2 + 1), csmFromBlocks bs 1 (List.replicate bs 1) data.length junk blocks j m m =
      ((meanSquare (data.map fun row => row m) +
        (blocks.map fun b => (meanValue (b.map fun row => row m)) ^ 2 +
          (alternatingSum (b.map fun row => row m) / bs) ^ 2).sum / blocks.length : ℝ) : ℂ) := by
  have hn : 0 < bs := NeZero.pos bs
  have hnR : (bs : ℝ) ≠ 0 := by exact_mod_cast hn.ne'
  have hlen : bs ≤ data.length := Nat.le_of_dvd (List.length_pos_iff.2 h0) hd
  rw [C121_weighted he one_pos (List.replicate bs 1) (by simp) data junk hjunk blocks hsrc m]
  congr 1
  have hwin : windows bs 1 data = blocks := by
    rw [windows_one_eq hn, Nat.div_mul_cancel hd, List.take_length, ← (isBlocking_iff hn).1 hsrc]
  have hcount := (C16_count_iff hn one_pos data hlen).2 (by rw [one_mul]; exact hd)
  have hcol : ∀ w ∈ blocks, List.zipWith (· * ·) (w.map fun row => row m) (List.replicate bs (1 : ℝ)) =
      w.map fun row => row m := by
    intro w hw
    have hl : w.length = bs := by
      rw [← hwin] at hw
      exact (C14_windows_inside hn one_pos data w hw).1
    refine List.ext_getElem (by simp [hl]) fun t h1 h2 => ?_
    simp
  have hbl : ∀ w ∈ blocks, w.length = bs := by
    intro w hw
    rw [← hwin] at hw
    exact (C14_windows_inside hn one_pos data w hw).1
  have hfl : blocks.flatten = data := by
    rw [(isBlocking_iff hn).1 hsrc, flatten_chunks hn]
  rw [hcount, hwin]
  have hW : ((List.replicate bs (1 : ℝ)).map fun y => y * y).sum = bs := by simp
  rw [hW]
  have hsum : (blocks.map fun w =>
        let v := List.zipWith (· * ·) (w.map fun row => row m) (List.replicate bs (1 : ℝ))
        (v.map fun y => y ^ 2).sum / (bs : ℝ) + (v.sum ^ 2 + (alternatingSum v) ^ 2) / (bs * (bs : ℝ))) =
      blocks.map fun w => ((w.map fun row => row m).map fun y => y ^ 2).sum / (bs : ℝ) +
        ((meanValue (w.map fun row => row m)) ^ 2 + (alternatingSum (w.map fun row => row m) / bs) ^ 2) := by
    refine List.map_congr_left fun w hw => ?_
    simp only [hcol w hw, meanValue, List.length_map, hbl w hw]
    field_simp
  rw [hsum]
  have hsplit : ∀ (Bs : List (List (Fin c → ℝ))) (g : List (Fin c → ℝ) → ℝ),
      (Bs.map fun w => ((w.map fun row => row m).map fun y => y ^ 2).sum / (bs : ℝ) + g w).sum =
        ((Bs.flatten.map fun row => row m).map fun y => y ^ 2).sum / bs + (Bs.map g).sum := by
    intro Bs g
    induction Bs with
    | nil => simp
    | cons w Bs ih =>
      simp only [List.map_cons, List.sum_cons, List.flatten_cons, List.map_append, List.sum_append, ih]
      ring
  rw [hsplit, hfl]
  have hL : (data.length : ℝ) = blocks.length * bs := by
    have : ∀ Bs : List (List (Fin c → ℝ)), (∀ w ∈ Bs, w.length = bs) → Bs.flatten.length = Bs.length * bs := by
      intro Bs
      induction Bs with
      | nil => simp
      | cons w Bs ih =>
        intro h
        rw [List.flatten_cons, List.length_append, h w (by simp), ih fun w hw => h w (by simp [hw]), List.length_cons]
        ring
    have h2 := this blocks hbl
    rw [hfl] at h2
    exact_mod_cast h2
  have hbpos : (blocks.length : ℝ) ≠ 0 := by
    intro h
    rw [h, zero_mul] at hL
    have : data.length = 0 := by exact_mod_cast hL
    exact h0 (List.length_eq_zero_iff.1 this)
  unfold meanSquare
  rw [List.length_map, hL]
  push_cast
  field_simp

/-- The hypotheses of `C121_power` are met: -/
example := C121_power (c := 2) (bs := 2) (by decide) [![1, 2], ![3, 4], ![5, 6], ![7, 8]] (by decide) (by simp) (List.replicate 4 0) rfl _
  (isBlocking_chunks (by decide) _) 1

/-- **C121 (part: no offset).** If every block has mean value and alternating mean value zero, the auto powers summed
up over all lines are the mean square of the samples.
Missing: signals with an offset or with a component at half the sampling frequency (`C121_offset_violated`). -/
theorem C121_power_partial {c bs : ℕ} [NeZero bs] (he : 2 ∣ bs) (data : List (Fin c → ℝ)) (hd : bs ∣ data.length)
    (h0 : data ≠ []) (junk : List (Fin c → ℝ)) (hjunk : junk.length = 2 * bs) (blocks : List (List (Fin c → ℝ)))
    (hsrc : IsBlocking bs data blocks) (m : Fin c)
    (hz : ∀ b ∈ blocks, (b.map fun row => row m).sum = 0 ∧ alternatingSum (b.map fun row => row m) = 0) :
    ∑ j ∈ Finset.range (bs / 2 + 1), csmFromBlocks bs 1 (List.replicate bs 1) data.length junk blocks j m m =
      ((meanSquare (data.map fun row => row m) : ℝ) : ℂ) := by
  rw [C121_power he data hd h0 junk hjunk blocks hsrc m]
  have : blocks.map (fun b => (meanValue (b.map fun row => row m)) ^ 2 +
      (alternatingSum (b.map fun row => row m) / bs) ^ 2) = blocks.map fun _ => (0 : ℝ) := by
    refine List.map_congr_left fun b hb => ?_
    simp [meanValue, (hz b hb).1, (hz b hb).2]
  rw [this]
  simp

/-- The hypotheses of `C121_power_partial` are met: -/
example := C121_power_partial (c := 1) (bs := 4) (by decide) [![1], ![1], ![-1], ![-1]] (by decide) (by simp) (List.replicate 8 0) rfl
  [[![1], ![1], ![-1], ![-1]]] ((isBlocking_iff (by decide)).2 (by simp [chunks])) 0 (by norm_num [alternatingSum, List.mapIdx_cons])

private theorem alternatingSum_const (h : ℕ) (a : ℝ) : alternatingSum (List.replicate (2 * h) a) = 0 := by
  unfold alternatingSum
  rw [sum_mapIdx, List.length_replicate]
  have e : ∀ i ∈ Finset.range (2 * h), (-1 : ℝ) ^ i * (List.replicate (2 * h) a).getD i 0 = (-1) ^ i * a := by
    intro i hi
    rw [List.getD_eq_getElem?_getD, List.getElem?_replicate, if_pos (Finset.mem_range.1 hi)]
    rfl
  rw [Finset.sum_congr rfl e]
  clear e
  induction h with
  | zero => simp
  | succ h ih =>
    rw [show 2 * (h + 1) = 2 * h + 1 + 1 by ring, Finset.sum_range_succ, Finset.sum_range_succ, ih, pow_succ]
    ring

/-- **C121 violated.** The spectrum of a constant signal `a`, of mean square `a²`, has twice that power: one-sided
doubling is applied to the first line, too. -/
theorem C121_offset_violated {bs : ℕ} [NeZero bs] (he : 2 ∣ bs) (a : ℝ) (N : ℕ) (hN : 0 < N) (junk : List (Fin 1 → ℝ))
    (hjunk : junk.length = 2 * bs) (blocks : List (List (Fin 1 → ℝ)))
    (hsrc : IsBlocking bs (List.replicate (N * bs) fun _ => a) blocks) :
    meanSquare (List.replicate (N * bs) a) = a ^ 2 ∧
    ∑ j ∈ Finset.range (bs / 2 + 1), csmFromBlocks bs 1 (List.replicate bs 1) (N * bs) junk blocks j 0 0 =
      ((2 * a ^ 2 : ℝ) : ℂ) := by
  have hn : 0 < bs := NeZero.pos bs
  have hnR : (bs : ℝ) ≠ 0 := by exact_mod_cast hn.ne'
  have hNR : (N : ℝ) ≠ 0 := by exact_mod_cast hN.ne'
  have hms : meanSquare (List.replicate (N * bs) a) = a ^ 2 := by
    unfold meanSquare
    simp only [List.map_replicate, List.sum_replicate, List.length_replicate, nsmul_eq_mul]
    push_cast
    field_simp
  refine ⟨hms, ?_⟩
  have hd : bs ∣ (List.replicate (N * bs) (fun _ : Fin 1 => a)).length := by simp
  have h0 : (List.replicate (N * bs) (fun _ : Fin 1 => a)) ≠ [] := by
    intro h
    have := congrArg List.length h
    simp at this
    omega
  have hp := C121_power he _ hd h0 junk hjunk blocks hsrc 0
  rw [List.length_replicate] at hp
  rw [hp, List.map_replicate, hms]
  congr 1
  have hwin : windows bs 1 (List.replicate (N * bs) (fun _ : Fin 1 => a)) = blocks := by
    rw [windows_one_eq hn, Nat.div_mul_cancel hd, List.take_length, ← (isBlocking_iff hn).1 hsrc]
  have hb : ∀ b ∈ blocks, b = List.replicate bs fun _ => a := by
    intro b hb
    rw [← hwin] at hb
    obtain ⟨hl, u, v, huv⟩ := C14_windows_inside hn one_pos _ b hb
    rw [List.eq_replicate_iff]
    refine ⟨hl, fun x hx => ?_⟩
    have : x ∈ List.replicate (N * bs) (fun _ : Fin 1 => a) := by rw [huv]; simp [hx]
    exact (List.mem_replicate.1 this).2
  have hne : (blocks.length : ℝ) ≠ 0 := by
    intro h
    have h1 : blocks = [] := List.length_eq_zero_iff.1 (by exact_mod_cast h)
    have h2 := (isBlocking_iff hn).1 hsrc
    have h3 : (chunks bs (List.replicate (N * bs) (fun _ : Fin 1 => a))).flatten = [] := by rw [← h2, h1]; rfl
    rw [flatten_chunks hn] at h3
    exact h0 h3
  have hm : blocks.map (fun b => (meanValue (b.map fun row => row 0)) ^ 2 +
      (alternatingSum (b.map fun row => row 0) / bs) ^ 2) = blocks.map fun _ => a ^ 2 := by
    refine List.map_congr_left fun b h => ?_
    obtain ⟨q, hq⟩ := he
    rw [hb b h, List.map_replicate, meanValue, List.sum_replicate, List.length_replicate]
    have : alternatingSum (List.replicate bs a) = 0 := by rw [hq]; exact alternatingSum_const q a
    rw [this, nsmul_eq_mul, mul_div_cancel_left₀ _ hnR]
    simp
  rw [hm]
  simp only [List.map_const', List.sum_replicate, nsmul_eq_mul]
  field_simp
  norm_num

/-! ## Witnesses -/

/-- The tones theorem applies, for example, to block size 8, line 2, 50 % overlap and 24 samples. -/
example : ∃ (f : ℝ) (blocks : List (List (Fin 2 → ℝ))), (spectraFreqs 8 (1000 : ℝ))[2]? = some f ∧ f = 250 ∧
    IsBlocking 8 (toneArray ![1, 2] ![0, 1] f 1000 24) blocks ∧ 8 ∣ 2 * 24 := by
  refine ⟨250, chunks 8 (toneArray ![1, 2] ![0, 1] 250 1000 24), ?_, rfl, isBlocking_chunks (by omega) _, by decide⟩
  rw [C120_axis (by omega) (by decide) _ (by norm_num)]
  norm_num [List.range_succ]

/-- A block without mean and alternating mean. -/
example : ([1, 1, -1, -1] : List ℝ).sum = 0 ∧ alternatingSum ([1, 1, -1, -1] : List ℝ) = 0 := by
  constructor
  · norm_num
  · norm_num [alternatingSum, List.mapIdx_cons]

example : RFFT.setBlockSize 1024 = .ok 1024 ∧ RFFT.setBlockSize 1023 = .error .valueError ∧
    IRFFT.validate (some 1024) 513 = .ok () ∧ IRFFT.validate (some 1024) 512 = .error .valueError := by decide

end Acoular
