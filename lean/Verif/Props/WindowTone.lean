import Verif.Model.Window
import Verif.Props.EndToEnd
import Mathlib.Algebra.Order.Chebyshev

/-!
# C143: window functions and the level of tones
-/

namespace Acoular

/-- Value of the spectrum of the window `w` of `n` samples at line `j`. -/
noncomputable def Spec.windowLine (n : ℕ) (w : List ℝ) (j : ℕ) : ℂ :=
  ∑ t ∈ Finset.range n, (w.getD t 0 : ℂ) * Complex.exp (-(2 * Real.pi * Complex.I * (j * t : ℕ) / n))

/-- Ratio of the squared mean and the mean square of a window. -/
noncomputable def Spec.windowGain (w : List ℝ) : ℝ := w.sum ^ 2 / (w.length * (w.map fun v => v * v).sum)

open Spec
open scoped ComplexConjugate

private theorem windowed_line (n : ℕ) [NeZero n] (A φ : ℝ) (k : ℕ) (hk2 : k ≤ n / 2) (w : List ℝ) (hw : w.length = n) (L : List ℝ)
    (hL : L = List.zipWith (· * ·) ((List.range n).map fun t : ℕ => A * Real.cos (2 * Real.pi * k * t / n + φ)) w) :
    (rfftLines n L).getD k 0 =
      A / 2 * (Complex.exp (Complex.I * φ) * w.sum + Complex.exp (-(Complex.I * φ)) * windowLine n w (2 * k)) := by
  rw [rfftLines_getD n L k hk2, ZMod.dft_apply]
  have hLg : ∀ p : ZMod n, L.getD p.val 0 = A * Real.cos (2 * Real.pi * k * p.val / n + φ) * w.getD p.val 0 := by
    intro p
    have hp := ZMod.val_lt p
    rw [hL, List.getD_eq_getElem?_getD, List.getElem?_zipWith, List.getElem?_map, List.getElem?_range hp, List.getD_eq_getElem?_getD,
      List.getElem?_eq_getElem (by omega)]
    rfl
  have hterm : ∀ p : ZMod n, ZMod.stdAddChar (-(p * (k : ZMod n))) • ((L.getD p.val 0 : ℝ) : ℂ) =
      A / 2 * (Complex.exp (Complex.I * φ) * ((w.getD p.val 0 : ℝ) : ℂ) + Complex.exp (-(Complex.I * φ)) *
        (((w.getD p.val 0 : ℝ) : ℂ) * Complex.exp (-(2 * Real.pi * Complex.I * (2 * k * p.val : ℕ) / n)))) := by
    intro p
    have h := cos_char n k p.val φ
    rw [ZMod.natCast_zmod_val] at h
    have hc : ZMod.stdAddChar (N := n) (-(p * (k : ZMod n))) = Complex.exp (-(2 * Real.pi * Complex.I * (k * p.val : ℕ) / n)) := by
      have h1 := char_nat n (p.val * k)
      push_cast at h1
      rw [ZMod.natCast_zmod_val] at h1
      rw [AddChar.map_neg_eq_inv, h1, ← Complex.exp_neg]
      congr 2
      push_cast
      ring
    have hc2 : ZMod.stdAddChar (N := n) (p * (k : ZMod n)) = Complex.exp (2 * Real.pi * Complex.I * (k * p.val : ℕ) / n) := by
      have h1 := char_nat n (p.val * k)
      push_cast at h1
      rw [ZMod.natCast_zmod_val] at h1
      rw [h1]
      congr 1
      push_cast
      ring
    rw [hLg p, Complex.ofReal_mul, Complex.ofReal_mul, h, smul_eq_mul, hc, hc2]
    have e1 : Complex.exp (-(2 * Real.pi * Complex.I * (k * p.val : ℕ) / n)) * Complex.exp (2 * Real.pi * Complex.I * (k * p.val : ℕ) / n) = 1 := by
      rw [← Complex.exp_add]; simp
    have e2 : Complex.exp (-(2 * Real.pi * Complex.I * (2 * k * p.val : ℕ) / n)) =
        Complex.exp (-(2 * Real.pi * Complex.I * (k * p.val : ℕ) / n)) * Complex.exp (-(2 * Real.pi * Complex.I * (k * p.val : ℕ) / n)) := by
      rw [← Complex.exp_add]
      congr 1
      push_cast
      ring
    rw [e2]
    linear_combination (A / 2 * Complex.exp (Complex.I * φ) * ((w.getD p.val 0 : ℝ) : ℂ)) * e1
  rw [Finset.sum_congr rfl fun p _ => hterm p, ← Finset.mul_sum, Finset.sum_add_distrib, ← Finset.mul_sum, ← Finset.mul_sum]
  congr 2
  · congr 1
    rw [zmod_sum n (fun i => ((w.getD i 0 : ℝ) : ℂ)), ← Complex.ofReal_sum, ← sum_range_getD, hw]
  · congr 1
    unfold windowLine
    rw [zmod_sum n (fun i => ((w.getD i 0 : ℝ) : ℂ) * Complex.exp (-(2 * Real.pi * Complex.I * (2 * k * i : ℕ) / n)))]

/-- **C143.** Amplitude scaling, any window function that does not sum up to zero, a tone with the frequency announced for line `k` (neither the first
nor the last), wherever the window is placed: the value of this line is the complex amplitude at the start of the window plus that of the conjugate
tone times the value of the window spectrum at twice the line, relative to that at line zero. -/
theorem C143_amplitude {bs : ℕ} [NeZero bs] (he : 2 ∣ bs) (wind : List ℝ) (hw : wind.length = bs) (hs : wind.sum ≠ 0) (A φ fs : ℝ) (hfs : 0 < fs)
    (k : ℕ) (hk : 0 < k) (hk2 : k < bs / 2) (f : ℝ) (hf : (spectraFreqs bs fs)[k]? = some f) (s : ℕ) :
    let a := (A : ℂ) * Complex.exp (Complex.I * ((φ + 2 * Real.pi * f * (s / fs) : ℝ) : ℂ))
    (rfftSnapshot .amplitude bs wind ((List.range bs).map fun t => toneSample A f φ fs (s + t))).getD k 0 =
      a + conj a * (windowLine bs wind (2 * k) / wind.sum) := by
  intro a
  have hn : 0 < bs := NeZero.pos bs
  have hnR : (bs : ℝ) ≠ 0 := by exact_mod_cast hn.ne'
  have hfv : f = k * fs / bs := by
    rw [C120_axis hn he fs hfs.le, List.getElem?_map, List.getElem?_range (by omega)] at hf
    simpa using hf.symm
  have hph : φ + 2 * Real.pi * f * (s / fs) = φ + 2 * Real.pi * k * s / bs := by
    rw [hfv]; field_simp
  have hsC : (wind.sum : ℂ) ≠ 0 := by exact_mod_cast hs
  have hlen : (rfftLines bs (List.zipWith (· * ·) ((List.range bs).map fun t => toneSample A f φ fs (s + t)) wind)).length = bs / 2 + 1 := by
    simp [rfftLines]
  have hline := windowed_line bs A (φ + 2 * Real.pi * k * s / bs) k hk2.le wind hw
    (List.zipWith (· * ·) ((List.range bs).map fun t => toneSample A f φ fs (s + t)) wind) (by
      congr 1
      refine List.map_congr_left fun t _ => ?_
      rw [hfv, tone_phase A φ fs hfs.ne'])
  rw [rfftSnapshot, scale_getD, if_pos ⟨by simp, by omega, by omega⟩, hline]
  have ha : conj a = (A : ℂ) * Complex.exp (-(Complex.I * ((φ + 2 * Real.pi * f * (s / fs) : ℝ) : ℂ))) := by
    show conj ((A : ℂ) * _) = _
    rw [map_mul, Complex.conj_ofReal, ← Complex.exp_conj]
    rw [map_mul, Complex.conj_I, Complex.conj_ofReal, neg_mul]
  rw [ha, hph]
  show _ = (A : ℂ) * Complex.exp (Complex.I * ((φ + 2 * Real.pi * f * (s / fs) : ℝ) : ℂ)) + _
  rw [hph, rfftScaleValue]
  push_cast
  field_simp

/-- **C143.** The cross spectral matrix of tones with a window function whose spectrum vanishes at twice the line: the matrix is that without window
function times the ratio of squared mean and mean square of the window. -/
theorem C143_csm {c bs ov T : ℕ} [NeZero bs] (he : 2 ∣ bs) (ho : 0 < ov) (hT : bs ≤ T) (hd : bs ∣ ov * T) (wind : List ℝ)
    (hw : wind.length = bs)
    (A φ : Fin c → ℝ) (fs : ℝ) (hfs : 0 < fs) (k : ℕ) (hk2 : k < bs / 2) (hz : windowLine bs wind (2 * k) = 0) (f : ℝ)
    (hf : (spectraFreqs bs fs)[k]? = some f) (junk : List (Fin c → ℝ)) (hjunk : junk.length = 2 * bs)
    (blocks : List (List (Fin c → ℝ))) (hsrc : IsBlocking bs (toneArray A φ f fs T) blocks) (m m' : Fin c) :
    csmFromBlocks bs ov wind T junk blocks k m m' =
      windowGain wind * ((A m * A m' / 2 : ℂ) * Complex.exp (Complex.I * (φ m - φ m'))) := by
  have hn : 0 < bs := NeZero.pos bs
  have hnC : (bs : ℂ) ≠ 0 := by exact_mod_cast hn.ne'
  have hfv : f = k * fs / bs := by
    rw [C120_axis hn he fs hfs.le, List.getElem?_map, List.getElem?_range (by omega)] at hf
    simpa using hf.symm
  have hlenT : (toneArray A φ f fs T).length = T := by simp [toneArray]
  have hdef : csmFromBlocks bs ov wind T junk blocks k = calcCsmLine
      (csmScale bs (wind.map fun v => v * v).sum (numBlocks ov T bs))
      ((getSourceData bs ov junk blocks).map fun w => fun m : Fin c =>
        (rfftLines bs (List.zipWith (· * ·) (w.map fun row => row m) wind)).getD k 0) := rfl
  rw [hdef, C14_windows hn ho _ junk hjunk blocks hsrc, C15_csm_eq]
  have hcount := (C16_count_iff hn ho (toneArray A φ f fs T) (by rw [hlenT]; exact hT)).2 (by rw [hlenT]; exact hd)
  rw [hlenT] at hcount
  have hpos : 0 < (windows bs ov (toneArray A φ f fs T)).length := by
    rw [C14_windows_length hn ho _ (by rw [hlenT]; exact hT)]; exact Nat.succ_pos _
  have hwin : ∀ w ∈ windows bs ov (toneArray A φ f fs T),
      outer (fun m : Fin c => (rfftLines bs (List.zipWith (· * ·) (w.map fun row => row m) wind)).getD k 0) m m' =
      (wind.sum / 2 * A m : ℂ) * (wind.sum / 2 * A m') * Complex.exp (Complex.I * (φ m - φ m')) := by
    intro w hw'
    unfold windows at hw'
    simp only [List.mem_map, List.mem_filter, decide_eq_true_eq] at hw'
    obtain ⟨q, ⟨_, h⟩, rfl⟩ := hw'
    have h2 : q * bs / ov + bs ≤ T := by
      rw [← Nat.add_mul_div_right _ _ ho]
      rw [hlenT] at h
      exact Nat.div_le_of_le_mul (by rw [Nat.mul_comm ov]; exact h)
    have hcol : ∀ i : Fin c, (((toneArray A φ f fs T).drop (q * bs / ov)).take bs).map (fun row => row i) =
        (List.range bs).map fun t : ℕ => A i * Real.cos (2 * Real.pi * k * t / bs +
          (φ i + 2 * Real.pi * k * (q * bs / ov : ℕ) / bs)) := by
      intro i
      refine List.ext_getElem ?_ fun t h1 h3 => ?_
      · simp only [List.length_map, List.length_take, List.length_drop, List.length_range, hlenT]
        omega
      · simp only [toneArray, List.getElem_map, List.getElem_take, List.getElem_drop, List.getElem_range, hfv]
        rw [tone_phase (A i) (φ i) fs hfs.ne']
    unfold outer
    simp only
    rw [hcol m, hcol m', windowed_line bs (A m) _ k hk2.le wind hw _ rfl, windowed_line bs (A m') _ k hk2.le wind hw _ rfl, hz, mul_zero, add_zero,
      mul_zero, add_zero]
    rw [map_mul, map_mul, ← Complex.exp_conj]
    simp only [map_mul, map_div₀, Complex.conj_ofReal, Complex.conj_I, map_ofNat]
    have e : ∀ a b s x y : ℂ, a / 2 * (x * s) * (b / 2 * (y * s)) = s / 2 * a * (s / 2 * b) * (x * y) := by intros; ring
    rw [e, ← Complex.exp_add]
    congr 2
    push_cast
    ring
  have hsum : ((windows bs ov (toneArray A φ f fs T)).map fun w => outer (fun m : Fin c => (rfftLines bs
      (List.zipWith (· * ·) (w.map fun row => row m) wind)).getD k 0)).sum m m' =
      ((windows bs ov (toneArray A φ f fs T)).length : ℂ) *
      ((wind.sum / 2 * A m : ℂ) * (wind.sum / 2 * A m') * Complex.exp (Complex.I * (φ m - φ m'))) := by
    generalize windows bs ov (toneArray A φ f fs T) = W at hwin
    clear hcount hpos
    induction W with
    | nil => simp
    | cons w W ih =>
      rw [List.map_cons, List.sum_cons, Matrix.add_apply, hwin w (by simp), ih fun w hw => hwin w (by simp [hw])]
      rw [List.length_cons]
      push_cast
      ring
  unfold averagedCsm
  rw [Matrix.smul_apply, List.map_map]
  erw [hsum]
  rw [hcount, csmScale, smul_eq_mul]
  have hLC : ((windows bs ov (toneArray A φ f fs T)).length : ℂ) ≠ 0 := by exact_mod_cast hpos.ne'
  unfold windowGain
  rw [hw]
  push_cast
  by_cases hW : (((wind.map fun v => v * v).sum : ℝ) : ℂ) = 0
  · simp [hW]
  field_simp

section

variable {n : ℕ} {bs ov T : ℕ} [NeZero bs] (he : 2 ∣ bs) (ho : 0 < ov) (hT : bs ≤ T) (hd : bs ∣ ov * T) (wind : List ℝ) (hw : wind.length = bs)
  (A φ c s0 : ℝ) (sm : Fin n → ℝ) (fs : ℝ) (hfs : 0 < fs) (l : ℕ) (hl2 : l < bs / 2) (hz : windowLine bs wind (2 * l) = 0) (f : ℝ)
  (hf : (spectraFreqs bs fs)[l]? = some f) (junk : List (Fin n → ℝ)) (hjunk : junk.length = 2 * bs)
  (blocks : List (List (Fin n → ℝ))) (hsrc : IsBlocking bs (monopoleRecording A φ f c s0 sm fs T) blocks)

include he ho hT hd hw hfs hl2 hz hf hjunk hsrc

/-- **C143.** The map of conventional beamforming for a monopole that emits a tone, with a window function: the mean square of the tone times the
point spread function, times the ratio of squared mean and mean square of the window. -/
theorem C143_map (st : Formulation) (rDiagNorm r0 : ℝ) (rm : Fin n → ℝ) (h0 : 0 < r0) (hr : ∀ m, 0 < rm m) (hn : 0 < n) :
    bfCalcPoint st false rDiagNorm r0 rm (2 * Real.pi * f / c) (csmFromBlocks bs ov wind T junk blocks l) =
      windowGain wind * (A ^ 2 / 2) * psfKernel st r0 rm s0 sm (2 * Real.pi * f / c) := by
  have hcsm : csmFromBlocks bs ov wind T junk blocks l =
      ((windowGain wind * (A ^ 2 / 2) : ℝ) : ℂ) • outer (monopole s0 sm (2 * Real.pi * f / c)) := by
    rw [recording_eq] at hsrc
    ext m m'
    rw [C143_csm he ho hT hd wind hw _ _ fs hfs l hl2 hz f hf junk hjunk blocks hsrc m m', Matrix.smul_apply, smul_eq_mul]
    unfold outer monopole
    rw [map_mul, Complex.conj_ofReal, ← Complex.exp_conj]
    have e : ∀ a b p q x : ℂ, x * (a * p * (b * q)) = x * (a * b) * (p * q) := by intros; ring
    rw [e, ← Complex.exp_add, ← mul_assoc]
    congr 1
    · push_cast; ring
    · congr 1
      simp only [map_neg, map_mul, Complex.conj_I, Complex.conj_ofReal]
      push_cast
      ring
  rw [hcsm, C23_result st false rDiagNorm r0 rm _ h0 hr _ (rank_one_herm _ _), if_neg (by simp), rank_one_quad,
    Complex.ofReal_re, C26_psf_eq st r0 rm s0 sm _ h0 hr hn]

end

/-! ## The gain of windows -/

/-- **C143.** The gain is at most one. -/
theorem C143_gain_le (w : List ℝ) : windowGain w ≤ 1 := by
  unfold windowGain
  have h := sq_sum_le_card_mul_sum_sq (s := Finset.range w.length) (f := fun i => w.getD i 0)
  simp only [pow_two (List.getD _ _ _)] at h
  rw [sum_range_getD, sum_range_sq, Finset.card_range] at h
  have e : (w.map fun v => v ^ 2) = w.map fun v => v * v := List.map_congr_left fun v _ => pow_two v
  rw [e] at h
  exact div_le_one_of_le₀ h (mul_nonneg (Nat.cast_nonneg _) (List.sum_nonneg (by simp +contextual [mul_self_nonneg])))

/-- **C143.** The gain is one exactly for a window with constant entries different from zero. -/
theorem C143_gain_eq_one_iff (w : List ℝ) : windowGain w = 1 ↔ w ≠ [] ∧ ∃ a, a ≠ 0 ∧ ∀ x ∈ w, x = a := by
  have hq : ∀ w : List ℝ, ∀ a : ℝ, (w.map fun v => (v - a) ^ 2).sum = (w.map fun v => v * v).sum - 2 * a * w.sum + w.length * a ^ 2 := by
    intro w a
    induction w with
    | nil => simp
    | cons x w ih =>
      simp only [List.map_cons, List.sum_cons, List.length_cons, ih]
      push_cast
      ring
  constructor
  · intro h
    unfold windowGain at h
    have hne : w ≠ [] := by
      rintro rfl
      simp at h
    have hlen : (0 : ℝ) < w.length := by exact_mod_cast List.length_pos_iff.2 hne
    have hden : (w.length * (w.map fun v => v * v).sum : ℝ) ≠ 0 := by
      intro h0
      rw [h0, div_zero] at h
      exact zero_ne_one h
    have heq : w.sum ^ 2 = w.length * (w.map fun v => v * v).sum := by
      rwa [div_eq_one_iff_eq hden] at h
    refine ⟨hne, w.sum / w.length, ?_, ?_⟩
    · intro h0
      rw [div_eq_zero_iff] at h0
      rcases h0 with h0 | h0
      · rw [← heq, h0] at hden
        simp at hden
      · exact hlen.ne' h0
    · have hz : (w.map fun v => (v - w.sum / w.length) ^ 2).sum = 0 := by
        rw [hq]
        generalize (w.map fun v => v * v).sum = W2 at heq
        field_simp
        linarith
      intro x hx
      have hall : (x - w.sum / w.length) ^ 2 = 0 := by
        refine le_antisymm ?_ (sq_nonneg _)
        rw [← hz]
        exact List.single_le_sum (by
          intro y hy
          obtain ⟨v, _, rfl⟩ := List.mem_map.1 hy
          exact sq_nonneg _) _ (List.mem_map_of_mem (f := fun v => (v - w.sum / w.length) ^ 2) hx)
      have := pow_eq_zero_iff (two_ne_zero) |>.1 hall
      linarith
  · rintro ⟨hne, a, ha, hall⟩
    obtain ⟨m, rfl⟩ : ∃ m, w = List.replicate m a := ⟨w.length, List.eq_replicate_iff.2 ⟨rfl, hall⟩⟩
    have hm : (m : ℝ) ≠ 0 := by
      intro h
      apply hne
      have : m = 0 := by exact_mod_cast h
      simp [this]
    unfold windowGain
    simp
    field_simp

/-- **C143.** All window functions are symmetric. -/
theorem C143_symmetric (kind : WindowKind) {n : ℕ} (hn : 2 ≤ n) {t : ℕ} (ht : t < n) : windowValue kind n (n - 1 - t) = windowValue kind n t := by
  have hn1 : (n : ℝ) - 1 ≠ 0 := by
    have : (2 : ℝ) ≤ n := by exact_mod_cast hn
    intro h; linarith
  have hc : ((n - 1 - t : ℕ) : ℝ) = n - 1 - t := by
    rw [Nat.cast_sub (by omega), Nat.cast_sub (by omega)]
    simp
  have h2 : 2 * Real.pi * ((n : ℝ) - 1 - t) / (n - 1) = 2 * Real.pi - 2 * Real.pi * t / (n - 1) := by field_simp
  have h4 : 4 * Real.pi * ((n : ℝ) - 1 - t) / (n - 1) = (2 : ℕ) * (2 * Real.pi) - 4 * Real.pi * t / (n - 1) := by
    field_simp
    push_cast
    ring
  cases kind with
  | rectangular => rfl
  | hanning => simp only [windowValue, hc, h2, Real.cos_two_pi_sub]
  | hamming => simp only [windowValue, hc, h2, Real.cos_two_pi_sub]
  | bartlett =>
    simp only [windowValue, hc]
    congr 2
    rw [← abs_neg]
    congr 1
    ring
  | blackman => simp only [windowValue, hc, h2, h4, Real.cos_two_pi_sub, Real.cos_nat_mul_two_pi_sub]

private theorem blackman_cos (c : ℝ) (x : ℝ) (hx : 2 * x = c) : 42 / 100 - 1 / 2 * Real.cos x + 8 / 100 * Real.cos c =
    (1 - Real.cos x) * (34 / 100 - 16 / 100 * Real.cos x) := by
  rw [← hx, Real.cos_two_mul]; ring

/-- **C143.** The shape of the window functions: all values lie between zero and one, that in the middle is one, the first is zero except for the
rectangular window (one) and the Hamming window (0.08). -/
theorem C143_shape (kind : WindowKind) {n : ℕ} (hn : 2 ≤ n) {t : ℕ} (ht : t < n) :
    (0 ≤ windowValue kind n t ∧ windowValue kind n t ≤ 1) ∧ (2 * t = n - 1 → windowValue kind n t = 1) ∧
      (kind = .hanning ∨ kind = .bartlett ∨ kind = .blackman → windowValue kind n 0 = 0) ∧
      windowValue .rectangular n t = 1 ∧ windowValue .hamming n 0 = 8 / 100 := by
  have hn2 : (2 : ℝ) ≤ n := by exact_mod_cast hn
  have hn1 : (0 : ℝ) < n - 1 := by linarith
  have ht1 : (t : ℝ) ≤ n - 1 := by
    have : (t : ℝ) + 1 ≤ n := by exact_mod_cast ht
    linarith
  have ht0 : (0 : ℝ) ≤ t := Nat.cast_nonneg t
  have hcu := Real.cos_le_one (2 * Real.pi * t / (n - 1))
  have hcl := Real.neg_one_le_cos (2 * Real.pi * t / (n - 1))
  have h4 : 2 * (2 * Real.pi * (t : ℝ) / (n - 1)) = 4 * Real.pi * t / (n - 1) := by ring
  refine ⟨?_, ?_, ?_, rfl, ?_⟩
  · cases kind with
    | rectangular => simp [windowValue]
    | hanning => simp only [windowValue]; constructor <;> linarith
    | hamming => simp only [windowValue]; constructor <;> linarith
    | bartlett =>
      simp only [windowValue]
      have hb : |(t : ℝ) - (n - 1) / 2| ≤ (n - 1) / 2 := abs_le.2 ⟨by linarith, by linarith⟩
      have hp := abs_nonneg ((t : ℝ) - (n - 1) / 2)
      constructor
      · exact mul_nonneg (by positivity) (by linarith)
      · rw [div_mul_eq_mul_div, div_le_one hn1]; linarith
    | blackman =>
      simp only [windowValue]
      rw [blackman_cos _ _ h4]
      constructor
      · exact mul_nonneg (by linarith) (by linarith)
      · nlinarith
  · intro hm
    have hm' : 2 * (t : ℝ) = n - 1 := by
      have : 2 * t + 1 = n := by omega
      have : 2 * (t : ℝ) + 1 = n := by exact_mod_cast this
      linarith
    have hpi : 2 * Real.pi * (t : ℝ) / (n - 1) = Real.pi := by
      rw [← hm'] at hn1 ⊢
      have : (t : ℝ) ≠ 0 := by rintro h; rw [h] at hn1; simp at hn1
      field_simp
    cases kind with
    | rectangular => rfl
    | hanning => simp only [windowValue, hpi, Real.cos_pi]; norm_num
    | hamming => simp only [windowValue, hpi, Real.cos_pi]; norm_num
    | bartlett =>
      simp only [windowValue]
      have : (t : ℝ) - (n - 1) / 2 = 0 := by linarith
      rw [this, abs_zero]
      field_simp
      ring
    | blackman => simp only [windowValue]; rw [blackman_cos _ _ h4, hpi, Real.cos_pi]; norm_num
  · rintro (rfl | rfl | rfl)
    · simp [windowValue]
    · simp only [windowValue, Nat.cast_zero, zero_sub, abs_neg]
      rw [abs_of_nonneg (by linarith), sub_self, mul_zero]
    · simp [windowValue]; norm_num
  · simp [windowValue]; norm_num

/-- **C143.** From three samples on no window function sums up to zero, as `C143_amplitude` assumes. -/
theorem C143_sum_pos (kind : WindowKind) {n : ℕ} (hn : 3 ≤ n) : 0 < (windowList kind n).sum := by
  have hlt : 0 < windowValue kind n 1 := by
    have hn3 : (3 : ℝ) ≤ n := by exact_mod_cast hn
    have hn1 : (0 : ℝ) < n - 1 := by linarith
    have hc : Real.cos (2 * Real.pi * ((1 : ℕ) : ℝ) / (n - 1)) < 1 := by
      refine lt_of_le_of_ne (Real.cos_le_one _) fun h => ?_
      obtain ⟨k, hk⟩ := (Real.cos_eq_one_iff _).1 h
      have hpi := Real.pi_pos
      have h1 : (k : ℝ) * (n - 1) = 1 := by
        have : (k : ℝ) * (2 * Real.pi) * (n - 1) = 2 * Real.pi := by rw [hk]; field_simp; simp
        have h2 : 2 * Real.pi * ((k : ℝ) * (n - 1)) = 2 * Real.pi * 1 := by linarith
        exact mul_left_cancel₀ (by positivity) h2
      have hk0 : (0 : ℝ) < k := by
        by_contra hneg
        push Not at hneg
        nlinarith
      have hk1 : (1 : ℝ) ≤ k := by
        have : (0 : ℤ) < k := by exact_mod_cast hk0
        exact_mod_cast this
      nlinarith
    cases kind with
    | rectangular => exact one_pos
    | hanning => simp only [windowValue]; linarith
    | hamming => simp only [windowValue]; linarith
    | bartlett =>
      simp only [windowValue]
      refine mul_pos (by positivity) ?_
      have : |((1 : ℕ) : ℝ) - (n - 1) / 2| = (n - 1) / 2 - 1 := by
        push_cast
        rw [abs_sub_comm, abs_of_nonneg (by linarith)]
      rw [this]; linarith
    | blackman =>
      simp only [windowValue]
      rw [blackman_cos (4 * Real.pi * ((1 : ℕ) : ℝ) / (n - 1)) (2 * Real.pi * ((1 : ℕ) : ℝ) / (n - 1)) (by ring)]
      exact mul_pos (by linarith) (by linarith)
  have hmem : windowValue kind n 1 ∈ windowList kind n := List.mem_map.2 ⟨1, List.mem_range.2 (by omega), rfl⟩
  refine lt_of_lt_of_le hlt (List.single_le_sum (fun x hx => ?_) _ hmem)
  obtain ⟨t, ht, rfl⟩ := List.mem_map.1 hx
  exact (C143_shape kind (by omega) (List.mem_range.1 ht)).1.1

/-- The hypotheses of `C143_shape` and `C143_sum_pos` are met: -/
example := C143_shape .blackman (n := 5) (by decide) (t := 2) (by decide)
example := C143_sum_pos .hanning (n := 128) (by decide)
/-- **C143.** The spectrum of every window function vanishes at twice the line of a quarter of the sampling frequency, for block sizes divisible by
four: a tone of this frequency meets the assumption of `C143_csm`, `C143_map`. -/
theorem C143_quarter (kind : WindowKind) {n q : ℕ} (hq : 0 < q) (hn : n = 4 * q) : windowLine n (windowList kind n) (2 * q) = 0 := by
  have hterm : ∀ t ∈ Finset.range n, (((windowList kind n).getD t 0 : ℝ) : ℂ) * Complex.exp (-(2 * Real.pi * Complex.I * (2 * q * t : ℕ) / n)) =
      (windowValue kind n t : ℂ) * (-1) ^ t := by
    intro t ht
    have hqC : (q : ℂ) ≠ 0 := by exact_mod_cast hq.ne'
    congr 1
    · rw [windowList, List.getD_eq_getElem?_getD, List.getElem?_map, List.getElem?_range (Finset.mem_range.1 ht)]
      rfl
    · have : -(2 * Real.pi * Complex.I * (2 * q * t : ℕ) / n) = -((t : ℂ) * (Real.pi * Complex.I)) := by
        rw [hn]
        push_cast
        field_simp
        ring
      rw [this, Complex.exp_neg, Complex.exp_nat_mul, Complex.exp_pi_mul_I, ← inv_pow]
      norm_num
  unfold windowLine
  rw [Finset.sum_congr rfl hterm]
  have hrefl := Finset.sum_range_reflect (fun t => (windowValue kind n t : ℂ) * (-1) ^ t) n
  have hneg : ∑ t ∈ Finset.range n, (windowValue kind n (n - 1 - t) : ℂ) * (-1) ^ (n - 1 - t) =
      -∑ t ∈ Finset.range n, (windowValue kind n t : ℂ) * (-1) ^ t := by
    rw [← Finset.sum_neg_distrib]
    refine Finset.sum_congr rfl fun t ht => ?_
    have ht' := Finset.mem_range.1 ht
    rw [C143_symmetric kind (by omega) ht', ← mul_neg]
    congr 1
    have h1 : ((-1 : ℂ)) ^ (n - 1 - t) * (-1) ^ t = -1 := by
      rw [← pow_add, show n - 1 - t + t = 2 * (2 * q - 1) + 1 by omega, pow_add, pow_mul]
      simp
    have h2 : ((-1 : ℂ)) ^ t * (-1) ^ t = 1 := by
      rw [← mul_pow]; simp
    linear_combination (-1) ^ t * h1 - (-1) ^ (n - 1 - t) * h2
  have := hrefl
  rw [hneg] at this
  exact self_eq_neg.1 this.symm

private theorem cos_period_sum {M j : ℕ} (hM : 0 < M) (hj : ¬ M ∣ j) : ∑ t ∈ Finset.range M, Real.cos (2 * Real.pi * j * t / M) = 0 := by
  have hMC : (M : ℂ) ≠ 0 := by exact_mod_cast hM.ne'
  set z := Complex.exp (2 * Real.pi * Complex.I * j / M) with hz
  have h1 : z ≠ 1 := by
    rw [hz, Ne, Complex.exp_eq_one_iff]
    rintro ⟨m, hm⟩
    have hjm : (j : ℂ) = m * M := by
      field_simp at hm
      rw [hm, mul_comm]
    have hjz : (j : ℤ) = m * M := by exact_mod_cast hjm
    exact hj (by exact_mod_cast Dvd.intro_left m hjz.symm)
  have h2 : z ^ M = 1 := by
    rw [hz, ← Complex.exp_nat_mul, Complex.exp_eq_one_iff]
    refine ⟨j, ?_⟩
    field_simp
    push_cast
    ring
  have h3 : ∑ t ∈ Finset.range M, z ^ t = 0 := by
    rw [geom_sum_eq h1, h2]; simp
  have h4 := congrArg Complex.re h3
  rw [Complex.re_sum] at h4
  rw [← Complex.zero_re, ← h4]
  refine Finset.sum_congr rfl fun t _ => ?_
  rw [hz, ← Complex.exp_nat_mul, show (t : ℂ) * (2 * Real.pi * Complex.I * j / M) = ((2 * Real.pi * j * t / M : ℝ) : ℂ) * Complex.I by
    push_cast; ring, Complex.exp_ofReal_mul_I_re]

private theorem sum_map_range (g : ℕ → ℝ) (n : ℕ) : ((List.range n).map g).sum = ∑ t ∈ Finset.range n, g t := by
  induction n with
  | zero => simp
  | succ n ih => rw [List.range_succ, List.map_append, List.sum_append, ih, Finset.sum_range_succ]; simp

/-- **C143.** Sum and gain of the Hanning window. -/
theorem C143_hanning_gain {n : ℕ} (hn : 4 ≤ n) :
    (windowList .hanning n).sum = (n - 1) / 2 ∧ windowGain (windowList .hanning n) = 2 * (n - 1) / (3 * n) := by
  obtain ⟨M, rfl⟩ : ∃ M, n = M + 1 := ⟨n - 1, by omega⟩
  have hM : 0 < M := by omega
  have hMR : (M : ℝ) ≠ 0 := by exact_mod_cast hM.ne'
  have h1 := cos_period_sum hM (j := 1) (fun h => by have := Nat.le_of_dvd one_pos h; omega)
  have h2 := cos_period_sum hM (j := 2) (fun h => by have := Nat.le_of_dvd two_pos h; omega)
  have c1 : ∑ t ∈ Finset.range (M + 1), Real.cos (2 * Real.pi * t / M) = 1 := by
    rw [Finset.sum_range_succ, show 2 * Real.pi * (M : ℝ) / M = 2 * Real.pi by field_simp, Real.cos_two_pi]
    simp only [Nat.cast_one, mul_one] at h1
    rw [h1, zero_add]
  have c2 : ∑ t ∈ Finset.range (M + 1), Real.cos (2 * Real.pi * t / M) ^ 2 = M / 2 + 1 := by
    have : ∀ t : ℕ, Real.cos (2 * Real.pi * t / M) ^ 2 = 1 / 2 + 1 / 2 * Real.cos (2 * Real.pi * (2 : ℕ) * t / M) := by
      intro t
      rw [Real.cos_sq]
      push_cast
      rw [show 2 * (2 * Real.pi * (t : ℝ) / M) = 2 * Real.pi * 2 * t / M by ring]
      ring
    rw [Finset.sum_range_succ, Finset.sum_congr rfl fun t _ => this t, Finset.sum_add_distrib, ← Finset.mul_sum, h2,
      show 2 * Real.pi * (M : ℝ) / M = 2 * Real.pi by field_simp, Real.cos_two_pi]
    simp
    ring
  have hsum : (windowList .hanning (M + 1)).sum = M / 2 := by
    rw [windowList, sum_map_range]
    simp only [windowValue]
    push_cast
    simp only [add_sub_cancel_right]
    rw [Finset.sum_sub_distrib, ← Finset.mul_sum, c1]
    simp
    ring
  have hsq : ((windowList .hanning (M + 1)).map fun v => v * v).sum = 3 * M / 8 := by
    rw [windowList, List.map_map, sum_map_range]
    simp only [Function.comp, windowValue]
    push_cast
    simp only [add_sub_cancel_right]
    have : ∀ t : ℕ, (1 / 2 - 1 / 2 * Real.cos (2 * Real.pi * t / M)) * (1 / 2 - 1 / 2 * Real.cos (2 * Real.pi * t / M)) =
        1 / 4 - 1 / 2 * Real.cos (2 * Real.pi * t / M) + 1 / 4 * Real.cos (2 * Real.pi * t / M) ^ 2 := by intro t; ring
    rw [Finset.sum_congr rfl fun t _ => this t, Finset.sum_add_distrib, Finset.sum_sub_distrib, ← Finset.mul_sum, ← Finset.mul_sum, c1, c2]
    simp
    ring
  refine ⟨by rw [hsum]; push_cast; ring, ?_⟩
  unfold windowGain
  rw [hsum, hsq]
  have hM1 : (M : ℝ) + 1 ≠ 0 := by positivity
  simp only [windowList, List.length_map, List.length_range]
  push_cast
  field_simp
  ring

/-- **C143, violated: levels of tones with a window function.** A monopole emits a tone with a quarter of the sampling frequency, block size `4 q`,
Hanning window: the map shows at the position of the source `2 (4 q - 1) / (12 q)` times the mean square of the tone, less than two thirds of it, for
whatever recording. -/
theorem C143_level_violated {n q ov T : ℕ} [NeZero (4 * q)] (hq : 0 < q) (ho : 0 < ov) (hT : 4 * q ≤ T) (hd : 4 * q ∣ ov * T)
    (A φ c s0 : ℝ) (sm : Fin n → ℝ) (fs : ℝ) (hfs : 0 < fs)
    (junk : List (Fin n → ℝ)) (hjunk : junk.length = 2 * (4 * q)) (blocks : List (List (Fin n → ℝ)))
    (hsrc : IsBlocking (4 * q) (monopoleRecording A φ (fs / 4) c s0 sm fs T) blocks)
    (st : Formulation) (hst : st = .inverse ∨ st = .trueLevel) (rDiagNorm : ℝ) (h0 : 0 < s0) (hs : ∀ m, 0 < sm m) (hn : 0 < n) (hA : A ≠ 0) :
    bfCalcPoint st false rDiagNorm s0 sm (2 * Real.pi * (fs / 4) / c) (csmFromBlocks (4 * q) ov (windowList .hanning (4 * q)) T junk blocks q) =
        2 * (4 * q - 1) / (12 * q) * (A ^ 2 / 2) ∧
      bfCalcPoint st false rDiagNorm s0 sm (2 * Real.pi * (fs / 4) / c) (csmFromBlocks (4 * q) ov (windowList .hanning (4 * q)) T junk blocks q) <
        2 / 3 * (A ^ 2 / 2) := by
  have hqR : (0 : ℝ) < q := by exact_mod_cast hq
  have hf : (spectraFreqs (4 * q) fs)[q]? = some (fs / 4) := by
    rw [C120_axis (by omega) (by omega) _ hfs.le, List.getElem?_map, List.getElem?_range (by omega), Option.map_some]
    congr 1
    push_cast
    field_simp
  have h := C143_map (by omega) ho hT hd (windowList .hanning (4 * q)) (by simp [windowList]) A φ c s0 sm fs hfs q (by omega)
    (C143_quarter .hanning hq rfl) (fs / 4) hf junk hjunk blocks hsrc st rDiagNorm s0 sm h0 hs hn
  rw [C26_calibrated st hst s0 sm _ h0 hs hn, mul_one, (C143_hanning_gain (by omega)).2] at h
  have e : (2 * (((4 * q : ℕ) : ℝ) - 1) / (3 * (4 * q : ℕ))) = 2 * (4 * q - 1) / (12 * q) := by
    push_cast
    rw [show (3 : ℝ) * (4 * q) = 12 * q by ring]
  rw [e] at h
  refine ⟨h, ?_⟩
  rw [h]
  have hA2 : 0 < A ^ 2 / 2 := by positivity
  apply mul_lt_mul_of_pos_right _ hA2
  rw [div_lt_div_iff₀ (by positivity) (by norm_num)]
  linarith

/-! ## Instances -/

private theorem axis8 : (spectraFreqs 8 (1000 : ℝ))[2]? = some 250 := by
  rw [C120_axis (by omega) (by decide) _ (by norm_num)]
  norm_num [List.range_succ]

private theorem pos12 : ∀ m, 0 < (![1, 2] : Fin 2 → ℝ) m := by intro m; fin_cases m <;> norm_num

/-- The hypotheses of `C143_amplitude` are met: block size 8, Hanning window, line 1. -/
example := C143_amplitude (bs := 8) (by decide) (windowList .hanning 8) (by simp [windowList])
  (by rw [(C143_hanning_gain (by norm_num)).1]; norm_num) 3 0.5 1000 (by norm_num) 1 (by omega) (by omega) 125
  (by rw [C120_axis (by omega) (by decide) _ (by norm_num)]; norm_num [List.range_succ]) 17

/-- The hypotheses of `C143_csm` are met: a tone in line 2 of blocks of 8 samples, Blackman window. -/
example := C143_csm (bs := 8) (ov := 2) (T := 24) (by decide) (by omega) (by omega) (by decide) (windowList .blackman 8) (by simp [windowList])
  ![1, 2] ![0.5, 0.25] 1000 (by norm_num) 2 (by omega) (C143_quarter .blackman (q := 2) (by omega) rfl) 250 axis8 (List.replicate 16 0) (by simp)
  (chunks 8 (toneArray ![1, 2] ![0.5, 0.25] 250 1000 24)) (isBlocking_chunks (by omega) _)

/-- The hypotheses of `C143_map` are met: -/
example := C143_map (bs := 8) (ov := 2) (T := 24) (by decide) (by omega) (by omega) (by decide) (windowList .bartlett 8) (by simp [windowList])
  3 0.5 343 1 ![1, 2] 1000 (by norm_num) 2 (by omega) (C143_quarter .bartlett (q := 2) (by omega) rfl) 250 axis8 (List.replicate 16 0) (by simp)
  (chunks 8 (monopoleRecording 3 0.5 250 343 1 ![1, 2] 1000 24)) (isBlocking_chunks (by omega) _) .classic 0 2 ![2, 1] (by norm_num)
  (by intro m; fin_cases m <;> norm_num) (by omega)

/-- The hypotheses of `C143_level_violated` are met: block size 8, the level is 7/12 of the mean square. -/
example : ∃ blocks : List (List (Fin 2 → ℝ)),
    bfCalcPoint .trueLevel false 0 1 ![1, 2] (2 * Real.pi * (1000 / 4) / 343)
      (csmFromBlocks 8 2 (windowList .hanning 8) 24 (List.replicate 16 0) blocks 2) = 7 / 12 * (3 ^ 2 / 2) := by
  refine ⟨chunks 8 (monopoleRecording 3 0.5 (1000 / 4) 343 1 ![1, 2] 1000 24), ?_⟩
  have : NeZero (4 * 2) := ⟨by norm_num⟩
  have h := (C143_level_violated (q := 2) (ov := 2) (T := 24) (by omega) (by omega) (by omega) (by decide) 3 0.5 343 1 ![1, 2] 1000 (by norm_num)
    (List.replicate 16 0) (by simp) (chunks 8 (monopoleRecording 3 0.5 (1000 / 4) 343 1 ![1, 2] 1000 24)) (isBlocking_chunks (by omega) _)
    .trueLevel (Or.inr rfl) 0 (by norm_num) pos12 (by omega) (by norm_num)).1
  refine Eq.trans h ?_
  norm_num

/-- A gain of one: four equal entries. -/
example : windowGain [1 / 2, 1 / 2, 1 / 2, 1 / 2] = 1 := (C143_gain_eq_one_iff _).2 ⟨by simp, 1 / 2, by norm_num, by simp⟩

end Acoular
