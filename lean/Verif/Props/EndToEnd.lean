import Verif.Props.Tones
import Verif.Props.Beamform

/-!
# C122: from the samples of a monopole tone to the map
-/

namespace Acoular

/-- Specification: the samples that `n` microphones at distances `sm` from a monopole source record, if the source emits
a tone of frequency `f` that has amplitude `A` at the reference distance `s0`; `c` is the speed of sound. -/
noncomputable def Spec.monopoleRecording {n : ℕ} (A φ f c s0 : ℝ) (sm : Fin n → ℝ) (fs : ℝ) (T : ℕ) :
    List (Fin n → ℝ) :=
  (List.range T).map fun t : ℕ => fun m => A * (s0 / sm m) * Real.cos (2 * Real.pi * f * (t / fs - sm m / c) + φ)

open Spec
open scoped ComplexConjugate

variable {n : ℕ}

theorem recording_eq (A φ f c s0 : ℝ) (sm : Fin n → ℝ) (fs : ℝ) (T : ℕ) :
    monopoleRecording A φ f c s0 sm fs T =
      toneArray (fun m => A * (s0 / sm m)) (fun m => φ - 2 * Real.pi * f / c * sm m) f fs T := by
  unfold monopoleRecording toneArray toneSample
  refine List.map_congr_left fun t _ => ?_
  funext m
  congr 2
  ring

/-- The cross spectral matrix of the recording is `A² / 2` times the outer product of the monopole field. -/
private theorem recording_csm {bs ov T : ℕ} [NeZero bs] (he : 2 ∣ bs) (ho : 0 < ov) (hT : bs ≤ T) (hd : bs ∣ ov * T)
    (A φ c s0 : ℝ) (sm : Fin n → ℝ) (fs : ℝ) (hfs : 0 < fs) (l : ℕ) (hl : 0 < l) (hl2 : l < bs / 2) (f : ℝ)
    (hf : (spectraFreqs bs fs)[l]? = some f) (junk : List (Fin n → ℝ)) (hjunk : junk.length = 2 * bs)
    (blocks : List (List (Fin n → ℝ))) (hsrc : IsBlocking bs (monopoleRecording A φ f c s0 sm fs T) blocks) :
    csmFromBlocks bs ov (List.replicate bs 1) T junk blocks l =
      ((A ^ 2 / 2 : ℝ) : ℂ) • outer (monopole s0 sm (2 * Real.pi * f / c)) := by
  rw [recording_eq] at hsrc
  ext m m'
  rw [C120_csm_tone he ho hT hd _ _ fs hfs l hl hl2 f hf junk hjunk blocks hsrc l hl2.le m m', if_pos rfl,
    Matrix.smul_apply, smul_eq_mul]
  unfold outer monopole
  rw [map_mul, Complex.conj_ofReal, ← Complex.exp_conj]
  have e : ∀ a b p q x : ℂ, x * (a * p * (b * q)) = x * (a * b) * (p * q) := by intros; ring
  rw [e, ← Complex.exp_add]
  congr 1
  · push_cast; ring
  · congr 1
    simp only [map_neg, map_mul, Complex.conj_I, Complex.conj_ofReal]
    push_cast
    ring

theorem rank_one_quad (q : ℝ) (a h : Fin n → ℂ) :
    quadForm ((q : ℂ) • outer a) h = ((q * ‖∑ m, conj (h m) * a m‖ ^ 2 : ℝ) : ℂ) := by
  rw [quadForm_eq_sum]
  have h1 : ((‖∑ m, conj (h m) * a m‖ ^ 2 : ℝ) : ℂ) = (∑ m, conj (h m) * a m) * conj (∑ m, conj (h m) * a m) := by
    rw [Complex.mul_conj, Complex.normSq_eq_norm_sq]
  rw [Complex.ofReal_mul, h1, map_sum, Finset.sum_mul_sum, Finset.sum_comm, Finset.mul_sum]
  refine Finset.sum_congr rfl fun i _ => ?_
  rw [Finset.mul_sum]
  refine Finset.sum_congr rfl fun j _ => ?_
  rw [map_mul, Complex.conj_conj, Matrix.smul_apply, smul_eq_mul, outer]
  ring

theorem rank_one_herm (q : ℝ) (a : Fin n → ℂ) :
    ((q : ℂ) • outer a).IsHermitian := by
  refine Matrix.IsHermitian.ext fun i j => ?_
  simp only [Matrix.smul_apply, smul_eq_mul, outer, RCLike.star_def, map_mul, Complex.conj_ofReal, Complex.conj_conj]
  ring

section

variable {bs ov T : ℕ} [NeZero bs] (he : 2 ∣ bs) (ho : 0 < ov) (hT : bs ≤ T) (hd : bs ∣ ov * T)
  (A φ c s0 : ℝ) (sm : Fin n → ℝ) (fs : ℝ) (hfs : 0 < fs) (l : ℕ) (hl : 0 < l) (hl2 : l < bs / 2) (f : ℝ)
  (hf : (spectraFreqs bs fs)[l]? = some f) (junk : List (Fin n → ℝ)) (hjunk : junk.length = 2 * bs)
  (blocks : List (List (Fin n → ℝ))) (hsrc : IsBlocking bs (monopoleRecording A φ f c s0 sm fs T) blocks)

include he ho hT hd hfs hl hl2 hf hjunk hsrc

/-- **C122.** The map that conventional beamforming computes, from the samples recorded by the microphones, is at every
point the mean square of the tone at the reference times the point spread function of the source. -/
theorem C122_map (st : Formulation) (rDiagNorm r0 : ℝ) (rm : Fin n → ℝ) (h0 : 0 < r0) (hr : ∀ m, 0 < rm m) (hn : 0 < n) :
    bfCalcPoint st false rDiagNorm r0 rm (2 * Real.pi * f / c)
        (csmFromBlocks bs ov (List.replicate bs 1) T junk blocks l) =
      A ^ 2 / 2 * psfKernel st r0 rm s0 sm (2 * Real.pi * f / c) := by
  rw [recording_csm he ho hT hd A φ c s0 sm fs hfs l hl hl2 f hf junk hjunk blocks hsrc,
    C23_result st false rDiagNorm r0 rm _ h0 hr _ (rank_one_herm _ _), if_neg (by simp), rank_one_quad,
    Complex.ofReal_re, C26_psf_eq st r0 rm s0 sm _ h0 hr hn]

/-- **C122.** At the position of the source the map shows the mean square `A² / 2` of the tone at the reference, with
the formulations 'inverse' and 'true level'. -/
theorem C122_level (st : Formulation) (hst : st = .inverse ∨ st = .trueLevel) (rDiagNorm : ℝ) (h0 : 0 < s0)
    (hs : ∀ m, 0 < sm m) (hn : 0 < n) :
    bfCalcPoint st false rDiagNorm s0 sm (2 * Real.pi * f / c)
      (csmFromBlocks bs ov (List.replicate bs 1) T junk blocks l) = A ^ 2 / 2 := by
  rw [C122_map he ho hT hd A φ c s0 sm fs hfs l hl hl2 f hf junk hjunk blocks hsrc st rDiagNorm s0 sm h0 hs hn,
    C26_calibrated st hst s0 sm _ h0 hs hn, mul_one]

/-- **C122.** No point of the map is higher than the position of the source, with the formulations 'classic' and 'true
location'. -/
theorem C122_location (st : Formulation) (hst : st = .classic ∨ st = .trueLocation) (rDiagNorm r0 : ℝ)
    (rm : Fin n → ℝ) (h0 : 0 < r0) (hr : ∀ m, 0 < rm m) (hs0 : 0 < s0) (hs : ∀ m, 0 < sm m) (hn : 0 < n) :
    bfCalcPoint st false rDiagNorm r0 rm (2 * Real.pi * f / c)
        (csmFromBlocks bs ov (List.replicate bs 1) T junk blocks l) ≤
      bfCalcPoint st false rDiagNorm s0 sm (2 * Real.pi * f / c)
        (csmFromBlocks bs ov (List.replicate bs 1) T junk blocks l) := by
  have hm := C122_map he ho hT hd A φ c s0 sm fs hfs l hl hl2 f hf junk hjunk blocks hsrc st rDiagNorm
  rw [hm r0 rm h0 hr hn, hm s0 sm hs0 hs hn]
  apply mul_le_mul_of_nonneg_left _ (by positivity)
  rcases hst with rfl | rfl
  · exact C26_classic_max r0 rm s0 sm _ hs
  · exact C26_true_location_max r0 rm s0 sm _ hr hs0 hs hn

/-- **C122.** With removed diagonal, formulation 'inverse' and the default correction, the level at the position of the
source is still `A² / 2`. -/
theorem C122_level_diag (h0 : 0 < s0) (hs : ∀ m, 0 < sm m) (hn : 2 ≤ n) :
    bfCalcPoint .inverse true 0 s0 sm (2 * Real.pi * f / c)
      (csmFromBlocks bs ov (List.replicate bs 1) T junk blocks l) = A ^ 2 / 2 := by
  rw [recording_csm he ho hT hd A φ c s0 sm fs hfs l hl hl2 f hf junk hjunk blocks hsrc,
    C23_result .inverse true 0 s0 sm _ h0 hs _ (rank_one_herm _ _), if_pos rfl, if_pos rfl,
    quadForm_removeDiag, rank_one_quad]
  set k : ℝ := 2 * Real.pi * f / c
  have hn0 : 0 < n := by omega
  have hnR : (n : ℝ) ≠ 0 := by exact_mod_cast hn0.ne'
  have hcal := C26_psf_eq .inverse s0 sm s0 sm k h0 hs hn0
  rw [C26_calibrated .inverse (Or.inl rfl) s0 sm k h0 hs hn0] at hcal
  rw [← hcal, mul_one]
  have hdiag : ∀ m, conj (steer .inverse s0 sm k m) * ((((A ^ 2 / 2 : ℝ) : ℂ) • outer (monopole s0 sm k)) m m) *
      steer .inverse s0 sm k m = ((A ^ 2 / 2 * (1 / n) ^ 2 : ℝ) : ℂ) := by
    intro m
    have hm : (sm m : ℂ) ≠ 0 := by exact_mod_cast (hs m).ne'
    have h0' : (s0 : ℂ) ≠ 0 := by exact_mod_cast h0.ne'
    have hnC : (n : ℂ) ≠ 0 := by exact_mod_cast hn0.ne'
    have hph : Complex.exp (-(Complex.I * (k * (sm m - s0) : ℝ))) * conj (Complex.exp (-(Complex.I * (k * (sm m - s0) : ℝ)))) = 1 := by
      rw [← Complex.exp_conj, ← Complex.exp_add]
      simp
    rw [Matrix.smul_apply, smul_eq_mul, outer]
    unfold steer monopole steerAmp
    simp only [map_mul, Complex.conj_ofReal]
    generalize Complex.exp (-(Complex.I * (k * (sm m - s0) : ℝ))) = E at hph ⊢
    have : ∀ a b x : ℂ, a * conj E * (x * (b * E * (b * conj E))) * (a * E) = x * (a * b) ^ 2 * (E * conj E) ^ 2 := by
      intros; ring
    rw [this, hph]
    push_cast
    field_simp
  simp only [hdiag]
  rw [Finset.sum_const, Finset.card_univ, Fintype.card_fin, ← Complex.ofReal_nsmul, ← Complex.ofReal_sub,
    Complex.ofReal_re, nsmul_eq_mul]
  have hn1 : (n : ℝ) - 1 ≠ 0 := by
    have : (2 : ℝ) ≤ n := by exact_mod_cast hn
    intro h; linarith
  have e : (n : ℝ) / (n - 1) * (A ^ 2 / 2 - n * (A ^ 2 / 2 * (1 / n) ^ 2)) = A ^ 2 / 2 := by
    field_simp
  rw [e]
  exact max_eq_right (by positivity)

/-- **C122, violated with removed diagonal and formulation 'true level'.** With two microphones at distances 1 and 2,
the level at the position of the source is only 16/25 of the level of the source. -/
theorem C122_level_diag_violated (hn : n = 2) (hs0 : s0 = 1) (hs : ∀ m, sm m = m.val + 1) :
    bfCalcPoint .trueLevel true 0 s0 sm (2 * Real.pi * f / c)
      (csmFromBlocks bs ov (List.replicate bs 1) T junk blocks l) = 16 / 25 * (A ^ 2 / 2) := by
  have hsp : ∀ m, 0 < sm m := fun m => by rw [hs]; positivity
  have h0 : 0 < s0 := by rw [hs0]; exact one_pos
  rw [recording_csm he ho hT hd A φ c s0 sm fs hfs l hl hl2 f hf junk hjunk blocks hsrc,
    C23_result .trueLevel true 0 s0 sm _ h0 hsp _ (rank_one_herm _ _), if_pos rfl, if_pos rfl,
    quadForm_removeDiag, rank_one_quad]
  set k : ℝ := 2 * Real.pi * f / c
  have hn0 : 0 < n := by omega
  have hcal := C26_psf_eq .trueLevel s0 sm s0 sm k h0 hsp hn0
  rw [C26_calibrated .trueLevel (Or.inr rfl) s0 sm k h0 hsp hn0] at hcal
  rw [← hcal, mul_one]
  subst hn
  have hH : ∑ l, 1 / (sm l) ^ 2 = 5 / 4 := by
    rw [Fin.sum_univ_two, hs, hs]; norm_num
  have hdiag : ∀ m, conj (steer .trueLevel s0 sm k m) * ((((A ^ 2 / 2 : ℝ) : ℂ) • outer (monopole s0 sm k)) m m) *
      steer .trueLevel s0 sm k m = ((A ^ 2 / 2 * (1 / (sm m) ^ 2 / (5 / 4)) ^ 2 : ℝ) : ℂ) := by
    intro m
    have hm : (sm m : ℂ) ≠ 0 := by exact_mod_cast (hsp m).ne'
    have h0' : (s0 : ℂ) ≠ 0 := by exact_mod_cast h0.ne'
    have hph : Complex.exp (-(Complex.I * (k * (sm m - s0) : ℝ))) * conj (Complex.exp (-(Complex.I * (k * (sm m - s0) : ℝ)))) = 1 := by
      rw [← Complex.exp_conj, ← Complex.exp_add]
      simp
    rw [Matrix.smul_apply, smul_eq_mul, outer]
    unfold steer monopole steerAmp
    simp only [map_mul, Complex.conj_ofReal, hH]
    generalize Complex.exp (-(Complex.I * (k * (sm m - s0) : ℝ))) = E at hph ⊢
    have : ∀ a b x : ℂ, a * conj E * (x * (b * E * (b * conj E))) * (a * E) = x * (a * b) ^ 2 * (E * conj E) ^ 2 := by
      intros; ring
    rw [this, hph]
    push_cast
    field_simp
  simp only [hdiag]
  rw [← Complex.ofReal_sum, ← Complex.ofReal_sub, Complex.ofReal_re, Fin.sum_univ_two, hs, hs]
  have e : ((2 : ℕ) : ℝ) / ((2 : ℕ) - 1) * (A ^ 2 / 2 - (A ^ 2 / 2 * (1 / (((0 : Fin 2).val : ℝ) + 1) ^ 2 / (5 / 4)) ^ 2 +
      A ^ 2 / 2 * (1 / (((1 : Fin 2).val : ℝ) + 1) ^ 2 / (5 / 4)) ^ 2)) = 16 / 25 * (A ^ 2 / 2) := by
    norm_num
    ring
  rw [e]
  exact max_eq_right (by positivity)

end

/-- The hypotheses are met, for example, by 24 samples, block size 8, 50 % overlap, a tone in line 2 (250 Hz at a
sampling frequency of 1000 Hz) and two microphones at distances 1 and 2. -/
example : ∃ blocks : List (List (Fin 2 → ℝ)),
    bfCalcPoint .trueLevel false 0 1 ![1, 2] (2 * Real.pi * 250 / 343)
      (csmFromBlocks 8 2 (List.replicate 8 1) 24 (List.replicate 16 0) blocks 2) = 3 ^ 2 / 2 := by
  refine ⟨chunks 8 (monopoleRecording 3 0.5 250 343 1 ![1, 2] 1000 24), ?_⟩
  refine C122_level (φ := 0.5) (fs := 1000) (by decide) (by omega) (by omega) (by decide) 3 343 1 ![1, 2]
    (by norm_num) 2 (by omega) (by omega) 250 ?_ _ (by simp) _ (isBlocking_chunks (by omega) _) .trueLevel (Or.inr rfl) 0
    (by norm_num) ?_ (by omega)
  · rw [C120_axis (by omega) (by decide) _ (by norm_num)]
    norm_num [List.range_succ]
  · intro m; fin_cases m <;> norm_num

/-- The hypotheses of `C122_map`, `C122_location`, `C122_level_diag` are met by the same recording: -/
private theorem axisEx : (spectraFreqs 8 (1000 : ℝ))[2]? = some 250 := by
  rw [C120_axis (by omega) (by decide) _ (by norm_num)]
  norm_num [List.range_succ]

private theorem pos12 : ∀ m, 0 < (![1, 2] : Fin 2 → ℝ) m := by intro m; fin_cases m <;> norm_num

/-- The hypotheses of `C122_map` are met: -/
example := C122_map (T := 24) (ov := 2) (bs := 8) (by decide) (by omega) (by omega) (by decide) 3 0.5 343 1 ![1, 2] 1000
    (by norm_num) 2 (by omega) (by omega) 250 axisEx (List.replicate 16 0) (by simp)
    (chunks 8 (monopoleRecording 3 0.5 250 343 1 ![1, 2] 1000 24)) (isBlocking_chunks (by omega) _) .trueLevel 0 2 ![2, 1]
    (by norm_num) (by intro m; fin_cases m <;> norm_num) (by omega)

/-- The hypotheses of `C122_location` are met: -/
example := C122_location (T := 24) (ov := 2) (bs := 8) (by decide) (by omega) (by omega) (by decide) 3 0.5 343 1 ![1, 2] 1000
    (by norm_num) 2 (by omega) (by omega) 250 axisEx (List.replicate 16 0) (by simp)
    (chunks 8 (monopoleRecording 3 0.5 250 343 1 ![1, 2] 1000 24)) (isBlocking_chunks (by omega) _) .classic (.inl rfl) 0 2 ![2, 1]
    (by norm_num) (by intro m; fin_cases m <;> norm_num) (by norm_num) pos12 (by omega)

/-- The hypotheses of `C122_level_diag` are met: -/
example := C122_level_diag (T := 24) (ov := 2) (bs := 8) (by decide) (by omega) (by omega) (by decide) 3 0.5 343 1 ![1, 2] 1000
    (by norm_num) 2 (by omega) (by omega) 250 axisEx (List.replicate 16 0) (by simp)
    (chunks 8 (monopoleRecording 3 0.5 250 343 1 ![1, 2] 1000 24)) (isBlocking_chunks (by omega) _) (by norm_num) pos12 (by omega)

end Acoular
