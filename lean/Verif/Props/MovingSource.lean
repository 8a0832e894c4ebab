import Verif.Spec.Env
import Verif.Model.MovingSource
import Verif.Props.MovingFrame
import Mathlib.Topology.Order.IntermediateValue
import Mathlib.Topology.Algebra.Order.Field
import Mathlib.Topology.MetricSpace.Lipschitz
import Mathlib.Analysis.InnerProductSpace.PiL2
import Mathlib.Tactic.Linarith
import Mathlib.Tactic.FieldSimp
import Mathlib.Tactic.Positivity

/-!
# Property theorems: moving sources (C105 to C108)
-/

namespace Acoular

/-- Sound emitted at time `s` on the path (shifted by `d`) reaches the microphone at `m` at time `t`. -/
def Spec.EmittedAt (tr : Path) (c : ℝ) (d m : Fin 3 → ℝ) (t s : ℝ) : Prop :=
  s + len3 (fun i => tr.loc s i + d i - m i) / c = t

/-- The source never moves faster than `M` times the speed of sound. -/
structure Spec.AtMostMach (tr : Path) (c M : ℝ) : Prop where
  /-- distances covered -/
  loc : ∀ s s', len3 (fun i => tr.loc s i - tr.loc s' i) ≤ M * c * |s - s'|
  /-- velocities -/
  vel : ∀ s, len3 (tr.vel s) ≤ M * c

/-- Mach number of the motion (position `x`, velocity `v`) in the direction of the observer at `m`; positive for an
approaching source. -/
noncomputable def Spec.machToward (c : ℝ) (x v m : Fin 3 → ℝ) : ℝ := inner3 v (unit3 fun i => m i - x i) / c

/-- The convective amplification of a moving monopole divides the sound pressure by this factor, less than one for an
approaching source. -/
noncomputable def Spec.convFactor (c : ℝ) (x v m : Fin 3 → ℝ) : ℝ := (1 - machToward c x v m) ^ 2

open Spec

section Lemmas

private theorem absVec_eq (x : Fin 3 → ℝ) : absVec x = len3 x := by
  unfold absVec len3; congr 1; ring

private theorem len3_norm (x : Fin 3 → ℝ) : len3 x = ‖(WithLp.toLp 2 x : EuclideanSpace ℝ (Fin 3))‖ := by
  rw [EuclideanSpace.norm_eq, Fin.sum_univ_three]
  unfold len3
  simp

private theorem len3_nonneg (x : Fin 3 → ℝ) : 0 ≤ len3 x := Real.sqrt_nonneg _

/-- The distance to a fixed point changes by at most the distance covered. -/
private theorem len3_diff (a b : Fin 3 → ℝ) : |len3 a - len3 b| ≤ len3 (fun i => a i - b i) := by
  rw [len3_norm, len3_norm, len3_norm]
  have e : (WithLp.toLp 2 (fun i => a i - b i) : EuclideanSpace ℝ (Fin 3)) = WithLp.toLp 2 a - WithLp.toLp 2 b := rfl
  rw [e]
  exact abs_norm_sub_norm_le _ _

private theorem inner_le (a b : Fin 3 → ℝ) : |a 0 * b 0 + a 1 * b 1 + a 2 * b 2| ≤ len3 a * len3 b := by
  have h := abs_real_inner_le_norm (WithLp.toLp 2 b : EuclideanSpace ℝ (Fin 3)) (WithLp.toLp 2 a)
  rw [← len3_norm, ← len3_norm] at h
  have e : inner ℝ (WithLp.toLp 2 b : EuclideanSpace ℝ (Fin 3)) (WithLp.toLp 2 a) = a 0 * b 0 + a 1 * b 1 + a 2 * b 2 := by
    rw [PiLp.inner_apply, Fin.sum_univ_three]
    simp
  rw [e] at h
  linarith [mul_comm (len3 a) (len3 b)]

private theorem unit_len (x : Fin 3 → ℝ) (h : len3 x ≠ 0) : len3 (fun i => x i / len3 x) = 1 := by
  have h2 : len3 x ^ 2 = x 0 ^ 2 + x 1 ^ 2 + x 2 ^ 2 := by
    unfold len3; rw [Real.sq_sqrt (by positivity)]
  have : (x 0 / len3 x) ^ 2 + (x 1 / len3 x) ^ 2 + (x 2 / len3 x) ^ 2 = 1 := by
    rw [div_pow, div_pow, div_pow, ← add_div, ← add_div, ← h2, div_self (pow_ne_zero 2 h)]
  show √((x 0 / len3 x) ^ 2 + (x 1 / len3 x) ^ 2 + (x 2 / len3 x) ^ 2) = 1
  rw [this, Real.sqrt_one]

variable {tr : Path} {c Mach : ℝ} {d : Fin 3 → ℝ}

/-- The discrepancy in time. -/
private noncomputable def disc (tr : Path) (c : ℝ) (d m : Fin 3 → ℝ) (t s : ℝ) : ℝ :=
  s + len3 (fun i => tr.loc s i + d i - m i) / c - t

private theorem dist_lip (hc : 0 < c) (hM : AtMostMach tr c Mach) (m : Fin 3 → ℝ) (s s' : ℝ) :
    |len3 (fun i => tr.loc s i + d i - m i) / c - len3 (fun i => tr.loc s' i + d i - m i) / c| ≤ Mach * |s - s'| := by
  rw [← sub_div, abs_div, abs_of_pos hc, div_le_iff₀ hc]
  have h := len3_diff (fun i => tr.loc s i + d i - m i) (fun i => tr.loc s' i + d i - m i)
  have e : (fun i => tr.loc s i + d i - m i - (tr.loc s' i + d i - m i)) = fun i => tr.loc s i - tr.loc s' i := by
    funext i; ring
  rw [e] at h
  have := hM.loc s s'
  linarith [mul_right_comm Mach |s - s'| c]

private theorem step_spec (hc : 0 < c) (hM : AtMostMach tr c Mach) (m : Fin 3 → ℝ) (t te : ℝ) (st : EmissionStep)
    (h : emissionStep tr c d m t te = some st) :
    st.rm = len3 (fun i => tr.loc te i + d i - m i) ∧ |st.mr| ≤ Mach ∧ disc tr c d m t te = st.eps * (1 + st.mr) := by
  unfold emissionStep at h
  simp only [absVec_eq] at h
  split at h
  · cases h
  rename_i h0
  split at h
  · cases h
  rename_i h1
  injection h with h
  subst h
  refine ⟨rfl, ?_, ?_⟩
  · simp only
    rw [abs_div, abs_of_pos hc, div_le_iff₀ hc]
    have := inner_le (tr.vel te) (fun i => (tr.loc te i + d i) / len3 (fun i => tr.loc te i + d i))
    rw [unit_len _ h0, mul_one] at this
    exact this.trans (hM.vel te)
  · simp only
    rw [div_mul_cancel₀ _ h1]
    rfl

/-- One pass reduces the discrepancy to at most `2 Mach |eps|`. -/
private theorem step_next (hc : 0 < c) (hM : AtMostMach tr c Mach) (m : Fin 3 → ℝ) (t te : ℝ) (st : EmissionStep)
    (h : emissionStep tr c d m t te = some st) : |disc tr c d m t (te - st.eps)| ≤ 2 * Mach * |st.eps| := by
  obtain ⟨_, h2, h3⟩ := step_spec hc hM m t te st h
  have hl := dist_lip (d := d) hc hM m (te - st.eps) te
  have e : disc tr c d m t (te - st.eps) = st.eps * st.mr +
      (len3 (fun i => tr.loc (te - st.eps) i + d i - m i) / c - len3 (fun i => tr.loc te i + d i - m i) / c) := by
    have : disc tr c d m t (te - st.eps) = disc tr c d m t te - st.eps +
      (len3 (fun i => tr.loc (te - st.eps) i + d i - m i) / c - len3 (fun i => tr.loc te i + d i - m i) / c) := by
      unfold disc; ring
    rw [this, h3]; ring
  rw [e]
  have e2 : |te - st.eps - te| = |st.eps| := by rw [show te - st.eps - te = -st.eps by ring, abs_neg]
  rw [e2] at hl
  have h4 : |st.eps * st.mr| ≤ Mach * |st.eps| := by
    rw [abs_mul, mul_comm]
    exact mul_le_mul_of_nonneg_right h2 (abs_nonneg _)
  calc _ ≤ |st.eps * st.mr| + _ := abs_add_le _ _
    _ ≤ _ := by linarith

private theorem step_contract (hc : 0 < c) (hM : AtMostMach tr c Mach) (hM0 : 0 ≤ Mach) (hM1 : Mach < 1) (m : Fin 3 → ℝ) (t te : ℝ)
    (st : EmissionStep) (h : emissionStep tr c d m t te = some st) :
    |disc tr c d m t (te - st.eps)| ≤ 2 * Mach / (1 - Mach) * |disc tr c d m t te| := by
  obtain ⟨_, h2, h3⟩ := step_spec hc hM m t te st h
  have h4 := step_next hc hM m t te st h
  have h5 : (1 - Mach) * |st.eps| ≤ |disc tr c d m t te| := by
    rw [h3, abs_mul, mul_comm]
    apply mul_le_mul_of_nonneg_left _ (abs_nonneg _)
    have := (abs_le.1 h2).1
    rw [abs_of_pos (by linarith)]
    linarith
  calc _ ≤ 2 * Mach * |st.eps| := h4
    _ = 2 * Mach / (1 - Mach) * ((1 - Mach) * |st.eps|) := by field_simp [show (1 - Mach) ≠ 0 by linarith]
    _ ≤ _ := mul_le_mul_of_nonneg_left h5 (div_nonneg (by linarith) (by linarith))

/-- The discrepancy bounds the error of the emission time. -/
private theorem disc_error (hc : 0 < c) (hM : AtMostMach tr c Mach) (m : Fin 3 → ℝ) (t s s' : ℝ)
    (hs : EmittedAt tr c d m t s') : (1 - Mach) * |s - s'| ≤ |disc tr c d m t s| := by
  have hl := dist_lip (d := d) hc hM m s s'
  have e : disc tr c d m t s = (s - s') +
      (len3 (fun i => tr.loc s i + d i - m i) / c - len3 (fun i => tr.loc s' i + d i - m i) / c) := by
    unfold EmittedAt at hs
    unfold disc
    linarith
  rw [e]
  have := abs_sub_abs_le_abs_sub (s - s') (-(len3 (fun i => tr.loc s i + d i - m i) / c - len3 (fun i => tr.loc s' i + d i - m i) / c))
  rw [abs_neg, sub_neg_eq_add] at this
  linarith

private theorem exists_emission (hc : 0 < c) (hM : AtMostMach tr c Mach) (hM0 : 0 ≤ Mach) (hM1 : Mach < 1) (m : Fin 3 → ℝ) (t : ℝ) :
    ∃ s, s ≤ t ∧ EmittedAt tr c d m t s := by
  have hlip : ∀ s s', |disc tr c d m t s - disc tr c d m t s'| ≤ (1 + Mach) * |s - s'| := by
    intro s s'
    have hl := dist_lip (d := d) hc hM m s s'
    have e : disc tr c d m t s - disc tr c d m t s' = (s - s') +
        (len3 (fun i => tr.loc s i + d i - m i) / c - len3 (fun i => tr.loc s' i + d i - m i) / c) := by
      unfold disc; ring
    rw [e]
    have := abs_add_le (s - s') (len3 (fun i => tr.loc s i + d i - m i) / c - len3 (fun i => tr.loc s' i + d i - m i) / c)
    linarith
  have hcont : Continuous (disc tr c d m t) := by
    have : LipschitzWith (⟨1 + Mach, by linarith⟩ : NNReal) (disc tr c d m t) :=
      LipschitzWith.of_dist_le_mul fun s s' => by rw [Real.dist_eq, Real.dist_eq]; exact hlip s s'
    exact this.continuous
  set r := len3 (fun i => tr.loc t i + d i - m i) / c with hr
  have hr0 : 0 ≤ r := div_nonneg (len3_nonneg _) hc.le
  have h1 : 0 < 1 - Mach := by linarith
  set K := r / (1 - Mach) with hK
  have hK0 : 0 ≤ K := div_nonneg hr0 h1.le
  have hlo : disc tr c d m t (t - K) ≤ 0 := by
    have hl := (abs_le.1 (dist_lip (d := d) hc hM m (t - K) t)).2
    rw [show t - K - t = -K by ring, abs_neg, abs_of_nonneg hK0, ← hr] at hl
    have : r = (1 - Mach) * K := by rw [hK]; field_simp
    unfold disc
    linarith
  have hhi : 0 ≤ disc tr c d m t t := by
    unfold disc
    rw [← hr]; linarith
  obtain ⟨s, hs, h0⟩ := intermediate_value_Icc (show t - K ≤ t by linarith) hcont.continuousOn ⟨hlo, hhi⟩
  refine ⟨s, hs.2, ?_⟩
  unfold disc at h0
  unfold EmittedAt
  linarith

variable {M : ℕ}

private theorem loop_induct {epslim : ℝ} {mics : Fin M → Fin 3 → ℝ} {t : Fin M → ℝ} (P : EmissionState M → Prop)
    (hstep : ∀ s s1, P s → emissionPass tr c d mics t s.te = some s1 → P s1) :
    ∀ n s s', P s → emissionLoop tr c epslim d mics t n s = some s' → P s' := by
  intro n
  induction n with
  | zero => intro s s' h e; injection e with e; rwa [← e]
  | succ n ih =>
    intro s s' h e
    unfold emissionLoop at e
    split at e
    · cases hp : emissionPass tr c d mics t s.te with
      | none => rw [hp] at e; cases e
      | some s1 => rw [hp] at e; exact ih s1 s' (hstep s s1 h hp) e
    · injection e with e; rwa [← e]

private theorem loop_count {epslim : ℝ} {mics : Fin M → Fin 3 → ℝ} {t : Fin M → ℝ} (Q : ℕ → EmissionState M → Prop)
    (hstep : ∀ j s s1, Q j s → emissionPass tr c d mics t s.te = some s1 → Q (j + 1) s1) :
    ∀ n j s s', Q j s → emissionLoop tr c epslim d mics t n s = some s' → emissionGoOn epslim s' = false ∨ Q (j + n) s' := by
  intro n
  induction n with
  | zero => intro j s s' h e; injection e with e; right; rwa [← e]
  | succ n ih =>
    intro j s s' h e
    unfold emissionLoop at e
    split at e
    · cases hp : emissionPass tr c d mics t s.te with
      | none => rw [hp] at e; cases e
      | some s1 =>
        rw [hp] at e
        rcases ih (j + 1) s1 s' (hstep j s s1 h hp) e with h1 | h1
        · exact Or.inl h1
        · right; rwa [show j + (n + 1) = j + 1 + n by omega]
    · rename_i hg
      injection e with e
      left; rw [← e]; simpa using hg

private theorem pass_spec {mics : Fin M → Fin 3 → ℝ} {t te : Fin M → ℝ} {s1 : EmissionState M}
    (h : emissionPass tr c d mics t te = some s1) :
    ∃ l, s1.last = some l ∧ ∀ m, emissionStep tr c d (mics m) (t m) (te m) = some (l m) ∧ s1.te m = te m - (l m).eps := by
  unfold emissionPass at h
  split at h
  · rename_i hs
    simp only at h
    injection h with h
    subst h
    exact ⟨_, rfl, fun m => ⟨by simp, rfl⟩⟩
  · cases h

end Lemmas

/-- **C105.** For a source that always stays below the speed of sound, the sound received by a microphone at any time was
emitted at exactly one time, not later than it was received. -/
theorem C105_unique (tr : Path) (c Mach : ℝ) (hc : 0 < c) (hM0 : 0 ≤ Mach) (hM1 : Mach < 1) (hM : AtMostMach tr c Mach)
    (d m : Fin 3 → ℝ) (t : ℝ) : ∃! s, EmittedAt tr c d m t s := by
  obtain ⟨s, _, hs⟩ := exists_emission (d := d) hc hM hM0 hM1 m t
  refine ⟨s, hs, fun s' hs' => ?_⟩
  have h := disc_error hc hM m t s' s hs
  have h0 : disc tr c d m t s' = 0 := by unfold disc; unfold EmittedAt at hs'; linarith
  rw [h0, abs_zero] at h
  have : |s' - s| ≤ 0 := by
    by_contra hc'
    have := mul_pos (show 0 < 1 - Mach by linarith) (not_le.1 hc')
    linarith
  have := abs_nonpos_iff.1 this
  linarith

/-- The hypotheses of `C105_unique` are met: -/
example := C105_unique ⟨fun _ => ![1, 0, 0], fun _ => 0⟩ 343 0 (by norm_num) le_rfl (by norm_num) ⟨fun s t => by simp [len3, inner3], fun s => by simp [len3, inner3]⟩ 0 0 2

/-- **C105 (partial).** If the iteration ends because the corrections are below the limit, the emission time of every
microphone is correct up to `2 Mach / (1 - Mach)` times the limit, and the distance that divides the signal is correct up
to `c Mach (1 + Mach) / (1 - Mach)` times the limit. Missing: the iteration need not end that way, see
`C105_no_convergence_violated`. -/
theorem C105_accuracy_partial {M : ℕ} (tr : Path) (c Mach epslim : ℝ) (hc : 0 < c) (hM0 : 0 ≤ Mach) (hM1 : Mach < 1)
    (hM : AtMostMach tr c Mach) (he : epslim < 1) (d : Fin 3 → ℝ) (mics : Fin M → Fin 3 → ℝ)
    (t : Fin M → ℝ) (s : EmissionState M) (hs : emissionTimes tr c epslim d mics t = some s)
    (hend : emissionGoOn epslim s = false) :
    ∃ l, s.last = some l ∧ ∀ m te, EmittedAt tr c d (mics m) (t m) te →
      |s.te m - te| ≤ 2 * Mach / (1 - Mach) * epslim ∧
      |(l m).rm - len3 (fun i => tr.loc te i + d i - mics m i)| ≤ c * (Mach * (1 + Mach) / (1 - Mach)) * epslim := by
  have hinv := loop_induct (tr := tr) (c := c) (d := d) (epslim := epslim) (mics := mics) (t := t)
    (fun s => ∀ l, s.last = some l → ∀ m, ∃ te, emissionStep tr c d (mics m) (t m) te = some (l m) ∧ s.te m = te - (l m).eps)
    (by
      intro s s1 _ hp l hl m
      obtain ⟨l', hl', h⟩ := pass_spec hp
      rw [hl'] at hl
      injection hl with hl
      subst hl
      exact ⟨s.te m, h m⟩)
    100 ⟨t, none⟩ s (by intro l hl; cases hl) hs
  have h1 : 0 < 1 - Mach := by linarith
  unfold emissionGoOn at hend
  cases hl : s.last with
  | none =>
    rw [hl] at hend
    simp only [decide_eq_false_iff_not, gt_iff_lt, not_lt] at hend
    linarith
  | some l =>
    rw [hl] at hend
    simp only [decide_eq_false_iff_not, gt_iff_lt, not_exists, not_lt] at hend
    refine ⟨l, rfl, fun m te hte => ?_⟩
    obtain ⟨te0, hst, hte0⟩ := hinv l hl m
    have heps := hend m
    have hn := step_next hc hM _ _ _ _ hst
    have herr := disc_error hc hM (mics m) (t m) (te0 - (l m).eps) te hte
    have hb : (1 - Mach) * |te0 - (l m).eps - te| ≤ 2 * Mach * epslim := by
      have : 2 * Mach * |(l m).eps| ≤ 2 * Mach * epslim := mul_le_mul_of_nonneg_left heps (by linarith)
      linarith
    have hb2 : |te0 - (l m).eps - te| ≤ 2 * Mach / (1 - Mach) * epslim := by
      rw [div_mul_eq_mul_div, le_div_iff₀ h1]; linarith
    refine ⟨by rw [hte0]; exact hb2, ?_⟩
    obtain ⟨hr, _, _⟩ := step_spec hc hM _ _ _ _ hst
    rw [hr]
    have hl2 := dist_lip (d := d) hc hM (mics m) te0 te
    rw [← sub_div, abs_div, abs_of_pos hc, div_le_iff₀ hc] at hl2
    have ht : |te0 - te| ≤ (1 + Mach) / (1 - Mach) * epslim := by
      have : |te0 - te| ≤ |te0 - (l m).eps - te| + |(l m).eps| := by
        have := abs_add_le (te0 - (l m).eps - te) (l m).eps
        rwa [show te0 - (l m).eps - te + (l m).eps = te0 - te by ring] at this
      have e : (1 + Mach) / (1 - Mach) * epslim = 2 * Mach / (1 - Mach) * epslim + epslim := by field_simp; ring
      rw [e]; linarith
    calc _ ≤ Mach * |te0 - te| * c := hl2
      _ ≤ Mach * ((1 + Mach) / (1 - Mach) * epslim) * c :=
        mul_le_mul_of_nonneg_right (mul_le_mul_of_nonneg_left ht hM0) hc.le
      _ = _ := by ring

/-- **C105 (partial).** Below one third of the speed of sound the iteration converges: every pass reduces the discrepancy
by the factor `2 Mach / (1 - Mach) < 1`, so that after the loop either the corrections are below the limit (see
`C105_accuracy_partial`), or the error of the emission times is at most `(2 Mach / (1 - Mach)) ^ 100 / (1 - Mach)` times
the travel time from the position at the time of reception. -/
theorem C105_convergence_partial {M : ℕ} (tr : Path) (c Mach epslim : ℝ) (hc : 0 < c) (hM0 : 0 ≤ Mach) (hM1 : Mach < 1 / 3)
    (hM : AtMostMach tr c Mach) (d : Fin 3 → ℝ) (mics : Fin M → Fin 3 → ℝ) (t : Fin M → ℝ) (s : EmissionState M)
    (hs : emissionTimes tr c epslim d mics t = some s) : 2 * Mach / (1 - Mach) < 1 ∧
      (emissionGoOn epslim s = false ∨ ∀ m te, EmittedAt tr c d (mics m) (t m) te →
        |s.te m - te| ≤ (2 * Mach / (1 - Mach)) ^ 100 / (1 - Mach) * (len3 (fun i => tr.loc (t m) i + d i - mics m i) / c)) := by
  have h1 : 0 < 1 - Mach := by linarith
  refine ⟨by rw [div_lt_one h1]; linarith, ?_⟩
  have hcount := loop_count (tr := tr) (c := c) (d := d) (epslim := epslim) (mics := mics) (t := t)
    (fun j s => ∀ m, |disc tr c d (mics m) (t m) (s.te m)| ≤
      (2 * Mach / (1 - Mach)) ^ j * (len3 (fun i => tr.loc (t m) i + d i - mics m i) / c))
    (by
      intro j s s1 hQ hp m
      obtain ⟨l, _, h⟩ := pass_spec hp
      obtain ⟨h2, h3⟩ := h m
      rw [h3, pow_succ']
      have := step_contract hc hM hM0 (by linarith) _ _ _ _ h2
      rw [mul_assoc]
      exact this.trans (mul_le_mul_of_nonneg_left (hQ m) (div_nonneg (by linarith) h1.le)))
    100 0 ⟨t, none⟩ s (by
      intro m
      rw [pow_zero, one_mul]
      unfold disc
      rw [show t m + len3 (fun i => tr.loc (t m) i + d i - mics m i) / c - t m =
        len3 (fun i => tr.loc (t m) i + d i - mics m i) / c by ring, abs_of_nonneg (div_nonneg (len3_nonneg _) hc.le)]) hs
  rcases hcount with h | h
  · exact Or.inl h
  · right
    intro m te hte
    have h2 := disc_error hc hM (mics m) (t m) (s.te m) te hte
    have h3 := h m
    rw [Nat.zero_add] at h3
    rw [div_mul_eq_mul_div, le_div_iff₀ h1]
    linarith

section Cycle

/-- A source on the x axis with Mach number 0.6, 10 m before the origin at time zero. -/
private noncomputable def cyclePath (c : ℝ) : Path := ⟨fun s => ![0.6 * c * s - 10, 0, 0], fun _ => ![0.6 * c, 0, 0]⟩

private theorem absVec_axis (x : ℝ) (v : Fin 3 → ℝ) (h0 : v 0 = x) (h1 : v 1 = 0) (h2 : v 2 = 0) : absVec v = |x| := by
  unfold absVec
  rw [h0, h1, h2, mul_zero, add_zero, add_zero, Real.sqrt_mul_self_eq_abs]

private theorem cycle_step {c : ℝ} (hc : 0 < c) {e r eps : ℝ} (he : 0.6 * e - 10 < 0) (hr : |0.6 * e + 1| = r)
    (heps : e + r - 1 = 0.4 * eps) :
    emissionStep (cyclePath c) c 0 ![-11, 0, 0] (1 / c) (e / c) = some ⟨r, -0.6, eps / c⟩ := by
  have hx : 0.6 * c * (e / c) - 10 = 0.6 * e - 10 := by field_simp
  have a1 : absVec (fun i => (cyclePath c).loc (e / c) i + (0 : Fin 3 → ℝ) i) = -(0.6 * e - 10) := by
    rw [absVec_axis (0.6 * e - 10) _ (by simp [cyclePath, hx]) (by simp [cyclePath]) (by simp [cyclePath]), abs_of_neg he]
  have a2 : absVec (fun i => (cyclePath c).loc (e / c) i + (0 : Fin 3 → ℝ) i - (![-11, 0, 0] : Fin 3 → ℝ) i) = r := by
    rw [absVec_axis (0.6 * e + 1) _ (by simp [cyclePath, hx]; ring) (by simp [cyclePath]) (by simp [cyclePath]), hr]
  unfold emissionStep
  simp only [a1, a2]
  rw [if_neg (by linarith)]
  have hmr : ((cyclePath c).vel (e / c) 0 * (((cyclePath c).loc (e / c) 0 + (0 : Fin 3 → ℝ) 0) / -(0.6 * e - 10)) +
      (cyclePath c).vel (e / c) 1 * (((cyclePath c).loc (e / c) 1 + (0 : Fin 3 → ℝ) 1) / -(0.6 * e - 10)) +
      (cyclePath c).vel (e / c) 2 * (((cyclePath c).loc (e / c) 2 + (0 : Fin 3 → ℝ) 2) / -(0.6 * e - 10))) / c = -0.6 := by
    have hne : (0.6 * e - 10 : ℝ) ≠ 0 := by linarith
    have hq : (0.6 * c * (e / c) - 10) / -(0.6 * e - 10) = -1 := by rw [hx, div_neg, div_self hne]
    simp only [cyclePath, Pi.zero_apply, add_zero, Matrix.cons_val_zero, Matrix.cons_val_one, Matrix.cons_val, zero_mul, hq]
    field_simp
  rw [hmr, if_neg (by norm_num)]
  congr 2
  have : e / c + r / c - 1 / c = 0.4 * eps / c := by rw [← heps]; ring
  rw [this]
  field_simp
  norm_num
  ring

private noncomputable def cycleState (c e r eps : ℝ) : EmissionState 1 := ⟨fun _ => e / c, some fun _ => ⟨r, -0.6, eps / c⟩⟩

private theorem cycle_pass {c : ℝ} (hc : 0 < c) {e r eps : ℝ} (he : 0.6 * e - 10 < 0) (hr : |0.6 * e + 1| = r)
    (heps : e + r - 1 = 0.4 * eps) :
    emissionPass (cyclePath c) c 0 (fun _ : Fin 1 => ![-11, 0, 0]) (fun _ => 1 / c) (fun _ => e / c) =
      some (cycleState c (e - eps) r eps) := by
  have hst := cycle_step hc he hr heps
  unfold emissionPass
  have hall : ∀ m : Fin 1, (emissionStep (cyclePath c) c 0 ![-11, 0, 0] (1 / c) (e / c)).isSome := by
    intro _; rw [hst]; rfl
  rw [dif_pos hall]
  simp only [hst, Option.get_some]
  unfold cycleState
  simp only [sub_div]

private theorem cycle_goOn {c e r eps epslim : ℝ} (h : |eps / c| > epslim) : emissionGoOn epslim (cycleState c e r eps) = true := by
  unfold emissionGoOn cycleState
  simp only [decide_eq_true_eq]
  exact ⟨0, h⟩

private theorem cycle_loop {c epslim : ℝ} (hc : 0 < c) (h1 : epslim < 4 / c) : ∀ k r eps, |eps / c| > epslim →
    emissionLoop (cyclePath c) c epslim 0 (fun _ : Fin 1 => ![-11, 0, 0]) (fun _ => 1 / c) (2 * k + 2) (cycleState c 5 r eps) =
      some (cycleState c 5 8 (-20)) := by
  have b1 : |(20 : ℝ) / c| > epslim := by
    rw [abs_of_pos (by positivity)]
    have : (4 : ℝ) / c ≤ 20 / c := div_le_div_of_nonneg_right (by norm_num) hc.le
    linarith
  have b2 : |(-20 : ℝ) / c| > epslim := by rw [neg_div, abs_neg]; exact b1
  have p1 : emissionPass (cyclePath c) c 0 (fun _ : Fin 1 => ![-11, 0, 0]) (fun _ => 1 / c) (fun _ => 5 / c) =
      some (cycleState c (-15) 4 20) := by
    have := cycle_pass hc (e := 5) (r := 4) (eps := 20) (by norm_num) (by norm_num) (by norm_num)
    rwa [show (5 : ℝ) - 20 = -15 by norm_num] at this
  have p2 : emissionPass (cyclePath c) c 0 (fun _ : Fin 1 => ![-11, 0, 0]) (fun _ => 1 / c) (fun _ => -15 / c) =
      some (cycleState c 5 8 (-20)) := by
    have := cycle_pass hc (e := -15) (r := 8) (eps := -20) (by norm_num) (by norm_num) (by norm_num)
    rwa [show (-15 : ℝ) - -20 = 5 by norm_num] at this
  intro k
  induction k with
  | zero =>
    intro r eps hg
    show emissionLoop _ _ _ _ _ _ 2 _ = _
    unfold emissionLoop
    rw [if_pos (cycle_goOn hg)]
    simp only [show (cycleState c 5 r eps).te = fun _ => 5 / c from rfl, p1]
    unfold emissionLoop
    rw [if_pos (cycle_goOn b1)]
    simp only [show (cycleState c (-15) 4 20).te = fun _ => -15 / c from rfl, p2]
    rfl
  | succ k ih =>
    intro r eps hg
    show emissionLoop _ _ _ _ _ _ (2 * k + 2 + 1 + 1) _ = _
    unfold emissionLoop
    rw [if_pos (cycle_goOn hg)]
    simp only [show (cycleState c 5 r eps).te = fun _ => 5 / c from rfl, p1]
    unfold emissionLoop
    rw [if_pos (cycle_goOn b1)]
    simp only [show (cycleState c (-15) 4 20).te = fun _ => -15 / c from rfl, p2]
    exact ih 8 (-20) b2

end Cycle

/-- **C105 is violated at higher Mach numbers.** For every speed of sound there is a source that moves with the constant
Mach number 0.6, a microphone and a receiving time such that the iteration runs in a cycle of two and is stopped after
100 passes with a wrong result: the sound was emitted at time 0 at a distance of 1 m, but the emission time is given
as `5 / c` and the distance as 8 m, whatever the limit (below `4 / c`). -/
theorem C105_no_convergence_violated (c epslim : ℝ) (hc : 0 < c) (h1 : epslim < 4 / c) (h2 : epslim < 1) :
    ∃ (tr : Path) (m : Fin 3 → ℝ) (t : ℝ), AtMostMach tr c 0.6 ∧ EmittedAt tr c 0 m t 0 ∧
      len3 (fun i => tr.loc 0 i - m i) = 1 ∧
      ∃ s l, emissionTimes tr c epslim 0 (fun _ : Fin 1 => m) (fun _ => t) = some s ∧ s.last = some l ∧
        s.te 0 = 5 / c ∧ (l 0).rm = 8 := by
  have hlen : len3 (fun i => (cyclePath c).loc 0 i - (![-11, 0, 0] : Fin 3 → ℝ) i) = 1 := by
    rw [← absVec_eq, absVec_axis 1 _ (by simp [cyclePath]; norm_num) (by simp [cyclePath]) (by simp [cyclePath])]
    norm_num
  refine ⟨cyclePath c, ![-11, 0, 0], 1 / c, ⟨?_, ?_⟩, ?_, hlen, cycleState c 5 8 (-20), _, ?_, rfl, rfl, rfl⟩
  · intro s s'
    rw [← absVec_eq, absVec_axis (0.6 * c * (s - s')) _ (by simp [cyclePath]; ring) (by simp [cyclePath]) (by simp [cyclePath]),
      abs_mul, abs_of_pos (by positivity)]
  · intro s
    rw [← absVec_eq, absVec_axis (0.6 * c) _ (by simp [cyclePath]) (by simp [cyclePath]) (by simp [cyclePath]),
      abs_of_pos (by positivity)]
  · unfold EmittedAt
    have e : (fun i => (cyclePath c).loc 0 i + (0 : Fin 3 → ℝ) i - (![-11, 0, 0] : Fin 3 → ℝ) i) =
        fun i => (cyclePath c).loc 0 i - (![-11, 0, 0] : Fin 3 → ℝ) i := by funext i; simp
    rw [e, hlen]; ring
  · unfold emissionTimes
    show emissionLoop _ _ _ _ _ _ (98 + 1 + 1) _ = _
    unfold emissionLoop
    rw [if_pos (by unfold emissionGoOn; simpa using h2)]
    have p1 : emissionPass (cyclePath c) c 0 (fun _ : Fin 1 => ![-11, 0, 0]) (fun _ => 1 / c) (fun _ => 1 / c) =
        some (cycleState c (-3) 1.6 4) := by
      have := cycle_pass hc (e := 1) (r := 1.6) (eps := 4) (by norm_num) (by norm_num) (by norm_num)
      rwa [show (1 : ℝ) - 4 = -3 by norm_num] at this
    have p2 : emissionPass (cyclePath c) c 0 (fun _ : Fin 1 => ![-11, 0, 0]) (fun _ => 1 / c) (fun _ => -3 / c) =
        some (cycleState c 5 0.8 (-8)) := by
      have := cycle_pass hc (e := -3) (r := 0.8) (eps := -8) (by norm_num) (by norm_num) (by norm_num)
      rwa [show (-3 : ℝ) - -8 = 5 by norm_num] at this
    simp only [p1]
    unfold emissionLoop
    rw [if_pos (cycle_goOn (by rw [abs_of_pos (by positivity)]; exact h1))]
    simp only [show (cycleState c (-3) 1.6 4).te = fun _ => -3 / c from rfl, p2]
    refine cycle_loop hc h1 48 0.8 (-8) ?_
    rw [neg_div, abs_neg, abs_of_pos (by positivity)]
    have : (4 : ℝ) / c ≤ 8 / c := div_le_div_of_nonneg_right (by norm_num) hc.le
    linarith

/-- The hypotheses of `C105_accuracy_partial` and `C105_convergence_partial` are met: a source at rest, 1 m from a
microphone; the iteration ends after two passes. -/
example : ∃ s, emissionTimes (M := 1) ⟨fun _ => ![1, 0, 0], fun _ => 0⟩ 343 (epsLimit 16 51200) 0 (fun _ => 0) (fun _ => 2) = some s ∧
    emissionGoOn (epsLimit 16 51200) s = false ∧ epsLimit 16 51200 < 1 ∧ epsLimit 16 51200 < 4 / 343 ∧
    AtMostMach ⟨fun _ => ![1, 0, 0], fun _ => 0⟩ 343 0 := by
  have hstep : ∀ te, emissionStep ⟨fun _ => ![1, 0, 0], fun _ => 0⟩ 343 0 0 2 te = some ⟨1, 0, te + 1 / 343 - 2⟩ := by
    intro te
    have a : absVec (fun i => (![1, 0, 0] : Fin 3 → ℝ) i + (0 : Fin 3 → ℝ) i) = 1 := by
      rw [absVec_axis 1 _ (by simp) (by simp) (by simp)]; norm_num
    have b : absVec (fun i => (![1, 0, 0] : Fin 3 → ℝ) i + (0 : Fin 3 → ℝ) i - (0 : Fin 3 → ℝ) i) = 1 := by
      rw [absVec_axis 1 _ (by simp) (by simp) (by simp)]; norm_num
    unfold emissionStep
    simp only [a, b]
    simp
  have hpass : ∀ te : ℝ, emissionPass (M := 1) ⟨fun _ => ![1, 0, 0], fun _ => 0⟩ 343 0 (fun _ => 0) (fun _ => 2) (fun _ => te) =
      some ⟨fun _ => te - (te + 1 / 343 - 2), some fun _ => ⟨1, 0, te + 1 / 343 - 2⟩⟩ := by
    intro te
    unfold emissionPass
    rw [dif_pos (by intro _; rw [hstep]; rfl)]
    simp only [hstep, Option.get_some]
  have hl : epsLimit 16 51200 < 1 / 343 := by unfold epsLimit; norm_num
  have hl0 : 0 < epsLimit 16 51200 := by unfold epsLimit; norm_num
  have e2 : (2 : ℝ) - 1 / 343 + 1 / 343 - 2 = 0 := by norm_num
  refine ⟨⟨fun _ => 2 - 1 / 343 - 0, some fun _ => ⟨1, 0, 0⟩⟩, ?_, ?_, by linarith, by norm_num at hl ⊢; linarith, ?_, ?_⟩
  · unfold emissionTimes
    show emissionLoop _ _ _ _ _ _ (97 + 1 + 1 + 1) _ = _
    unfold emissionLoop
    rw [if_pos (by unfold emissionGoOn; simp; linarith)]
    simp only [hpass]
    rw [show (2 : ℝ) - (2 + 1 / 343 - 2) = 2 - 1 / 343 by norm_num]
    unfold emissionLoop
    rw [if_pos (by
      unfold emissionGoOn
      simp only [decide_eq_true_eq]
      refine ⟨0, ?_⟩
      rw [show (2 : ℝ) + 1 / 343 - 2 = 1 / 343 by norm_num, abs_of_pos (by norm_num)]
      exact hl)]
    simp only [hpass]
    unfold emissionLoop
    rw [e2, if_neg]
    unfold emissionGoOn
    simp [hl0.le]
  · unfold emissionGoOn
    simp [hl0.le]
  · intro s s'
    simp [len3]
  · intro s
    simp [len3]

/-! ### Convective amplification -/

private theorem step_mr {tr : Path} {c : ℝ} {m : Fin 3 → ℝ} {t te : ℝ} {st : EmissionStep}
    (h : emissionStep tr c 0 m t te = some st) :
    st.mr = inner3 (tr.vel te) (unit3 (tr.loc te)) / c ∧ st.rm = len3 (fun i => tr.loc te i - m i) := by
  have e : (fun i => tr.loc te i + (0 : Fin 3 → ℝ) i) = tr.loc te := by funext i; simp
  unfold emissionStep at h
  simp only at h
  rw [e] at h
  split at h
  · cases h
  · split at h
    · cases h
    · cases h
      refine ⟨?_, ?_⟩
      · simp only [absVec_eq, inner3, unit3, Pi.zero_apply, add_zero]
      · simp only [absVec_eq, Pi.zero_apply, add_zero]

/-- Without motion nothing is amplified, and without `conv_amp` neither. -/
theorem C106_at_rest_partial (tr : Path) (c : ℝ) (m : Fin 3 → ℝ) (t te : ℝ) (st : EmissionStep)
    (h : emissionStep tr c 0 m t te = some st) (hv : tr.vel te = 0) (b : Bool) :
    ampDistance b st.rm st.mr = len3 (fun i => tr.loc te i - m i) * convFactor c (tr.loc te) (tr.vel te) m ∧
      ∀ mr, ampDistance false st.rm mr = len3 (fun i => tr.loc te i - m i) := by
  obtain ⟨h1, h2⟩ := step_mr h
  rw [hv] at h1 ⊢
  have h0 : st.mr = 0 := by rw [h1]; simp [inner3]
  refine ⟨?_, fun mr => by simp [ampDistance, h2]⟩
  unfold ampDistance convFactor machToward
  rw [h0, h2]
  simp [inner3]

/-- The hypotheses of `C106_at_rest_partial` are met: -/
example (st : EmissionStep) := C106_at_rest_partial ⟨fun _ => ![1, 0, 0], fun _ => 0⟩ 343 0 2 1 st

/-- **C106 is violated: the sign.** For a microphone in the origin of the coordinate system the factor is that of the
reversed motion. The sound of an approaching source is attenuated instead of amplified. -/
theorem C106_sign_violated (tr : Path) (c : ℝ) (t te : ℝ) (st : EmissionStep) (h : emissionStep tr c 0 0 t te = some st) :
    ampDistance true st.rm st.mr = len3 (tr.loc te) * (1 + machToward c (tr.loc te) (tr.vel te) 0) ^ 2 ∧
      (0 < machToward c (tr.loc te) (tr.vel te) 0 → machToward c (tr.loc te) (tr.vel te) 0 < 1 → tr.loc te ≠ 0 →
        len3 (tr.loc te) * convFactor c (tr.loc te) (tr.vel te) 0 < len3 (tr.loc te) ∧
        len3 (tr.loc te) < ampDistance true st.rm st.mr) := by
  obtain ⟨h1, h2⟩ := step_mr h
  have hm : st.mr = -machToward c (tr.loc te) (tr.vel te) 0 := by
    have hl : len3 (fun i => (0 : Fin 3 → ℝ) i - tr.loc te i) = len3 (tr.loc te) := by unfold len3; simp
    rw [h1]
    unfold machToward inner3 unit3
    rw [hl]
    simp only [Pi.zero_apply]
    ring
  have hr : st.rm = len3 (tr.loc te) := by rw [h2]; simp
  have e : ampDistance true st.rm st.mr = len3 (tr.loc te) * (1 + machToward c (tr.loc te) (tr.vel te) 0) ^ 2 := by
    unfold ampDistance
    rw [if_pos rfl, hm, hr, sub_neg_eq_add]
  refine ⟨e, fun hp hlt hne => ?_⟩
  have hpos : 0 < len3 (tr.loc te) := by
    refine lt_of_le_of_ne (len3_nonneg _) fun h0 => hne (vec_sq_eq_zero _ ?_)
    have := Real.sqrt_eq_zero'.1 h0.symm
    nlinarith [sq_nonneg (tr.loc te 0), sq_nonneg (tr.loc te 1), sq_nonneg (tr.loc te 2)]
  rw [e]
  unfold convFactor
  set M := machToward c (tr.loc te) (tr.vel te) 0
  refine ⟨?_, ?_⟩
  · have : (1 - M) ^ 2 < 1 := by nlinarith
    nlinarith
  · have : 1 < (1 + M) ^ 2 := by nlinarith
    nlinarith

/-- **C106 is violated: the position of the microphone.** The factor is the same for all microphones, wherever they
are. A source that passes between two microphones moves towards one and away from the other. -/
theorem C106_position_violated (tr : Path) (c : ℝ) (m m' : Fin 3 → ℝ) (t t' te : ℝ) (st st' : EmissionStep)
    (h : emissionStep tr c 0 m t te = some st) (h' : emissionStep tr c 0 m' t' te = some st') : st.mr = st'.mr := by
  rw [(step_mr h).1, (step_mr h').1]

/-- A source at `(0, 0, 1)` that moves in the direction of the x axis at Mach 0.5 towards the first microphone and away
from the second. -/
example : ∃ st st', emissionStep ⟨fun _ => ![0, 0, 1], fun _ => ![0.5 * 343, 0, 0]⟩ 343 0 ![1, 0, 1] 0 0 = some st ∧
    emissionStep ⟨fun _ => ![0, 0, 1], fun _ => ![0.5 * 343, 0, 0]⟩ 343 0 ![-1, 0, 1] 0 0 = some st' ∧
    machToward 343 ![0, 0, 1] ![0.5 * 343, 0, 0] ![1, 0, 1] = 0.5 ∧
    machToward 343 ![0, 0, 1] ![0.5 * 343, 0, 0] ![-1, 0, 1] = -0.5 ∧ st.mr = 0 ∧ st'.mr = 0 := by
  have a : absVec (fun i => (![0, 0, 1] : Fin 3 → ℝ) i + (0 : Fin 3 → ℝ) i) = 1 := by unfold absVec; simp
  refine ⟨⟨1, 0, 1 / 343⟩, ⟨1, 0, 1 / 343⟩, ?_, ?_, ?_, ?_, rfl, rfl⟩
  · unfold emissionStep
    simp only [a]
    simp [absVec]
  · unfold emissionStep
    simp only [a]
    simp [absVec]
  · simp [machToward, inner3, unit3, len3]
  · simp [machToward, inner3, unit3, len3]
    norm_num

/-! ### Moving dipole -/

/-- Without a rotation the direction of the dipole is kept. -/
theorem C107_translation (v d : Fin 3 → ℝ) : movingDirection 0 v d = some d := by
  unfold movingDirection; rw [if_pos rfl]

private theorem cross_orth (a b : Fin 3 → ℝ) : inner3 (pyCross a b) b = 0 := by
  unfold inner3 pyCross
  simp only [Matrix.cons_val_zero, Matrix.cons_val_one, Matrix.cons_val]
  ring

/-- **C107 is violated: the direction.** With a reference vector, the direction is not the one carried along by the
moving frame (`carried`, a rotation of `d`) but its cross product with the reference vector: orthogonal to the
reference vector and, for a motion in the plane orthogonal to it, zero for a dipole parallel to it. -/
theorem C107_direction_violated (rvec v d r : Fin 3 → ℝ) (hr : rvec ≠ 0) (h : movingDirection rvec v d = some r) :
    inner3 r rvec = 0 ∧ (∃ R, IsRotation R ∧ r = pyCross (Matrix.mulVec R d) rvec) ∧
      (inner3 v rvec = 0 → d 0 = 0 → d 1 = 0 → r = 0) := by
  unfold movingDirection at h
  rw [if_neg hr] at h
  simp only at h
  split at h
  · cases h
  · rename_i hn
    cases h
    have hc : pyCross rvec v ≠ 0 := fun h0 => hn ((columns_ne_zero rvec v).2 h0)
    refine ⟨cross_orth _ _, ⟨_, frame_isRotation rvec v hc, rfl⟩, ?_⟩
    intro hv h0 h1
    -- the third column is parallel to the reference vector
    set n := columnNorm (frameColumns rvec v) 2
    have e : ∀ i, Matrix.mulVec (Matrix.of fun i j => frameColumns rvec v i j / columnNorm (frameColumns rvec v) j) d i =
        frameColumns rvec v i 2 / n * d 2 := by
      intro i
      rw [Matrix.mulVec, dotProduct, Fin.sum_univ_three, h0, h1]
      simp only [Matrix.of_apply, mul_zero, zero_add]
      rfl
    unfold inner3 at hv
    have c : ∀ i, frameColumns rvec v i 2 = (v 0 ^ 2 + v 1 ^ 2 + v 2 ^ 2) * rvec i := by
      intro i
      fin_cases i
      · simp [frameColumns, pyCross]; linear_combination (-v 0) * hv
      · simp [frameColumns, pyCross]; linear_combination (-v 1) * hv
      · simp [frameColumns, pyCross]; linear_combination (-v 2) * hv
    have e2 : ∀ i, Matrix.mulVec (Matrix.of fun i j => frameColumns rvec v i j / columnNorm (frameColumns rvec v) j) d i =
        ((v 0 ^ 2 + v 1 ^ 2 + v 2 ^ 2) / n * d 2) * rvec i := by
      intro i; rw [e, c]; ring
    funext i
    unfold pyCross
    rw [e2 0, e2 1, e2 2]
    fin_cases i <;> simp <;> ring

/-- ... and its length depends on the length of the reference vector, which is meant as a direction. -/
theorem C107_length_violated (rvec v d r : Fin 3 → ℝ) (k : ℝ) (hk : 0 < k) (hr : rvec ≠ 0)
    (h : movingDirection rvec v d = some r) : movingDirection (k • rvec) v d = some (k • r) := by
  have hkr : k • rvec ≠ 0 := by simp [hk.ne', hr]
  have cols : ∀ i j, frameColumns (k • rvec) v i j = (![1, k, k] : Fin 3 → ℝ) j * frameColumns rvec v i j := by
    intro i j
    fin_cases i <;> fin_cases j <;> simp [frameColumns, pyCross] <;> ring
  have hpos : ∀ j, 0 < (![1, k, k] : Fin 3 → ℝ) j := by
    intro j; fin_cases j <;> simp [hk]
  have norms : ∀ j, columnNorm (frameColumns (k • rvec) v) j = (![1, k, k] : Fin 3 → ℝ) j * columnNorm (frameColumns rvec v) j := by
    intro j
    unfold columnNorm
    simp only [cols]
    have : ∀ i, (![1, k, k] : Fin 3 → ℝ) j * frameColumns rvec v i j * ((![1, k, k] : Fin 3 → ℝ) j * frameColumns rvec v i j) =
        ((![1, k, k] : Fin 3 → ℝ) j) ^ 2 * (frameColumns rvec v i j * frameColumns rvec v i j) := fun i => by ring
    simp only [this]
    rw [← Finset.mul_sum, Real.sqrt_mul (sq_nonneg _), Real.sqrt_sq (hpos j).le]
  unfold movingDirection at h ⊢
  rw [if_neg hr] at h
  rw [if_neg hkr]
  simp only at h ⊢
  split at h
  · cases h
  · rename_i hn
    cases h
    rw [if_neg (by
      rintro ⟨j, hj⟩
      rw [norms] at hj
      exact hn ⟨j, (mul_eq_zero.1 hj).resolve_left (hpos j).ne'⟩)]
    congr 1
    have hm : (Matrix.of fun i j => frameColumns (k • rvec) v i j / columnNorm (frameColumns (k • rvec) v) j) =
        Matrix.of fun i j => frameColumns rvec v i j / columnNorm (frameColumns rvec v) j := by
      ext i j
      simp only [Matrix.of_apply]
      rw [cols, norms, mul_div_mul_left _ _ (hpos j).ne']
    rw [hm]
    funext i
    unfold pyCross
    fin_cases i <;> simp <;> ring

/-- A dipole parallel to the rotation axis, on a circle: both poles are in one place. -/
example : movingDirection ![0, 0, 1] ![0, 3, 0] ![0, 0, 2] = some 0 := by
  have hc : pyCross ![0, 0, 1] ![0, 3, 0] ≠ 0 := by
    intro h
    have := congrFun h 0
    simp [pyCross] at this
  obtain ⟨r, hr⟩ : ∃ r, movingDirection ![0, 0, 1] ![0, 3, 0] ![0, 0, 2] = some r := by
    unfold movingDirection
    rw [if_neg (by intro h; simpa using congrFun h 2)]
    simp only
    rw [if_neg fun h => hc ((columns_ne_zero _ _).1 h)]
    exact ⟨_, rfl⟩
  rw [hr, (C107_direction_violated _ _ _ _ (by intro h; simpa using congrFun h 2) hr).2.2 (by simp [inner3]) rfl rfl]

/-- A dipole that does not move (no reference vector): the sum of two monopoles of opposite sign, half of the distance to
each side. -/
theorem C107_at_rest_partial {M : ℕ} (x : Fin 3 → ℝ) (v : ℝ → Fin 3 → ℝ) (entry : (Fin 3 → ℝ) → (Fin 3 → ℝ) → ℝ)
    (dir2 : Fin 3 → ℝ) (dist : ℝ) (mics : Fin (M + 1) → Fin 3 → ℝ) (te rm mr val : Fin (M + 1) → ℝ) :
    movingDipoleRow ⟨fun _ => x, v⟩ entry 0 dir2 dist false mics te rm mr val =
      some fun m => rm m / dist * (val m / entry (x + dir2) (mics m) - val m / entry (x - dir2) (mics m)) := by
  unfold movingDipoleRow
  rw [C107_translation]
  rfl

/-- **C107 is violated: the positions.** The poles have one position for all microphones, that of the emission time for
the first microphone: the emission times of the others have no influence on it. -/
theorem C107_first_mic_violated {M : ℕ} (tr : Path) (entry : (Fin 3 → ℝ) → (Fin 3 → ℝ) → ℝ) (rvec dir2 : Fin 3 → ℝ) (dist : ℝ)
    (b : Bool) (mics : Fin (M + 1) → Fin 3 → ℝ) (te te' rm mr val : Fin (M + 1) → ℝ) (h0 : te 0 = te' 0) :
    movingDipoleRow tr entry rvec dir2 dist b mics te rm mr val = movingDipoleRow tr entry rvec dir2 dist b mics te' rm mr val := by
  unfold movingDipoleRow
  rw [h0]

/-- **C107 is violated: the retardation.** Both poles use the same value of the signal, so that the sound pressure is
zero whenever this value is; the difference of the times of arrival, which makes the far field of a dipole, is missing. -/
theorem C107_retardation_violated {M : ℕ} (tr : Path) (entry : (Fin 3 → ℝ) → (Fin 3 → ℝ) → ℝ) (rvec dir2 : Fin 3 → ℝ) (dist : ℝ)
    (b : Bool) (mics : Fin (M + 1) → Fin 3 → ℝ) (te rm mr val : Fin (M + 1) → ℝ) (row : Fin (M + 1) → ℝ)
    (h : movingDipoleRow tr entry rvec dir2 dist b mics te rm mr val = some row) (m : Fin (M + 1)) (h0 : val m = 0) : row m = 0 := by
  unfold movingDipoleRow at h
  simp only [Option.map_eq_some_iff] at h
  obtain ⟨d, -, rfl⟩ := h
  simp [h0]

/-- The fixed dipole with poles at distances one sample shorter and longer than the centre: it is not zero although the
value of the signal for the centre is. -/
example : dipoleRow (M := 1) ([1, 0, -1] : List ℚ) 1 2 (fun _ => 10) (fun _ => 9) (fun _ => 11) (fun _ => 0) (fun _ => 2) 0 =
    some (fun _ => 100 / 99) ∧ ([1, 0, -1] : List ℚ)[1]? = some 0 := by
  refine ⟨?_, rfl⟩
  have h : ∀ f : Fin 1 → ℚ, f = fun _ => f 0 := fun f => by funext i; fin_cases i; rfl
  unfold dipoleRow fancyRow
  rw [dif_pos (by decide +kernel), dif_pos (by decide +kernel)]
  simp only [Option.some.injEq]
  rw [h (fun _ => _)]
  funext _
  decide +kernel

/-! ### Moving line source -/

private theorem receiveTime_eq (start fs : ℝ) (k : ℕ) : receiveTime start fs k = start + k / fs := by
  induction k with
  | zero => simp [receiveTime]
  | succ k ih => simp only [receiveTime, ih]; push_cast; ring

/-- Sample `k` of a moving monopole or dipole is the sound received at the time `start + k / fs`. -/
theorem C108_time_partial (start fs : ℝ) (k : ℕ) : receiveTime start fs k = start + k / fs := receiveTime_eq start fs k

/-- **C108 is violated: the time.** Sample `k` of a moving line source is the sound received one sample later. -/
theorem C108_time_violated (start fs : ℝ) (hfs : 0 < fs) (k : ℕ) :
    receiveTimeLine start fs k = start + (k + 1 : ℕ) / fs ∧ receiveTimeLine start fs k ≠ start + k / fs := by
  have e : receiveTimeLine start fs k = start + (k + 1 : ℕ) / fs := by
    unfold receiveTimeLine
    rw [receiveTime_eq]
    push_cast
    ring
  refine ⟨e, ?_⟩
  rw [e]
  intro h
  have : (k : ℝ) / fs < (k + 1 : ℕ) / fs := div_lt_div_of_pos_right (by push_cast; linarith) hfs
  linarith

/-- A line of one monopole, or without `conv_amp`: the distances of all monopoles are treated like that of a single
one. -/
theorem C108_amplification_partial (rm mr : ℝ) (rms mrs : List ℝ) (b : Bool) :
    lineDistances b [rm] [mr] = [ampDistance b rm mr] ∧ lineDistances false rms mrs = rms := by
  refine ⟨rfl, ?_⟩
  unfold lineDistances
  split
  · rename_i r rs a l h1 h2
    have : rms = (r :: rs).reverse := by rw [← h1, List.reverse_reverse]
    rw [this]
    rfl
  · rfl

/-- **C108 is violated: the amplification.** Of two or more monopoles only the last one is amplified. -/
theorem C108_amplification_violated (rms mrs : List ℝ) (r a : ℝ) (s : ℕ) (hs : s < rms.length) :
    (lineDistances true (rms ++ [r]) (mrs ++ [a]))[s]? = rms[s]? ∧
      (lineDistances true (rms ++ [r]) (mrs ++ [a]))[rms.length]? = some (r * (1 - a) ^ 2) := by
  have e : lineDistances true (rms ++ [r]) (mrs ++ [a]) = rms ++ [r * (1 - a) ^ 2] := by
    unfold lineDistances
    rw [List.reverse_append, List.reverse_append]
    simp [ampDistance]
  rw [e]
  exact ⟨List.getElem?_append_left hs, by simp⟩

/-- Two monopoles with the same Mach number, treated differently. -/
example : lineDistances true [1, 1] [1 / 2, 1 / 2] = [1, 1 / 4] := by
  simp [lineDistances, ampDistance]; norm_num

end Acoular
