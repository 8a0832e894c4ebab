import Verif.Spec.Env
import Verif.Model.TrajBeam
import Verif.Props.MovingSource
import Verif.Props.TimeBeam
import Verif.Props.TimeBeamTraj
import Mathlib.Tactic.Linarith
import Mathlib.Tactic.FieldSimp
import Mathlib.Tactic.Positivity

/-!
# Property theorems: convective amplification and reference of the moving grid (C161, C162)
-/

namespace Acoular

open Spec

/-! ## C161 -/

section C161

private theorem absVec_len (x : Fin 3 → ℝ) : absVec x = len3 x := by
  unfold absVec len3; congr 1; ring

private theorem len3_zero (x : Fin 3 → ℝ) : len3 x = 0 ↔ x = 0 := by
  unfold len3
  rw [Real.sqrt_eq_zero (by positivity)]
  constructor
  · intro h
    have h0 := sq_nonneg (x 0); have h1 := sq_nonneg (x 1); have h2 := sq_nonneg (x 2)
    funext i
    have e0 : x 0 ^ 2 = 0 := by linarith
    have e1 : x 1 ^ 2 = 0 := by linarith
    have e2 : x 2 ^ 2 = 0 := by linarith
    fin_cases i
    · simpa using e0
    · simpa using e1
    · simpa using e2
  · rintro rfl; simp

private theorem len3_nonneg (x : Fin 3 → ℝ) : 0 ≤ len3 x := Real.sqrt_nonneg _

private theorem len3_sub_comm (x m : Fin 3 → ℝ) : len3 (fun i => m i - x i) = len3 (fun i => x i - m i) := by
  unfold len3; congr 1; ring

private theorem macos_eq (c : ℝ) (v x m : Fin 3 → ℝ) (rm : ℝ) (hv : v ≠ 0) (hr : rm ≠ 0) (hx : x ≠ m) :
    macosTheta c v x m rm = some (-machToward c x v m * (len3 (fun i => x i - m i) / rm)) := by
  have h1 : len3 v ≠ 0 := fun h => hv ((len3_zero v).1 h)
  have h2 : len3 (fun i => x i - m i) ≠ 0 := fun h => hx (by
    have := (len3_zero _).1 h
    funext i
    have := congrFun this i
    simpa [sub_eq_zero] using this)
  unfold macosTheta
  simp only [absVec_len]
  rw [if_neg (by push Not; exact ⟨h1, hr⟩)]
  unfold machToward inner3 unit3
  rw [len3_sub_comm x m]
  by_cases hc : c = 0
  · subst hc; simp
  congr 1
  field_simp
  ring

/-- **C161 is violated: the sign.** Without flow, a focus point at `x` that moves with velocity `v`: instead of the distance times
the factor `(1 - M)^2` of the convective amplification, the distance times the factor of the *reversed* motion is used, `(1 + M)^2`.
While a point approaches a microphone, its distance is increased instead of decreased. -/
theorem C161_sign_violated (c : ℝ) (v x m : Fin 3 → ℝ) (hv : v ≠ 0) (hx : x ≠ m) :
    convDistance true c v x m (distEntry x m) = some (len3 (fun i => x i - m i) * (1 + machToward c x v m) ^ 2) ∧
    len3 (fun i => x i - m i) * (1 + machToward c x v m) ^ 2 = len3 (fun i => x i - m i) * convFactor c x (-v) m ∧
    (0 < machToward c x v m → machToward c x v m < 1 →
      len3 (fun i => x i - m i) * convFactor c x v m < len3 (fun i => x i - m i) ∧
      len3 (fun i => x i - m i) < len3 (fun i => x i - m i) * (1 + machToward c x v m) ^ 2) := by
  have h2 : len3 (fun i => x i - m i) ≠ 0 := fun h => hx (by
    have := (len3_zero _).1 h
    funext i
    have := congrFun this i
    simpa [sub_eq_zero] using this)
  have hp : 0 < len3 (fun i => x i - m i) := lt_of_le_of_ne (len3_nonneg _) h2.symm
  have hd : distEntry x m = len3 (fun i => x i - m i) := rfl
  refine ⟨?_, ?_, fun h0 h1 => ⟨?_, ?_⟩⟩
  · unfold convDistance
    rw [if_pos rfl, hd, macos_eq c v x m _ hv h2 hx, div_self h2]
    simp only [mul_one, Option.map_some, sub_neg_eq_add]
  · unfold convFactor machToward inner3
    simp only [Pi.neg_apply]
    ring
  · unfold convFactor
    have : (1 - machToward c x v m) ^ 2 < 1 := by nlinarith
    nlinarith
  · have : 1 < (1 + machToward c x v m) ^ 2 := by nlinarith
    nlinarith

/-- The hypotheses of `C161_sign_violated` are met: a point one metre in front of the microphone, approaching it at Mach 0.5: the
distance used is 2.25 m, it should be 0.25 m. -/
example : machToward 340 0 ![170, 0, 0] ![1, 0, 0] = 1 / 2 ∧
    convDistance true 340 ![170, 0, 0] 0 ![1, 0, 0] (distEntry 0 ![1, 0, 0]) = some 2.25 := by
  have hm : machToward 340 0 ![170, 0, 0] ![1, 0, 0] = 1 / 2 := by simp [machToward, inner3, unit3, len3]; norm_num
  refine ⟨hm, ?_⟩
  rw [(C161_sign_violated 340 ![170, 0, 0] 0 ![1, 0, 0] (fun h => by have := congrFun h 0; simp at this)
    (fun h => by have := congrFun h 0; simp at this)).1, hm]
  simp [len3]
  norm_num

/-- **C161, partial.** Without `conv_amp` the distance is used as it is.  With `conv_amp` and without flow it is right for points
that move perpendicularly to the line of sight (then there is no amplification).  Missing: the other points. -/
theorem C161_sideways_partial (c : ℝ) (v x m : Fin 3 → ℝ) (hv : v ≠ 0) (hx : x ≠ m) (h : machToward c x v m = 0) :
    convDistance true c v x m (distEntry x m) = some (len3 (fun i => x i - m i) * convFactor c x v m) ∧
      ∀ rm, convDistance false c v x m rm = some rm := by
  refine ⟨?_, fun rm => rfl⟩
  rw [(C161_sign_violated c v x m hv hx).1]
  unfold convFactor
  rw [h]
  simp

/-- The hypotheses of `C161_sideways_partial` are met: -/
example := C161_sideways_partial 343 ![100, 0, 0] 0 ![0, 0, 1] (fun h => by have := congrFun h 0; simp at this)
  (fun h => by have := congrFun h 2; simp at this) (by simp [machToward, inner3, unit3])

/-- **C161 is violated: at rest.** As long as the trajectory is at rest, all distances are not a number: the beamformer delivers no
numbers, except with the formulation I, which does not use the distances. -/
theorem C161_rest_violated {M G : ℕ} (s : TrajBeam M G) (hM : 0 < M) (n : ℕ) (hv : s.path.vel (n / s.fs) = 0)
    (hc : s.convAmp = true) (x : Fin G → Fin 3 → ℝ) (gi : Fin G) (rm : ℝ) (m : Fin 3 → ℝ) :
    convDistance true s.c 0 (x gi) m rm = none ∧
      (s.form ≠ .classic → s.amp n x gi = none) ∧ (s.form = .classic → s.amp n x gi = some fun _ => 1 / (M : ℝ)) := by
  have key : ∀ rm m, convDistance true s.c 0 (x gi) m rm = none := by
    intro rm m
    unfold convDistance macosTheta
    rw [if_pos rfl, if_pos (Or.inl (by simp [absVec]))]
    rfl
  refine ⟨key _ _, fun hf => ?_, fun hf => ?_⟩
  · unfold TrajBeam.amp
    simp only
    rw [if_neg]
    rintro (h | h)
    · exact hf h
    · have := h ⟨0, hM⟩
      rw [hc, hv, key] at this
      cases this
  · unfold TrajBeam.amp
    simp only
    rw [if_pos (Or.inl hf), hf]
    rfl

/-- The hypotheses of `C161_rest_violated` are met: -/
example := C161_rest_violated (⟨distEntry, 343, 1000, true, 0, ⟨fun _ => 0, fun _ => 0⟩, .dist 1, .trueLevel, fun _ => ![0, 0, 1],
  fun i => ![(i : ℝ), 0, 0]⟩ : TrajBeam 2 1) (by decide) 0 rfl rfl (fun _ => 0) 0

/-- **C161 is violated: the level.** A monopole that moves along with the grid, with the amplification `1 / (1 - M)^2` at the
microphones and the delays assumed, all microphones in directions with the same Mach number `M` of the approach.  With the
formulations II and III its signal `q` (at the distance `r0`) is delivered with the factor `((1 + M) / (1 - M))^2`. -/
theorem C161_level_violated {N : ℕ} (hN : 0 < N) (c : ℝ) (v x : Fin 3 → ℝ) (mics : Fin N → Fin 3 → ℝ) (hv : v ≠ 0)
    (hx : ∀ m, x ≠ mics m) (mach : ℝ) (hm : ∀ m, machToward c x v (mics m) = mach) (h1 : -1 < mach) (h2 : mach < 1)
    (p : ℕ → Fin N → ℝ) (k : Fin N → ℕ) (f : Fin N → ℝ) (r0 q : ℝ) (h0 : 0 < r0) (n : ℕ)
    (hp : ∀ m, delayed (fun i => p i m) n (k m) (f m) =
      r0 / (len3 (fun i => x i - mics m i) * convFactor c x v (mics m)) * q) (rm : Fin N → ℝ)
    (hrm : ∀ m, convDistance true c v x (mics m) (distEntry x (mics m)) = some (rm m)) :
    delayAndSum p k f (steerTime2 rm r0) n = ((1 + mach) / (1 - mach)) ^ 2 * q ∧
      delayAndSum p k f (steerTime3 rm r0) n = ((1 + mach) / (1 - mach)) ^ 2 * q := by
  have e : ∀ m, rm m = len3 (fun i => x i - mics m i) * (1 + mach) ^ 2 := by
    intro m
    have := (C161_sign_violated c v x (mics m) hv (hx m)).1
    rw [hrm m, hm m] at this
    exact Option.some.inj this
  have hl : ∀ m, 0 < len3 (fun i => x i - mics m i) := fun m => lt_of_le_of_ne (len3_nonneg _) fun h => hx m (by
    have := (len3_zero _).1 h.symm
    funext i
    have := congrFun this i
    simpa [sub_eq_zero] using this)
  have a1 : 0 < 1 + mach := by linarith
  have a2 : 0 < 1 - mach := by linarith
  refine C73_true_level p k f rm r0 (((1 + mach) / (1 - mach)) ^ 2 * q) n hN (fun m => ?_) h0 fun m => ?_
  · rw [e]
    have := hl m
    positivity
  · rw [hp, e]
    unfold convFactor
    rw [hm]
    have := (hl m).ne'
    field_simp

/-- The hypotheses of `C161_level_violated` are met: a source that approaches the array at Mach 0.2 is shown with 2.25 times its sound
pressure (7 dB too loud). -/
example : delayAndSum (fun _ (_ : Fin 1) => (1 / 0.64 : ℝ)) (fun _ => 0) (fun _ => 0) (steerTime2 (fun _ => 1.44) 1) 0 = 2.25 := by
  have hm : machToward 340 0 ![68, 0, 0] ![1, 0, 0] = 0.2 := by simp [machToward, inner3, unit3, len3]; norm_num
  have hd : len3 (fun i => (0 : Fin 3 → ℝ) i - (![1, 0, 0] : Fin 3 → ℝ) i) = 1 := by simp [len3]
  have := (C161_level_violated (N := 1) (by decide) 340 ![68, 0, 0] 0 (fun _ => ![1, 0, 0]) (fun h => by have := congrFun h 0; simp at this)
    (fun _ h => by have := congrFun h 0; simp at this) 0.2 (fun _ => hm) (by norm_num) (by norm_num) (fun _ _ => 1 / 0.64) (fun _ => 0)
    (fun _ => 0) 1 1 (by norm_num) 0 (fun m => by simp only [delayed, hd, convFactor, hm]; norm_num) (fun _ => 1.44)
    (fun m => by
      rw [(C161_sign_violated 340 ![68, 0, 0] 0 ![1, 0, 0] (fun h => by have := congrFun h 0; simp at this)
        (fun h => by have := congrFun h 0; simp at this)).1, hm, hd]
      norm_num)).1
  rw [this]
  norm_num

/-- **C161, partial.** The simulated moving source (`MovingPointSource` with `conv_amp`) and the beamformer use the same factor for a
microphone in the origin of the coordinate system.  Missing: microphones elsewhere, see below. -/
theorem C161_simulation_partial (tr : Path) (c t te : ℝ) (st : EmissionStep) (h : emissionStep tr c 0 0 t te = some st)
    (hv : tr.vel te ≠ 0) (hx : tr.loc te ≠ 0) :
    convDistance true c (tr.vel te) (tr.loc te) 0 (distEntry (tr.loc te) 0) = some (ampDistance true st.rm st.mr) := by
  rw [(C161_sign_violated c (tr.vel te) (tr.loc te) 0 hv hx).1, (C106_sign_violated tr c t te st h).1]
  simp

/-- **C161 is violated: simulation.** For other microphones they do not fit together: a source at `(0, 0, 1)` that moves in the
direction of the x axis at Mach 0.5 towards the microphone at `(1, 0, 1)`.  The simulation does not amplify, the beamformer assumes
2.25 times the distance, and the right factor is 0.25. -/
theorem C161_simulation_violated : ∃ (tr : Path) (m : Fin 3 → ℝ) (st : EmissionStep),
    emissionStep tr 340 0 m 0 0 = some st ∧ ampDistance true st.rm st.mr = 1 ∧
    convDistance true 340 (tr.vel 0) (tr.loc 0) m (distEntry (tr.loc 0) m) = some 2.25 ∧
    len3 (fun i => tr.loc 0 i - m i) * convFactor 340 (tr.loc 0) (tr.vel 0) m = 0.25 := by
  have a : absVec (fun i => (![0, 0, 1] : Fin 3 → ℝ) i + (0 : Fin 3 → ℝ) i) = 1 := by unfold absVec; simp
  have hm : machToward 340 ![0, 0, 1] ![170, 0, 0] ![1, 0, 1] = 1 / 2 := by simp [machToward, inner3, unit3, len3]; norm_num
  have hl : len3 (fun i => (![0, 0, 1] : Fin 3 → ℝ) i - (![1, 0, 1] : Fin 3 → ℝ) i) = 1 := by simp [len3]
  refine ⟨⟨fun _ => ![0, 0, 1], fun _ => ![170, 0, 0]⟩, ![1, 0, 1], ⟨1, 0, 1 / 340⟩, ?_, by simp [ampDistance], ?_, ?_⟩
  · unfold emissionStep
    simp only [a]
    simp [absVec]
  · show convDistance true 340 ![170, 0, 0] ![0, 0, 1] ![1, 0, 1] _ = _
    rw [(C161_sign_violated 340 ![170, 0, 0] ![0, 0, 1] ![1, 0, 1] (fun h => by have := congrFun h 0; simp at this)
      (fun h => by have := congrFun h 0; simp at this)).1, hm, hl]
    norm_num
  · show len3 (fun i => (![0, 0, 1] : Fin 3 → ℝ) i - (![1, 0, 1] : Fin 3 → ℝ) i) * convFactor 340 ![0, 0, 1] ![170, 0, 0] ![1, 0, 1] = _
    unfold convFactor
    rw [hl, hm]
    norm_num

/-- **C161 is violated: rotation.** With a reference vector the grid turns with the trajectory, but the velocity of the trajectory is used
for all grid points.  On a circle of radius 1 around the z axis, the grid point `(0, 1, 0)` stays at rest in the centre; it is treated
as moving. -/
theorem C161_rotation_violated (om c fs : ℝ) (hom : 0 < om) (hc : 0 < c) (s : TrajBeam 2 1) (hs : s = ⟨distEntry, c, fs, true, ![0, 0, 1],
      ⟨fun t => ![Real.cos (om * t), Real.sin (om * t), 0], fun t => ![-(om * Real.sin (om * t)), om * Real.cos (om * t), 0]⟩, .dist 1,
      .inverse, fun _ => ![0, 1, 0], fun mi => ![0, (mi : ℕ) + 1, 0]⟩) :
    (∀ n, s.pos n = some fun _ => 0) ∧ s.amp 0 (fun _ => 0) 0 = some fun mi : Fin 2 => ((mi : ℕ) + 1 : ℝ) * (1 + om / c) ^ 2 / 2 := by
  subst hs
  constructor
  · intro n
    unfold TrajBeam.pos movingGpos
    simp only
    rw [if_neg (fun h => by have := congrFun h 2; simp at this)]
    set C := Real.cos (om * (n / fs)) with hC
    set S := Real.sin (om * (n / fs)) with hS
    have hcs : S * S + C * C = 1 := by have := Real.sin_sq_add_cos_sq (om * ((n : ℝ) / fs)); rw [hS, hC]; nlinarith
    have e1 : frameColumns ![0, 0, 1] ![-(om * S), om * C, 0] = Matrix.of fun i j => ![![-(om * S), om * C, 0], ![-(om * C), -(om * S), 0], ![0, 0, om * om]] j i := by
      funext i j
      fin_cases i <;> fin_cases j <;> simp [frameColumns, pyCross]
      linear_combination (om * om) * hcs
    have n1 : ∀ j, columnNorm (frameColumns ![0, 0, 1] ![-(om * S), om * C, 0]) j = (![om, om, om * om] : Fin 3 → ℝ) j := by
      intro j
      rw [e1]
      unfold columnNorm
      rw [Fin.sum_univ_three]
      have q : ∀ y : ℝ, 0 ≤ y → ∀ z : ℝ, z = y * y → √z = y := fun y hy z hz => by rw [hz]; exact Real.sqrt_mul_self hy
      fin_cases j
      · refine q _ hom.le _ ?_
        simp
        linear_combination (om * om) * hcs
      · refine q _ hom.le _ ?_
        simp
        linear_combination (om * om) * hcs
      · refine q _ (mul_nonneg hom.le hom.le) _ ?_
        simp
    rw [if_neg]
    · congr 1
      funext p i
      have : Matrix.mulVec (Matrix.of fun i j => frameColumns ![0, 0, 1] ![-(om * S), om * C, 0] i j /
          columnNorm (frameColumns ![0, 0, 1] ![-(om * S), om * C, 0]) j) ![0, 1, 0] i = ![-C, -S, 0] i := by
        rw [Matrix.mulVec, dotProduct, Fin.sum_univ_three]
        simp only [Matrix.of_apply, n1]
        rw [e1]
        have := hom.ne'
        fin_cases i <;> simp <;> field_simp
      simp only [Pi.add_apply, this]
      fin_cases i <;> simp
    · rintro ⟨j, hj⟩
      rw [n1] at hj
      have := hom.ne'
      fin_cases j <;> simp [this] at hj
  · have hv : (![-(om * Real.sin (om * (((0 : ℕ) : ℝ) / fs))), om * Real.cos (om * (((0 : ℕ) : ℝ) / fs)), 0] : Fin 3 → ℝ) = ![0, om, 0] := by simp
    have h1 : ∀ mi : Fin 2, convDistance true c ![0, om, 0] 0 ![0, ((mi : ℕ) : ℝ) + 1, 0] (distEntry 0 ![0, ((mi : ℕ) : ℝ) + 1, 0]) =
        some ((((mi : ℕ) : ℝ) + 1) * (1 + om / c) ^ 2) := by
      intro mi
      have hp : (0 : ℝ) < ((mi : ℕ) : ℝ) + 1 := by positivity
      have hl : len3 (fun i => (0 : Fin 3 → ℝ) i - (![0, ((mi : ℕ) : ℝ) + 1, 0] : Fin 3 → ℝ) i) = ((mi : ℕ) : ℝ) + 1 := by
        simp only [len3, Pi.zero_apply, Matrix.cons_val_zero, Matrix.cons_val_one, Matrix.cons_val]
        rw [show ((0 : ℝ) - 0) ^ 2 + (0 - (((mi : ℕ) : ℝ) + 1)) ^ 2 + (0 - 0) ^ 2 = (((mi : ℕ) : ℝ) + 1) ^ 2 by ring]
        exact Real.sqrt_sq hp.le
      have hm : machToward c 0 ![0, om, 0] ![0, ((mi : ℕ) : ℝ) + 1, 0] = om / c := by
        unfold machToward unit3
        rw [len3_sub_comm, hl]
        simp only [inner3, Pi.zero_apply, Matrix.cons_val_zero, Matrix.cons_val_one, Matrix.cons_val]
        field_simp
        ring
      rw [(C161_sign_violated c ![0, om, 0] 0 ![0, ((mi : ℕ) : ℝ) + 1, 0] (fun h => by have := congrFun h 1; simp at this; exact hom.ne' this)
        (fun h => by have := congrFun h 1; simp at this; linarith)).1, hm, hl]
    unfold TrajBeam.amp TrajBeam.rm
    simp only [hv, h1]
    rw [if_pos (Or.inr fun _ => by simp)]
    congr 1
    funext mi
    simp [steerFuncTime, steerTime2, trajR0]
    ring

/-- The hypotheses of `C161_rotation_violated` are met: -/
example := C161_rotation_violated 34.3 343 1000 (by norm_num) (by norm_num) _ rfl

end C161

/-! ## C162 -/

section C162
variable {M G : ℕ}

private theorem floor_foldr (l : List ℝ) : (l.map fun x => ⌊x⌋₊).foldr max 0 = ⌊l.foldr max 0⌋₊ := by
  induction l with
  | nil => simp
  | cons a l ih => rw [List.map_cons, List.foldr_cons, List.foldr_cons, ih, Nat.floor_mono.map_max]

/-- The largest index of the moving grid is the largest delay of `BeamformerTime` (rounded down). -/
private theorem maxIndex_eq (s : TrajBeam M G) (x : Fin G → Fin 3 → ℝ) :
    s.maxIndex x + 2 = maxSampleDelay (s.c / s.fs) (s.rm x) := by
  unfold TrajBeam.maxIndex maxSampleDelay
  rw [← floor_foldr, List.map_flatMap]
  simp only [List.map_map]
  congr 2
  refine List.flatMap_congr fun gi _ => List.map_congr_left fun mi _ => ?_
  simp only [Function.comp_apply, delayIndex]
  rw [one_div_mul_eq_div]

/-- The place of a grid that rests at `b`. -/
private theorem rest_pos (s : TrajBeam M G) (hr : s.rvec = 0) (b : Fin 3 → ℝ) (hb : ∀ t, s.path.loc t = b) (n : ℕ) :
    s.pos n = some fun p => s.gpos p + b := by
  unfold TrajBeam.pos
  rw [hr, hb, C92_translation]

private theorem rest_amp (s : TrajBeam M G) (hc : s.convAmp = false) (n : ℕ) (x : Fin G → Fin 3 → ℝ) (gi : Fin G) :
    s.amp n x gi = some (steerFuncTime s.form (s.rm x gi) (trajR0 s.entry (x gi) s.ref)) := by
  unfold TrajBeam.amp
  simp only [hc]
  have e : ∀ v x m rm, convDistance false s.c v x m rm = some rm := fun _ _ _ _ => rfl
  simp only [e]
  rw [if_pos (Or.inr fun _ => by simp)]
  rfl

private theorem rest_result (s : TrajBeam M G) (hc : s.convAmp = false) (hr : s.rvec = 0) (b : Fin 3 → ℝ)
    (hb : ∀ t, s.path.loc t = b) (mode : BeamTimeMode) (T : ℕ) (source : ℕ → List (List (Fin M → ℝ))) (num fuel : ℕ) :
    s.result mode T source num fuel = some (beamformerTimeTraj mode (fun _ => 1) T (fun _ => s.maxIndex fun p => s.gpos p + b)
      (fun _ => delayIndex (s.c / s.fs) (s.rm fun p => s.gpos p + b)) (fun _ => delayFrac (s.c / s.fs) (s.rm fun p => s.gpos p + b))
      (fun _ gi => steerFuncTime s.form (s.rm (fun p => s.gpos p + b) gi) (trajR0 s.entry (s.gpos gi + b) s.ref)) source num fuel) := by
  unfold TrajBeam.result
  rw [if_pos]
  · simp only [rest_pos s hr b hb, Option.getD_some, rest_amp s hc]
  · intro n _
    exact ⟨_, rest_pos s hr b hb n, fun gi => by rw [rest_amp s hc]; rfl⟩

private theorem le_foldr_max (l : List ℕ) (a : ℕ) (h : a ∈ l) : a ≤ l.foldr max 0 := by
  induction l with
  | nil => cases h
  | cons b l ih =>
    rw [List.foldr_cons]
    rcases List.mem_cons.1 h with rfl | h
    · exact le_max_left _ _
    · exact (ih h).trans (le_max_right _ _)

/-- **C162, partial.** A moving grid without rotation and convective amplification, with a reference distance, slower than sound: sample
`n` at a grid point is the delay and sum of the data, with the travel times and the amplitudes for the place of the grid point at the
time `n / fs` (its place in the grid plus the place on the trajectory).  Missing: as in `C162_rest_partial`. -/
theorem C162_moving_partial (s : TrajBeam M G) (hc : s.convAmp = false) (hr : s.rvec = 0) (d : ℝ) (hd : 0 < d) (href : s.ref = .dist d)
    (r : ℕ → Fin G → Fin M → ℝ) (hrm : ∀ n gi mi, r n gi mi = s.entry (fun i => s.gpos gi i + s.path.loc (n / s.fs) i) (s.mics mi))
    (hmono : ∀ n gi mi, ∃ gi' mi', ⌊r n gi mi * s.fs / s.c⌋₊ ≤ ⌊r (n + 1) gi' mi' * s.fs / s.c⌋₊ + 1) (mode : BeamTimeMode) (T : ℕ)
    (source : ℕ → List (List (Fin M → ℝ))) (data : List (Fin M → ℝ)) (num : ℕ) (hn : 0 < num)
    (hsrc : IsBlocking num data (source num)) (fuel : ℕ) (hf : data.length < fuel) (hT : data.length + num ≤ T) :
    ∃ tr S, s.result mode T source num fuel = some tr ∧ tr.exit = .returned ∧
      tr.blocks.flatten = (List.range S).map fun n gi => some (mode.apply
        (delayAndSum (fun i mi => (data.getD i 0) mi) (fun mi => ⌊r n gi mi * s.fs / s.c⌋₊)
            (fun mi => r n gi mi * s.fs / s.c - ⌊r n gi mi * s.fs / s.c⌋₊) (steerFuncTime s.form (r n gi) d) n,
         delayAutoPower (fun i mi => (data.getD i 0) mi) (fun mi => ⌊r n gi mi * s.fs / s.c⌋₊)
            (fun mi => r n gi mi * s.fs / s.c - ⌊r n gi mi * s.fs / s.c⌋₊) (steerFuncTime s.form (r n gi) d) n)) := by
  have hp : ∀ n, s.pos n = some fun p => s.gpos p + s.path.loc (n / s.fs) := fun n => by
    unfold TrajBeam.pos
    rw [hr, C92_translation]
  have hrm' : ∀ n : ℕ, s.rm (fun p => s.gpos p + s.path.loc (n / s.fs)) = r n := by
    intro n
    funext gi mi
    rw [hrm]
    rfl
  have hdl : ∀ n gi mi, delayIndex (s.c / s.fs) (r n) gi mi = ⌊r n gi mi * s.fs / s.c⌋₊ := by
    intro n gi mi
    unfold delayIndex
    rw [one_div_mul_eq_div, div_div_eq_mul_div]
  have hfr : ∀ n gi mi, delayFrac (s.c / s.fs) (r n) gi mi = r n gi mi * s.fs / s.c - ⌊r n gi mi * s.fs / s.c⌋₊ := by
    intro n gi mi
    unfold delayFrac
    rw [one_div_mul_eq_div, div_div_eq_mul_div]
  have h1 : s.result mode T source num fuel = some (beamformerTimeTraj mode (fun _ => 1) T
      (fun n => s.maxIndex fun p => s.gpos p + s.path.loc (n / s.fs))
      (fun n => delayIndex (s.c / s.fs) (r n)) (fun n => delayFrac (s.c / s.fs) (r n))
      (fun n gi => steerFuncTime s.form (r n gi) d) source num fuel) := by
    unfold TrajBeam.result
    rw [if_pos]
    · simp only [hp, Option.getD_some, rest_amp s hc, hrm']
      congr 3
      funext n gi
      simp [trajR0, href, hd]
    · intro n _
      exact ⟨_, hp n, fun gi => by rw [rest_amp s hc]; rfl⟩
  have hmem : ∀ n gi mi, delayIndex (s.c / s.fs) (r n) gi mi ≤ s.maxIndex fun p => s.gpos p + s.path.loc (n / s.fs) := by
    intro n gi mi
    refine le_foldr_max _ _ ?_
    rw [List.mem_flatMap]
    exact ⟨gi, List.mem_finRange _, List.mem_map.2 ⟨mi, List.mem_finRange _, by rw [hrm']⟩⟩
  have hle : ∀ (l : List ℕ) (k : ℕ), (∀ a ∈ l, a ≤ k) → l.foldr max 0 ≤ k := by
    intro l k h
    induction l with
    | nil => exact Nat.zero_le _
    | cons a l ih =>
      rw [List.foldr_cons]
      exact max_le (h a (by simp)) (ih fun b hb => h b (by simp [hb]))
  obtain ⟨x1, S, x2, -, -⟩ := C75_samples_partial mode T (fun n => s.maxIndex fun p => s.gpos p + s.path.loc (n / s.fs))
    (fun n => delayIndex (s.c / s.fs) (r n)) (fun n => delayFrac (s.c / s.fs) (r n))
    (fun n gi => steerFuncTime s.form (r n gi) d) source data num hn hsrc fuel hf hmem (fun n => by
      refine hle _ _ fun a ha => ?_
      rw [List.mem_flatMap] at ha
      obtain ⟨gi, -, ha⟩ := ha
      obtain ⟨mi, -, rfl⟩ := List.mem_map.1 ha
      obtain ⟨gi', mi', h⟩ := hmono n gi mi
      rw [← hdl, ← hdl] at h
      rw [hrm']
      exact h.trans (Nat.succ_le_succ (hmem (n + 1) gi' mi'))) hT
  refine ⟨_, S, h1, x1, x2.trans (List.map_congr_left fun n _ => ?_)⟩
  funext gi
  have e1 : delayIndex (s.c / s.fs) (r n) gi = fun mi => ⌊r n gi mi * s.fs / s.c⌋₊ := funext (hdl n gi)
  have e2 : delayFrac (s.c / s.fs) (r n) gi = fun mi => r n gi mi * s.fs / s.c - ⌊r n gi mi * s.fs / s.c⌋₊ := funext (hfr n gi)
  rw [e1, e2]

/-- The hypotheses of `C162_moving_partial` are met: -/
example := C162_moving_partial (⟨fun _ _ => 0, 343, 1000, false, 0, ⟨fun t => ![t, 0, 0], fun _ => ![1, 0, 0]⟩, .dist 1, .trueLevel,
  fun _ => ![0, 0, 1], fun i => ![((i : ℕ) : ℝ), 0, 0]⟩ : TrajBeam 2 1) rfl rfl 1 one_pos rfl (fun _ _ _ => 0) (fun _ _ _ => rfl)
  (fun _ gi mi => ⟨gi, mi, by simp⟩) .signal 20
  (fun n => chunks n [![1, 1], ![2, 1], ![3, 1], ![4, 1], ![5, 1]]) [![1, 1], ![2, 1], ![3, 1], ![4, 1], ![5, 1]] 2 (by decide)
  (isBlocking_chunks (by decide) _) 10 (by decide) (by decide)

/-- **C162, partial.** A moving grid whose trajectory rests at `b`, without convective amplification, with a reference *distance*: the
samples of `BeamformerTime` on the grid shifted by `b` are delivered (and one sample more); for every block size, also where
`BeamformerTime` ends with an error.  Missing: the other kinds of reference and convective amplification, see below; weights (C74). -/
theorem C162_rest_partial (s : TrajBeam M G) (hc : s.convAmp = false) (hr : s.rvec = 0) (b : Fin 3 → ℝ)
    (hb : ∀ t, s.path.loc t = b) (d : ℝ) (hd : 0 < d) (href : s.ref = .dist d) (mode : BeamTimeMode) (T : ℕ)
    (source : ℕ → List (List (Fin M → ℝ))) (data : List (Fin M → ℝ)) (num : ℕ) (hn : 0 < num)
    (hsrc : IsBlocking num data (source num)) (fuel : ℕ) (hf : data.length < fuel) (hT : data.length + num ≤ T)
    (hN : maxSampleDelay (s.c / s.fs) (s.rm fun p => s.gpos p + b) ≤ data.length) :
    ∃ tr tr', s.result mode T source num fuel = some tr ∧
      ({ s with gpos := fun p => s.gpos p + b } : TrajBeam M G).fixed mode source num fuel = .ok tr' ∧ tr.exit = .returned ∧
      tr'.blocks.flatten = tr.blocks.flatten.dropLast ∧
      tr.blocks.flatten.length = data.length - maxSampleDelay (s.c / s.fs) (s.rm fun p => s.gpos p + b) + 1 := by
  have hD : ∀ (n : ℕ) gi mi, (fun _ : ℕ => delayIndex (s.c / s.fs) (s.rm fun p => s.gpos p + b)) n gi mi ≤
      s.maxIndex fun p => s.gpos p + b := by
    intro n gi mi
    refine le_foldr_max _ _ ?_
    rw [List.mem_flatMap]
    exact ⟨gi, List.mem_finRange _, List.mem_map.2 ⟨mi, List.mem_finRange _, rfl⟩⟩
  have hm := maxIndex_eq s fun p => s.gpos p + b
  have h1 := rest_result s hc hr b hb mode T source num fuel
  obtain ⟨x1, S, x2, -, -⟩ := C75_samples_partial mode T (fun _ => s.maxIndex fun p => s.gpos p + b)
    (fun _ => delayIndex (s.c / s.fs) (s.rm fun p => s.gpos p + b)) (fun _ => delayFrac (s.c / s.fs) (s.rm fun p => s.gpos p + b))
    (fun _ gi => steerFuncTime s.form (s.rm (fun p => s.gpos p + b) gi) (trajR0 s.entry (s.gpos gi + b) s.ref)) source data num hn hsrc
    fuel hf hD (fun n => by omega) hT
  have x3 := C75_constant_delay mode T (s.maxIndex fun p => s.gpos p + b)
    (fun _ => delayIndex (s.c / s.fs) (s.rm fun p => s.gpos p + b)) (fun _ => delayFrac (s.c / s.fs) (s.rm fun p => s.gpos p + b))
    (fun _ gi => steerFuncTime s.form (s.rm (fun p => s.gpos p + b) gi) (trajR0 s.entry (s.gpos gi + b) s.ref)) source data num hn hsrc
    fuel hf hD hT
  have hS : S = data.length - maxSampleDelay (s.c / s.fs) (s.rm fun p => s.gpos p + b) + 1 := by
    have := x3
    rw [x2, List.length_map, List.length_range] at this
    omega
  have h2 : ({ s with gpos := fun p => s.gpos p + b } : TrajBeam M G).fixed mode source num fuel =
      .ok (beamformerTime mode (fun _ => 1) (s.c / s.fs) (s.rm fun p => s.gpos p + b)
        (fun gi => steerFuncTime s.form (s.rm (fun p => s.gpos p + b) gi) (trajR0 s.entry (s.gpos gi + b) s.ref)) source num fuel) := by
    unfold TrajBeam.fixed
    simp only [href, steerR0]
    rw [if_pos hd]
    simp only
    congr 2
    funext gi
    congr 1
    rw [List.getD_eq_getElem?_getD, List.getElem?_replicate, if_pos (by simp)]
    simp [trajR0, hd]
  refine ⟨_, _, h1, h2, x1, ?_, ?_⟩
  · rw [(C44_samples_partial mode (s.c / s.fs) (s.rm fun p => s.gpos p + b)
      (fun gi => steerFuncTime s.form (s.rm (fun p => s.gpos p + b) gi) (trajR0 s.entry (s.gpos gi + b) s.ref)) source data num hn hsrc
      fuel hf hN).1, x2, hS, List.range_succ, List.map_append, List.map_singleton, List.dropLast_concat]
  · rw [x2, List.length_map, List.length_range, hS]

/-- The hypotheses of `C162_rest_partial` are met: -/
example := C162_rest_partial (⟨fun _ _ => 0, 343, 1000, false, 0, ⟨fun _ => ![1, 0, 0], fun _ => 0⟩, .dist 1, .trueLevel, fun _ => ![0, 0, 1],
  fun i => ![((i : ℕ) : ℝ), 0, 0]⟩ : TrajBeam 2 1) rfl rfl ![1, 0, 0] (fun _ => rfl) 1 one_pos rfl .signal 20
  (fun n => chunks n [![1, 1], ![2, 1], ![3, 1], ![4, 1], ![5, 1]]) [![1, 1], ![2, 1], ![3, 1], ![4, 1], ![5, 1]] 2 (by decide)
  (isBlocking_chunks (by decide) _) 10 (by decide) (by decide) (by simp [maxSampleDelay, TrajBeam.rm, List.finRange_succ])

/-- The reference distance of a focus point at `x` that a user has asked for: the distance given, or the travel distance to the
position given. -/
noncomputable def Spec.trajRefDistance (entry : (Fin 3 → ℝ) → (Fin 3 → ℝ) → ℝ) (x : Fin 3 → ℝ) : SteerRef → ℝ
  | .dist d => d
  | .pos y => entry x y

/-- **C162, partial.** A reference distance is used for all focus points wherever they move, and so is the origin as a reference
position.  Missing: other reference positions. -/
theorem C162_reference_partial (entry : (Fin 3 → ℝ) → (Fin 3 → ℝ) → ℝ) (x : Fin 3 → ℝ) (ref : SteerRef)
    (h : (∃ d, 0 < d ∧ ref = .dist d) ∨ ref = .pos 0) : trajR0 entry x ref = trajRefDistance entry x ref := by
  rcases h with ⟨d, hd, rfl⟩ | rfl
  · simp [trajR0, trajRefDistance, hd]
  · rfl

/-- The hypotheses of `C162_reference_partial` are met: -/
example := C162_reference_partial distEntry ![0, 0, 1] (.dist 1) (.inl ⟨1, one_pos, rfl⟩)

/-- **C162 is violated: reference positions.** A reference position is ignored: the result is the same for all of them, that for the
origin. -/
theorem C162_position_violated (s : TrajBeam M G) (y z : Fin 3 → ℝ) (mode : BeamTimeMode) (T : ℕ)
    (source : ℕ → List (List (Fin M → ℝ))) (num fuel : ℕ) :
    ({ s with ref := .pos y } : TrajBeam M G).result mode T source num fuel =
      ({ s with ref := .pos z } : TrajBeam M G).result mode T source num fuel := rfl

/-- **C162 is violated: levels.** A monopole at a focus point, whose signal is `q` at the reference position `y`: with the formulations
II and III the beamformer delivers it with the factor of the wrong distance. -/
theorem C162_level_violated (hM : 0 < M) (x y : Fin 3 → ℝ) (mics : Fin M → Fin 3 → ℝ) (hm : ∀ m, 0 < distEntry x (mics m))
    (h0 : 0 < distEntry x 0) (p : ℕ → Fin M → ℝ) (k : Fin M → ℕ) (f : Fin M → ℝ) (q : ℝ) (n : ℕ)
    (hp : ∀ m, delayed (fun i => p i m) n (k m) (f m) = trajRefDistance distEntry x (.pos y) / distEntry x (mics m) * q) (form : Formulation)
    (hf : form = .inverse ∨ form = .trueLevel) :
    delayAndSum p k f (steerFuncTime form (fun m => distEntry x (mics m)) (trajR0 distEntry x (.pos y))) n =
      distEntry x y / distEntry x 0 * q := by
  have e : ∀ m, delayed (fun i => p i m) n (k m) (f m) = distEntry x 0 / distEntry x (mics m) * (distEntry x y / distEntry x 0 * q) := by
    intro m
    rw [hp m]
    have := (hm m).ne'
    have := h0.ne'
    unfold trajRefDistance
    field_simp
  have := C73_true_level p k f (fun m => distEntry x (mics m)) (distEntry x 0) _ n hM hm h0 e
  rcases hf with rfl | rfl
  · exact this.1
  · exact this.2

/-- The hypotheses of `C162_level_violated` are met: the reference is at one metre from the source, the origin at two: half the
sound pressure. -/
example : delayAndSum (fun _ (_ : Fin 1) => (1 : ℝ)) (fun _ => 0) (fun _ => 0)
    (steerFuncTime .inverse (fun _ => distEntry ![0, 0, 2] ![0, 0, 1]) (trajR0 distEntry ![0, 0, 2] (.pos ![0, 0, 1]))) 0 = 1 / 2 := by
  have h1 : distEntry ![0, 0, 2] ![0, 0, 1] = 1 := by simp [distEntry]; norm_num
  have h2 : distEntry ![0, 0, 2] 0 = 2 := by simp [distEntry]
  have := C162_level_violated (M := 1) (by decide) ![0, 0, 2] ![0, 0, 1] (fun _ => ![0, 0, 1]) (fun _ => by rw [h1]; norm_num) (by rw [h2]; norm_num)
    (fun _ _ => 1) (fun _ => 0) (fun _ => 0) 1 0 (fun _ => by simp [delayed, trajRefDistance, h1]) .inverse (.inl rfl)
  rw [this, h1, h2]
  norm_num

/-- **C162 is violated: no reference.** With the reference distance zero the moving grid takes the distance to the origin as the
reference, where `BeamformerTime` with the same steering vector raises a TypeError. -/
theorem C162_zero_violated (s : TrajBeam M G) (href : s.ref = .dist 0) (mode : BeamTimeMode) (source : ℕ → List (List (Fin M → ℝ)))
    (num fuel T : ℕ) :
    s.fixed mode source num fuel = .error .typeError ∧
      s.result mode T source num fuel = ({ s with ref := .pos 0 } : TrajBeam M G).result mode T source num fuel := by
  have e : ∀ x, trajR0 s.entry x (.dist 0) = trajR0 s.entry x (.pos 0) := fun x => by simp [trajR0]
  have ha : ∀ n x gi, s.amp n x gi = ({ s with ref := .pos 0 } : TrajBeam M G).amp n x gi := by
    intro n x gi
    unfold TrajBeam.amp
    simp only [href, e]
    rfl
  constructor
  · unfold TrajBeam.fixed
    rw [href]
    simp [steerR0]
  · unfold TrajBeam.result
    simp only [ha]
    rfl

/-- The hypotheses of `C162_zero_violated` are met: -/
example := C162_zero_violated (⟨distEntry, 343, 1000, false, 0, ⟨fun _ => 0, fun _ => 0⟩, .dist 0, .trueLevel, fun _ => ![0, 0, 1],
  fun i => ![((i : ℕ) : ℝ), 0, 0]⟩ : TrajBeam 2 1) rfl .signal (fun _ => []) 4 5 6

/-- **C162 is violated: convective amplification.** With it (and formulations II to IV), a grid that rests at some sample gives no numbers. -/
theorem C162_conv_violated (s : TrajBeam M G) (hM : 0 < M) (hG : 0 < G) (hc : s.convAmp = true) (hf : s.form ≠ .classic) (n T : ℕ)
    (hn : n < T) (hv : s.path.vel (n / s.fs) = 0) (mode : BeamTimeMode) (source : ℕ → List (List (Fin M → ℝ))) (num fuel : ℕ) :
    s.result mode T source num fuel = none := by
  unfold TrajBeam.result
  rw [if_neg]
  intro h
  obtain ⟨x, -, h2⟩ := h n hn
  have := h2 ⟨0, hG⟩
  rw [(C161_rest_violated s hM n hv hc x ⟨0, hG⟩ 0 0).2.1 hf] at this
  cases this

/-- The hypotheses of `C162_conv_violated` are met: -/
example := C162_conv_violated (⟨distEntry, 343, 1000, true, 0, ⟨fun _ => 0, fun _ => 0⟩, .dist 1, .trueLevel, fun _ => ![0, 0, 1],
  fun i => ![((i : ℕ) : ℝ), 0, 0]⟩ : TrajBeam 2 1) (by decide) (by decide) rfl (by decide) 0 6 (by decide) rfl .signal (fun _ => []) 4 5

end C162

end Acoular
