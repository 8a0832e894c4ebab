import Verif.Model.SourceDigest
import Verif.Props.Digest

/-!
# C124: identifiers of simulated sources and their output
-/

namespace Acoular

variable {M : ℕ}

/-- Two sources whose settings are told apart by their printed forms, which have the same lengths (other than the last
one). -/
structure Spec.FaithfulPrint (pr : SrcPrint M) (a b : SrcSet M) (k : SrcClass) : Prop where
  /-- lengths -/
  width : (a.depends pr k).dropLast.map String.length = (b.depends pr k).dropLast.map String.length
  mics : pr.mics a.mics = pr.mics b.mics → a.mics = b.mics
  signal : pr.signal a.signal = pr.signal b.signal → a.signal = b.signal
  loc : pr.vec a.loc = pr.vec b.loc → a.loc = b.loc
  env : pr.env a.c = pr.env b.c → a.c = b.c
  startT : pr.num a.startT = pr.num b.startT → a.startT = b.startT
  start : pr.num a.start = pr.num b.start → a.start = b.start
  up : pr.nat a.up = pr.nat b.up → a.up = b.up
  zeros : pr.pad a.zeros = pr.pad b.zeros → a.zeros = b.zeros
  direction : pr.vec a.direction = pr.vec b.direction → a.direction = b.direction
  strength : pr.list a.strength = pr.list b.strength → a.strength = b.strength
  convAmp : pr.bool a.convAmp = pr.bool b.convAmp → a.convAmp = b.convAmp
  path : pr.path a.trajectory = pr.path b.trajectory → a.trajectory = b.trajectory

open Spec

private theorem deps_eq (md5 : List Char → String) (hmd : Function.Injective md5) (pr : SrcPrint M) (a b : SrcSet M) (k : SrcClass)
    (hp : FaithfulPrint pr a b k) (hd : a.digest md5 pr k = b.digest md5 pr k) : a.depends pr k = b.depends pr k := by
  unfold SrcSet.digest digestOf at hd
  have h2 : digestPreimage k.name ((a.depends pr k).map some) = digestPreimage k.name ((b.depends pr k).map some) := by
    refine hmd (String.toList_injective ?_)
    have := congrArg String.toList hd
    simpa using this
  refine C19_fixed_width_partial _ _ _ ?_ hp.width h2
  cases k <;> rfl

/-- **C124** (part) Point sources with the same identifier deliver the same blocks. -/
theorem C124_point_partial (md5 : List Char → String) (hmd : Function.Injective md5) (pr : SrcPrint M) (a b : SrcSet M)
    (hp : FaithfulPrint pr a b .point) (hd : a.digest md5 pr .point = b.digest md5 pr .point) (num : ℕ) :
    a.result num .point = b.result num .point := by
  have h := deps_eq md5 hmd pr a b .point hp hd
  simp only [SrcSet.depends, List.cons.injEq, and_true] at h
  obtain ⟨h1, h2, h3, h4, h5, h6, h7, h8⟩ := h
  unfold SrcSet.result SrcSet.dist
  rw [hp.mics h1, hp.signal h2, hp.loc h3, hp.env h4, hp.startT h5, hp.start h6, hp.up h7, hp.zeros h8]

/-- **C124** (part) … moving point sources, if the oversampling is the same … -/
theorem C124_moving_partial (md5 : List Char → String) (hmd : Function.Injective md5) (pr : SrcPrint M) (a b : SrcSet M)
    (hp : FaithfulPrint pr a b .moving) (hup : a.up = b.up) (hd : a.digest md5 pr .moving = b.digest md5 pr .moving) (num : ℕ) :
    a.result num .moving = b.result num .moving := by
  have h := deps_eq md5 hmd pr a b .moving hp hd
  simp only [SrcSet.depends, List.cons.injEq, and_true] at h
  obtain ⟨h1, h2, h3, h4, h5, h6, h7, h8⟩ := h
  have hr : a.movingRow = b.movingRow := by
    funext k
    unfold SrcSet.movingRow SrcSet.emission
    rw [hp.mics h1, hp.signal h2, hp.convAmp h4, hp.env h5, hp.startT h6, hp.start h7, hp.path h8, hup]
  unfold SrcSet.result
  rw [hr, hp.signal h2]

/-- **C124** (part) … moving dipoles, if path, reference vector and the flag for the convective amplification are the
same … -/
theorem C124_moving_dipole_partial (md5 : List Char → String) (hmd : Function.Injective md5) (pr : SrcPrint M) (a b : SrcSet M)
    (hp : FaithfulPrint pr a b .movingDipole) (ht : a.trajectory = b.trajectory) (hr : a.rvec = b.rvec)
    (hc : a.convAmp = b.convAmp) (hd : a.digest md5 pr .movingDipole = b.digest md5 pr .movingDipole) (num : ℕ) :
    a.result num .movingDipole = b.result num .movingDipole := by
  have h := deps_eq md5 hmd pr a b .movingDipole hp hd
  simp only [SrcSet.depends, List.cons.injEq, and_true] at h
  obtain ⟨h1, h2, h3, h4, h5, h6, h7, h8⟩ := h
  have hr : a.movingDipoleRow = b.movingDipoleRow := by
    funext k
    unfold SrcSet.movingDipoleRow SrcSet.emission
    rw [hp.mics h1, hp.signal h2, hp.env h4, hp.startT h5, hp.start h6, hp.up h7, hp.direction h8, ht, hr, hc]
  unfold SrcSet.result
  rw [hr, hp.signal h2]

/-- **C124** (part) … line sources, if length and number of monopoles are the same. -/
theorem C124_line_partial (md5 : List Char → String) (hmd : Function.Injective md5) (pr : SrcPrint M) (a b : SrcSet M)
    (hp : FaithfulPrint pr a b .line) (hl : a.length = b.length) (hn : a.numSources = b.numSources)
    (hd : a.digest md5 pr .line = b.digest md5 pr .line) (num : ℕ) : a.result num .line = b.result num .line := by
  have h := deps_eq md5 hmd pr a b .line hp hd
  simp only [SrcSet.depends, List.cons.injEq, and_true] at h
  obtain ⟨h1, h2, h3, h4, h5, h6, h7, h8, h9⟩ := h
  have hr : a.monopoles = b.monopoles := by
    unfold SrcSet.monopoles SrcSet.dist
    rw [hp.mics h1, hp.signal h2, hp.loc h3, hp.env h4, hp.startT h5, hp.start h6, hp.up h7, hp.direction h8, hp.strength h9, hl, hn]
  unfold SrcSet.result
  rw [hr, hp.signal h2, hp.up h7]

/-! ### Settings that do not enter -/

/-- A source: one microphone, one second of a constant signal sampled once per second (oversampled: the same values),
speed of sound 1. -/
noncomputable def srcBase (mic : ℝ) (tr : Path) : SrcSet 0 :=
  ⟨fun _ => ![0, 0, mic], ⟨1, 1, fun k => List.replicate (8 * k) 1⟩, 0, 1, 0, 0, 1, false, ![0, 0, 1], 1, 2, [1, 1], false, tr, 0⟩

/-- A path at rest. -/
def restPath (z : ℝ) : Path := ⟨fun _ => ![0, 0, z], fun _ => 0⟩

private theorem abs_z (x : Fin 3 → ℝ) (h0 : x 0 = 0) (h1 : x 1 = 0) : absVec x = |x 2| := by
  unfold absVec
  rw [h0, h1]
  simp [Real.sqrt_mul_self_eq_abs]

private theorem trunc_half (x : ℝ) (h1 : -(3 / 2) < x) (h2 : x < 1 / 2) :
    arrayGet (List.replicate (8 * 1) (1 : ℝ)) (truncInt (1 / 2 + x)) = some 1 := by
  have h : truncInt (1 / 2 + x) = 0 := by
    unfold truncInt
    split
    · rw [neg_eq_zero, Int.floor_eq_zero_iff]; constructor <;> linarith
    · rw [Int.floor_eq_zero_iff]; constructor <;> linarith
  rw [h]; simp [arrayGet]

private theorem fancy_one (rm pos : Fin 1 → ℝ) (h1 : -(3 / 2) < pos 0) (h2 : pos 0 < 1 / 2) :
    fancyRow (List.replicate (8 * 1) (1 : ℝ)) rm pos = some fun m => 1 / rm m := by
  have h : ∀ m, arrayGet (List.replicate (8 * 1) (1 : ℝ)) (truncInt (1 / 2 + pos m)) = some 1 := by
    intro m
    have : m = 0 := Subsingleton.elim _ _
    subst this
    exact trunc_half _ h1 h2
  unfold fancyRow
  rw [dif_pos fun m => by rw [h]; rfl]
  congr 1
  funext m
  simp only [h, Option.get_some]

private theorem line_value (L : ℝ) (h0 : 0 ≤ L) (h1 : L ≤ 1 / 2) :
    ({ srcBase (-1) (restPath 0) with length := L } : SrcSet 0).result 4 .line = .ok [[fun _ => some (1 + 1 / (1 + L / 2))]] := by
  have hm : ({ srcBase (-1) (restPath 0) with length := L } : SrcSet 0).monopoles =
      .ok [(List.replicate (8 * 1) 1, fun _ => 1, fun _ => -1),
        (List.replicate (8 * 1) 1, fun _ => 1 + L / 2, fun _ => -(1 + L / 2))] := by
    have e0 : ∀ j : ℕ, ({ srcBase (-1) (restPath 0) with length := L } : SrcSet 0).dist
        (fun i => (srcBase (-1) (restPath 0)).loc i + (srcBase (-1) (restPath 0)).direction i /
          absVec (srcBase (-1) (restPath 0)).direction * (L / 2) * j) = fun _ => 1 + L / 2 * j := by
      intro j
      funext m
      unfold SrcSet.dist
      have hd : absVec (srcBase (-1) (restPath 0)).direction = 1 := by
        rw [abs_z _ rfl rfl]; simp [srcBase]
      rw [hd, abs_z _ (by simp [srcBase]) (by simp [srcBase])]
      simp only [srcBase, Pi.zero_apply, Matrix.cons_val]
      rw [abs_of_nonneg] <;> ring_nf; positivity
    unfold SrcSet.monopoles
    simp only [srcBase] at e0 ⊢
    simp only [Nat.cast_ofNat, e0]
    simp [lineSignals, List.range_succ]
  unfold SrcSet.result
  rw [hm]
  have hu : (({ srcBase (-1) (restPath 0) with length := L } : SrcSet 0).up : ℝ) = 1 := by simp [srcBase]
  simp only [hu]
  have hrow : lineRow (1 : ℝ) [(List.replicate (8 * 1) 1, fun _ : Fin 1 => (1 : ℝ), fun _ => -1),
        (List.replicate (8 * 1) 1, fun _ => 1 + L / 2, fun _ => -(1 + L / 2))] 0 = some fun _ => 1 + 1 / (1 + L / 2) := by
    simp only [lineRow]
    rw [fancy_one _ _ (by norm_num) (by norm_num), fancy_one _ _ (by norm_num; linarith) (by norm_num; linarith)]
    simp
  have hn' : (srcBase (-1) (restPath 0)).signal.n = 1 := rfl
  simp only [hn', sourceLoop, hrow]
  simp

/-- **C124 is violated** by line sources: the length does not enter the identifier, but the output depends on it. -/
theorem C124_line_violated (md5 : List Char → String) (pr : SrcPrint 0) : ∃ a b : SrcSet 0,
    b = { a with length := b.length } ∧ a.digest md5 pr .line = b.digest md5 pr .line ∧ a.result 4 .line ≠ b.result 4 .line := by
  refine ⟨{ srcBase (-1) (restPath 0) with length := 1 / 2 }, { srcBase (-1) (restPath 0) with length := 1 / 4 }, rfl, rfl, ?_⟩
  rw [line_value _ (by norm_num) (by norm_num), line_value _ (by norm_num) (by norm_num)]
  intro h
  have := congrFun (List.cons.inj (List.cons.inj (Except.ok.inj h)).1).1 0
  norm_num at this

private theorem rest_emission (s : SrcSet 0) (z : ℝ) (hz : z ≠ 0) (ht : s.trajectory = restPath z)
    (hm : s.mics = fun _ => 0) (hc : s.c = 1) (h0 : 0 < epsLimit (s.up : ℝ) s.signal.fs) (h1 : epsLimit (s.up : ℝ) s.signal.fs < 1)
    (h2 : epsLimit (s.up : ℝ) s.signal.fs < |z|) (k : ℕ) :
    s.emission k = some (fun _ => receiveTime s.start s.signal.fs k - |z|, fun _ => ⟨|z|, 0, 0⟩) := by
  have step : ∀ t te : ℝ, emissionStep (restPath z) 1 0 0 t te = some ⟨|z|, 0, te + |z| - t⟩ := by
    intro t te
    unfold emissionStep
    have e1 : absVec (fun i => (restPath z).loc te i + (0 : Fin 3 → ℝ) i) = |z| := by
      rw [abs_z _ (by simp [restPath]) (by simp [restPath])]; simp [restPath]
    have e2 : absVec (fun i => (restPath z).loc te i + (0 : Fin 3 → ℝ) i - (0 : Fin 3 → ℝ) i) = |z| := by
      rw [abs_z _ (by simp [restPath]) (by simp [restPath])]; simp [restPath]
    simp only [e1, e2]
    simp [hz, restPath]
  have pass : ∀ t te : Fin 1 → ℝ, emissionPass (restPath z) 1 0 (fun _ => 0) t te =
      some ⟨fun m => te m - (te m + |z| - t m), some fun m => ⟨|z|, 0, te m + |z| - t m⟩⟩ := by
    intro t te
    unfold emissionPass
    rw [dif_pos fun m => by rw [step]; rfl]
    simp only [step, Option.get_some]
  unfold SrcSet.emission emissionTimes
  rw [ht, hm, hc]
  rw [show (100 : ℕ) = 97 + 1 + 1 + 1 from rfl, emissionLoop, if_pos (by simp [emissionGoOn, h1]), pass]
  simp only
  rw [emissionLoop, if_pos (by simpa [emissionGoOn] using h2), pass]
  simp only
  rw [emissionLoop, if_neg (by simp [emissionGoOn, h0.le])]
  simp only [Option.some.injEq, Prod.mk.injEq]
  constructor
  · funext m; ring
  · funext m; congr 1; ring

/-- A source at rest (declared as moving) at distance `z` from the one microphone; its signal is a ramp. -/
noncomputable def srcRamp (up : ℕ) (z : ℝ) : SrcSet 0 :=
  ⟨fun _ => 0, ⟨1, 1, fun k => (List.range (8 * k)).map fun i : ℕ => (i : ℝ) / k⟩, 0, 1, -(9 / 4), 0, up, false, ![0, 0, 1], 1, 2,
    [1, 1], false, restPath z, 0⟩

/-- **C124 is violated** by moving point sources: the oversampling does not enter the identifier, but the output depends on
it. -/
theorem C124_moving_violated (md5 : List Char → String) (pr : SrcPrint 0) : ∃ a b : SrcSet 0,
    b = { a with up := b.up } ∧ 0 < a.up ∧ 0 < b.up ∧ a.digest md5 pr .moving = b.digest md5 pr .moving ∧
      a.result 4 .moving ≠ b.result 4 .moving := by
  refine ⟨srcRamp 1 2, srcRamp 2 2, rfl, by decide, by decide, rfl, ?_⟩
  have h1 : (srcRamp 1 2).movingRow 0 = some fun _ => 0 := by
    unfold SrcSet.movingRow
    rw [rest_emission (srcRamp 1 2) 2 (by norm_num) rfl rfl rfl (by norm_num [epsLimit, srcRamp]) (by norm_num [epsLimit, srcRamp])
      (by norm_num [epsLimit, srcRamp])]
    have h : truncInt (1 / 2 + ((receiveTime (srcRamp 1 2).start (srcRamp 1 2).signal.fs 0 - |(2 : ℝ)| - (srcRamp 1 2).startT +
        (srcRamp 1 2).start) * (srcRamp 1 2).signal.fs * ((srcRamp 1 2).up : ℝ))) = 0 := by
      norm_num [truncInt, srcRamp, receiveTime]
    simp only [fancyRow, h]
    simp [srcRamp, arrayGet]
  have h2 : (srcRamp 2 2).movingRow 0 = some fun _ => 1 / 4 := by
    unfold SrcSet.movingRow
    rw [rest_emission (srcRamp 2 2) 2 (by norm_num) rfl rfl rfl (by norm_num [epsLimit, srcRamp]) (by norm_num [epsLimit, srcRamp])
      (by norm_num [epsLimit, srcRamp])]
    have h : truncInt (1 / 2 + ((receiveTime (srcRamp 2 2).start (srcRamp 2 2).signal.fs 0 - |(2 : ℝ)| - (srcRamp 2 2).startT +
        (srcRamp 2 2).start) * (srcRamp 2 2).signal.fs * ((srcRamp 2 2).up : ℝ))) = 1 := by
      norm_num [truncInt, srcRamp, receiveTime]
    simp only [fancyRow, h]
    norm_num [srcRamp, arrayGet, ampDistance]
  have r1 : (srcRamp 1 2).signal.n = 1 := rfl
  have r2 : (srcRamp 2 2).signal.n = 1 := rfl
  simp only [SrcSet.result, r1, r2, sourceLoop, h1, h2]
  intro h
  simp at h
  have := congrFun h 0
  norm_num at this

/-- A dipole at rest (declared as moving) at distance `z` from the one microphone, pointing away from it; its signal is
constant. -/
noncomputable def srcDip (z : ℝ) : SrcSet 0 :=
  ⟨fun _ => 0, ⟨1, 1, fun k => List.replicate (8 * k) 1⟩, 0, 1, -3, 0, 1, false, ![0, 0, 100000], 1, 2, [1, 1], false, restPath z, 0⟩

private theorem dip_row (z : ℝ) (h2 : 2 ≤ z) (h3 : z ≤ 3) :
    (srcDip z).movingDipoleRow 0 = some fun _ => z / 2 * (1 / (z + 1) - 1 / (z - 1)) := by
  have hz : |z| = z := abs_of_nonneg (by linarith)
  unfold SrcSet.movingDipoleRow
  rw [rest_emission (srcDip z) z (by linarith) rfl rfl rfl (by norm_num [epsLimit, srcDip]) (by norm_num [epsLimit, srcDip])
      (by rw [hz]; norm_num [epsLimit, srcDip]; linarith)]
  have hf : fancyRow ((srcDip z).signal.u (srcDip z).up) (fun _ => 1) (fun _ : Fin 1 => (receiveTime (srcDip z).start
      (srcDip z).signal.fs 0 - |z| - (srcDip z).startT + (srcDip z).start) * (srcDip z).signal.fs * ((srcDip z).up : ℝ)) =
      some fun _ => 1 := by
    have hp : ((receiveTime (srcDip z).start (srcDip z).signal.fs 0 - |z| - (srcDip z).startT + (srcDip z).start) *
        (srcDip z).signal.fs * ((srcDip z).up : ℝ)) = 3 - z := by
      rw [hz]; simp [srcDip, receiveTime]; ring
    have hv : arrayGet ((srcDip z).signal.u (srcDip z).up) (truncInt (1 / 2 + (3 - z))) = some 1 := by
      have : truncInt (1 / 2 + (3 - z)) = 0 ∨ truncInt (1 / 2 + (3 - z)) = 1 := by
        unfold truncInt
        rw [if_neg (by linarith)]
        have a1 : (0 : ℤ) ≤ ⌊1 / 2 + (3 - z)⌋ := Int.floor_nonneg.2 (by linarith)
        have a2 : ⌊1 / 2 + (3 - z)⌋ < 2 := Int.floor_lt.2 (by push_cast; linarith)
        omega
      rcases this with h | h <;> rw [h] <;> simp [arrayGet, srcDip]
    unfold fancyRow
    simp only [hp, hv]
    simp
  simp only [hf]
  have hd : (absVec fun i => (srcDip z).direction i * (1 / 100000)) = 1 := by
    rw [abs_z _ (by simp [srcDip]) (by simp [srcDip])]; simp [srcDip]
  unfold Acoular.movingDipoleRow movingDirection
  rw [if_pos (show (srcDip z).rvec = 0 from rfl)]
  simp only [Option.map_some, hd]
  congr 1
  funext m
  rw [abs_z _ (by simp [srcDip, restPath]) (by simp [srcDip, restPath]),
    abs_z _ (by simp [srcDip, restPath]) (by simp [srcDip, restPath])]
  simp only [srcDip, restPath, ampDistance, hz, Pi.zero_apply, Matrix.cons_val]
  rw [abs_of_nonneg (by norm_num; linarith), abs_of_nonneg (by norm_num; linarith)]
  norm_num

/-- **C124 is violated** by moving dipoles: the path does not enter the identifier, but the output depends on it. -/
theorem C124_moving_dipole_violated (md5 : List Char → String) (pr : SrcPrint 0) : ∃ a b : SrcSet 0,
    b = { a with trajectory := b.trajectory } ∧ a.digest md5 pr .movingDipole = b.digest md5 pr .movingDipole ∧
      a.result 4 .movingDipole ≠ b.result 4 .movingDipole := by
  refine ⟨srcDip 2, srcDip 3, rfl, rfl, ?_⟩
  have r : ∀ z, (srcDip z).signal.n = 1 := fun _ => rfl
  simp only [SrcSet.result, r, sourceLoop, dip_row 2 (by norm_num) (by norm_num), dip_row 3 (by norm_num) (by norm_num)]
  intro h
  simp at h
  have := congrFun h 0
  norm_num at this

/-! ### The hypotheses are met -/

/-- Two point sources that differ in their speed of sound, printed as `"1"` and `"2"`. -/
example : ∃ (pr : SrcPrint 0) (a b : SrcSet 0), a.c ≠ b.c ∧ FaithfulPrint pr a b .point ∧ FaithfulPrint pr a b .moving ∧
    FaithfulPrint pr a b .movingDipole ∧ FaithfulPrint pr a b .line := by
  classical
  refine ⟨⟨fun _ => "", fun _ => "", fun _ => "", fun c => if c = 1 then "1" else "2", fun _ => "", fun _ => "", fun _ => "",
    fun _ => "", fun _ => "", fun _ => ""⟩, srcDip 2, { srcDip 2 with c := 2 }, by norm_num [srcDip], ?_, ?_, ?_, ?_⟩ <;>
  · constructor <;> first | exact fun _ => rfl | (norm_num [SrcSet.depends, srcDip]; decide)

end Acoular
