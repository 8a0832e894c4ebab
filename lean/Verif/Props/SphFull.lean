import Verif.Model.SphFull
import Verif.Props.Sources
import Verif.Props.SphHarm
import Verif.Props.SphSource
import Verif.Spec.Sources
import Mathlib.Analysis.Real.Pi.Bounds

/-!
# C133: spherical harmonic sources as point sources with a directivity
-/

namespace Acoular

open Spec Real

variable {M : ℕ}

private theorem transform_eq (s : SphSet M) (block : List (Fin (M + 1) → ℝ)) :
    s.transform block = block.map fun row m => row m * (s.directivity m).re := by
  unfold SphSet.transform
  refine List.ext_getElem (by simp) fun t h1 h2 => ?_
  have ht : t < block.length := by simpa using h1
  rw [List.getElem_map, List.getElem_range, List.getElem_map]
  funext m
  rw [sphTransform_eq]
  simp [List.getD_eq_getElem?_getD, List.getElem?_eq_getElem ht]

/-- Position in the oversampled signal at which sample `t` of microphone `m` was emitted. -/
noncomputable def Spec.emittedAt (r c startT start fs up : ℝ) (t : ℕ) : ℝ := ((-r / c - startT + start) * fs + t) * up

/-- **C133** (part) What microphone `m` receives is the signal at the position of emission (shifted, see
`C133_delay_violated`), divided by the distance, times the real part of the sum of the modes weighted with the coefficients. -/
theorem C133_rows_partial (s : SphSet M) (num : ℕ) (hnum : 0 < num) (ha : s.alpha.length = (s.order + 1) ^ 2)
    (hl : 0 < (s.signal.u s.up).length)
    (h : ∀ t < s.signal.n, ∀ m, -((s.signal.u s.up).length : ℝ) ≤ s.index t m * s.up ∧ s.index t m * s.up ≤ ((s.signal.u s.up).length : ℝ) - 1) :
    ∃ f : ℕ → Fin (M + 1) → ℝ, (s.result num).exit = .returned ∧ IsBlocking num ((List.range s.signal.n).map f) (s.result num).blocks ∧
      ∀ t < s.signal.n, ∀ m, (loopedSample (s.signal.u s.up)
        (nearestSample (emittedAt (s.dist s.loc m) s.c s.startT s.start s.signal.fs s.up t + π / 30 * s.up))).map
          (fun v => v / s.dist s.loc m * (s.directivity m).re) = some (f t m) := by
  obtain ⟨g, hg, hv⟩ := C42_moving_point_source (s.signal.u s.up) (s.up : ℝ) (fun _ => s.dist s.loc) s.index s.signal.n num hnum hl h
  refine ⟨fun t m => g t m * (s.directivity m).re, ?_, ?_, ?_⟩
  · unfold SphSet.result
    simp only
    split
    · rfl
    · rfl
  · unfold SphSet.result
    simp only
    split
    · rename_i h0
      rw [h0] at hg
      have hn : s.signal.n = 0 := by
        have := congrArg List.length hg.cover
        simpa using this.symm
      rw [hn]
      exact (isBlocking_iff hnum).2 (by simp [chunks_nil, Trace.stop])
    · have := hg.map hnum (fun (row : Fin (M + 1) → ℝ) m => row m * (s.directivity m).re)
      rw [List.map_map] at this
      have e : (sourceLoop (monopoleRow (s.signal.u s.up) (s.up : ℝ) (fun _ => s.dist s.loc) s.index) num true s.signal.n 0 []).map s.transform
          = (sourceLoop (monopoleRow (s.signal.u s.up) (s.up : ℝ) (fun _ => s.dist s.loc) s.index) num true s.signal.n 0 []).map
            (List.map fun (row : Fin (M + 1) → ℝ) m => row m * (s.directivity m).re) :=
        List.map_congr_left fun b _ => transform_eq s b
      show IsBlocking num _ (List.map s.transform _)
      rw [e]
      exact this
  · intro t ht m
    have := hv t ht m
    have e : emittedAt (s.dist s.loc m) s.c s.startT s.start s.signal.fs s.up t + π / 30 * s.up = s.index t m * s.up := by
      unfold emittedAt SphSet.index
      ring
    rw [e]
    cases hs : loopedSample (s.signal.u s.up) (nearestSample (s.index t m * s.up)) with
    | none => rw [hs] at this; simp at this
    | some v =>
      rw [hs] at this
      simp only [Option.map_some, Option.some.injEq] at this ⊢
      rw [this]

/-- **C133** A source of order zero radiates equally in all directions. -/
theorem C133_monopole (s : SphSet M) (a : ℂ) (h0 : s.order = 0) (ha : s.alpha = [a]) (m : Fin (M + 1)) :
    s.directivity m = a / (√(4 * π) : ℝ) := by
  unfold SphSet.directivity getModes
  rw [h0, ha]
  simp only [modePairs, modeValue, sphHarm, legendreP]
  simp [List.range_succ]
  rw [div_eq_mul_inv, mul_comm, mul_inv, mul_comm ((√π : ℂ)⁻¹)]

/-- The hypotheses of `C133_monopole` are met: -/
example (s : SrcSet 0) (m : Fin 1) := C133_monopole { toSrcSet := s, order := 0, alpha := [1 + Complex.I] } (1 + Complex.I) rfl rfl m

private theorem nearest_lt (x d : ℝ) (hx : 0 ≤ x) (hd : 1 ≤ d) : nearestSample x < nearestSample (x + d) := by
  unfold nearestSample
  rw [if_neg (by linarith), if_neg (by linarith)]
  have : ⌊x + 1 / 2⌋ + 1 ≤ ⌊x + d + 1 / 2⌋ := by
    rw [Int.le_floor]
    push_cast
    have := Int.floor_le (x + 1 / 2)
    linarith
  omega

/-- **C133** violated: the signal is read `pi / 30 * up` samples of the oversampled signal later than at the time of emission. If
it is oversampled ten times or more this is another sample than the nearest one for every microphone and every sample, and with
the distances, the signal and the starting times of a point source a source of order zero gives other values. -/
theorem C133_delay_violated :
    (∀ (r c startT start fs : ℝ) (up : ℕ), 10 ≤ up → ∀ t, 0 ≤ emittedAt r c startT start fs up t →
      nearestSample (emittedAt r c startT start fs up t) < nearestSample (emittedAt r c startT start fs up t + π / 30 * up)) ∧
    ∃ s : SphSet 0, s.order = 0 ∧ (∀ m, s.directivity m = 1) ∧
      s.toSrcSet.result 4 .point = .ok [[fun _ => some 0]] ∧ (s.result 4).blocks = [[fun _ => 1]] := by
  refine ⟨fun r c startT start fs up hup t h => ?_, ?_⟩
  · apply nearest_lt _ _ h
    have h1 : (10 : ℝ) ≤ up := by exact_mod_cast hup
    have h2 := Real.pi_gt_three
    nlinarith
  · let src : SrcSet 0 := {
      mics := fun _ => ![0, 1, 0], signal := ⟨1, 1, fun _ => [0, 1]⟩, loc := 0, c := 1, startT := 0, start := 1,
      up := 10, zeros := false, direction := ![1, 0, 0], length := 0, numSources := 0, strength := [], convAmp := false,
      trajectory := ⟨fun _ => 0, fun _ => 0⟩, rvec := 0 }
    let s : SphSet 0 := { toSrcSet := src, order := 0, alpha := [((√(4 * π) : ℝ) : ℂ)] }
    have hr : ∀ m, src.dist src.loc m = 1 := by
      intro m
      simp [SrcSet.dist, absVec, src]
    have hpos : (√(4 * π) : ℝ) ≠ 0 := by positivity
    have hdir : ∀ m, s.directivity m = 1 := by
      intro m
      rw [C133_monopole s _ rfl rfl]
      exact div_self (by exact_mod_cast hpos)
    refine ⟨s, rfl, hdir, ?_, ?_⟩
    · show src.result 4 .point = _
      unfold SrcSet.result
      have hi : emissionIndex (src.dist src.loc) src.c src.startT src.start src.signal.fs src.up = fun _ => 0 := by
        funext m
        unfold emissionIndex
        rw [hr]
        simp [src]
      simp only [hi]
      have hz : truncInt (2⁻¹ : ℝ) = 0 := by unfold truncInt; norm_num
      simp [pointSource, fullSourceBlocks, src, fillMicSignalBlock]
      funext m
      simp [micRow, hz, arrayGet]
    · have hidx : ∀ m, s.index 0 m = π / 30 := by
        intro m
        unfold SphSet.index
        show (-src.dist src.loc m / src.c - src.startT + src.start) * src.signal.fs + π / 30 + (0 : ℕ) = _
        rw [hr]
        simp [src]
      have htr : truncInt (1 / 2 + π / 30 * ((10 : ℕ) : ℝ)) = 1 := by
        have h1 := Real.pi_gt_three
        have h2 := Real.pi_lt_d2
        unfold truncInt
        rw [if_neg (by push_cast; linarith), Int.floor_eq_iff]
        constructor
        · push_cast; linarith
        · push_cast; linarith
      have hrow : monopoleRow (s.signal.u s.up) (s.up : ℝ) (fun _ => s.dist s.loc) s.index 0 = some fun _ => 1 := by
        unfold monopoleRow fancyRow
        have hg : ∀ m, arrayGet (s.signal.u s.up) (truncInt (1 / 2 + s.index 0 m * (s.up : ℝ))) = some 1 := by
          intro m
          rw [hidx]
          show arrayGet [0, 1] (truncInt (1 / 2 + π / 30 * ((10 : ℕ) : ℝ))) = some 1
          rw [htr]
          simp [arrayGet]
        rw [dif_pos (fun m => by rw [hg m]; rfl)]
        congr 1
        funext m
        have : (arrayGet (s.signal.u s.up) (truncInt (1 / 2 + s.index 0 m * (s.up : ℝ)))).get (by rw [hg m]; rfl) = 1 := by
          simp only [hg]
          rfl
        rw [this]
        show 1 / src.dist src.loc m = 1
        rw [hr, div_one]
      have hloop : sourceLoop (monopoleRow (s.signal.u s.up) (s.up : ℝ) (fun _ => s.dist s.loc) s.index) 4 true s.signal.n 0 [] =
          [[fun _ => 1]] := by
        show sourceLoop _ 4 true 1 0 [] = _
        simp [sourceLoop, hrow]
      unfold SphSet.result
      simp only [hloop]
      rw [if_neg (by simp), if_pos (by simp [s])]
      simp only [List.map_cons, List.map_nil, transform_eq, hdir]
      simp

/-- **C133** violated: the direction does not enter the identifier, but the output depends on it. -/
theorem C133_direction_violated (md5 : List Char → String) (pr : SrcPrint 0) (prAlpha : List ℂ → String) :
    ∃ a b : SphSet 0, b = { a with direction := b.direction } ∧ a.digest md5 pr prAlpha = b.digest md5 pr prAlpha ∧
      (a.result 4).blocks ≠ (b.result 4).blocks := by
  let src : (Fin 3 → ℝ) → SrcSet 0 := fun d => {
      mics := fun _ => ![0, 1, 0], signal := ⟨1, 1, fun _ => [1]⟩, loc := 0, c := 1, startT := 0,
      start := 1, up := 1, zeros := false, direction := d, length := 0, numSources := 0, strength := [], convAmp := false,
      trajectory := ⟨fun _ => 0, fun _ => 0⟩, rvec := 0 }
  let s : (Fin 3 → ℝ) → SphSet 0 := fun d => { toSrcSet := src d, order := 1, alpha := [0, 0, 1, 0] }
  have hdir : ∀ d m, ∀ z, (getModes 1 d ![0, 1, 0] (some 0))[2]? = some z → (s d).directivity m = z := by
    intro d m z hz
    unfold SphSet.directivity
    show (List.zipWith (· * ·) (getModes 1 d ![0, 1, 0] (some 0)) [0, 0, 1, 0]).sum = z
    have hlen := (C112_columns (L := 1) (d := d) (m := ![0, 1, 0]) (src := some 0)).1
    match getModes 1 d ![0, 1, 0] (some 0), hlen, hz with
    | [x0, x1, x2, x3], _, hz => simpa using hz
  have hmode : ∀ d, d ≠ 0 → (getModes 1 d ![0, 1, 0] (some 0))[2]? = some ((modeAmp 1 0 (polarY d + π / 2) : ℝ) : ℂ) := by
    intro d hd
    have := (C112_modes d ![0, 1, 0] 1 (some 0) 1 0 (le_refl _) (by norm_num)).1
    have hcol : modeColumn 1 ((0 : ℕ) : ℤ) = 2 := by simp [modeColumn]
    rw [hcol] at this
    rw [this]
    have he : (radiationAngles d ![0, 1, 0] ((some (0 : Fin 3 → ℝ)).getD fun _ => 0)).2 = polarY d + π / 2 := by
      show (radiationAngles d ![0, 1, 0] 0).2 = _
      rw [C111_elevation d ![0, 1, 0] 0 hd (by intro h; simpa using congrFun h 1)]
      have : polarY (fun i => (![0, 1, 0] : Fin 3 → ℝ) i - (0 : Fin 3 → ℝ) i) = 0 := by simp [polarY]
      rw [this, zero_add]
    rw [he]
    simp
  have hres : ∀ d m0, ∀ z : ℝ, (s d).directivity m0 = z → ∀ f, (s d).result 4 = ⟨f, .returned⟩ → f = [[fun _ => z]] := by
    intro d m0 z hz f hf
    have hr : ∀ m, (src d).dist (src d).loc m = 1 := by
      intro m
      simp [SrcSet.dist, absVec, src]
    have hidx : ∀ m, (s d).index 0 m = π / 30 := by
      intro m
      unfold SphSet.index
      show (-(src d).dist (src d).loc m / (src d).c - (src d).startT + (src d).start) * (src d).signal.fs + π / 30 + (0 : ℕ) = _
      rw [hr]
      simp [src]
    have htr : truncInt (1 / 2 + π / 30 * ((1 : ℕ) : ℝ)) = 0 := by
      have h1 := Real.pi_gt_three
      have h2 := Real.pi_lt_d2
      unfold truncInt
      rw [if_neg (by push_cast; linarith), Int.floor_eq_iff]
      constructor
      · push_cast; linarith
      · push_cast; linarith
    have hrow : monopoleRow ((s d).signal.u (s d).up) ((s d).up : ℝ) (fun _ => (s d).dist (s d).loc) (s d).index 0 = some fun _ => 1 := by
      unfold monopoleRow fancyRow
      have hg : ∀ m, arrayGet ((s d).signal.u (s d).up) (truncInt (1 / 2 + (s d).index 0 m * ((s d).up : ℝ))) = some 1 := by
        intro m
        rw [hidx]
        show arrayGet [1] (truncInt (1 / 2 + π / 30 * ((1 : ℕ) : ℝ))) = some 1
        rw [htr]
        simp [arrayGet]
      rw [dif_pos (fun m => by rw [hg m]; rfl)]
      congr 1
      funext m
      have : (arrayGet ((s d).signal.u (s d).up) (truncInt (1 / 2 + (s d).index 0 m * ((s d).up : ℝ)))).get (by rw [hg m]; rfl) = 1 := by
        simp only [hg]
        rfl
      rw [this]
      show 1 / (src d).dist (src d).loc m = 1
      rw [hr, div_one]
    have hloop : sourceLoop (monopoleRow ((s d).signal.u (s d).up) ((s d).up : ℝ) (fun _ => (s d).dist (s d).loc) (s d).index) 4 true
        (s d).signal.n 0 [] = [[fun _ => 1]] := by
      show sourceLoop _ 4 true 1 0 [] = _
      simp [sourceLoop, hrow]
    unfold SphSet.result at hf
    simp only [hloop] at hf
    rw [if_neg (by simp), if_pos (by simp [s])] at hf
    simp only [List.map_cons, List.map_nil, transform_eq, Trace.mk.injEq, and_true] at hf
    rw [← hf]
    congr 2
    funext m
    rw [Subsingleton.elim (α := Fin 1) m m0, hz]
    simp
  have hex : ∀ d, ∃ f, (s d).result 4 = ⟨f, .returned⟩ := by
    intro d
    unfold SphSet.result
    simp only
    split
    · exact ⟨_, rfl⟩
    · exact ⟨_, rfl⟩
  have h10 : ∀ e : ℝ, modeAmp 1 0 e = √(3 / (4 * π)) * cos e := by
    intro e
    unfold modeAmp legendreP
    norm_num
    left
    ring
  refine ⟨s ![0, 1, 0], s ![1, 0, 0], rfl, rfl, ?_⟩
  obtain ⟨f, hf⟩ := hex ![0, 1, 0]
  obtain ⟨g, hg⟩ := hex ![1, 0, 0]
  have e1 := hres _ 0 _ (hdir _ 0 _ (hmode ![0, 1, 0] (by intro h; simpa using congrFun h 1))) f hf
  have e2 := hres _ 0 _ (hdir _ 0 _ (hmode ![1, 0, 0] (by intro h; simpa using congrFun h 0))) g hg
  rw [hf, hg]
  simp only
  rw [e1, e2, h10, h10]
  have p1 : polarY ![0, 1, 0] = 0 := by simp [polarY]
  have p2 : polarY ![1, 0, 0] = π / 2 := by simp [polarY]
  rw [p1, p2, show (0 : ℝ) + π / 2 = π / 2 from zero_add _, cos_pi_div_two, mul_zero, add_halves, cos_pi]
  intro h
  simp only [List.cons.injEq, and_true] at h
  have := congrFun h 0
  have hp : 0 < √(3 / (4 * π)) := by positivity
  linarith

/-- A source that meets the hypotheses of `C133_rows_partial`. -/
example : ∃ s : SphSet 0, s.alpha.length = (s.order + 1) ^ 2 ∧ 0 < (s.signal.u s.up).length ∧ 0 < s.signal.n ∧
    ∀ t < s.signal.n, ∀ m, -((s.signal.u s.up).length : ℝ) ≤ s.index t m * s.up ∧ s.index t m * s.up ≤ ((s.signal.u s.up).length : ℝ) - 1 := by
  let src : SrcSet 0 := {
      mics := fun _ => ![0, 1, 0], signal := ⟨1, 2, fun _ => [1, 2]⟩, loc := 0, c := 1, startT := 0, start := 0,
      up := 1, zeros := false, direction := ![1, 0, 0], length := 0, numSources := 0, strength := [], convAmp := false,
      trajectory := ⟨fun _ => 0, fun _ => 0⟩, rvec := 0 }
  refine ⟨{ toSrcSet := src, order := 1, alpha := [1, 2, 3, 4] }, rfl, by norm_num [src], by norm_num [src], ?_⟩
  intro t ht m
  have hr : src.dist src.loc m = 1 := by simp [SrcSet.dist, absVec, src]
  have ht : t < 2 := ht
  have h1 := Real.pi_gt_three
  have h2 := Real.pi_lt_d2
  have hi : SphSet.index { toSrcSet := src, order := 1, alpha := [1, 2, 3, 4] } t m = -1 + π / 30 + t := by
    unfold SphSet.index
    show (-src.dist src.loc m / src.c - src.startT + src.start) * src.signal.fs + π / 30 + t = _
    rw [hr]
    simp [src]
  rw [hi]
  have h0 : (0 : ℝ) ≤ t := Nat.cast_nonneg t
  have ht' : (t : ℝ) ≤ 1 := by exact_mod_cast Nat.lt_succ_iff.1 ht
  simp only [src, List.length_cons, List.length_nil]
  push_cast
  constructor <;> linarith

end Acoular
