import Verif.Model.MovingLine
import Verif.Props.Sources
import Verif.Props.SourceDigest
import Mathlib.Tactic.IntervalCases

/-!
# C134: moving sources that do not move
-/

namespace Acoular

variable {M : ℕ}

/-- The trajectory stays at the location of the source. -/
structure Spec.AtRest (s : SrcSet M) : Prop where
  loc : ∀ t, s.trajectory.loc t = s.loc
  vel : ∀ t, s.trajectory.vel t = 0

open Spec

private theorem rest_times (tr : Path) (x : Fin 3 → ℝ) (hl : ∀ t, tr.loc t = x) (hv : ∀ t, tr.vel t = 0) (c eps : ℝ) (h0 : 0 ≤ eps)
    (h1 : eps < 1) (dir : Fin 3 → ℝ) (hx : absVec (fun i => x i + dir i) ≠ 0) (mics : Fin M → Fin 3 → ℝ) (t : Fin M → ℝ) :
    ∃ l : Fin M → EmissionStep, emissionTimes tr c eps dir mics t =
        some ⟨fun m => t m - absVec (fun i => x i + dir i - mics m i) / c, some l⟩ ∧
      ∀ m, (l m).rm = absVec (fun i => x i + dir i - mics m i) ∧ (l m).mr = 0 := by
  have step : ∀ (m : Fin 3 → ℝ) (t te : ℝ), emissionStep tr c dir m t te =
      some ⟨absVec (fun i => x i + dir i - m i), 0, te + absVec (fun i => x i + dir i - m i) / c - t⟩ := by
    intro m t te
    unfold emissionStep
    simp only [hl, hv, Pi.zero_apply, zero_mul, add_zero, zero_div, div_one]
    rw [if_neg hx, if_neg (by norm_num)]
  have pass : ∀ te : Fin M → ℝ, emissionPass tr c dir mics t te =
      some ⟨fun m => t m - absVec (fun i => x i + dir i - mics m i) / c,
        some fun m => ⟨absVec (fun i => x i + dir i - mics m i), 0, te m + absVec (fun i => x i + dir i - mics m i) / c - t m⟩⟩ := by
    intro te
    unfold emissionPass
    rw [dif_pos fun m => by rw [step]; rfl]
    simp only [step, Option.get_some, Option.some.injEq, EmissionState.mk.injEq, and_true]
    funext m; ring
  unfold emissionTimes
  rw [show (100 : ℕ) = 97 + 1 + 1 + 1 from rfl, emissionLoop, if_pos (by simp [emissionGoOn, h1]), pass]
  simp only
  rw [emissionLoop]
  split
  · rw [pass]
    simp only
    rw [emissionLoop, if_neg (by simp [emissionGoOn, h0])]
    exact ⟨_, rfl, fun m => ⟨rfl, rfl⟩⟩
  · exact ⟨_, rfl, fun m => ⟨rfl, rfl⟩⟩

private theorem receive_eq (start fs : ℝ) (k : ℕ) : receiveTime start fs k = start + k / fs := by
  induction k with
  | zero => simp [receiveTime]
  | succ k ih => simp only [receiveTime, ih]; push_cast; ring

private theorem absVec_ne {x : Fin 3 → ℝ} (hx : x ≠ 0) : absVec x ≠ 0 := by
  unfold absVec
  intro h
  have h0 := mul_self_nonneg (x 0)
  have h1 := mul_self_nonneg (x 1)
  have h2 := mul_self_nonneg (x 2)
  rw [Real.sqrt_eq_zero (by linarith)] at h
  refine hx (funext fun i => ?_)
  fin_cases i
  · exact mul_self_eq_zero.1 (by simp only [Fin.zero_eta]; linarith)
  · exact mul_self_eq_zero.1 (by simp only [Fin.mk_one]; linarith)
  · exact mul_self_eq_zero.1 (by simp only [Fin.reduceFinMk]; linarith)

/-- The settings for which the theorems hold: sampling frequency and oversampling are positive, and the accuracy `0.1 / up / fs`
of the emission times is below one second. -/
structure Spec.Sampled (s : SrcSet M) : Prop where
  fs : 0 < s.signal.fs
  up : 0 < s.up
  acc : 1 / 10 < s.up * s.signal.fs

private theorem eps_ok {s : SrcSet M} (h : Sampled s) : 0 ≤ epsLimit (s.up : ℝ) s.signal.fs ∧ epsLimit (s.up : ℝ) s.signal.fs < 1 := by
  have h1 := h.fs
  have h2 : (0 : ℝ) < s.up := by exact_mod_cast h.up
  have h3 := h.acc
  unfold epsLimit
  refine ⟨by positivity, ?_⟩
  rw [div_div, div_lt_one (by positivity)]
  norm_num
  linarith

/-- **C134** (part) A moving source that stays where it is: sample `k` is the signal at the position where a point source
reads it, with the time `start` added once more, divided by the distance. Convective amplification makes no difference. -/
theorem C134_rows (s : SrcSet M) (hs : AtRest s) (hx : s.loc ≠ 0) (ha : Sampled s) (k : ℕ) :
    s.movingRow k = fancyRow (s.signal.u s.up) (s.dist s.loc)
      fun m => emissionIndex (s.dist s.loc) s.c s.startT s.start s.signal.fs s.up m + k * s.up + s.start * s.signal.fs * s.up := by
  have hfs := ha.fs.ne'
  obtain ⟨e0, e1⟩ := eps_ok ha
  obtain ⟨l, h, hl⟩ := rest_times s.trajectory s.loc hs.loc hs.vel s.c _ e0 e1 0 (by simpa using absVec_ne hx) s.mics
    (fun _ => receiveTime s.start s.signal.fs k)
  unfold SrcSet.movingRow SrcSet.emission
  rw [h]
  simp only [Pi.zero_apply, add_zero] at hl ⊢
  congr 1
  · funext m
    simp [ampDistance, hl, SrcSet.dist]
  · funext m
    simp only [emissionIndex, SrcSet.dist, receive_eq]
    field_simp
    ring

/-- **C134** (part) If the data acquisition starts with the sound (`start` is zero), a moving source that stays where it is
delivers exactly what a point source there delivers, in the same blocks. -/
theorem C134_point_partial (s : SrcSet M) (hs : AtRest s) (hx : s.loc ≠ 0) (ha : Sampled s) (h0 : s.start = 0) (hz : s.zeros = false)
    (num : ℕ) (hnum : 0 < num) (hn : 0 < s.signal.n) (hl : 0 < (s.signal.u s.up).length)
    (h : ∀ k < s.signal.n, ∀ m, -((s.signal.u s.up).length : ℝ) ≤
        emissionIndex (s.dist s.loc) s.c s.startT s.start s.signal.fs s.up m + k * s.up ∧
      emissionIndex (s.dist s.loc) s.c s.startT s.start s.signal.fs s.up m + k * s.up ≤ ((s.signal.u s.up).length : ℝ) - 1) :
    s.result num .moving = s.result num .point := by
  have hp := C42_point_source_partial (s.signal.u s.up) (s.dist s.loc)
    (emissionIndex (s.dist s.loc) s.c s.startT s.start s.signal.fs s.up) s.up s.signal.n num s.zeros ha.up hnum hn
    (by rw [hz]; intro hc; cases hc)
  have hex : ∀ k, ∃ a : Fin (M + 1) → ℝ, k < s.signal.n → s.movingRow k = some a ∧ ∀ m,
      receivedSample (s.signal.u s.up) (s.dist s.loc) (emissionIndex (s.dist s.loc) s.c s.startT s.start s.signal.fs s.up)
        (s.up : ℝ) s.zeros k m = some (a m) := by
    intro k
    by_cases hk : k < s.signal.n
    · obtain ⟨a, ha', hv⟩ := fancyRow_eq (s.signal.u s.up) (s.dist s.loc)
        (fun m => emissionIndex (s.dist s.loc) s.c s.startT s.start s.signal.fs s.up m + k * s.up) (h k hk) hl
      refine ⟨a, fun _ => ⟨?_, fun m => ?_⟩⟩
      · rw [C134_rows s hs hx ha k, ← ha']
        congr 1
        funext m
        rw [h0]
        ring
      · unfold receivedSample
        rw [hz, if_neg (by simp)]
        exact hv m
    · exact ⟨fun _ => 0, fun hc => absurd hc hk⟩
  choose f hf using hex
  have hm := C42_guarded_loop s.movingRow f s.signal.n num hnum fun t ht => (hf t ht).1
  have hm' := hm.map hnum fun (r : Fin (M + 1) → ℝ) m => some (r m)
  unfold SrcSet.result
  simp only
  congr 1
  rw [isBlocking_iff hnum] at hm' hp
  rw [hm', hp]
  congr 1
  rw [List.map_map]
  refine List.map_congr_left fun k hk => ?_
  funext m
  exact ((hf k (List.mem_range.1 hk)).2 m).symm

/-! ### Line sources -/

private theorem mapM_some {α β : Type*} (l : List α) (f : α → Option β) (g : α → β) (h : ∀ x ∈ l, f x = some (g x)) :
    l.mapM f = some (l.map g) := by
  induction l with
  | nil => rfl
  | cons a l ih =>
    rw [List.mapM_cons, h a (by simp), ih fun x hx => h x (List.mem_cons_of_mem _ hx)]
    rfl

private theorem ampLast_rest (b : Bool) (l : List (LineMono M)) (h : ∀ x ∈ l, x.mr = 0) : ampLast b l = l := by
  induction l with
  | nil => rfl
  | cons x l ih =>
    cases l with
    | nil =>
      obtain ⟨rm, mr, ind⟩ := x
      have : mr = 0 := h ⟨rm, mr, ind⟩ (by simp)
      subst this
      simp [ampLast, ampDistance]
    | cons y l => rw [ampLast, ih fun z hz => h z (List.mem_cons_of_mem _ hz)]

private theorem lineSignals_length (base : ℕ → List ℝ) (hash : SigState ℝ → ℕ) (inc : Bool) (st : List ℝ) (n : ℕ) :
    ∀ s g r, lineSignals base hash inc st n s g = .ok r → r.1.length = n := by
  induction n with
  | zero => intro s g r h; cases h; rfl
  | succ n ih =>
    intro s g r h
    simp only [lineSignals] at h
    split at h
    · cases h
    · split at h
      · cases h
      · rename_i h2
        cases h
        simp [ih _ _ _ h2]

private theorem lineRow_shift (up : ℝ) (mono : List (List ℝ × (Fin M → ℝ) × (Fin M → ℝ))) (j t : ℕ) (d : ℝ) :
    lineRow up (mono.map fun x => (x.1, x.2.1, fun m => x.2.2 m + (d + t))) j =
      lineRow up (mono.map fun x => (x.1, x.2.1, fun m => x.2.2 m + d)) (j + t) := by
  induction mono with
  | nil => rfl
  | cons x l ih =>
    simp only [List.map_cons, lineRow, ih]
    congr 2
    funext m
    push_cast
    ring

/-- **C134** (part, violated) A moving line source that stays where it is: sample `k` is sample `k + 1` of the line source
there, with the time `start` added once more. -/
theorem C134_line (s : SrcSet M) (hs : AtRest s) (ha : Sampled s) (hr : s.rvec = 0)
    (hx : ∀ j < s.numSources, (fun i => s.loc i + s.lineStep i * j) ≠ 0) (hx0 : s.loc ≠ 0)
    (mono : List (List ℝ × (Fin (M + 1) → ℝ) × (Fin (M + 1) → ℝ))) (hm : s.monopoles = .ok mono) (num : ℕ) :
    s.movingLine num = .ok (sourceLoop
      (fun k => lineRow (s.up : ℝ) (mono.map fun x => (x.1, x.2.1, fun m => x.2.2 m + s.start * s.signal.fs)) (k + 1))
      num false s.signal.n 0 []) := by
  have hfs := ha.fs.ne'
  obtain ⟨e0, e1⟩ := eps_ok ha
  unfold SrcSet.monopoles at hm
  unfold SrcSet.movingLine
  revert hm
  generalize hsg : lineSignals (fun _ => s.signal.u s.up) (fun _ => 0) false s.strength s.numSources 0 ⟨1, 0⟩ = sg
  intro hm
  match sg, hm, hsg with
  | .ok (sigs, g), hm, hsg =>
    have hlen : sigs.length = s.numSources := lineSignals_length _ _ _ _ _ _ _ _ hsg
    simp only [Except.ok.injEq] at hm ⊢
    congr 1
    funext k
    have em : ∀ j : ℕ, (fun i => s.loc i + s.lineStep i * j) ≠ 0 → ∃ l : Fin (M + 1) → EmissionStep,
        s.lineEmission k (fun i => s.lineStep i * j) =
          some (fun m => receiveTimeLine s.start s.signal.fs k - s.dist (fun i => s.loc i + s.lineStep i * j) m / s.c, l) ∧
        ∀ m, (l m).mr = 0 := by
      intro j hj
      obtain ⟨l, h, hl⟩ := rest_times s.trajectory s.loc hs.loc hs.vel s.c _ e0 e1 (fun i => s.lineStep i * j) (absVec_ne hj) s.mics
        (fun _ => receiveTimeLine s.start s.signal.fs k)
      refine ⟨l, ?_, fun m => (hl m).2⟩
      unfold SrcSet.lineEmission
      rw [h]
      rfl
    obtain ⟨l0, h0, -⟩ := em 0 (by simpa using hx0)
    have h0' : s.lineEmission k 0 = some (fun m => receiveTimeLine s.start s.signal.fs k -
        s.dist (fun i => s.loc i + s.lineStep i * (0 : ℕ)) m / s.c, l0) := by
      rw [← h0]; congr 1; funext i; simp
    unfold SrcSet.movingLineRow
    rw [h0']
    simp only
    have hmono : ∀ te1 : Fin (M + 1) → ℝ, ∀ j ∈ List.range s.numSources, s.lineMono k te1 j = some
        { rm := s.dist fun i => s.loc i + s.lineStep i * j
          mr := 0
          ind := fun m => (-(s.dist (fun i => s.loc i + s.lineStep i * j) m) / s.c - s.startT + s.start) * s.signal.fs +
            (s.start * s.signal.fs + (1 : ℕ)) + k } := by
      intro te1 j hj
      obtain ⟨l, h, hl⟩ := em j (hx j (List.mem_range.1 hj))
      unfold SrcSet.lineMono
      rw [hr]
      simp only [movingDirection, if_true, h, hs.loc]
      congr 2
      · funext m; exact hl m
      · funext m
        simp only [receiveTimeLine, receive_eq, neg_div]
        generalize s.dist (fun i => s.loc i + s.lineStep i * j) m / s.c = q
        field_simp
        push_cast
        ring
    rw [mapM_some _ _ _ (hmono _)]
    simp only
    rw [ampLast_rest _ _ (by intro x hx; obtain ⟨j, -, rfl⟩ := List.mem_map.1 hx; rfl)]
    have := lineRow_shift (s.up : ℝ) mono 0 (k + 1) (s.start * s.signal.fs)
    rw [Nat.zero_add] at this
    rw [← this, ← hm]
    congr 1
    refine List.ext_getElem (by simp [hlen]) fun j h1 h2 => ?_
    simp only [List.getElem_zipWith, List.getElem_map, List.getElem_range, Prod.mk.injEq]
    have hj : j < sigs.length := by simp at h1; omega
    refine ⟨by rw [List.getD_eq_getElem?_getD, List.getElem?_eq_getElem hj, Option.getD_some], rfl, ?_⟩
    funext m
    simp only [SrcSet.lineStep]
    push_cast
    ring

/-! ### What is false -/

/-- A source at height `z` above the one microphone, declared as moving; the signal counts the samples. -/
noncomputable def restSrc (z startT start : ℝ) : SrcSet 0 := {
  mics := fun _ => 0, signal := ⟨1, 1, fun _ => [0, 1, 2, 3]⟩, loc := ![0, 0, z], c := 1, startT := startT, start := start, up := 1,
  zeros := false, direction := ![0, 0, 1], length := 1, numSources := 1, strength := [1], convAmp := false,
  trajectory := restPath z, rvec := 0 }

private theorem rest_at (z a b : ℝ) : AtRest (restSrc z a b) := ⟨fun _ => rfl, fun _ => rfl⟩

private theorem rest_sampled (z a b : ℝ) : Sampled (restSrc z a b) :=
  ⟨by norm_num [restSrc], by norm_num [restSrc], by norm_num [restSrc]⟩

private theorem rest_ne (z a b : ℝ) (hz : 0 < z) : (restSrc z a b).loc ≠ 0 := by
  intro h
  have := congrFun h 2
  simp [restSrc] at this
  linarith

private theorem rest_dist (z a b x : ℝ) (hx : 0 ≤ x) (y : Fin 3 → ℝ) (h0 : y 0 = 0) (h1 : y 1 = 0) (h2 : y 2 = x) (m : Fin 1) :
    (restSrc z a b).dist y m = x := by
  unfold SrcSet.dist absVec
  simp [restSrc, h0, h1, h2, Real.sqrt_mul_self hx]

private theorem fancy_nat (rm pos : Fin 1 → ℝ) (i : ℕ) (hi : i < 4) (hp : pos 0 = i) :
    fancyRow ([0, 1, 2, 3] : List ℝ) rm pos = some fun m => (i : ℝ) / rm m := by
  have ht : truncInt (1 / 2 + pos 0) = i := by
    unfold truncInt
    rw [hp, if_neg (not_lt.2 (by positivity)), Int.floor_eq_iff]
    push_cast
    constructor <;> linarith
  have h : ∀ m, arrayGet ([0, 1, 2, 3] : List ℝ) (truncInt (1 / 2 + pos m)) = some (i : ℝ) := by
    intro m
    have : m = 0 := Subsingleton.elim _ _
    subst this
    rw [ht]
    interval_cases i <;> simp [arrayGet]
  unfold fancyRow
  rw [dif_pos fun m => by rw [h]; rfl]
  congr 1
  funext m
  simp only [h, Option.get_some]

private theorem rest_moving (startT start : ℝ) (i : ℕ) (hi : i < 4) (h : -1 - startT + start + start = i) :
    (restSrc 1 startT start).result 4 .moving = .ok [[fun _ => some (i : ℝ)]] := by
  have hd : ∀ m, (restSrc 1 startT start).dist (restSrc 1 startT start).loc m = 1 :=
    fun m => rest_dist 1 _ _ 1 (by norm_num) _ (by simp [restSrc]) (by simp [restSrc]) (by simp [restSrc]) m
  have hrow : (restSrc 1 startT start).movingRow 0 = some fun _ => (i : ℝ) := by
    rw [C134_rows _ (rest_at _ _ _) (rest_ne _ _ _ (by norm_num)) (rest_sampled _ _ _)]
    refine (fancy_nat _ _ i hi ?_).trans ?_
    · simp only [emissionIndex, hd]
      simp [restSrc]
      linarith
    · simp [hd]
  have hn : (restSrc 1 startT start).signal.n = 1 := rfl
  simp [SrcSet.result, hn, sourceLoop, hrow]

private theorem rest_point (startT start : ℝ) (i : ℕ) (hi : i < 4) (h : -1 - startT + start = i) :
    (restSrc 1 startT start).result 4 .point = .ok [[fun _ => some (i : ℝ)]] := by
  have hd : ∀ m, (restSrc 1 startT start).dist (restSrc 1 startT start).loc m = 1 :=
    fun m => rest_dist 1 _ _ 1 (by norm_num) _ (by simp [restSrc]) (by simp [restSrc]) (by simp [restSrc]) m
  have ht : truncInt (1 / 2 + (-1 - startT + start) : ℝ) = i := by
    unfold truncInt
    rw [h, if_neg (not_lt.2 (by positivity)), Int.floor_eq_iff]
    push_cast
    constructor <;> linarith
  have hi' : emissionIndex ((restSrc 1 startT start).dist (restSrc 1 startT start).loc) 1 startT start 1 (1 : ℕ) =
      fun _ => -1 - startT + start := by
    funext m
    simp [emissionIndex, hd]
  have e : (restSrc 1 startT start).result 4 .point = .ok (pointSource [0, 1, 2, 3] ((restSrc 1 startT start).dist
      (restSrc 1 startT start).loc) (emissionIndex ((restSrc 1 startT start).dist (restSrc 1 startT start).loc) 1 startT start 1 (1 : ℕ))
        1 1 4 false) := rfl
  rw [e, hi']
  simp only [pointSource]
  have : ∀ m : Fin 1, (Option.map (fun x : ℝ => x / (restSrc 1 startT start).dist (restSrc 1 startT start).loc m)
      (arrayGet [0, 1, 2, 3] (i : ℤ))) = some (i : ℝ) := by
    intro m
    rw [hd]
    interval_cases i <;> simp [arrayGet]
  simp [fullSourceBlocks]
  refine (show _ = [micRow _ _ false fun _ => -1 - startT + start] from rfl).trans ?_
  simp only [List.cons.injEq, and_true]
  funext m
  unfold micRow
  rw [if_neg (by simp), ht]
  exact this m

/-- **C134 is violated: the start of the data acquisition** is added twice. Two sources at the same place, one declared as
moving, deliver different samples as soon as `start` is not zero. -/
theorem C134_start_violated : ∃ s : SrcSet 0, AtRest s ∧ Sampled s ∧ s.loc ≠ 0 ∧ s.zeros = false ∧
    s.result 4 .point = .ok [[fun _ => some 0]] ∧ s.result 4 .moving = .ok [[fun _ => some 1]] := by
  refine ⟨restSrc 1 0 1, rest_at _ _ _, rest_sampled _ _ _, rest_ne _ _ _ (by norm_num), rfl, ?_, ?_⟩
  · simpa using rest_point 0 1 0 (by norm_num) (by norm_num)
  · simpa using rest_moving 0 1 1 (by norm_num) (by norm_num)

/-- **C134 is violated: the origin.** A moving source that stays in the origin of the coordinate system delivers nothing. -/
theorem C134_origin_violated (s : SrcSet M) (hs : AtRest s) (hx : s.loc = 0) (ha : Sampled s) (num : ℕ) :
    s.result num .moving = .ok [] := by
  obtain ⟨-, e1⟩ := eps_ok ha
  have hrow : ∀ k, s.movingRow k = none := by
    intro k
    unfold SrcSet.movingRow SrcSet.emission emissionTimes
    rw [show (100 : ℕ) = 99 + 1 from rfl, emissionLoop, if_pos (by simp [emissionGoOn, e1])]
    have : emissionPass s.trajectory s.c 0 s.mics (fun _ => receiveTime s.start s.signal.fs k)
        (fun _ => receiveTime s.start s.signal.fs k) = none := by
      unfold emissionPass
      rw [dif_neg]
      intro h
      have := h 0
      unfold emissionStep at this
      simp only [hs.loc, hx, Pi.zero_apply, add_zero] at this
      rw [if_pos (by simp [absVec])] at this
      simp at this
    rw [this]
  have : sourceLoop s.movingRow num true s.signal.n 0 [] = [] := by
    cases s.signal.n with
    | zero => simp [sourceLoop]
    | succ n => simp [sourceLoop, hrow]
  simp [SrcSet.result, this]

private theorem rest_mono (z startT start : ℝ) (hz : 0 < z) :
    (restSrc z startT start).monopoles = .ok [([0, 1, 2, 3], fun _ => z, fun _ => -z - startT + start)] := by
  have hd : ∀ m, (restSrc z startT start).dist (fun i => (restSrc z startT start).loc i + (restSrc z startT start).direction i /
      absVec (restSrc z startT start).direction * ((restSrc z startT start).length / (restSrc z startT start).numSources) * (0 : ℕ)) m = z :=
    fun m => rest_dist z _ _ z hz.le _ (by simp [restSrc]) (by simp [restSrc]) (by simp [restSrc]) m
  have hl : lineSignals (fun _ => (restSrc z startT start).signal.u (restSrc z startT start).up) (fun _ => 0) false
      (restSrc z startT start).strength (restSrc z startT start).numSources 0 ⟨1, 0⟩ = .ok ([[0, 1, 2, 3]], ⟨1, 0⟩) := by
    simp [lineSignals, restSrc]
  have hn : (restSrc z startT start).numSources = 1 := rfl
  have hr : List.range (restSrc z startT start).numSources = [0] := rfl
  unfold SrcSet.monopoles
  rw [hl]
  simp only [hr, List.map_cons, List.map_nil, List.getD_cons_zero]
  congr 4
  · funext m; exact hd m
  · funext m
    rw [hd m]
    simp [restSrc]

private theorem rest_line (z startT start : ℝ) (hz : 0 < z) (i : ℕ) (hi : i < 4) (h : -z - startT + start + start + 1 = i) :
    (restSrc z startT start).movingLine 4 = .ok [[fun _ => (i : ℝ) / z]] := by
  rw [C134_line _ (rest_at _ _ _) (rest_sampled _ _ _) rfl ?_ (rest_ne _ _ _ hz) _ (rest_mono z startT start hz)]
  · have hn : (restSrc z startT start).signal.n = 1 := rfl
    have hrow : lineRow (((restSrc z startT start).up : ℕ) : ℝ) [([0, 1, 2, 3], fun _ : Fin 1 => z,
        fun _ => -z - startT + start + (restSrc z startT start).start * (restSrc z startT start).signal.fs)] (0 + 1) =
        some fun _ => (i : ℝ) / z := by
      simp only [lineRow]
      rw [fancy_nat _ _ i hi]
      · simp
      · simp [restSrc]
        linarith
    simp only [List.map_cons, List.map_nil, hn, sourceLoop, hrow]
    simp
  · intro j hj hc
    have : j = 0 := by
      have : (restSrc z startT start).numSources = 1 := rfl
      omega
    subst this
    exact rest_ne z startT start hz (by simpa using hc)

/-- **C134 is violated: line sources**, even if `start` is zero: the moving one is one sample ahead. -/
theorem C134_line_violated : ∃ s : SrcSet 0, AtRest s ∧ Sampled s ∧ s.start = 0 ∧
    s.result 4 .line = .ok [[fun _ => some 0]] ∧ s.movingLine 4 = .ok [[fun _ => 1]] := by
  refine ⟨restSrc 1 (-1) 0, rest_at _ _ _, rest_sampled _ _ _, rfl, ?_, ?_⟩
  · have hn : (restSrc 1 (-1) 0).signal.n = 1 := rfl
    unfold SrcSet.result
    simp only
    rw [rest_mono 1 (-1) 0 (by norm_num)]
    have hrow : lineRow (((restSrc 1 (-1) 0).up : ℕ) : ℝ) [([0, 1, 2, 3], fun _ : Fin 1 => 1, fun _ => -1 - -1 + 0)] 0 =
        some fun _ => 0 := by
      simp only [lineRow]
      rw [fancy_nat _ _ 0 (by norm_num)]
      · simp
      · simp
    simp only [hn, sourceLoop, hrow]
    simp
  · simpa using rest_line 1 (-1) 0 (by norm_num) 1 (by norm_num) (by norm_num)

/-- **C134 is violated: the identifier** of a moving line source does not depend on the trajectory, its output does. -/
theorem C134_identifier_violated (md5 : List Char → String) (pr : SrcPrint 0) : ∃ a b : SrcSet 0,
    b = { a with trajectory := b.trajectory } ∧ a.movingLineDigest md5 pr = b.movingLineDigest md5 pr ∧
      a.movingLine 4 ≠ b.movingLine 4 := by
  refine ⟨restSrc 1 (-2) 0, { restSrc 1 (-2) 0 with trajectory := restPath 2 }, rfl, rfl, ?_⟩
  have h2 : ({ restSrc 1 (-2) 0 with trajectory := restPath 2 } : SrcSet 0).movingLine 4 = (restSrc 2 (-2) 0).movingLine 4 := rfl
  rw [h2, rest_line 1 (-2) 0 (by norm_num) 2 (by norm_num) (by norm_num), rest_line 2 (-2) 0 (by norm_num) 1 (by norm_num) (by norm_num)]
  intro h
  have := congrFun (List.cons.inj (List.cons.inj (Except.ok.inj h)).1).1 0
  norm_num at this

/-- The hypotheses of `C134_point_partial` are met. -/
example : ∃ s : SrcSet 0, AtRest s ∧ s.loc ≠ 0 ∧ Sampled s ∧ s.start = 0 ∧ s.zeros = false ∧ 0 < s.signal.n ∧
    0 < (s.signal.u s.up).length ∧ ∀ k < s.signal.n, ∀ m, -((s.signal.u s.up).length : ℝ) ≤
        emissionIndex (s.dist s.loc) s.c s.startT s.start s.signal.fs s.up m + k * s.up ∧
      emissionIndex (s.dist s.loc) s.c s.startT s.start s.signal.fs s.up m + k * s.up ≤ ((s.signal.u s.up).length : ℝ) - 1 := by
  have hd : ∀ m, (restSrc 1 (-2) 0).dist (restSrc 1 (-2) 0).loc m = 1 :=
    fun m => rest_dist 1 _ _ 1 (by norm_num) _ (by simp [restSrc]) (by simp [restSrc]) (by simp [restSrc]) m
  refine ⟨restSrc 1 (-2) 0, rest_at _ _ _, rest_ne _ _ _ (by norm_num), rest_sampled _ _ _, rfl, rfl, by norm_num [restSrc],
    by simp [restSrc], fun k hk m => ?_⟩
  have hk' : k = 0 := by
    have : (restSrc 1 (-2) 0).signal.n = 1 := rfl
    omega
  subst hk'
  simp only [emissionIndex, hd]
  norm_num [restSrc]

/-- The hypotheses of `C134_rows` are met: -/
example := C134_rows (restSrc 1 (-2) 0) (rest_at _ _ _) (rest_ne _ _ _ (by norm_num)) (rest_sampled _ _ _) 0

/-- The hypotheses of `C134_line` are met: -/
example := C134_line (restSrc 1 (-2) 0) (rest_at _ _ _) (rest_sampled _ _ _) rfl
  (fun j _ h => by
    have := congrFun h 2
    have ha : absVec ![(0 : ℝ), 0, 1] = 1 := by simp [absVec]
    norm_num [restSrc, SrcSet.lineStep, ha, show (![0, 0, 1] : Fin 3 → ℝ) 2 = 1 from rfl] at this
    have hj : (0 : ℝ) ≤ j := j.cast_nonneg
    linarith) (rest_ne _ _ _ (by norm_num)) _
  (rest_mono 1 (-2) 0 (by norm_num)) 4

end Acoular
