import Verif.Model.Tracked
import Verif.Props.Interp

/-!
# C132: rotation with tracked angles
-/

namespace Acoular

open Spec

variable {K α β : Type}

/-- **C132** violated: the angle of `AngleTracker` is an array and is called, so that `SpatialInterpolatorRotation.result` raises
TypeError before it delivers anything, for every source, tracker, method and block size. -/
theorem C132_tracker_violated (core : α → K → β) (still : α → β) (angle : List K) (num : ℕ) (blocks : List (List α)) :
    trackedRotation core still (.array angle) num blocks = .raise .typeError := rfl

private theorem slice_nil (angle : List K) (a b : ℕ) (h : angle.length ≤ a) : slice angle a b = [] := by
  unfold slice
  apply List.eq_nil_of_length_eq_zero
  rw [List.length_drop, List.length_take]
  omega

private theorem slice_length (angle : List K) (a b : ℕ) : (slice angle a b).length = min b angle.length - a := by
  unfold slice
  rw [List.length_drop, List.length_take]

private theorem block_equal (core : α → K → β) (still : α → β) (b : List α) (phi : List K) (h : b.length = phi.length) :
    trackedBlock core still b phi = .ok (List.zipWith core b phi) := by
  cases phi with
  | nil =>
    rw [List.length_nil] at h
    rw [List.eq_nil_of_length_eq_zero h]
    rfl
  | cons p ps => rw [trackedBlock, if_pos h]

/-- The rows of a signal, each computed with the angle of its own sample. -/
def Spec.rotatedRows (core : α → K → β) (data : List α) (angle : List K) : List β := List.zipWith core data angle

private theorem zipWith_chunks (core : α → K → β) (data : List α) (angle : List K) (num : ℕ) (hn : 0 < num) (hne : data ≠ [])
    (hl : data.length ≤ angle.length) :
    chunks num (List.zipWith core data angle) =
      List.zipWith core (data.take num) (angle.take num) :: chunks num (List.zipWith core (data.drop num) (angle.drop num)) := by
  have hz : List.zipWith core data angle ≠ [] := by
    intro h
    have := congrArg List.length h
    rw [List.length_zipWith, List.length_nil] at this
    have := List.length_pos_iff.2 hne
    omega
  rw [chunks_step hn hz, List.take_zipWith, List.drop_zipWith]

private theorem loop_aligned (core : α → K → β) (still : α → β) (angle : List K) (num : ℕ) (hn : 0 < num) :
    ∀ (n : ℕ) (data : List α) (count : ℕ), data.length ≤ n → count + data.length = angle.length →
      trackedLoop core still angle num count (chunks num data) =
        ⟨chunks num (List.zipWith core data (angle.drop count)), .returned⟩ := by
  intro n
  induction n with
  | zero =>
    intro data count h _
    rw [List.eq_nil_of_length_eq_zero (by omega : data.length = 0)]
    simp [chunks_nil, trackedLoop, Trace.stop]
  | succ n ih =>
    intro data count h hc
    by_cases hd : data = []
    · rw [hd]; simp [chunks_nil, trackedLoop, Trace.stop]
    · have hpos := List.length_pos_iff.2 hd
      rw [chunks_step hn hd, trackedLoop, block_equal]
      · simp only
        by_cases hshort : data.length ≤ num
        · rw [List.drop_eq_nil_of_le hshort, chunks_nil, trackedLoop,
            zipWith_chunks core data _ num hn hd (by rw [List.length_drop]; omega),
            List.drop_eq_nil_of_le hshort, List.zipWith_nil_left, chunks_nil]
          simp [Trace.cons, Trace.stop, slice, List.drop_take]
        · rw [ih _ _ (by rw [List.length_drop]; omega) (by rw [List.length_drop]; omega),
            zipWith_chunks core data _ num hn hd (by rw [List.length_drop]; omega), List.drop_drop]
          simp [Trace.cons, slice, List.drop_take]
      · rw [slice_length, List.length_take]
        omega

/-- **C132** With an `angle` that can be called and has as many entries as the source has samples, every row is computed with the
angle of its own sample, for every block size. -/
theorem C132_tracked_partial (core : α → K → β) (still : α → β) (angle : List K) (num : ℕ) (hn : 0 < num) (data : List α)
    (blocks : List (List α)) (h : IsBlocking num data blocks) (hl : data.length = angle.length) :
    (trackedRotation core still (.method angle) num blocks).exit = .returned ∧
    IsBlocking num (rotatedRows core data angle) (trackedRotation core still (.method angle) num blocks).blocks := by
  rw [(isBlocking_iff hn).1 h]
  have : trackedRotation core still (.method angle) num (chunks num data) = trackedLoop core still angle num 0 (chunks num data) := rfl
  rw [this, loop_aligned core still angle num hn _ data 0 (Nat.le_refl _) (by omega)]
  exact ⟨rfl, isBlocking_chunks hn _⟩

/-- The hypotheses of `C132_tracked_partial` are met: -/
example := C132_tracked_partial (fun (a : ℕ) (p : ℕ) => a * 10 + p) (fun a => a * 10) [1, 2, 3, 4, 5] 2 (by decide) [1, 2, 3, 4, 5] _
  (isBlocking_chunks (by decide) _) rfl

private theorem loop_still (core : α → K → β) (still : α → β) (angle : List K) (num : ℕ) :
    ∀ (bs : List (List α)) (count : ℕ), angle.length ≤ count →
      trackedLoop core still angle num count bs = ⟨bs.map (List.map still), .returned⟩ := by
  intro bs
  induction bs with
  | nil => intro _ _; rfl
  | cons b bs ih =>
    intro count h
    rw [trackedLoop, slice_nil _ _ _ h]
    simp only [trackedBlock]
    rw [ih _ (by omega)]
    rfl

private theorem loop_prefix (core : α → K → β) (still : α → β) (angle : List K) (num : ℕ) (rest : List (List α)) :
    ∀ (bs : List (List α)) (count : ℕ), (∀ b ∈ bs, b.length = num) → count + bs.length * num ≤ angle.length →
      trackedLoop core still angle num count (bs ++ rest) =
        ⟨List.zipWith (List.zipWith core) bs ((List.range bs.length).map fun i => slice angle (count + i * num) (count + i * num + num)) ++
          (trackedLoop core still angle num (count + bs.length * num) rest).blocks,
          (trackedLoop core still angle num (count + bs.length * num) rest).exit⟩ := by
  intro bs
  induction bs with
  | nil => intro count _ _; simp
  | cons b bs ih =>
    intro count hb hc
    have hmul : (b :: bs).length * num = bs.length * num + num := by rw [List.length_cons, Nat.add_mul, Nat.one_mul]
    rw [hmul] at hc
    rw [List.cons_append, trackedLoop, block_equal _ _ _ _ (by rw [slice_length, hb b (by simp)]; omega)]
    simp only
    rw [ih _ (fun c hc => hb c (List.mem_cons_of_mem _ hc)) (by omega)]
    have e : count + num + bs.length * num = count + (b :: bs).length * num := by rw [hmul]; omega
    rw [e]
    simp only [Trace.cons, List.length_cons, List.range_succ_eq_map, List.map_cons, List.zipWith_cons_cons, List.map_map,
      List.cons_append, Nat.zero_mul, Nat.add_zero]
    congr 5
    funext i
    simp only [Function.comp_apply, Nat.succ_eq_add_one, Nat.add_mul, Nat.one_mul]
    congr 1 <;> omega

/-- **C132** violated: if the angles end with the `m`-th block of the source, all further blocks are delivered without rotation
and no exception is raised. -/
theorem C132_short_violated (core : α → K → β) (still : α → β) (angle : List K) (num : ℕ) (first rest : List (List α))
    (hb : ∀ b ∈ first, b.length = num) (ha : angle.length = first.length * num) :
    (trackedRotation core still (.method angle) num (first ++ rest)).exit = .returned ∧
    (trackedRotation core still (.method angle) num (first ++ rest)).blocks.drop first.length = rest.map (List.map still) := by
  have : trackedRotation core still (.method angle) num (first ++ rest) = trackedLoop core still angle num 0 (first ++ rest) := rfl
  rw [this, loop_prefix core still angle num rest first 0 hb (by omega), loop_still _ _ _ _ rest _ (by omega)]
  refine ⟨rfl, ?_⟩
  rw [List.drop_append]
  simp

/-- **C132** violated: if there are more angles than samples and the last block has at least two rows but is not full, the
signal up to the last block is delivered and then a ValueError is raised. -/
theorem C132_long_violated (core : α → K → β) (still : α → β) (angle : List K) (num : ℕ) (first : List (List α)) (last : List α)
    (hb : ∀ b ∈ first, b.length = num) (hl : 2 ≤ last.length) (hn : last.length < num)
    (ha : first.length * num + last.length < angle.length) :
    (trackedRotation core still (.method angle) num (first ++ [last])).exit = .raised .valueError ∧
    (trackedRotation core still (.method angle) num (first ++ [last])).blocks.length = first.length := by
  have h0 : trackedRotation core still (.method angle) num (first ++ [last]) = trackedLoop core still angle num 0 (first ++ [last]) := rfl
  have h1 : trackedLoop core still angle num (0 + first.length * num) [last] = .raise .valueError := by
    have hs := slice_length angle (0 + first.length * num) (0 + first.length * num + num)
    rw [trackedLoop]
    generalize slice angle (0 + first.length * num) (0 + first.length * num + num) = phi at hs
    have : trackedBlock core still last phi = .error .valueError := by
      match phi, hs with
      | [], hs => rw [List.length_nil] at hs; omega
      | [p], hs => rw [List.length_singleton] at hs; omega
      | p :: q :: ps, hs =>
        rw [trackedBlock, if_neg (by omega), if_neg (by simp), if_neg (by omega)]
    rw [this]
  rw [h0, loop_prefix core still angle num [last] first 0 hb (by omega), h1]
  refine ⟨rfl, ?_⟩
  simp [Trace.raise]

/-- **C132** For a ring "without rotation" is the rotation by no angle. -/
theorem C132_still [Field K] [LinearOrder K] [IsStrictOrderedRing K] [FloorRing K] (p : K) (hp : 0 < p) (real virt row : List K) :
    ringStill p real virt row = ringRow p real virt row 0 := by
  unfold ringStill ringRow
  apply List.map_congr_left
  intro v _
  rw [add_zero]
  unfold interpPeriodic
  rw [(pyFmod_eq_iff hp _ _).2 (shifted_angle v)]

/-- Three blocks of two rows, angles for all of them; angles for two of them. -/
example : trackedRotation (fun (a : ℕ) (p : ℕ) => a * 10 + p) (fun a => a * 10) (.method [1, 2, 3, 4, 5]) 2 [[1, 2], [3, 4], [5]]
    = ⟨[[11, 22], [33, 44], [55]], .returned⟩ := by decide
example : trackedRotation (fun (a : ℕ) (p : ℕ) => a * 10 + p) (fun a => a * 10) (.method [1, 2, 3, 4]) 2 [[1, 2], [3, 4], [5]]
    = ⟨[[11, 22], [33, 44], [50]], .returned⟩ := by decide

end Acoular
