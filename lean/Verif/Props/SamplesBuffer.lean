import Verif.Lemmas.SamplesBuffer

/-!
# Property theorems: `SamplesBuffer` (C07)

The buffer is a moving window of `length` rows.  It needs room for at least one row more than one source
block; for blocks of exactly the asked size it additionally needs `result size + source block size - 1`
rows, or a source block size equal to `num`.  What happens outside these conditions is recorded by the
`_violated` theorems.
-/

namespace Acoular

open Spec

variable {α : Type _}

private theorem create_ok (z : α) {L snum : Nat} (hs : 0 < snum) {data : List α} {src : List (List α)}
    (hsrc : IsBlocking snum data src) : (SBuf.create z L src).Ok L snum data := by
  refine ⟨by simp [SBuf.create], by simp [SBuf.create], ⟨data, ?_, ?_⟩, by simp [SBuf.create]⟩
  · exact (isBlocking_iff hs).1 hsrc
  · simp [SBuf.create, SBuf.avail]

/-- Default shift: whatever the sizes, the delivered blocks joined together are the source's rows, each
once and in order, and no block is empty or longer than `num` rows. -/
theorem C07_reblock_no_loss (z : α) (data : List α) (source : Nat → List (List α)) (length num : Nat)
    (sourceNum : Option Nat) (hn : 0 < num) (hs : 0 < sourceNum.getD num)
    (hsrc : IsBlocking (sourceNum.getD num) data (source (sourceNum.getD num)))
    (hL : sourceNum.getD num < length) (fuel : Nat) (hf : data.length < fuel) :
    ∃ blocks, SamplesBuffer.result z length sourceNum none .resultNum source num fuel = ⟨blocks, .returned⟩ ∧
      blocks.flatten = data ∧ ∀ b ∈ blocks, 0 < b.length ∧ b.length ≤ num :=
  SBuf.loop_flatten z hn hs hL fuel _ data (create_ok z hs hsrc) hf

/-- The hypotheses of `C07_reblock_no_loss` are met: -/
example := C07_reblock_no_loss (α := Nat) 0 [1, 2, 3, 4, 5, 6, 7] (fun n => chunks n [1, 2, 3, 4, 5, 6, 7]) 5 4 (some 3) (by decide) (by decide)
  (isBlocking_chunks (by decide) _) (by decide) 20 (by decide)

/-- Default shift: the blocks have `num` rows, the last one possibly fewer. -/
theorem C07_reblock_partial (z : α) (data : List α) (source : Nat → List (List α)) (length num : Nat)
    (sourceNum : Option Nat) (hn : 0 < num) (hs : 0 < sourceNum.getD num)
    (hsrc : IsBlocking (sourceNum.getD num) data (source (sourceNum.getD num)))
    (hL : sourceNum.getD num < length)
    (hfit : num + sourceNum.getD num ≤ length + 1 ∨ sourceNum.getD num = num)
    (fuel : Nat) (hf : data.length < fuel) :
    ∃ blocks, SamplesBuffer.result z length sourceNum none .resultNum source num fuel = ⟨blocks, .returned⟩ ∧
      IsBlocking num data blocks := by
  refine ⟨_, SBuf.loop_eq (L := length) z hn hs hL none .resultNum (Or.inr rfl) (Nat.le_refl _) ?_ fuel _ data
    (create_ok z hs hsrc) hf ?_, ?_⟩
  · show num ≤ length
    omega
  · rcases hfit with h | h
    · exact Or.inr (Or.inl h)
    · exact Or.inr (Or.inr ⟨rfl, h, rfl⟩)
  · exact isBlocking_chunks hn data

/-- The hypotheses of `C07_reblock_partial` are met: -/
example := C07_reblock_partial (α := Nat) 0 [1, 2, 3, 4, 5, 6, 7] (fun n => chunks n [1, 2, 3, 4, 5, 6, 7]) 6 4 (some 3) (by decide) (by decide)
  (isBlocking_chunks (by decide) _) (by decide) (.inl (by decide)) 20 (by decide)

/-- `shift_index_by = 'num'`: the `k`-th block consists of the rows from `k * num` up to (excluding)
`k * num + result_num`, cut at the end of the data, and there is one block for every start position inside
the data. -/
theorem C07_overlap_partial (z : α) (data : List α) (source : Nat → List (List α)) (length num r : Nat)
    (sourceNum : Option Nat) (hn : 0 < num) (hs : 0 < sourceNum.getD num)
    (hsrc : IsBlocking (sourceNum.getD num) data (source (sourceNum.getD num)))
    (hL : sourceNum.getD num < length) (hr : num ≤ r) (hfit : r + sourceNum.getD num ≤ length + 1)
    (fuel : Nat) (hf : data.length < fuel) :
    SamplesBuffer.result z length sourceNum (some r) .num source num fuel =
      ⟨(List.range ((data.length + num - 1) / num)).map fun k => (data.drop (k * num)).take r, .returned⟩ := by
  refine SBuf.loop_eq (L := length) z hn hs hL (some r) .num (Or.inl rfl) hr ?_ fuel _ data (create_ok z hs hsrc) hf
    (Or.inr (Or.inl hfit))
  show r ≤ length
  omega

/-- The hypotheses of `C07_overlap_partial` are met: -/
example := C07_overlap_partial (α := Nat) 0 [1, 2, 3, 4, 5, 6, 7] (fun n => chunks n [1, 2, 3, 4, 5, 6, 7]) 6 2 4 (some 3) (by decide) (by decide)
  (isBlocking_chunks (by decide) _) (by decide) (by decide) (by decide) 20 (by decide)

/-- Consequence of the previous theorem in terms of neighbouring blocks: the last `r - num` rows of a block
are the first rows of its successor. -/
theorem C07_overlap_neighbours (data : List α) (num r k : Nat) (hr : num ≤ r)
    (hfull : k * num + r ≤ data.length) :
    ((data.drop (k * num)).take r).drop num = ((data.drop ((k + 1) * num)).take r).take (r - num) := by
  have _ := hfull
  rw [List.drop_take, List.drop_drop, List.take_take, Nat.succ_mul, Nat.min_eq_left (by omega)]

/-- The hypotheses of `C07_overlap_neighbours` are met: -/
example := C07_overlap_neighbours (α := Nat) [1, 2, 3, 4, 5, 6, 7] 2 4 1 (by decide) (by decide)

/-- With the length left at its default (0), or any length below the source block size, every row is
silently dropped. -/
theorem C07_short_buffer_violated (z : α) (source : Nat → List (List α)) (length num : Nat)
    (sourceNum : Option Nat) (hL : length < sourceNum.getD num) (fuel : Nat) (hf : 0 < fuel) :
    SamplesBuffer.result z length sourceNum none .resultNum source num fuel = ⟨[], .returned⟩ := by
  obtain ⟨fuel, rfl⟩ : ∃ k, fuel = k + 1 := ⟨fuel - 1, by omega⟩
  have : ¬ (length ≥ sourceNum.getD num) := by omega
  unfold SamplesBuffer.result SBuf.loop SBuf.fill
  simp [SBuf.create, SBuf.level, this, Trace.stop]

/-- A buffer that holds exactly one source block of more than one row: numpy refuses the assignment, the
stream raises `ValueError` although the block would fit. -/
theorem C07_equal_length_violated (z : α) (data : List α) (source : Nat → List (List α)) (num : Nat)
    (sourceNum : Option Nat) (hs : 1 < sourceNum.getD num)
    (hsrc : IsBlocking (sourceNum.getD num) data (source (sourceNum.getD num)))
    (hd : sourceNum.getD num ≤ data.length) (fuel : Nat) (hf : 0 < fuel) :
    SamplesBuffer.result z (sourceNum.getD num) sourceNum none .resultNum source num fuel
      = ⟨[], .raised .valueError⟩ := by
  obtain ⟨fuel, rfl⟩ : ∃ k, fuel = k + 1 := ⟨fuel - 1, by omega⟩
  have hne : data ≠ [] := by rintro rfl; simp at hd; omega
  have h := (isBlocking_iff (show 0 < sourceNum.getD num by omega)).1 hsrc
  rw [chunks_step (by omega) hne] at h
  have hl : (data.take (sourceNum.getD num)).length = sourceNum.getD num := by
    rw [List.length_take]; omega
  unfold SamplesBuffer.result SBuf.loop SBuf.fill
  simp only [SBuf.create, h, SBuf.increase, SBuf.write, List.length_replicate, hl, ge_iff_le, Nat.le_refl,
    if_true, Nat.lt_irrefl, and_false, if_false, Bool.false_eq_true]
  rw [if_neg (by omega)]
  rfl

/-- A buffer that can hold the result block, but not `result_num + source_num - 1` rows, delivers blocks
that are too short in the middle of the stream (here: 2-row source blocks, `num = 1`, `result_num = 4`,
`length = 4`; the second of the blocks over the rows `1..8` has three rows instead of `2..5`). -/
theorem C07_tight_buffer_violated :
    (SamplesBuffer.result (0 : Nat) 4 (some 2) (some 4) .num
      (fun n => chunks n [1, 2, 3, 4, 5, 6, 7, 8]) 1 100).blocks.take 2 = [[1, 2, 3, 4], [2, 3, 4]] := by
  decide

private theorem chunks_one (data : List α) : chunks 1 data = data.map fun x => [x] := by
  induction data with
  | nil => exact chunks_nil 1
  | cons a l ih => rw [chunks_step Nat.one_pos (by simp)]; simp [ih]

/-- A buffer of one row with a source that delivers single rows works: the rows are handed on one by one, whatever size is
asked for. -/
theorem C07_single_row (z : α) (data : List α) (source : Nat → List (List α)) (num : Nat) (hn : 0 < num)
    (hsrc : IsBlocking 1 data (source 1)) (fuel : Nat) (hf : data.length + 1 < fuel) :
    SamplesBuffer.result z 1 (some 1) none .resultNum source num fuel = ⟨data.map fun x => [x], .returned⟩ := by
  have key : ∀ (l : List α) (b : α) (fuel : Nat), l.length < fuel →
      SBuf.loop z num 1 none .resultNum fuel ⟨[b], 1, l.map (fun x => [x]), false⟩ = ⟨l.map fun x => [x], .returned⟩ := by
    intro l
    induction l with
    | nil =>
      intro b fuel hf
      obtain ⟨k, rfl⟩ : ∃ k, fuel = k + 1 := ⟨fuel - 1, by simp at hf; omega⟩
      unfold SBuf.loop SBuf.fill
      simp [SBuf.increase, SBuf.level, Trace.stop]
    | cons a l ih =>
      intro b fuel hf
      obtain ⟨k, rfl⟩ : ∃ k, fuel = k + 1 := ⟨fuel - 1, by simp at hf; omega⟩
      have ih' := ih a k (by simp at hf; omega)
      unfold SBuf.loop
      have hfill : SBuf.fill z 1 none ([a] :: l.map fun x => [x]) ⟨[b], 1, [a] :: l.map (fun x => [x]), false⟩ =
          .ok ⟨[a], 0, l.map fun x => [x], false⟩ := by
        unfold SBuf.fill
        simp only [SBuf.increase, SBuf.write]
        unfold SBuf.fill
        simp
      simp only [List.map_cons, hfill]
      simp only [SBuf.level, SBuf.read]
      have : ¬ (1 ≥ num ∧ num ≠ 1) := by omega
      by_cases h : num = 1
      · subst h; simp [Trace.cons, ih']
      · have : ¬ (num ≤ 1) := by omega
        simp [this, Trace.cons, ih']
  have e := (isBlocking_iff Nat.one_pos).1 hsrc
  rw [chunks_one] at e
  unfold SamplesBuffer.result
  simp only [Option.getD_some, e, SBuf.create]
  exact key data z fuel (by omega)

/-- The hypotheses of `C07_single_row` are met: -/
example := C07_single_row (α := Nat) 0 [1, 2, 3, 4, 5, 6, 7] (fun n => chunks n [1, 2, 3, 4, 5, 6, 7]) 4 (by decide) (isBlocking_chunks (by decide) _) 20 (by decide)

/-- A buffer that is shorter than the result asked for grows by whole source blocks until the result fits: the stream is
that of a buffer of this length from the beginning. -/
theorem C07_grows (z : α) (source : Nat → List (List α)) (length num r : Nat) (sourceNum : Option Nat) (shift : ShiftBy)
    (hs : 0 < sourceNum.getD num) (hL : sourceNum.getD num ≤ length) (hr : length < r) (fuel : Nat) :
    ∃ k, r ≤ length + k * sourceNum.getD num ∧ length + k * sourceNum.getD num < r + sourceNum.getD num ∧
      SamplesBuffer.result z length sourceNum (some r) shift source num fuel =
        SamplesBuffer.result z (length + k * sourceNum.getD num) sourceNum (some r) shift source num fuel := by
  have hdm := Nat.div_add_mod (r - length + sourceNum.getD num - 1) (sourceNum.getD num)
  have hml := Nat.mod_lt (r - length + sourceNum.getD num - 1) hs
  have hk : ∃ k, k = (r - length + sourceNum.getD num - 1) / sourceNum.getD num := ⟨_, rfl⟩
  obtain ⟨k, hk⟩ := hk
  rw [← hk] at hdm
  refine ⟨k, by rw [Nat.mul_comm]; omega, by rw [Nat.mul_comm]; omega, ?_⟩
  have h0 : (r - (length + k * sourceNum.getD num) + sourceNum.getD num - 1) / sourceNum.getD num = 0 :=
    Nat.div_eq_of_lt (by rw [Nat.mul_comm k]; omega)
  unfold SamplesBuffer.result
  simp only
  cases fuel with
  | zero => rfl
  | succ fuel =>
    have e : ∀ src, SBuf.fill z (sourceNum.getD num) (some r) src (SBuf.create z length src) =
        SBuf.fill z (sourceNum.getD num) (some r) src (SBuf.create z (length + k * sourceNum.getD num) src) := by
      intro src
      have hi : (SBuf.create z length src).increase z (sourceNum.getD num) (some r) =
          (SBuf.create z (length + k * sourceNum.getD num) src).increase z (sourceNum.getD num) (some r) := by
        unfold SBuf.increase SBuf.create
        simp only [List.length_replicate, ← hk, h0, List.replicate_append_replicate]
        simp [Nat.add_comm]
      unfold SBuf.fill
      rw [hi]
      rw [if_pos (show (SBuf.create z length src).index ≥ sourceNum.getD num from hL),
        if_pos (show (SBuf.create z (length + k * sourceNum.getD num) src).index ≥ sourceNum.getD num by
          show length + k * sourceNum.getD num ≥ _; omega)]
    unfold SBuf.loop
    have e' := e (source (sourceNum.getD num))
    simp only [SBuf.create] at e' ⊢
    rw [e']
    simp only [Bool.false_eq_true, if_false]

/-- The hypotheses of `C07_grows` are met: -/
example := C07_grows (α := Nat) 0 (fun n => chunks n [1, 2, 3, 4, 5, 6, 7]) 3 3 6 (some 2) .num (by decide) (by decide) (by decide) 20

/-- Overlapping blocks from a buffer that was too short: as in `C07_overlap_partial`, if the length fits to the block size of
the source. -/
theorem C07_overlap_grown_partial (z : α) (data : List α) (source : Nat → List (List α)) (length num r : Nat)
    (sourceNum : Option Nat) (hn : 0 < num) (hs : 0 < sourceNum.getD num)
    (hsrc : IsBlocking (sourceNum.getD num) data (source (sourceNum.getD num)))
    (hL : sourceNum.getD num ≤ length) (hlr : length < r) (hr : num ≤ r)
    (hfit : (length + 1) % sourceNum.getD num = r % sourceNum.getD num) (fuel : Nat) (hf : data.length < fuel) :
    SamplesBuffer.result z length sourceNum (some r) .num source num fuel =
      ⟨(List.range ((data.length + num - 1) / num)).map fun k => (data.drop (k * num)).take r, .returned⟩ := by
  obtain ⟨k, h1, h2, h3⟩ := C07_grows z source length num r sourceNum .num hs hL hlr fuel
  rw [h3]
  refine C07_overlap_partial z data source _ num r sourceNum hn hs hsrc (by omega) hr ?_ fuel hf
  have hm : (length + k * sourceNum.getD num + 1) % sourceNum.getD num = r % sourceNum.getD num := by
    rw [show length + k * sourceNum.getD num + 1 = length + 1 + k * sourceNum.getD num by omega, Nat.add_mul_mod_self_right, hfit]
  have hd : (length + k * sourceNum.getD num + 1 - r) % sourceNum.getD num = 0 :=
    Nat.sub_mod_eq_zero_of_mod_eq hm
  have hdv := Nat.le_of_dvd (by omega) (Nat.dvd_of_mod_eq_zero hd)
  omega

-- The hypotheses are met by a non-trivial case.
example : IsBlocking 3 [1, 2, 3, 4, 5, 6, 7] (chunks 3 [1, 2, 3, 4, 5, 6, 7]) ∧ 3 < 6 ∧ 4 + 3 ≤ 6 + 1 :=
  ⟨isBlocking_chunks (by decide) _, by decide, by decide⟩
example : SamplesBuffer.result 0 6 (some 3) none .resultNum (fun n => chunks n [1, 2, 3, 4, 5, 6, 7]) 4 20
    = ⟨[[1, 2, 3, 4], [5, 6, 7]], .returned⟩ := by decide
example : SamplesBuffer.result 0 6 (some 3) (some 4) .num (fun n => chunks n [1, 2, 3, 4, 5, 6, 7]) 2 20
    = ⟨[[1, 2, 3, 4], [3, 4, 5, 6], [5, 6, 7], [7]], .returned⟩ := by decide

example : SamplesBuffer.result 0 3 (some 2) (some 6) .num (fun n => chunks n [1, 2, 3, 4, 5, 6, 7]) 3 20
    = ⟨[[1, 2, 3, 4, 5, 6], [4, 5, 6, 7], [7]], .returned⟩ := by decide +kernel

end Acoular
