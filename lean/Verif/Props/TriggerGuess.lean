import Verif.Props.Trigger
import Verif.Lemmas.StreamModel
import Mathlib.Tactic.FieldSimp
import Mathlib.Tactic.Ring

/-!
# C93: the guessed threshold of the trigger
-/

set_option linter.unusedSectionVars false

namespace Acoular
open Spec

variable {K : Type*} [Field K] [LinearOrder K] [IsStrictOrderedRing K]

/-- 75 % of the largest deviation from the mean of the signal, with its sign. -/
def Spec.IsGuess (data : List K) (t : K) : Prop :=
  ∃ lo hi, lo ∈ data ∧ hi ∈ data ∧ (∀ x ∈ data, lo ≤ x ∧ x ≤ hi) ∧
    let m := data.sum / data.length
    t = 3 / 4 * (if |hi - m| ≤ |lo - m| then lo - m else hi - m)

theorem foldl_max_spec (l : List K) (x : K) : l.foldl max x ∈ x :: l ∧ ∀ y ∈ x :: l, y ≤ l.foldl max x := by
  induction l generalizing x with
  | nil => simp
  | cons a l ih =>
    obtain ⟨h1, h2⟩ := ih (max x a)
    rw [List.foldl_cons]
    refine ⟨?_, ?_⟩
    · rcases List.mem_cons.1 h1 with h | h
      · rw [h]; rcases max_choice x a with h' | h' <;> rw [h'] <;> simp
      · simp [h]
    · have hm := h2 (max x a) (by simp)
      intro y hy
      rcases List.mem_cons.1 hy with rfl | hy
      · exact (le_max_left _ _).trans hm
      · rcases List.mem_cons.1 hy with rfl | hy
        · exact (le_max_right _ _).trans hm
        · exact h2 y (by simp [hy])

theorem foldl_min_spec (l : List K) (x : K) : l.foldl min x ∈ x :: l ∧ ∀ y ∈ x :: l, l.foldl min x ≤ y := by
  induction l generalizing x with
  | nil => simp
  | cons a l ih =>
    obtain ⟨h1, h2⟩ := ih (min x a)
    rw [List.foldl_cons]
    refine ⟨?_, ?_⟩
    · rcases List.mem_cons.1 h1 with h | h
      · rw [h]; rcases min_choice x a with h' | h' <;> rw [h'] <;> simp
      · simp [h]
    · have hm := h2 (min x a) (by simp)
      intro y hy
      rcases List.mem_cons.1 hy with rfl | hy
      · exact hm.trans (min_le_left _ _)
      · rcases List.mem_cons.1 hy with rfl | hy
        · exact hm.trans (min_le_right _ _)
        · exact h2 y (by simp [hy])

theorem listMax_spec (l : List K) (h : l ≠ []) : listMax l ∈ l ∧ ∀ y ∈ l, y ≤ listMax l := by
  match l with
  | x :: l => exact foldl_max_spec l x

theorem listMin_spec (l : List K) (h : l ≠ []) : listMin l ∈ l ∧ ∀ y ∈ l, listMin l ≤ y := by
  match l with
  | x :: l => exact foldl_min_spec l x

theorem full_blocks {α : Type*} (num : ℕ) (data : List α) (blocks : List (List α)) (hd : data ≠ [])
    (hsrc : IsBlocking num data blocks) (hfull : num ∣ data.length) : ∀ b ∈ blocks, b.length = num := by
  have hb0 : blocks ≠ [] := fun h => hd (by rw [← hsrc.cover, h]; rfl)
  have hsplit := List.dropLast_append_getLast hb0
  have hl := hsrc.last _ (List.getLast?_eq_some_getLast hb0)
  have hlast : (blocks.getLast hb0).length = num := by
    have hsum : data.length = blocks.dropLast.length * num + (blocks.getLast hb0).length := by
      rw [← hsrc.cover]
      conv_lhs => rw [← hsplit]
      rw [List.flatten_append, List.length_append, List.length_flatten]
      have : ∀ bs : List (List α), (∀ b ∈ bs, b.length = num) → (bs.map List.length).sum = bs.length * num := by
        intro bs
        induction bs with
        | nil => simp
        | cons b bs ih =>
          intro h
          rw [List.map_cons, List.sum_cons, ih fun b' hb' => h b' (by simp [hb']), h b (by simp), List.length_cons]
          ring
      rw [this _ hsrc.full]
      simp
    rw [hsum] at hfull
    have hdv : num ∣ (blocks.getLast hb0).length := (Nat.dvd_add_right (Dvd.intro_left _ rfl)).1 hfull
    exact le_antisymm hl.2 (Nat.le_of_dvd hl.1 hdv)
  intro b hb
  rw [← hsplit] at hb
  rcases List.mem_append.1 hb with h | h
  · exact hsrc.full b h
  · rw [List.mem_singleton.1 h]; exact hlast

/-- **C93** (part) If the signal fills all blocks, the guess is 75 % of the largest deviation from its mean, whatever the
block size. -/
theorem C93_full_blocks_partial (num : ℕ) (hn : 0 < num) (data : List K) (blocks : List (List K)) (hd : data ≠ [])
    (hsrc : IsBlocking num data blocks) (hfull : num ∣ data.length) :
    ∃ t, guessThreshold blocks = .ok t ∧ Spec.IsGuess data t := by
  have hlen := full_blocks num data blocks hd hsrc hfull
  have hb0 : blocks ≠ [] := fun h => hd (by rw [← hsrc.cover, h]; rfl)
  have hne : ∀ b ∈ blocks, b ≠ [] := fun b hb h => by
    have := hlen b hb
    simp [h] at this
    omega
  have hmem : ∀ x, x ∈ data ↔ ∃ b ∈ blocks, x ∈ b := fun x => by rw [← hsrc.cover]; simp
  have hmean : (blocks.map listMean).sum / blocks.length = data.sum / data.length := by
    have hs : (blocks.map listMean).sum = data.sum / num := by
      rw [← hsrc.cover, List.sum_flatten]
      have : ∀ bs : List (List K), (∀ b ∈ bs, b.length = num) → (bs.map listMean).sum = (bs.map List.sum).sum / num := by
        intro bs
        induction bs with
        | nil => simp
        | cons b bs ih =>
          intro h
          rw [List.map_cons, List.sum_cons, List.map_cons, List.sum_cons, ih fun b' hb' => h b' (by simp [hb'])]
          unfold listMean
          rw [h b (by simp), add_div]
      exact this blocks hlen
    have hl : data.length = blocks.length * num := by
      rw [← hsrc.cover, List.length_flatten]
      have : ∀ bs : List (List K), (∀ b ∈ bs, b.length = num) → (bs.map List.length).sum = bs.length * num := by
        intro bs
        induction bs with
        | nil => simp
        | cons b bs ih =>
          intro h
          rw [List.map_cons, List.sum_cons, ih fun b' hb' => h b' (by simp [hb']), h b (by simp), List.length_cons]
          ring
      exact this blocks hlen
    rw [hs, hl]
    push_cast
    rw [div_div, mul_comm]
  obtain ⟨hx1, hx2⟩ := listMax_spec (blocks.map listMax) (by simpa using hb0)
  obtain ⟨hm1, hm2⟩ := listMin_spec (blocks.map listMin) (by simpa using hb0)
  have e : guessThreshold blocks = .ok ((if |listMax (blocks.map listMax) - (blocks.map listMean).sum / blocks.length| ≤
      |listMin (blocks.map listMin) - (blocks.map listMean).sum / blocks.length| then
        listMin (blocks.map listMin) - (blocks.map listMean).sum / blocks.length
      else listMax (blocks.map listMax) - (blocks.map listMean).sum / blocks.length) * (3 / 4)) := by
    match blocks, hb0 with
    | b :: bs, _ => rfl
  refine ⟨_, e, listMin (blocks.map listMin), listMax (blocks.map listMax), ?_, ?_, ?_, ?_⟩
  · obtain ⟨b, hb, h⟩ := List.mem_map.1 hm1
    rw [← h]
    exact (hmem _).2 ⟨b, hb, (listMin_spec b (hne b hb)).1⟩
  · obtain ⟨b, hb, h⟩ := List.mem_map.1 hx1
    rw [← h]
    exact (hmem _).2 ⟨b, hb, (listMax_spec b (hne b hb)).1⟩
  · intro x hx
    obtain ⟨b, hb, hxb⟩ := (hmem x).1 hx
    exact ⟨(hm2 _ (List.mem_map.2 ⟨b, hb, rfl⟩)).trans ((listMin_spec b (hne b hb)).2 x hxb),
      ((listMax_spec b (hne b hb)).2 x hxb).trans (hx2 _ (List.mem_map.2 ⟨b, hb, rfl⟩))⟩
  · simp only
    rw [hmean, mul_comm]

/-- The guess does not determine the result otherwise: with a last block that is not full it depends on the block size,
here so much that the only peak is found with one block size (at sample 2) and missed with the other. -/
theorem C93_block_size_violated : ∃ (data : List ℚ) (t t' : ℚ),
    guessThreshold (chunks 3 data) = .ok t ∧ guessThreshold (chunks 2 data) = .ok t' ∧ t' < 0 ∧ 0 < t ∧
    detectPeaks .dirac t 3 none 0 (chunks 3 data) = [(2, 3)] ∧ detectPeaks .dirac t' 2 none 0 (chunks 2 data) = [] := by
  refine ⟨[0, 0, 3], 3 / 2, -9 / 8, ?_, ?_, by norm_num, by norm_num, ?_, ?_⟩ <;> decide +kernel

/-- The guess is relative to the mean, but is compared with the signal itself: with an offset every sample is a peak. -/
theorem C93_offset_violated : ∃ (data : List ℚ) (t : ℚ), guessThreshold (chunks 4 data) = .ok t ∧ data.length = 4 ∧
    (detectPeaks .dirac t 4 none 0 (chunks 4 data)).length = 4 := by
  refine ⟨[10, 10, 11, 10], 9 / 16, ?_, rfl, ?_⟩ <;> decide +kernel

/-- An empty signal ends in a division by zero. -/
theorem C93_empty : guessThreshold ([] : List (List K)) = .error .zeroDivisionError := rfl

/-- A signal of two full blocks. -/
example : ∃ t, guessThreshold (chunks 2 [0, 0, 4, (0 : ℚ)]) = .ok t ∧ Spec.IsGuess [0, 0, 4, (0 : ℚ)] t :=
  C93_full_blocks_partial 2 (by norm_num) _ _ (by simp) (isBlocking_chunks (by norm_num) _) ⟨2, rfl⟩

end Acoular
