import Verif.Spec.Stream

/-! # Lemmas about blocks -/

namespace Acoular.Spec

variable {α β : Type _}

theorem chunks_nil (num : Nat) : chunks num ([] : List α) = [] := by
  unfold chunks
  cases num with
  | zero => simp
  | succ n =>
    have : (([] : List α).length + (n+1) - 1) / (n+1) = 0 := by
      apply Nat.div_eq_of_lt; simp
    rw [this]; rfl

/-- Recursive reading of `chunks`. -/
theorem chunks_step {num : Nat} (hn : 0 < num) {data : List α} (hd : data ≠ []) :
    chunks num data = data.take num :: chunks num (data.drop num) := by
  unfold chunks
  have hl : 0 < data.length := List.length_pos_iff.mpr hd
  have h1 : (data.length + num - 1) / num = ((data.drop num).length + num - 1) / num + 1 := by
    rw [List.length_drop]
    by_cases h : data.length ≤ num
    · have e1 : data.length - num = 0 := by omega
      rw [e1]
      have e2 : (0 + num - 1) / num = 0 := Nat.div_eq_of_lt (by omega)
      rw [e2]
      have : data.length + num - 1 = (data.length - 1) + num := by omega
      rw [this, Nat.add_div_right _ hn, Nat.div_eq_of_lt (by omega)]
    · have : data.length + num - 1 = (data.length - num + num - 1) + num := by omega
      rw [this, Nat.add_div_right _ hn]
  rw [h1, List.range_succ_eq_map, List.map_cons, List.map_map]
  congr 1
  · simp
  · apply List.map_congr_left
    intro k _
    simp only [Function.comp, Nat.succ_eq_add_one, List.drop_drop]
    congr 2
    rw [Nat.add_mul, Nat.one_mul, Nat.add_comm]

theorem chunks_short {num : Nat} {data : List α} (hd : data ≠ []) (h : data.length ≤ num) :
    chunks num data = [data] := by
  have hl : 0 < data.length := List.length_pos_iff.mpr hd
  rw [chunks_step (by omega) hd, List.take_of_length_le h, List.drop_of_length_le h, chunks_nil]

/-- Induction along blocks. -/
theorem chunk_induction {num : Nat} (hn : 0 < num) {P : List α → Prop}
    (nil : P []) (step : ∀ l, l ≠ [] → P (l.drop num) → P l) : ∀ l, P l := by
  intro l
  induction h : l.length using Nat.strongRecOn generalizing l with
  | ind n ih =>
    by_cases hl : l = []
    · subst hl; exact nil
    · apply step l hl
      have : 0 < l.length := List.length_pos_iff.mpr hl
      exact ih (l.drop num).length (by rw [List.length_drop]; omega) _ rfl

theorem chunks_eq_nil {num : Nat} (hn : 0 < num) {data : List α} :
    chunks num data = [] ↔ data = [] := by
  constructor
  · intro h
    by_cases hd : data = []
    · exact hd
    · rw [chunks_step hn hd] at h; simp at h
  · rintro rfl; exact chunks_nil num

theorem flatten_chunks {num : Nat} (hn : 0 < num) (data : List α) : (chunks num data).flatten = data := by
  induction data using chunk_induction hn with
  | nil => simp [chunks_nil]
  | step l hl ih => rw [chunks_step hn hl, List.flatten_cons, ih, List.take_append_drop]

theorem isBlocking_chunks {num : Nat} (hn : 0 < num) (data : List α) : IsBlocking num data (chunks num data) := by
  refine ⟨flatten_chunks hn data, ?_, ?_⟩
  · induction data using chunk_induction hn with
    | nil => simp [chunks_nil]
    | step l hl ih =>
      intro b hb
      rw [chunks_step hn hl] at hb
      by_cases hd : l.drop num = []
      · rw [hd, chunks_nil] at hb; simp at hb
      · have hne : chunks num (l.drop num) ≠ [] := fun h => hd ((chunks_eq_nil hn).1 h)
        rw [List.dropLast_cons_of_ne_nil hne] at hb
        rcases List.mem_cons.1 hb with rfl | hb
        · rw [List.length_take]
          have : 0 < (l.drop num).length := List.length_pos_iff.mpr hd
          rw [List.length_drop] at this; omega
        · exact ih b hb
  · induction data using chunk_induction hn with
    | nil => simp [chunks_nil]
    | step l hl ih =>
      intro b hb
      rw [chunks_step hn hl] at hb
      by_cases hd : l.drop num = []
      · rw [hd, chunks_nil] at hb
        simp only [List.getLast?_singleton, Option.some.injEq] at hb
        subst hb
        have : 0 < l.length := List.length_pos_iff.mpr hl
        rw [List.length_take]; omega
      · have hne : chunks num (l.drop num) ≠ [] := fun h => hd ((chunks_eq_nil hn).1 h)
        rw [List.getLast?_cons_of_ne_nil hne] at hb
        exact ih b hb

/-- The contract determines the blocks. -/
theorem isBlocking_iff {num : Nat} (hn : 0 < num) {data : List α} {bs : List (List α)} :
    IsBlocking num data bs ↔ bs = chunks num data := by
  constructor
  · intro h
    induction bs generalizing data with
    | nil =>
      have : data = [] := by simpa using h.cover.symm
      rw [this, chunks_nil]
    | cons b bs ih =>
      by_cases hb : bs = []
      · subst hb
        have hl := h.last b (by simp)
        have hc : b = data := by simpa using h.cover
        subst hc
        rw [chunks_short (List.length_pos_iff.mp hl.1) hl.2]
      · have h1 : b.length = num := h.full b (by rw [List.dropLast_cons_of_ne_nil hb]; simp)
        have hc := h.cover
        rw [List.flatten_cons] at hc
        have h2 : IsBlocking num bs.flatten bs := by
          refine ⟨rfl, ?_, ?_⟩
          · intro c hc'
            exact h.full c (by rw [List.dropLast_cons_of_ne_nil hb]; exact List.mem_cons_of_mem _ hc')
          · intro c hc'
            exact h.last c (by rw [List.getLast?_cons_of_ne_nil hb]; exact hc')
        have h3 := ih h2
        have hd : data ≠ [] := by
          intro e; rw [e] at hc
          have := congrArg List.length hc
          rw [List.length_append, List.length_nil] at this; omega
        rw [chunks_step hn hd, ← hc]
        rw [← h1, List.take_left, List.drop_left, h1, ← h3]
  · rintro rfl; exact isBlocking_chunks hn data

theorem chunks_map (num : Nat) (f : α → β) (data : List α) :
    (chunks num data).map (List.map f) = chunks num (data.map f) := by
  simp [chunks, List.map_take, List.map_drop, Function.comp_def]

theorem IsBlocking.map {num : Nat} (hn : 0 < num) (f : α → β) {data : List α} {bs}
    (h : IsBlocking num data bs) : IsBlocking num (data.map f) (bs.map (List.map f)) := by
  rw [isBlocking_iff hn] at *
  subst h; exact chunks_map num f data

theorem length_chunks (num : Nat) (data : List α) :
    (chunks num data).length = (data.length + num - 1) / num := by simp [chunks]

theorem chunks_append_full {num : Nat} (hn : 0 < num) {b data : List α} (hb : b.length = num) :
    chunks num (b ++ data) = b :: chunks num data := by
  have : b ++ data ≠ [] := by
    intro e; have := congrArg List.length e
    rw [List.length_append, List.length_nil] at this; omega
  rw [chunks_step hn this, ← hb, List.take_left, List.drop_left]

theorem mem_chunks_length {num : Nat} (hn : 0 < num) {data : List α} {b} (hb : b ∈ chunks num data) :
    0 < b.length ∧ b.length ≤ num := by
  induction data using chunk_induction hn with
  | nil => simp [chunks_nil] at hb
  | step l hl ih =>
    rw [chunks_step hn hl] at hb
    have : 0 < l.length := List.length_pos_iff.mpr hl
    rcases List.mem_cons.1 hb with rfl | hb
    · rw [List.length_take]; omega
    · exact ih hb

theorem selectIdx_range (data : List α) (a b : Nat) :
    selectIdx (fun i => decide (a ≤ i ∧ i < b)) data = (data.take b).drop a := by
  suffices h : ∀ k, ((data.zipIdx k).filter fun x => decide (a ≤ x.2 ∧ x.2 < b)).map Prod.fst
      = (data.take (b - k)).drop (a - k) from h 0
  induction data with
  | nil => intro k; simp
  | cons x xs ih =>
    intro k
    rw [List.zipIdx_cons, List.filter_cons]
    by_cases h1 : k < b
    · have e : b - k = (b - (k+1)) + 1 := by omega
      rw [e, List.take_succ_cons]
      by_cases h2 : a ≤ k
      · have : a - k = 0 := by omega
        rw [this]
        simp only [h1, h2, and_self, decide_true, ↓reduceIte, List.map_cons, List.drop_zero]
        rw [ih]
        have : a - (k+1) = 0 := by omega
        rw [this, List.drop_zero]
      · have e2 : a - k = (a - (k+1)) + 1 := by omega
        rw [e2, List.drop_succ_cons]
        simp only [h2, false_and, decide_false, Bool.false_eq_true, ↓reduceIte]
        rw [ih]
    · have : b - k = 0 := by omega
      rw [this]
      simp only [h1, and_false, decide_false, Bool.false_eq_true, ↓reduceIte]
      rw [ih]
      have : b - (k+1) = 0 := by omega
      rw [this]; simp

end Acoular.Spec
