import Mathlib.Tactic.Abel
import Mathlib.Tactic.Ring
import Mathlib.Tactic.Linarith
import Verif.Model.Filter
import Verif.Lemmas.StreamModel

/-!
# Property theorems: IIR filters (C10) and filter banks (C11)
-/

namespace Acoular

open Spec

variable {K V : Type*} [Ring K] [AddCommGroup V] [Module K V]

/-! ## The carried state is determined by the response -/

private def zAt (s : Sos K) (x y : ℕ → V) (n : ℕ) : V × V :=
  (s.b1 • past x n 1 + s.b2 • past x n 2 - s.a1 • past y n 1 - s.a2 • past y n 2,
   s.b2 • past x n 1 - s.a2 • past y n 1)

private theorem past_succ_one (x : ℕ → V) (n : ℕ) : past x (n + 1) 1 = x n := by
  simp [past]

private theorem past_succ_two (x : ℕ → V) (n : ℕ) : past x (n + 1) 2 = past x n 1 := by
  unfold past
  by_cases h : 1 ≤ n
  · rw [if_pos (by omega), if_pos h]
    congr 1
  · rw [if_neg (by omega), if_neg h]

theorem sosStep_response (sos : List (Sos K)) : ∀ (x y : ℕ → V), IsSosResponse sos x y →
    ∃ Z : ℕ → List (V × V), Z 0 = List.replicate sos.length (0, 0) ∧ (∀ n, (Z n).length = sos.length) ∧
      ∀ n, sosStep sos (Z n) (x n) = (y n, Z (n + 1)) := by
  induction sos with
  | nil =>
    intro x y h
    cases (show y = x from h)
    exact ⟨fun _ => [], rfl, fun _ => rfl, fun _ => rfl⟩
  | cons s ss ih =>
    rintro x y ⟨w, hw, hy⟩
    obtain ⟨Z, h0, hl, hs⟩ := ih w y hy
    refine ⟨fun n => zAt s x w n :: Z n, ?_, ?_, ?_⟩
    · simp [zAt, past, h0, List.replicate_succ]
    · intro n; simp [hl n]
    · intro n
      have hwn := hw n
      have h1 : s.b0 • x n + (zAt s x w n).1 = w n := by
        rw [hwn]; simp only [zAt]; abel
      simp only [sosStep, h1, hs n]
      congr 2
      simp only [zAt, past_succ_one, past_succ_two]
      congr 1
      abel

/-- Every signal has a response (so the theorems below are not vacuous). -/
theorem exists_section_response (s : Sos K) (x : ℕ → V) : ∃ y, IsSectionResponse s x y := by
  -- direct recursion on (y (n-1), y (n-2))
  let st : ℕ → V × V × V := fun n => Nat.rec (motive := fun _ => V × V × V) (s.b0 • x 0, 0, 0)
    (fun k p => (s.b0 • x (k + 1) + s.b1 • past x (k + 1) 1 + s.b2 • past x (k + 1) 2 - s.a1 • p.1 - s.a2 • p.2.1,
      p.1, p.2.1)) n
  have hst : ∀ n, st (n + 1) = (s.b0 • x (n + 1) + s.b1 • past x (n + 1) 1 + s.b2 • past x (n + 1) 2
      - s.a1 • (st n).1 - s.a2 • (st n).2.1, (st n).1, (st n).2.1) := fun n => rfl
  refine ⟨fun n => (st n).1, ?_⟩
  have h2 : ∀ n, (st n).2.1 = past (fun n => (st n).1) n 1 := by
    intro n
    cases n with
    | zero => rfl
    | succ n => rw [past_succ_one (fun n => (st n).1), hst]
  intro n
  cases n with
  | zero => simp [past, st]
  | succ n =>
    simp only []
    rw [hst n, past_succ_one (fun n => (st n).1), past_succ_two (fun n => (st n).1), ← h2]

theorem exists_sos_response (sos : List (Sos K)) : ∀ x : ℕ → V, ∃ y, IsSosResponse sos x y := by
  induction sos with
  | nil => exact fun x => ⟨x, rfl⟩
  | cons s ss ih =>
    intro x
    obtain ⟨w, hw⟩ := exists_section_response s x
    obtain ⟨y, hy⟩ := ih w
    exact ⟨y, w, hw, hy⟩

theorem sosRows_response {sos : List (Sos K)} {x y : ℕ → V} {Z : ℕ → List (V × V)}
    (hs : ∀ n, sosStep sos (Z n) (x n) = (y n, Z (n + 1))) :
    ∀ (block : List V) (n : ℕ), (∀ i, (h : i < block.length) → block[i] = x (n + i)) →
      sosRows sos (Z n) block = ((List.range block.length).map fun i => y (n + i), Z (n + block.length)) := by
  intro block
  induction block with
  | nil => intro n _; rfl
  | cons b bs ih =>
    intro n hb
    have hb0 : b = x n := hb 0 (by simp)
    have ih' := ih (n + 1) (fun i hi => by
      have := hb (i + 1) (by simp; omega)
      rw [List.getElem_cons_succ] at this
      rw [this]; congr 1; omega)
    simp only [sosRows, hb0, hs n, ih']
    refine Prod.ext ?_ ?_
    · simp only [List.length_cons, List.range_succ_eq_map, List.map_cons, List.map_map, Nat.add_zero]
      congr 1
      apply List.map_congr_left
      intro i _
      simp only [Function.comp, Nat.succ_eq_add_one]
      congr 1; omega
    · simp only [List.length_cons]; congr 1; omega

private theorem filter_loop {sos : List (Sos K)} {x y : ℕ → V} {Z : ℕ → List (V × V)}
    (hl : ∀ n, (Z n).length = sos.length) (hs : ∀ n, sosStep sos (Z n) (x n) = (y n, Z (n + 1))) (num : Nat)
    (hn : 0 < num) (data : List V) :
    ∀ (n k : ℕ), (∀ i, (h : i < data.length) → data[i] = x (n + i)) →
      Filter.loop (fun _ => sos) k (Z n) (chunks num data)
        = ⟨chunks num ((List.range data.length).map fun i => y (n + i)), .returned⟩ := by
  induction data using chunk_induction hn with
  | nil => intro n k _; simp [chunks_nil, Filter.loop, Trace.stop]
  | step data hne ih =>
    intro n k hx
    have hpos := List.length_pos_iff.mpr hne
    rw [chunks_step hn hne]
    have hrow := sosRows_response hs (data.take num) n (fun i hi => by
      rw [List.getElem_take]; exact hx i (by rw [List.length_take] at hi; omega))
    simp only [Filter.loop, sosfilt, hl n, if_true, hrow]
    have hmap : (List.range data.length).map (fun i => y (n + i)) ≠ [] := by
      intro h
      have := congrArg List.length h
      rw [List.length_map, List.length_range, List.length_nil] at this
      omega
    rw [chunks_step hn hmap]
    have htake : ((List.range data.length).map fun i => y (n + i)).take num
        = (List.range (data.take num).length).map fun i => y (n + i) := by
      rw [← List.map_take, List.take_range, List.length_take]
    rw [htake]
    by_cases hfull : num ≤ data.length
    · have hlen : (data.take num).length = num := by rw [List.length_take]; omega
      have := ih (n + num) (k + 1) (fun i hi => by
        rw [List.getElem_drop]
        rw [hx (num + i) (by rw [List.length_drop] at hi; omega)]
        congr 1; omega)
      rw [hlen, this]
      simp only [Trace.cons]
      congr 3
      rw [← List.map_drop]
      apply List.ext_getElem
      · simp
      · intro i h1 h2
        simp only [List.getElem_map, List.getElem_drop, List.getElem_range]
        congr 1; omega
    · have hd : data.drop num = [] := List.drop_eq_nil_of_le (by omega)
      have hd2 : (List.map (fun i => y (n + i)) (List.range data.length)).drop num = [] :=
        List.drop_eq_nil_of_le (by simp; omega)
      rw [hd, hd2, chunks_nil]
      rfl

/-- The output of `Filter.result(num)` is the response of the cascade to the whole signal from rest, cut
into blocks of `num` rows; in particular it does not depend on `num`. -/
theorem C10_filter (sos : List (Sos K)) (data : List V) (num : Nat) (hn : 0 < num) (blocks : List (List V))
    (hsrc : IsBlocking num data blocks) (y : ℕ → V) (hy : IsSosResponse sos (signal data) y) :
    ∃ out, Filter.result sos (fun _ => sos) blocks = ⟨out, .returned⟩ ∧
      IsBlocking num ((List.range data.length).map y) out := by
  obtain ⟨Z, h0, hl, hs⟩ := sosStep_response sos (signal data) y hy
  rw [(isBlocking_iff hn).1 hsrc]
  refine ⟨_, ?_, isBlocking_chunks hn _⟩
  unfold Filter.result
  rw [← h0]
  have := filter_loop hl hs num hn data 0 0 (fun i h => by simp [signal, h])
  simpa using this

/-- The hypotheses of `C10_filter` are met: -/
example := C10_filter [(⟨1, 0, 0, 0, 0⟩ : Sos ℚ)] [(1 : ℚ), 2, 4] 2 (by decide) _ (isBlocking_chunks (by decide) _)

/-- Two different block sizes give the same samples. -/
theorem C10_filter_block_size (sos : List (Sos K)) (data : List V) (num num' : Nat) (hn : 0 < num) (hn' : 0 < num')
    (blocks blocks' : List (List V)) (hsrc : IsBlocking num data blocks) (hsrc' : IsBlocking num' data blocks') :
    (Filter.result sos (fun _ => sos) blocks).blocks.flatten = (Filter.result sos (fun _ => sos) blocks').blocks.flatten := by
  obtain ⟨y, hy⟩ := exists_sos_response sos (signal data)
  obtain ⟨o, h1, h2⟩ := C10_filter sos data num hn blocks hsrc y hy
  obtain ⟨o', h1', h2'⟩ := C10_filter sos data num' hn' blocks' hsrc' y hy
  rw [h1, h1', h2.cover, h2'.cover]

/-- The hypotheses of `C10_filter_block_size` are met: -/
example := C10_filter_block_size [(⟨1, 0, 0, -1, 0⟩ : Sos ℚ)] [(1 : ℚ), 2, 4] 2 3 (by decide) (by decide) _ _
  (isBlocking_chunks (by decide) _) (isBlocking_chunks (by decide) _)

/-- Changing the coefficients while the generator runs does not touch blocks already delivered. -/
theorem C10_filter_change (sosAt sosAt' : Nat → List (Sos K)) (j : Nat) (h : ∀ k < j, sosAt k = sosAt' k)
    (sos0 : List (Sos K)) (blocks : List (List V)) :
    (Filter.result sos0 sosAt blocks).blocks.take j = (Filter.result sos0 sosAt' blocks).blocks.take j := by
  have key : ∀ (blocks : List (List V)) (k : Nat) (zi : List (V × V)),
      (Filter.loop sosAt k zi blocks).blocks.take (j - k) = (Filter.loop sosAt' k zi blocks).blocks.take (j - k) := by
    intro blocks
    induction blocks with
    | nil => intros; rfl
    | cons b bs ih =>
      intro k zi
      by_cases hk : k < j
      · simp only [Filter.loop, h k hk]
        cases hsf : sosfilt (sosAt' k) b zi with
        | error e => rfl
        | ok p =>
          obtain ⟨out, zi'⟩ := p
          simp only [Trace.cons]
          obtain ⟨d, hd⟩ : ∃ d, j - k = d + 1 := ⟨j - k - 1, by omega⟩
          have := ih (k + 1) zi'
          rw [show j - (k + 1) = d by omega] at this
          rw [hd, List.take_succ_cons, List.take_succ_cons, this]
      · rw [show j - k = 0 by omega]; simp
  exact key blocks 0 _

/-- The hypotheses of `C10_filter_change` are met: -/
example := C10_filter_change (K := ℚ) (fun k => if k < 2 then [⟨1, 0, 0, -1, 0⟩] else []) (fun _ => [⟨1, 0, 0, -1, 0⟩]) 2
  (fun k hk => if_pos hk) [] [[(1 : ℚ), 2], [4, 8], [16]]

/-- `TimeExpAverage`: exponential averaging, `y[0] = α x[0]`, `y[n+1] = α x[n+1] + (1 - α) y[n]` with
`1 - α = exp(-1 / (τ fs))`, whatever the block size. -/
theorem C10_time_exp_average {V : Type*} [AddCommGroup V] [Module ℝ V] (weight fs : ℝ) (data : List V)
    (num : Nat) (hn : 0 < num) (blocks : List (List V)) (hsrc : IsBlocking num data blocks) (y : ℕ → V)
    (h0 : y 0 = (1 - Real.exp (-1 / weight / fs)) • signal data 0)
    (hstep : ∀ n, y (n + 1) = (1 - Real.exp (-1 / weight / fs)) • signal data (n + 1)
      + Real.exp (-1 / weight / fs) • y n) :
    ∃ out, Filter.result (TimeExpAverage.sos weight fs) (fun _ => TimeExpAverage.sos weight fs) blocks
        = ⟨out, .returned⟩ ∧ IsBlocking num ((List.range data.length).map y) out := by
  refine C10_filter _ data num hn blocks hsrc y ⟨y, ?_, rfl⟩
  intro n
  cases n with
  | zero => simp [past, h0]
  | succ n =>
    rw [hstep, past_succ_one y, past_succ_one, past_succ_two, past_succ_two]
    simp

/-- The hypotheses of `C10_time_exp_average` are met: -/
example := C10_time_exp_average (V := ℝ) 0.125 51200 [1, 2, 4] 2 (by decide) _ (isBlocking_chunks (by decide) _)
  (fun n => Nat.rec ((1 - Real.exp (-1 / 0.125 / 51200)) • signal [1, 2, 4] 0)
    (fun n acc => (1 - Real.exp (-1 / 0.125 / 51200)) • signal [1, 2, 4] (n + 1) + Real.exp (-1 / 0.125 / 51200) • acc) n) rfl fun _ => rfl

/-- The averaging constant lies strictly between 0 and 1 for positive time constant and sample rate. -/
theorem C10_time_exp_average_alpha (weight fs : ℝ) (hw : 0 < weight) (hf : 0 < fs) :
    0 < 1 - Real.exp (-1 / weight / fs) ∧ 1 - Real.exp (-1 / weight / fs) < 1 := by
  constructor
  · have : -1 / weight / fs < 0 := by
      apply div_neg_of_neg_of_pos _ hf
      exact div_neg_of_neg_of_pos (by norm_num) hw
    have := Real.exp_lt_exp.2 this
    rw [Real.exp_zero] at this
    linarith
  · have := Real.exp_pos (-1 / weight / fs)
    linarith

/-- The hypotheses of `C10_time_exp_average_alpha` are met: -/
example := C10_time_exp_average_alpha 0.125 51200 (by norm_num) (by norm_num)

/-! ## Zero-phase filter -/

private theorem collectRows_eq {α : Type*} (numSamples : Nat) : ∀ (blocks : List (List α)) (acc : List α),
    acc.length + blocks.flatten.length ≤ numSamples → collectRows numSamples acc blocks = .ok (acc ++ blocks.flatten) := by
  intro blocks
  induction blocks with
  | nil => intro acc _; simp [collectRows]
  | cons b bs ih =>
    intro acc h
    rw [List.flatten_cons, List.length_append] at h
    rw [collectRows, if_pos (by omega), ih _ (by rw [List.length_append]; omega), List.flatten_cons, List.append_assoc]

/-- The zero-phase filter sees the whole signal at once and then re-blocks its result. -/
theorem C10_filtfilt {α : Type*} (filtfilt : List α → List α) (junk : Nat → α) (data : List α) (num : Nat)
    (hn : 0 < num) (blocks : List (List α)) (hsrc : IsBlocking num data blocks) :
    ∃ out, FiltFiltOctave.result filtfilt data.length junk blocks num = ⟨out, .returned⟩ ∧
      IsBlocking num (filtfilt data) out := by
  unfold FiltFiltOctave.result
  rw [collectRows_eq data.length blocks [] (by rw [hsrc.cover]; simp), List.nil_append, hsrc.cover]
  simp only [Nat.sub_self, List.range_zero, List.map_nil, List.append_nil]
  refine ⟨_, blockLoop_eq _ hn _ 0 (by simp), isBlocking_chunks hn _⟩

/-- The hypotheses of `C10_filtfilt` are met: -/
example := C10_filtfilt List.reverse (fun _ => 99) [1, 2, 4] 2 (by decide) _ (isBlocking_chunks (by decide) _)

/-- **C130.** If the source delivers what it announces, the result is that of the whole signal and the memory plays no
role. -/
theorem C130_exact_partial {α : Type*} (filtfilt : List α → List α) (junk junk' : Nat → α) (data : List α) (num : Nat)
    (hn : 0 < num) (blocks : List (List α)) (hsrc : IsBlocking num data blocks) :
    FiltFiltOctave.result filtfilt data.length junk blocks num = FiltFiltOctave.result filtfilt data.length junk' blocks num ∧
      FiltFiltOctave.result filtfilt data.length junk blocks num = ⟨chunks num (filtfilt data), .returned⟩ := by
  obtain ⟨o1, h1, h2⟩ := C10_filtfilt filtfilt junk data num hn blocks hsrc
  obtain ⟨o2, h3, h4⟩ := C10_filtfilt filtfilt junk' data num hn blocks hsrc
  rw [h1, h3, (isBlocking_iff hn).1 h2, (isBlocking_iff hn).1 h4]
  exact ⟨rfl, rfl⟩

/-- The hypotheses of `C130_exact_partial` are met: -/
example := C130_exact_partial List.reverse (fun _ => 99) (fun _ => 98) [1, 2, 4] 2 (by decide) _ (isBlocking_chunks (by decide) _)

/-- **C130.** A source that delivers fewer rows than it announces (for example a mixer with a shorter source): the zero-phase
filter processes and delivers as many rows as announced; the missing ones are whatever the memory contained. -/
theorem C130_short {α : Type*} (filtfilt : List α → List α) (junk : Nat → α) (data : List α) (announced num : Nat)
    (hn : 0 < num) (blocks : List (List α)) (hsrc : IsBlocking num data blocks) (hlt : data.length ≤ announced) :
    ∃ (out : List (List α)) (signal : List α), FiltFiltOctave.result filtfilt announced junk blocks num = ⟨out, .returned⟩ ∧
      IsBlocking num (filtfilt signal) out ∧ signal.length = announced ∧ signal.take data.length = data ∧
      ∀ i, data.length ≤ i → (h : i < signal.length) → signal[i] = junk i := by
  refine ⟨_, data ++ (List.range (announced - data.length)).map fun i => junk (data.length + i), ?_, isBlocking_chunks hn _, ?_, ?_,
    ?_⟩
  · unfold FiltFiltOctave.result
    rw [collectRows_eq announced blocks [] (by rw [hsrc.cover]; simpa using hlt), List.nil_append, hsrc.cover]
    exact blockLoop_eq _ hn _ 0 (by simp)
  · rw [List.length_append, List.length_map, List.length_range]; omega
  · rw [List.take_left]
  · intro i hi h
    rw [List.getElem_append_right hi, List.getElem_map, List.getElem_range]
    congr 1
    omega

/-- The hypotheses of `C130_short` are met: -/
example := C130_short List.reverse (fun _ => 99) [1, 2, 4] 5 2 (by decide) _ (isBlocking_chunks (by decide) _) (by decide)

/-- So the same signal gives different results: rows of the output depend on the content of the memory. -/
theorem C130_short_violated : ∃ (blocks : List (List ℤ)) (junk junk' : Nat → ℤ), IsBlocking 2 [1, 2, 3] blocks ∧
    FiltFiltOctave.result id 4 junk blocks 2 ≠ FiltFiltOctave.result id 4 junk' blocks 2 :=
  ⟨chunks 2 [1, 2, 3], fun _ => 0, fun _ => 7, isBlocking_chunks (by decide) _, by
    rw [show chunks 2 [(1 : ℤ), 2, 3] = [[1, 2], [3]] from by decide +kernel]
    intro h
    have := congrArg Trace.blocks h
    revert this
    decide +kernel⟩

/-- A source that delivers more rows than announced: `ValueError` instead of a result, provided that the rows in excess
are not in blocks of a single row. -/
theorem C130_long {α : Type*} (filtfilt : List α → List α) (junk : Nat → α) (data : List α) (announced num : Nat)
    (hn : 2 ≤ num) (blocks : List (List α)) (hsrc : IsBlocking num data blocks) (hlt : announced < data.length)
    (hone : ¬ (num ∣ announced ∧ data.length = announced + 1)) :
    FiltFiltOctave.result filtfilt announced junk blocks num = .raise .valueError := by
  rw [(isBlocking_iff (by omega)).1 hsrc]
  have h : ∀ (acc : List α), acc.length ≤ announced → announced < acc.length + data.length →
      ¬ (num ∣ announced - acc.length ∧ acc.length + data.length = announced + 1) →
      collectRows announced acc (chunks num data) = .error .valueError := by
    clear hlt hone hsrc
    induction data using chunk_induction (show 0 < num by omega) with
    | nil => intro acc h1 h2; simp at h2; omega
    | step data hne ih =>
      intro acc h1 h2 h3
      have hpos := List.length_pos_iff.mpr hne
      rw [chunks_step (by omega) hne, collectRows]
      have hl : (data.take num).length = min num data.length := List.length_take
      split
      · rename_i h4
        have hfull : (data.take num).length = num := by
          rcases Nat.lt_or_ge data.length num with h | h
          · rw [hl] at h4; omega
          · rw [hl]; omega
        rw [hfull] at h4
        apply ih
        · rw [List.length_append, hfull]; exact h4
        · rw [List.length_append, hfull, List.length_drop]; omega
        · rw [List.length_append, hfull, List.length_drop]
          rintro ⟨h5, h6⟩
          apply h3
          refine ⟨?_, by omega⟩
          have := Nat.dvd_add h5 (Nat.dvd_refl num)
          rwa [show announced - (acc.length + num) + num = announced - acc.length by omega] at this
      · rename_i h4
        rw [if_neg]
        intro h5
        rw [hl] at h5 h4
        apply h3
        have h6 : announced - acc.length = 0 := by omega
        rw [h6]
        exact ⟨dvd_zero _, by omega⟩
  unfold FiltFiltOctave.result
  rw [h [] (by simp) (by simpa using hlt) (by simpa using hone)]

/-- The hypotheses of `C130_long` are met: -/
example := C130_long List.reverse (fun _ => 99) [1, 2, 4] 1 2 (by decide) _ (isBlocking_chunks (by decide) _) (by decide) (by decide)

/-- If the source is read row by row (`num = 1`), the rows in excess are lost without an error. -/
theorem C130_long_rows {α : Type*} (filtfilt : List α → List α) (junk : Nat → α) (data : List α) (announced : Nat)
    (blocks : List (List α)) (hsrc : IsBlocking 1 data blocks) (hlt : announced < data.length) :
    ∃ out, FiltFiltOctave.result filtfilt announced junk blocks 1 = ⟨out, .returned⟩ ∧
      IsBlocking 1 (filtfilt (data.take announced)) out := by
  rw [(isBlocking_iff Nat.one_pos).1 hsrc]
  have h : ∀ (acc : List α), acc.length ≤ announced →
      collectRows announced acc (chunks 1 data) = .ok (acc ++ data.take (announced - acc.length)) := by
    clear hlt hsrc
    induction data using chunk_induction Nat.one_pos with
    | nil => intro acc _; simp [chunks_nil, collectRows]
    | step data hne ih =>
      intro acc h1
      obtain ⟨a, l, rfl⟩ := List.exists_cons_of_ne_nil hne
      rw [chunks_step Nat.one_pos hne, collectRows]
      simp only [List.take_succ_cons, List.take_zero, List.drop_succ_cons, List.drop_zero, List.length_cons, List.length_nil,
        Nat.zero_add, if_true] at ih ⊢
      split
      · rename_i h2
        rw [ih _ (by simpa using h2)]
        rw [List.length_append, List.length_cons, List.length_nil, List.append_assoc,
          show announced - acc.length = (announced - (acc.length + (0 + 1))) + 1 by omega, List.take_succ_cons]
        rfl
      · rename_i h2
        rw [ih _ h1, show announced - acc.length = 0 by omega, List.take_zero, List.take_zero]
  unfold FiltFiltOctave.result
  rw [h [] (by simp)]
  have hl : (data.take announced).length = announced := by rw [List.length_take]; omega
  simp only [List.nil_append, List.length_nil, Nat.sub_zero, hl, Nat.sub_self, List.range_zero, List.map_nil, List.append_nil]
  exact ⟨_, blockLoop_eq _ Nat.one_pos _ 0 (by simp), isBlocking_chunks Nat.one_pos _⟩

/-- The hypotheses of `C130_long_rows` are met: -/
example := C130_long_rows List.reverse (fun _ => 99) [1, 2, 4] 1 _ (isBlocking_chunks (by decide) _) (by decide)

/-! ## Filter banks -/

private theorem bands_full {x : ℕ → V} {y : List (Sos K) → ℕ → V} {Z : List (Sos K) → ℕ → List (V × V)}
    (num n : Nat) (block : List V) (hb : block.length = num) (hx : ∀ i, (h : i < block.length) → block[i] = x (n + i)) :
    ∀ l : List (List (Sos K)), (∀ s ∈ l, (∀ n, (Z s n).length = s.length) ∧
        ∀ n, sosStep s (Z s n) (x n) = (y s n, Z s (n + 1))) →
      FilterBank.bands num block (l.zip (l.map fun s => Z s n))
        = .ok (l.map (fun s => (List.range num).map fun i => y s (n + i)), l.map fun s => Z s (n + num)) := by
  intro l
  induction l with
  | nil => intro _; rfl
  | cons s l ih =>
    intro h
    obtain ⟨hl, hs⟩ := h s (by simp)
    have ih' := ih (fun t ht => h t (by simp [ht]))
    simp only [List.map_cons, List.zip_cons_cons, FilterBank.bands, sosfilt, hl n, if_true,
      sosRows_response hs block n hx, hb, List.length_map, List.length_range, ih']
    simp

private theorem bank_loop {x : ℕ → V} {y : List (Sos K) → ℕ → V} {Z : List (Sos K) → ℕ → List (V × V)}
    {num : Nat} (hn : 0 < num) (soss : List (List (Sos K)))
    (h : ∀ s ∈ soss, (∀ n, (Z s n).length = s.length) ∧ ∀ n, sosStep s (Z s n) (x n) = (y s n, Z s (n + 1)))
    (data tail : List V) : ∀ n : Nat, num ∣ data.length → (∀ i, (h : i < data.length) → data[i] = x (n + i)) →
      FilterBank.loop num soss (soss.map fun s => Z s n) (chunks num (data ++ tail)) =
        ⟨chunks num ((List.range data.length).map fun i => soss.map fun s => y s (n + i)) ++
          (FilterBank.loop num soss (soss.map fun s => Z s (n + data.length)) (chunks num tail)).blocks,
          (FilterBank.loop num soss (soss.map fun s => Z s (n + data.length)) (chunks num tail)).exit⟩ := by
  induction data using chunk_induction hn with
  | nil => intro n _ _; simp [chunks_nil]
  | step data hne ih =>
    intro n hd hx
    have hpos := List.length_pos_iff.mpr hne
    have hfull : num ≤ data.length := Nat.le_of_dvd hpos hd
    have hlen : (data.take num).length = num := by rw [List.length_take]; omega
    have hx1 : ∀ i, (h : i < (data.take num).length) → (data.take num)[i] = x (n + i) := fun i hi => by
      rw [List.getElem_take]; exact hx i (by rw [List.length_take] at hi; omega)
    have ih' := ih (n + num) (by rw [List.length_drop]; exact Nat.dvd_sub hd (Nat.dvd_refl _)) (fun i hi => by
        rw [List.getElem_drop]
        rw [hx (num + i) (by rw [List.length_drop] at hi; omega)]
        congr 1; omega)
    have hne2 : data ++ tail ≠ [] := by simp [hne]
    rw [chunks_step hn hne2, List.take_append_of_le_length hfull, List.drop_append_of_le_length hfull]
    simp only [FilterBank.loop, bands_full num n _ hlen hx1 soss h, ih']
    have hmap : (List.range data.length).map (fun i => soss.map fun s => y s (n + i)) ≠ [] := by
      intro h
      have := congrArg List.length h
      rw [List.length_map, List.length_range, List.length_nil] at this
      omega
    rw [chunks_step hn hmap]
    have hadd : n + num + (data.drop num).length = n + data.length := by rw [List.length_drop]; omega
    rw [hadd]
    simp only [Trace.cons, List.cons_append]
    congr 2
    · rw [← List.map_take, List.take_range, Nat.min_eq_left hfull]
      apply List.map_congr_left
      intro i hi
      rw [List.map_map]
      apply List.map_congr_left
      intro s _
      simp [List.mem_range.1 hi]
    · congr 2
      rw [← List.map_drop]
      apply List.ext_getElem
      · simp
      · intro i h1 h2
        simp only [List.getElem_map, List.getElem_drop, List.getElem_range]
        apply List.map_congr_left
        intro s _
        congr 1; omega

private theorem bank_states (soss : List (List (Sos K))) (data : List V) (y : List (Sos K) → ℕ → V)
    (hlen : ∀ s ∈ soss, s.length = (soss.headD []).length)
    (hy : ∀ s ∈ soss, IsSosResponse s (signal data) (y s)) :
    ∃ Z : List (Sos K) → ℕ → List (V × V),
      (soss.map fun _ => List.replicate (soss.headD []).length ((0, 0) : V × V)) = soss.map (fun s => Z s 0) ∧
      ∀ s ∈ soss, (∀ n, (Z s n).length = s.length) ∧ ∀ n, sosStep s (Z s n) (signal data n) = (y s n, Z s (n + 1)) := by
  classical
  refine ⟨fun s => if h : s ∈ soss then (sosStep_response s _ _ (hy s h)).choose else fun _ => [], ?_, ?_⟩
  · apply List.map_congr_left
    intro s hs
    simp only [dif_pos hs]
    rw [(sosStep_response s _ _ (hy s hs)).choose_spec.1, hlen s hs]
  · intro s hs
    simp only [dif_pos hs]
    exact (sosStep_response s _ _ (hy s hs)).choose_spec.2

/-- The part that holds: if the number of rows is a multiple of `num`, the bank delivers for every sample
the responses of all bands, in blocks of `num`.  Missing for the full statement: a shorter last block. -/
theorem C11_filter_bank_partial (soss : List (List (Sos K))) (data : List V) (num : Nat) (hn : 0 < num)
    (blocks : List (List V)) (hsrc : IsBlocking num data blocks)
    (hlen : ∀ s ∈ soss, s.length = (soss.headD []).length)
    (y : List (Sos K) → ℕ → V) (hy : ∀ s ∈ soss, IsSosResponse s (signal data) (y s))
    (hdvd : num ∣ data.length) :
    ∃ out, FilterBank.result num soss blocks = ⟨out, .returned⟩ ∧
      IsBlocking num ((List.range data.length).map fun n => soss.map fun s => y s n) out := by
  obtain ⟨Z, h0, hZ⟩ := bank_states soss data y hlen hy
  rw [(isBlocking_iff hn).1 hsrc]
  refine ⟨_, ?_, isBlocking_chunks hn _⟩
  unfold FilterBank.result
  rw [h0]
  have := bank_loop hn soss hZ data [] 0 hdvd (fun i h => by simp [signal, h])
  rw [List.append_nil] at this
  rw [this]
  simp [chunks_nil, FilterBank.loop, Trace.stop]

/-- The hypotheses of `C11_filter_bank_partial` are met: -/
example := C11_filter_bank_partial [[(⟨1, 0, 0, -1, 0⟩ : Sos ℚ)], [⟨1, -1, 0, 0, 0⟩]] [(1 : ℚ), 2, 4, 8] 2 (by decide) _
  (isBlocking_chunks (by decide) _) (by decide) (fun s => (exists_sos_response s _).choose) (fun s _ => (exists_sos_response s _).choose_spec)
  (by decide)

/-- If two or more rows are left over for the last block, the bank raises `ValueError` after the full
blocks: the rest of the signal is lost. -/
theorem C11_filter_bank_violated (soss : List (List (Sos K))) (data : List V) (num : Nat) (hn : 0 < num)
    (blocks : List (List V)) (hsrc : IsBlocking num data blocks)
    (hlen : ∀ s ∈ soss, s.length = (soss.headD []).length) (hne : soss ≠ [])
    (hrest : 2 ≤ data.length % num) :
    (FilterBank.result num soss blocks).exit = .raised .valueError ∧
      (FilterBank.result num soss blocks).blocks.length = data.length / num := by
  choose y hy using fun s : List (Sos K) => exists_sos_response s (signal data)
  obtain ⟨Z, h0, hZ⟩ := bank_states soss data y hlen (fun s _ => hy s)
  have hmod := Nat.mod_lt data.length hn
  have hdm := Nat.div_add_mod data.length num
  set m := num * (data.length / num) with hm
  have hml : (data.take m).length = m := by rw [List.length_take]; omega
  have hrl : (data.drop m).length = data.length % num := by rw [List.length_drop]; omega
  have hsplit := bank_loop hn soss hZ (data.take m) (data.drop m) 0 (by rw [hml]; exact ⟨_, hm⟩)
    (fun i h => by rw [List.getElem_take]; simp [signal, show i < data.length by omega])
  rw [List.take_append_drop] at hsplit
  have htail : FilterBank.loop num soss (soss.map fun s => Z s (0 + (data.take m).length)) (chunks num (data.drop m))
      = ⟨[], .raised .valueError⟩ := by
    have hne2 : data.drop m ≠ [] := by
      intro h; rw [h] at hrl; simp at hrl; omega
    rw [chunks_step hn hne2, List.take_of_length_le (l := data.drop m) (by omega), hml]
    obtain ⟨s, l, rfl⟩ := List.exists_cons_of_ne_nil hne
    obtain ⟨hl, hs⟩ := hZ s (by simp)
    have hrow := sosRows_response hs (data.drop m) (0 + m) (fun i h => by
      rw [List.length_drop] at h
      simp [signal, show m + i < data.length by omega])
    simp only [List.map_cons, List.zip_cons_cons, FilterBank.loop, FilterBank.bands, sosfilt, hl, if_true,
      hrow, List.length_map, List.length_range, hrl]
    rw [if_neg (by omega)]
    rfl
  unfold FilterBank.result
  rw [h0, (isBlocking_iff hn).1 hsrc, hsplit, htail]
  refine ⟨rfl, ?_⟩
  simp only [List.append_nil]
  rw [length_chunks, List.length_map, List.length_range, hml]
  rw [hm, show num * (data.length / num) + num - 1 = num * (data.length / num) + (num - 1) by omega,
    Nat.mul_add_div hn, Nat.div_eq_of_lt (a := num - 1) (by omega), Nat.add_zero]

-- The hypotheses are met by a non-trivial case: two bands, a running sum and a difference.
example : (FilterBank.result 2 [[(⟨1, 0, 0, -1, 0⟩ : Sos ℚ)], [⟨1, -1, 0, 0, 0⟩]] (chunks 2 [(1 : ℚ), 2, 4, 8]))
    = ⟨[[[1, 1], [3, 1]], [[7, 2], [15, 4]]], .returned⟩ := by decide +kernel
example : (FilterBank.result 3 [[(⟨1, 0, 0, -1, 0⟩ : Sos ℚ)]] (chunks 3 [(1 : ℚ), 2, 4, 8, 16])).exit
    = .raised .valueError := by decide +kernel
example : Filter.result [(⟨1, 0, 0, -1, 0⟩ : Sos ℚ)] (fun _ => [⟨1, 0, 0, -1, 0⟩]) (chunks 2 [(1 : ℚ), 2, 4])
    = ⟨[[1, 3], [7]], .returned⟩ := by decide +kernel

end Acoular
