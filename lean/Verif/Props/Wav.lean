import Verif.Model.Wav
import Mathlib.Tactic.Linarith
import Mathlib.Tactic.NormNum
import Mathlib.Tactic.Ring
import Mathlib.Tactic.FieldSimp
import Mathlib.Algebra.Order.Ring.Rat
import Mathlib.Data.Rat.Floor

/-!
# Property theorems: WAV export (C55)
-/

set_option linter.unusedSectionVars false

namespace Acoular

variable {K : Type*} [Field K] [LinearOrder K] [IsStrictOrderedRing K] [FloorRing K]

private theorem le_foldr_max (l : List K) (x : K) (hx : x ∈ l) : x ≤ l.foldr max 0 := by
  induction l with
  | nil => simp at hx
  | cons a l ih =>
    rcases List.mem_cons.1 hx with rfl | h
    · exact le_max_left _ _
    · exact (ih h).trans (le_max_right _ _)

private theorem foldr_max_mem (l : List K) : l.foldr max 0 = 0 ∨ l.foldr max 0 ∈ l := by
  induction l with
  | nil => left; rfl
  | cons a l ih =>
    rw [List.foldr_cons]
    rcases max_choice a (l.foldr max 0) with h | h
    · right; rw [h]; simp
    · rw [h]
      rcases ih with ih | ih
      · left; exact ih
      · right; exact List.mem_cons_of_mem _ ih

private theorem mapM_ok {α β : Type*} (f : α → Except PyErr β) (l : List α) (r : List β) (h : l.mapM f = .ok r) :
    List.Forall₂ (fun a b => f a = .ok b) l r := by
  induction l generalizing r with
  | nil => simp [pure, Except.pure] at h; subst h; exact List.Forall₂.nil
  | cons a l ih =>
    rw [List.mapM_cons] at h
    cases ha : f a with
    | error e => rw [ha] at h; simp [bind, Except.bind] at h
    | ok b =>
      rw [ha] at h
      cases hl : l.mapM f with
      | error e => rw [hl] at h; simp [bind, Except.bind] at h
      | ok r' =>
        rw [hl] at h
        simp [bind, Except.bind, pure, Except.pure] at h
        subst h
        exact List.Forall₂.cons ha (ih r' hl)

/-- The values exported for one row. -/
private theorem wavRow_ok (channels : List ℕ) (row r : List K) (h : wavRow channels row = .ok r) :
    List.Forall₂ (fun c v => row[c]? = some v) channels r := by
  have := mapM_ok _ _ _ h
  refine this.imp ?_
  intro c v hv
  cases hc : row[c]? with
  | none => rw [hc] at hv; simp at hv
  | some w => rw [hc] at hv; simp at hv; rw [hv]

private theorem mapM_of_forall {α β : Type*} (f : α → Except PyErr β) (g : α → β) (l : List α) (h : ∀ a ∈ l, f a = .ok (g a)) :
    l.mapM f = .ok (l.map g) := by
  induction l with
  | nil => rfl
  | cons a l ih =>
    rw [List.mapM_cons, h a (by simp), ih fun b hb => h b (by simp [hb])]
    rfl

/-- Exported values of a row of sufficient length. -/
def pickChannels (channels : List ℕ) (row : List K) : List K := channels.map fun c => row.getD c 0

private theorem wavRow_eq (channels : List ℕ) (row : List K) (h : ∀ c ∈ channels, c < row.length) :
    wavRow channels row = .ok (pickChannels channels row) := by
  unfold wavRow pickChannels
  apply mapM_of_forall
  intro c hc
  rw [List.getD_eq_getElem?_getD, List.getElem?_eq_getElem (h c hc)]
  rfl

private theorem wavMax_eq (channels : List ℕ) (blocks : List (List (List K)))
    (h : ∀ row ∈ blocks.flatten, ∀ c ∈ channels, c < row.length) (mx : K) (h0 : 0 ≤ mx) :
    ∃ m, wavMax channels mx blocks = .ok m ∧ mx ≤ m ∧ (∀ row ∈ blocks.flatten, ∀ x ∈ pickChannels channels row, |x| ≤ m) ∧
      (m = mx ∨ ∃ row ∈ blocks.flatten, ∃ x ∈ pickChannels channels row, |x| = m) := by
  induction blocks generalizing mx with
  | nil => exact ⟨mx, rfl, le_refl _, by simp, Or.inl rfl⟩
  | cons b l ih =>
    have hb : b.mapM (wavRow channels) = .ok (b.map (pickChannels channels)) :=
      mapM_of_forall _ _ _ fun row hr => wavRow_eq channels row (h row (by simp [hr]))
    rw [wavMax, hb]
    simp only
    set M := ((b.map (pickChannels channels)).flatten.map fun x => |x|).foldr max 0 with hM
    obtain ⟨m, h1, h2, h3, h4⟩ := ih (fun row hr => h row (by rw [List.flatten_cons]; exact List.mem_append_right _ hr))
      (max M mx) (le_trans h0 (le_max_right _ _))
    refine ⟨m, h1, (le_max_right _ _).trans h2, ?_, ?_⟩
    · intro row hr x hx
      rw [List.flatten_cons, List.mem_append] at hr
      rcases hr with hr | hr
      · refine le_trans ?_ ((le_max_left _ _).trans h2)
        apply le_foldr_max
        exact List.mem_map.2 ⟨x, List.mem_flatten.2 ⟨pickChannels channels row, List.mem_map.2 ⟨row, hr, rfl⟩, hx⟩, rfl⟩
      · exact h3 row hr x hx
    · rcases h4 with h4 | ⟨row, hr, x, hx, hxm⟩
      · rcases max_choice M mx with hc | hc
        · rw [hc] at h4
          rcases foldr_max_mem ((b.map (pickChannels channels)).flatten.map fun x => |x|) with hz | hz
          · left
            rw [h4, hM, hz]
            rw [← hM] at hz
            rw [hz] at hc
            exact le_antisymm h0 (max_eq_left_iff.1 hc)
          · right
            rw [← hM, List.mem_map] at hz
            obtain ⟨x, hx, hxm⟩ := hz
            obtain ⟨r, hr, hxr⟩ := List.mem_flatten.1 hx
            obtain ⟨row, hrow, rfl⟩ := List.mem_map.1 hr
            exact ⟨row, by simp [hrow], x, hxr, by rw [hxm, h4]⟩
        · left; rw [h4, hc]
      · exact Or.inr ⟨row, by rw [List.flatten_cons]; exact List.mem_append_right _ hr, x, hx, hxm⟩

private theorem wavFrames_eq (channels : List ℕ) (scale : K) (blocks : List (List (List K)))
    (h : ∀ row ∈ blocks.flatten, ∀ c ∈ channels, c < row.length) :
    wavFrames channels scale blocks =
      .ok (blocks.flatten.map fun row => (pickChannels channels row).map fun x => wrap16 (truncSample (x * scale))) := by
  induction blocks with
  | nil => rfl
  | cons b l ih =>
    have hb : b.mapM (wavRow channels) = .ok (b.map (pickChannels channels)) :=
      mapM_of_forall _ _ _ fun row hr => wavRow_eq channels row (h row (by simp [hr]))
    rw [wavFrames, hb, ih fun row hr => h row (by rw [List.flatten_cons]; exact List.mem_append_right _ hr)]
    simp [Function.comp_def]

private theorem truncSample_abs (x b : K) (n : ℕ) (hx : |x| ≤ b) (hb : b < n + 1) : -(n : ℤ) ≤ truncSample x ∧ truncSample x ≤ n := by
  obtain ⟨h1, h2⟩ := abs_le.1 hx
  unfold truncSample
  split
  · rename_i h0
    constructor
    · have : (0 : ℤ) ≤ ⌊x⌋ := Int.floor_nonneg.2 h0
      omega
    · have : ⌊x⌋ < n + 1 := by
        rw [Int.floor_lt]; push_cast; linarith
      omega
  · rename_i h0
    push Not at h0
    constructor
    · have : -(n : ℤ) - 1 < ⌈x⌉ := by
        rw [Int.lt_ceil]; push_cast; linarith
      omega
    · have : ⌈x⌉ ≤ 0 := by
        rw [Int.ceil_le]; push_cast; exact h0.le
      omega

/-- No clipping: for every signal with enough channels and a non-zero exported sample, every value written lies in
[-29491, 29491]; the value written is the scaled sample rounded towards zero, with one positive scaling factor for the
whole file; and the largest value is reached. -/
theorem C55_no_clipping (channels : List ℕ) (hc : channels ≠ []) (blocks : List (List (List K)))
    (h : ∀ row ∈ blocks.flatten, ∀ c ∈ channels, c < row.length)
    (hne : ∃ row ∈ blocks.flatten, ∃ c ∈ channels, row.getD c 0 ≠ 0) :
    ∃ scale : K, 0 < scale ∧
      saveWav channels blocks =
        .frames (blocks.flatten.map fun row => channels.map fun c => truncSample (row.getD c 0 * scale)) ∧
      (∀ row ∈ blocks.flatten, ∀ c ∈ channels,
        -29491 ≤ truncSample (row.getD c 0 * scale) ∧ truncSample (row.getD c 0 * scale) ≤ 29491) ∧
      ∃ row ∈ blocks.flatten, ∃ c ∈ channels, |truncSample (row.getD c 0 * scale)| = 29491 := by
  obtain ⟨m, h1, h2, h3, h4⟩ := wavMax_eq channels blocks h 0 (le_refl _)
  obtain ⟨row0, hr0, c0, hc0, hv0⟩ := hne
  have hm : 0 < m := by
    have := h3 row0 hr0 (row0.getD c0 0) (List.mem_map.2 ⟨c0, hc0, rfl⟩)
    exact lt_of_lt_of_le (abs_pos.2 hv0) this
  have hscale : (0 : K) < 9 / 10 * 2 ^ 15 / m := by positivity
  have hb : ∀ row ∈ blocks.flatten, ∀ c ∈ channels,
      -29491 ≤ truncSample (row.getD c 0 * (9 / 10 * 2 ^ 15 / m)) ∧ truncSample (row.getD c 0 * (9 / 10 * 2 ^ 15 / m)) ≤ 29491 := by
    intro row hr c hcc
    have hx := h3 row hr (row.getD c 0) (List.mem_map.2 ⟨c, hcc, rfl⟩)
    apply truncSample_abs _ (9 / 10 * 2 ^ 15 : K) 29491
    · rw [abs_mul, abs_of_pos hscale]
      calc |row.getD c 0| * (9 / 10 * 2 ^ 15 / m) ≤ m * (9 / 10 * 2 ^ 15 / m) := mul_le_mul_of_nonneg_right hx hscale.le
        _ = 9 / 10 * 2 ^ 15 := by field_simp
    · norm_num
  refine ⟨9 / 10 * 2 ^ 15 / m, hscale, ?_, hb, ?_⟩
  · unfold saveWav
    rw [if_neg hc, h1]
    simp only
    rw [if_neg hm.ne', wavFrames_eq channels _ blocks h]
    refine congrArg WavOut.frames ?_
    apply List.map_congr_left
    intro row hr
    unfold pickChannels
    rw [List.map_map]
    apply List.map_congr_left
    intro c hcc
    obtain ⟨b1, b2⟩ := hb row hr c hcc
    simp only [Function.comp_apply, wrap16]
    omega
  · rcases h4 with h4 | ⟨row, hr, x, hx, hxm⟩
    · exact absurd h4 hm.ne'
    · obtain ⟨c, hcc, rfl⟩ := List.mem_map.1 hx
      refine ⟨row, hr, c, hcc, ?_⟩
      have e : m * (9 / 10 * 2 ^ 15 / m) = 9 / 10 * 2 ^ 15 := by field_simp
      unfold truncSample
      rcases abs_cases (row.getD c 0) with ⟨ha, hs⟩ | ⟨ha, hs⟩
      · rw [ha] at hxm
        rw [hxm, e, if_pos (by positivity)]
        have : ⌊(9 / 10 * 2 ^ 15 : K)⌋ = 29491 := by rw [Int.floor_eq_iff]; norm_num
        rw [this]; rfl
      · rw [ha] at hxm
        have hxm' : row.getD c 0 = -m := by linarith
        rw [hxm', show -m * (9 / 10 * 2 ^ 15 / m) = -(9 / 10 * 2 ^ 15) by rw [neg_mul, e], if_neg (by norm_num)]
        have : ⌈(-(9 / 10 * 2 ^ 15) : K)⌉ = -29491 := by rw [Int.ceil_eq_iff]; norm_num
        rw [this]; rfl

/-- The hypotheses of `C55_no_clipping` are met: -/
example := C55_no_clipping (K := ℚ) [1, 0] (by simp) [[[1, -2], [1 / 2, 0]], [[0, 1]]] (by decide) (by decide +kernel)

/-- No channels: ValueError; a silent signal: no usable values. -/
theorem C55_degenerate (channels : List ℕ) (blocks : List (List (List K))) :
    saveWav [] blocks = .raised .valueError ∧
    (channels ≠ [] → saveWav (K := K) channels [] = .raised .zeroDivisionError) ∧
    (channels ≠ [] → blocks ≠ [] → (∀ row ∈ blocks.flatten, ∀ c ∈ channels, c < row.length ∧ row.getD c 0 = 0) →
      saveWav channels blocks = .unspecified) := by
  refine ⟨by simp [saveWav], fun hc => by simp [saveWav, hc, wavMax], fun hc hb h => ?_⟩
  obtain ⟨m, h1, h2, h3, h4⟩ := wavMax_eq channels blocks (fun row hr c hcc => (h row hr c hcc).1) 0 (le_refl _)
  have hm : m = 0 := by
    rcases h4 with h4 | ⟨row, hr, x, hx, hxm⟩
    · exact h4
    · obtain ⟨c, hcc, rfl⟩ := List.mem_map.1 hx
      rw [← hxm, (h row hr c hcc).2, abs_zero]
  unfold saveWav
  rw [if_neg hc, h1]
  simp [hm, hb]

example : saveWav (K := ℚ) [1, 0] [[[1, -2], [1 / 2, 0]], [[0, 1]]] =
    .frames [[-29491, 14745], [0, 7372], [14745, 0]] := by decide +kernel

end Acoular
