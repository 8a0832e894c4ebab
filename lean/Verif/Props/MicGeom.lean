import Verif.Model.MicGeom
import Verif.Spec.Env
import Mathlib.Tactic.Linarith
import Mathlib.Tactic.NormNum
import Mathlib.Tactic.FinCases
import Mathlib.Data.List.Sort

/-!
# Property theorems: microphone geometry (C38, C69)
-/

namespace Acoular

open Spec

section
variable {X : Type*} [Inhabited X]

/-- `pos` contains exactly the columns of `pos_total` whose index is not listed as invalid, in order; `num_mics` is
their number. -/
theorem C38_valid_columns (total : List X) (invalid : List ℤ)
    (h : invalid = [] ∨ ∃ i < total.length, (i : ℤ) ∉ invalid) :
    ∃ (pos : List X) (idx : List ℕ), micPos total invalid = .ok pos ∧ numMics total invalid = .ok idx.length ∧
      idx.Pairwise (· < ·) ∧ (∀ i, i ∈ idx ↔ i < total.length ∧ (i : ℤ) ∉ invalid) ∧
      pos.length = idx.length ∧ ∀ k (hk : k < idx.length), pos[k]? = total[idx[k]]? := by
  by_cases hi : invalid.length = 0
  · have hi' : invalid = [] := List.eq_nil_of_length_eq_zero hi
    refine ⟨total, List.range total.length, ?_, ?_, List.pairwise_lt_range, ?_, by simp, ?_⟩
    · unfold micPos; rw [if_pos hi]
    · unfold numMics micPos; rw [if_pos hi]; simp [Except.map]
    · intro i; simp [hi']
    · intro k hk; simp
  · have hmem : ∀ i, i ∈ (List.range total.length).filter (fun i : ℕ => !(invalid.contains (i : ℤ))) ↔
        i < total.length ∧ (i : ℤ) ∉ invalid := by
      intro i; simp [List.mem_filter]
    have hne : ((List.range total.length).filter fun i : ℕ => !(invalid.contains (i : ℤ))).length ≠ 0 := by
      rcases h with h | ⟨i, h1, h2⟩
      · rw [h] at hi; exact absurd rfl hi
      · exact (List.length_pos_of_mem ((hmem i).2 ⟨h1, h2⟩)).ne'
    refine ⟨((List.range total.length).filter fun i : ℕ => !(invalid.contains (i : ℤ))).map fun i => total.getD i default,
      (List.range total.length).filter fun i : ℕ => !(invalid.contains (i : ℤ)), ?_, ?_, ?_, hmem, ?_, ?_⟩
    · unfold micPos; rw [if_neg hi, if_neg hne]
    · unfold numMics micPos; rw [if_neg hi, if_neg hne]; simp [Except.map]
    · exact List.Pairwise.filter _ List.pairwise_lt_range
    · simp
    · intro k hk
      rw [List.getElem?_map, List.getElem?_eq_getElem hk]
      have hlt := ((hmem _).1 (List.getElem_mem hk)).1
      simp only [Option.map_some]
      rw [List.getD_eq_getElem?_getD, List.getElem?_eq_getElem hlt]
      rfl

example : ((9 : ℤ) ∉ [0, 4, 9]) = False ∧ ∃ i < [1, 2, 3].length, (i : ℤ) ∉ ([0, 4, 9] : List ℤ) :=
  ⟨by simp, 1, by decide, by decide⟩

/-- If every channel is invalid there is no empty geometry but an exception. -/
theorem C38_all_invalid (total : List X) (invalid : List ℤ) (h : invalid ≠ []) (hall : ∀ i < total.length, (i : ℤ) ∈ invalid) :
    micPos total invalid = .error .indexError := by
  unfold micPos
  rw [if_neg (by simpa using h), if_pos]
  rw [List.length_eq_zero_iff, List.filter_eq_nil_iff]
  intro i hi
  simpa using hall i (List.mem_range.1 hi)

/-- The hypotheses of `C38_all_invalid` are met: -/
example := C38_all_invalid [10, 20, 30] [0, 1, 2, 7] (by decide) (by decide)

/-- After any history of assignments and reads, `pos` belongs to the current settings. -/
theorem C38_pos_current (total : List X) (h : List (MicAct X)) :
    let g := h.foldl micAct ⟨total, [], none⟩
    readPos g = micPos g.total g.invalid := by
  let Inv : MicObj X → Prop := fun g => ∀ p, g.cache = some p → micPos g.total g.invalid = .ok p
  have step : ∀ (g : MicObj X) (a : MicAct X), Inv g → Inv (micAct g a) := by
    intro g a hg p hp
    cases a with
    | setTotal l => cases hp
    | setInvalid l => cases hp
    | readPos =>
      unfold micAct at hp ⊢
      cases hc : g.cache with
      | some q => rw [hc] at hp; simp only [hc] at hp ⊢; cases hp; exact hg _ hc
      | none =>
        simp only [hc] at hp ⊢
        cases hm : micPos g.total g.invalid with
        | ok q => rw [hm] at hp; simp only [Except.toOption, Option.some.injEq] at hp; rw [hp]
        | error e => rw [hm] at hp; cases hp
  have all : ∀ (h : List (MicAct X)) (g : MicObj X), Inv g → Inv (h.foldl micAct g) := by
    intro h
    induction h with
    | nil => intro g hg; exact hg
    | cons a h ih => intro g hg; exact ih _ (step g a hg)
  have hi := all h ⟨total, [], none⟩ (fun p hp => by cases hp)
  intro g
  unfold readPos
  split
  · rename_i p hp
    exact (hi p hp).symm
  · rfl

/-- The hypotheses of `C38_pos_current` are met: -/
example := C38_pos_current [10, 20, 30]

end

/-! ### Export and import -/

section
variable {K : Type*} (fmt : K → List Char) (parse : List Char → Option K)

/-- Importing an exported geometry gives the exported positions: `fmt` and `parse` are `str` and `float` of the same
number, the file name contains no character with a meaning in XML, and there is at least one microphone. -/
theorem C38_export_import_partial (hround : ∀ x, parse (fmt x) = some x) (hclean : ∀ x, xmlClean (fmt x) = true)
    (name : List Char) (hname : xmlClean name = true) (pos : List (Fin 3 → K)) (hpos : pos ≠ []) :
    importMpos parse (exportMpos fmt name pos) = .ok pos := by
  have hm : ∀ l : List (Fin 3 → K), ((l.map fun p => (fmt (p 0), fmt (p 1), fmt (p 2))).mapM (fun e => do
        let x ← parse e.1
        let y ← parse e.2.1
        let z ← parse e.2.2
        pure (fun i : Fin 3 => if i = 0 then x else if i = 1 then y else z))) = some l := by
    intro l
    induction l with
    | nil => rfl
    | cons p l ih =>
      rw [List.map_cons, List.mapM_cons, ih]
      simp only [hround, Option.bind_eq_bind, Option.bind_some, Option.pure_def, Option.some.injEq, List.cons.injEq, and_true]
      funext i
      fin_cases i <;> simp
  unfold importMpos exportMpos
  simp only
  rw [if_pos (by simp [hname, hclean]), hm]
  cases pos with
  | nil => exact absurd rfl hpos
  | cons p l => rfl

/-- The hypotheses of `C38_export_import_partial` are met: -/
example := C38_export_import_partial (K := Bool) (fun b => if b then ['1'] else ['0']) (fun c => if c = ['1'] then some true else some false)
  (by decide) (by decide) "array".toList (by decide) [![true, false, true], ![false, false, true]] (by simp)

/-- A file name with an ampersand (say) makes a file that cannot be read back. -/
theorem C38_name_violated (name : List Char) (hname : '&' ∈ name) (pos : List (Fin 3 → K)) :
    importMpos parse (exportMpos fmt name pos) = .error .valueError := by
  unfold importMpos exportMpos
  rw [if_neg]
  intro h
  simp only [Bool.and_eq_true] at h
  have := h.1
  unfold xmlClean at this
  rw [List.all_eq_true] at this
  have := this _ hname
  simp at this

/-- A geometry without microphones is written but cannot be read back. -/
theorem C38_empty_violated (name : List Char) (hname : xmlClean name = true) :
    importMpos parse (exportMpos fmt name []) = .error .indexError := by
  unfold importMpos exportMpos
  rw [if_pos (by simp [hname])]
  rfl

end

/-! ### Centre and aperture -/

/-- The centre is the mean of the positions (coordinates below 1e-16 are returned as zero), as soon as one microphone
is not in the origin. -/
theorem C69_center (pos : List (Fin 3 → ℝ)) (h : ∃ p ∈ pos, p ≠ 0) :
    ∃ c, micCenter pos = some c ∧ ∀ i, |c i - (pos.map fun p => p i).sum / pos.length| < 1e-16 ∧
      (1e-16 ≤ |(pos.map fun p => p i).sum / pos.length| → c i = (pos.map fun p => p i).sum / pos.length) := by
  unfold micCenter
  rw [if_pos h]
  refine ⟨_, rfl, fun i => ?_⟩
  simp only
  split
  · rename_i hlt
    refine ⟨by simpa [abs_sub_comm] using hlt, fun hge => absurd hge (not_le.2 hlt)⟩
  · refine ⟨by simp; norm_num, fun _ => rfl⟩

/-- The hypotheses of `C69_center` are met: -/
example := C69_center [0, ![1, 2, 3]] ⟨![1, 2, 3], by simp, fun h => by have := congrFun h 0; simp at this⟩

private theorem foldl_max_mem (l : List ℝ) (a : ℝ) : l.foldl max a = a ∨ l.foldl max a ∈ l := by
  induction l generalizing a with
  | nil => exact .inl rfl
  | cons x l ih =>
    rcases ih (max a x) with h | h
    · rw [List.foldl_cons, h]
      rcases max_choice a x with h' | h'
      · exact .inl h'
      · rw [h']; exact .inr (by simp)
    · exact .inr (List.mem_cons_of_mem _ h)

private theorem le_foldl_max (l : List ℝ) (a : ℝ) : a ≤ l.foldl max a ∧ ∀ x ∈ l, x ≤ l.foldl max a := by
  induction l generalizing a with
  | nil => simp
  | cons y l ih =>
    obtain ⟨h1, h2⟩ := ih (max a y)
    refine ⟨(le_max_left _ _).trans h1, fun x hx => ?_⟩
    rcases List.mem_cons.1 hx with rfl | hx
    · exact (le_max_right _ _).trans h1
    · exact h2 x hx

/-- The aperture is the largest distance between two microphones and is attained. -/
theorem C69_aperture (pos : List (Fin 3 → ℝ)) (h : ∃ p ∈ pos, p ≠ 0) :
    ∃ a, micAperture pos = some a ∧ (∃ p ∈ pos, ∃ q ∈ pos, len3 (fun i => p i - q i) = a) ∧
      ∀ p ∈ pos, ∀ q ∈ pos, len3 (fun i => p i - q i) ≤ a := by
  unfold micAperture
  rw [if_pos h]
  have hle := le_foldl_max (pos.flatMap fun p => pos.map fun q => distEntry p q) 0
  refine ⟨_, rfl, ?_, ?_⟩
  · rcases foldl_max_mem (pos.flatMap fun p => pos.map fun q => distEntry p q) 0 with h0 | h0
    · obtain ⟨p, hp, -⟩ := h
      refine ⟨p, hp, p, hp, ?_⟩
      rw [h0]
      simp [len3]
    · obtain ⟨p, hp, h1⟩ := List.mem_flatMap.1 h0
      obtain ⟨q, hq, h2⟩ := List.mem_map.1 h1
      exact ⟨p, hp, q, hq, h2⟩
  · intro p hp q hq
    exact hle.2 _ (List.mem_flatMap.2 ⟨p, hp, List.mem_map.2 ⟨q, hq, rfl⟩⟩)

/-- The hypotheses of `C69_aperture` are met: -/
example := C69_aperture [0, ![1, 2, 3]] ⟨![1, 2, 3], by simp, fun h => by have := congrFun h 0; simp at this⟩

/-- With all microphones in the origin (a single microphone there, say) neither is defined. -/
theorem C69_origin_violated (pos : List (Fin 3 → ℝ)) (h : ∀ p ∈ pos, p = 0) :
    micCenter pos = none ∧ micAperture pos = none := by
  unfold micCenter micAperture
  have : ¬∃ p ∈ pos, p ≠ 0 := by push Not; exact h
  rw [if_neg this, if_neg this]
  exact ⟨rfl, rfl⟩

end Acoular
