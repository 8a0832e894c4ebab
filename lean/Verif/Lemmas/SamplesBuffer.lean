import Verif.Model.SamplesBuffer
import Verif.Lemmas.Stream

/-! # Invariant of the buffer machine -/

namespace Acoular
open Spec

variable {α : Type _}

/-- The unread part of the buffer. -/
def SBuf.avail (s : SBuf α) : List α := s.buf.drop s.index

theorem SBuf.level_eq (s : SBuf α) : s.level = s.avail.length := by
  simp [SBuf.level, SBuf.avail]

/-- The buffer always has `L` rows, the rows still to come are `rem`, and the source is cut into blocks of
`snum`. -/
structure SBuf.Ok (L snum : Nat) (rem : List α) (s : SBuf α) : Prop where
  len : s.buf.length = L
  idx : s.index ≤ L
  src : ∃ rest, s.src = chunks snum rest ∧ s.avail ++ rest = rem
  fin : s.empty = true → s.src = []

/-- A round of filling keeps the invariant and reads enough: afterwards the source is used up or more than
`L - snum` rows are available; `m` is an index class that is kept by blocks of `snum`. -/
theorem SBuf.fill_ok {L snum : Nat} (z : α) (hs : 0 < snum) (hL : snum < L) (resultNum : Option Nat)
    (hr : ∀ r, resultNum = some r → r ≤ L) (rest : List α) :
    ∀ (s : SBuf α) (rem : List α), s.buf.length = L → s.index ≤ L → s.avail ++ rest = rem → s.empty = false →
      ∃ s1, s.fill z snum resultNum (chunks snum rest) = .ok s1 ∧ s1.Ok L snum rem ∧
        (s1.src = [] ∨ (s1.level > L - snum ∧ s1.index % snum = s.index % snum)) ∧
        (s1.empty = false → s1.index < snum) := by
  have hinc : ∀ s : SBuf α, s.buf.length = L → s.increase z snum resultNum = s := by
    intro s hl
    cases hres : resultNum with
    | none => rfl
    | some r =>
      have := hr r hres
      have h0 : (r - s.buf.length + snum - 1) / snum = 0 := Nat.div_eq_of_lt (by omega)
      simp [SBuf.increase, h0]
  induction rest using chunk_induction hs with
  | nil =>
    intro s rem hl hi hav he
    rw [chunks_nil]
    unfold SBuf.fill
    by_cases h : s.index ≥ snum
    · rw [if_pos h]
      simp only [hinc s hl]
      exact ⟨_, rfl, ⟨hl, hi, ⟨[], by simp [chunks_nil], hav⟩, fun _ => rfl⟩, Or.inl rfl, by simp⟩
    · rw [if_neg h]
      exact ⟨_, rfl, ⟨hl, hi, ⟨[], by simp [chunks_nil], hav⟩, fun _ => rfl⟩, Or.inl rfl, fun _ => by
        show s.index < snum; omega⟩
  | step rest hne ih =>
    intro s rem hl hi hav he
    rw [chunks_step hs hne]
    unfold SBuf.fill
    by_cases h : s.index ≥ snum
    · rw [if_pos h]
      simp only [hinc s hl]
      have hblen : (rest.take snum).length = min snum rest.length := by simp
      have hrl := List.length_pos_iff.mpr hne
      have hw : s.write (rest.take snum) = .ok ⟨s.buf.drop (rest.take snum).length ++ rest.take snum,
          s.index - (rest.take snum).length, s.src, s.empty⟩ := by
        unfold SBuf.write
        simp only
        rw [if_pos]
        rw [hl]; omega
      rw [hw]
      simp only
      obtain ⟨s1, h1, h2, h3, h4⟩ := ih
        ⟨s.buf.drop (rest.take snum).length ++ rest.take snum,
          s.index - (rest.take snum).length, chunks snum (rest.drop snum), s.empty⟩ rem
        (by simp only [List.length_append, List.length_drop, hl]; omega)
        (by simp only; omega)
        (by
          rw [← hav, SBuf.avail, SBuf.avail]
          simp only
          have : (s.buf.drop (rest.take snum).length ++ rest.take snum).drop (s.index - (rest.take snum).length)
              = s.buf.drop s.index ++ rest.take snum := by
            rw [List.drop_append, List.drop_drop, List.length_drop, hl]
            rw [show (rest.take snum).length + (s.index - (rest.take snum).length) = s.index by omega]
            rw [show s.index - (rest.take snum).length - (L - (rest.take snum).length) = 0 by omega]
            simp
          rw [this, List.append_assoc, List.take_append_drop])
        he
      refine ⟨s1, h1, h2, ?_, h4⟩
      rcases h3 with h3 | ⟨h3, h5⟩
      · exact Or.inl h3
      · by_cases hfull : snum ≤ rest.length
        · refine Or.inr ⟨h3, ?_⟩
          rw [h5]
          simp only
          rw [hblen, Nat.min_eq_left hfull]
          exact (Nat.mod_eq_sub_mod h).symm
        · -- last, partial block: afterwards the source is used up
          left
          obtain ⟨r', hr', -⟩ := h2.src
          have hd : rest.drop snum = [] := List.drop_eq_nil_of_le (by omega)
          rw [hd, chunks_nil] at h1
          have hi' := hinc ⟨s.buf.drop (rest.take snum).length ++ rest.take snum,
            s.index - (rest.take snum).length, [], s.empty⟩
            (by simp only [List.length_append, List.length_drop, hl]; omega)
          unfold SBuf.fill at h1
          split at h1
          · simp only [hi'] at h1
            cases h1; rfl
          · cases h1; rfl
    · rw [if_neg h]
      refine ⟨_, rfl, ⟨hl, hi, ⟨rest, (chunks_step hs hne).symm, hav⟩, ?_⟩, Or.inr ⟨?_, rfl⟩, ?_⟩
      · intro h'; simp only [he] at h'; cases h'
      · show s.buf.length - s.index > _
        omega
      · intro _; show s.index < snum; omega

/-- Blocks of `r` rows starting at every multiple of `num`. -/
def overlapBlocks (num r : Nat) (data : List α) : List (List α) :=
  (List.range ((data.length + num - 1) / num)).map fun k => (data.drop (k * num)).take r

theorem overlapBlocks_nil (num r : Nat) (hn : 0 < num) : overlapBlocks num r ([] : List α) = [] := by
  have h : ((0 + num - 1) / num) = 0 := Nat.div_eq_of_lt (by omega)
  simp only [overlapBlocks, List.length_nil, h, List.range_zero, List.map_nil]

theorem overlapBlocks_step {num : Nat} (hn : 0 < num) (r : Nat) {data : List α} (hd : data ≠ []) :
    overlapBlocks num r data = data.take r :: overlapBlocks num r (data.drop num) := by
  have hl := List.length_pos_iff.mpr hd
  unfold overlapBlocks
  have h : (data.length + num - 1) / num = ((data.drop num).length + num - 1) / num + 1 := by
    rw [List.length_drop]
    by_cases h : num ≤ data.length
    · rw [show data.length + num - 1 = (data.length - num + num - 1) + num by omega, Nat.add_div_right _ hn]
    · rw [show data.length - num = 0 by omega, Nat.div_eq_of_lt (a := 0 + num - 1) (by omega)]
      rw [show data.length + num - 1 = (data.length - 1) + num by omega, Nat.add_div_right _ hn,
        Nat.div_eq_of_lt (by omega)]
  rw [h, List.range_succ_eq_map, List.map_cons, List.map_map]
  congr 1
  · simp
  · apply List.map_congr_left
    intro k _
    simp only [Function.comp, List.drop_drop]
    congr 2
    rw [Nat.succ_mul, Nat.add_comm]

theorem chunks_eq_overlap (num : Nat) (data : List α) : chunks num data = overlapBlocks num num data := by
  rfl

theorem SBuf.read_fst {num : Nat} {resultNum : Option Nat} {shift : ShiftBy} (s : SBuf α) :
    (s.read num resultNum shift).1 = s.avail.take (resultNum.getD num) := by
  simp only [SBuf.read]
  split
  · rfl
  · next h =>
    rw [SBuf.level_eq] at h ⊢
    rw [← SBuf.avail, List.take_of_length_le (Nat.le_refl _), List.take_of_length_le (by omega)]

theorem SBuf.read_avail {num : Nat} {resultNum : Option Nat} {shift : ShiftBy} (s : SBuf α)
    (h : shift = .num ∨ resultNum.getD num = num) :
    (s.read num resultNum shift).2.avail = s.avail.drop num := by
  simp only [SBuf.read, SBuf.avail, List.drop_drop]
  cases shift with
  | num => rfl
  | resultNum =>
    have hr : resultNum.getD num = num := by rcases h with h | h; cases h; exact h
    simp only [hr]
    split
    · rfl
    · next hl =>
      unfold SBuf.level at hl ⊢
      rw [List.drop_eq_nil_of_le (by omega), List.drop_eq_nil_of_le (by omega)]

/-- Reading when the source is used up. -/
theorem SBuf.loop_exhausted {L num snum : Nat} (z : α) (hn : 0 < num) (resultNum : Option Nat)
    (hr : ∀ r, resultNum = some r → r ≤ L) (hs : 0 < snum) (shift : ShiftBy)
    (hsh : shift = .num ∨ resultNum.getD num = num) :
    ∀ (fuel : Nat) (s : SBuf α), s.src = [] → s.buf.length = L → s.avail.length < fuel →
      SBuf.loop z num snum resultNum shift fuel s = ⟨overlapBlocks num (resultNum.getD num) s.avail, .returned⟩ := by
  have hinc : ∀ s : SBuf α, s.buf.length = L → s.increase z snum resultNum = s := by
    intro s hl
    cases hres : resultNum with
    | none => rfl
    | some r =>
      have := hr r hres
      have h0 : (r - s.buf.length + snum - 1) / snum = 0 := Nat.div_eq_of_lt (by omega)
      simp [SBuf.increase, h0]
  intro fuel
  induction fuel with
  | zero => intro s _ _ h; omega
  | succ fuel ih =>
    intro s hsrc hl hf
    have hread : ∀ s' : SBuf α, s'.src = [] → s'.buf.length = L → s'.avail = s.avail →
        (if s'.level > 0 then
          (SBuf.loop z num snum resultNum shift fuel (s'.read num resultNum shift).2).cons (s'.read num resultNum shift).1
        else .stop) = ⟨overlapBlocks num (resultNum.getD num) s.avail, .returned⟩ := by
      intro s' h1 h2 h3
      rw [SBuf.level_eq, h3]
      by_cases hpos' : s.avail.length > 0
      · rw [if_pos hpos', ih _ (by simpa [SBuf.read] using h1) (by simpa [SBuf.read] using h2)
          (by rw [SBuf.read_avail _ hsh, h3, List.length_drop]; omega)]
        rw [SBuf.read_avail _ hsh, SBuf.read_fst, h3,
          overlapBlocks_step hn _ (List.length_pos_iff.1 hpos')]
        rfl
      · rw [if_neg hpos']
        have : s.avail = [] := List.eq_nil_of_length_eq_zero (by omega)
        rw [this, overlapBlocks_nil _ _ hn]; rfl
    unfold SBuf.loop
    by_cases he : s.empty = true
    · rw [if_pos he]; exact hread s hsrc hl rfl
    · rw [if_neg he, hsrc]
      unfold SBuf.fill
      by_cases hi : s.index ≥ snum
      · rw [if_pos hi]
        simp only [hinc s hl]
        exact hread { s with src := [], empty := true } rfl hl rfl
      · rw [if_neg hi]
        exact hread { s with src := [] } rfl hl rfl

/-- The whole run of the buffer machine. -/
theorem SBuf.loop_eq {L num snum : Nat} (z : α) (hn : 0 < num) (hs : 0 < snum) (hL : snum < L)
    (resultNum : Option Nat) (shift : ShiftBy)
    (hsh : shift = .num ∨ resultNum.getD num = num) (hge : num ≤ resultNum.getD num)
    (hle : resultNum.getD num ≤ L) :
    ∀ (fuel : Nat) (s : SBuf α) (rem : List α), s.Ok L snum rem → rem.length < fuel →
      (s.src = [] ∨ resultNum.getD num + snum ≤ L + 1 ∨
        (resultNum.getD num = num ∧ snum = num ∧ s.index % num = L % num)) →
      SBuf.loop z num snum resultNum shift fuel s = ⟨overlapBlocks num (resultNum.getD num) rem, .returned⟩ := by
  have hr : ∀ r, resultNum = some r → r ≤ L := by
    rintro r rfl; exact hle
  have hpos : 0 < resultNum.getD num := by omega
  intro fuel
  induction fuel with
  | zero => intro s rem _ h; omega
  | succ fuel ih =>
    intro s rem hok hf hJ
    by_cases hsrc : s.src = []
    · obtain ⟨rest, h1, h2⟩ := hok.src
      have : rest = [] := by
        rw [hsrc] at h1; exact (chunks_eq_nil hs).1 h1.symm
      subst this
      rw [List.append_nil] at h2
      rw [← h2] at hf ⊢
      exact SBuf.loop_exhausted z hn resultNum hr hs shift hsh _ s hsrc hok.len hf
    · have hemp : s.empty = false := by
        cases h : s.empty with
        | false => rfl
        | true => exact absurd (hok.fin h) hsrc
      obtain ⟨rest, h1, h2⟩ := hok.src
      obtain ⟨s1, hfill, hok1, hlev, hidx⟩ := SBuf.fill_ok z hs hL resultNum hr rest s rem hok.len hok.idx h2 hemp
      have hrne : rem ≠ [] := by
        intro e
        rw [e] at h2
        have : rest = [] := (List.append_eq_nil_iff.1 h2).2
        rw [this, chunks_nil] at h1
        exact hsrc h1
      obtain ⟨rest1, h3, h4⟩ := hok1.src
      unfold SBuf.loop
      rw [if_neg (by simp [hemp]), h1, hfill]
      simp only
      -- the source is used up, or a full result block is available
      have hcase : (s1.src = [] ∧ s1.avail = rem) ∨ resultNum.getD num ≤ s1.level := by
        by_cases hs1 : s1.src = []
        · left
          refine ⟨hs1, ?_⟩
          have : rest1 = [] := by rw [hs1] at h3; exact (chunks_eq_nil hs).1 h3.symm
          rw [this, List.append_nil] at h4; exact h4
        · right
          have hlev' := hlev.resolve_left hs1
          rcases hJ with hJ | hJ | ⟨hJ1, hJ2, hJ3⟩
          · exact absurd hJ hsrc
          · omega
          · have he1 : s1.empty = false := by
              cases h : s1.empty with
              | false => rfl
              | true => exact absurd (hok1.fin h) hs1
            have hi1 := hidx he1
            have h5 : s1.index = L % num := by
              have := hlev'.2
              rw [hJ2, hJ3] at this
              rw [← this, Nat.mod_eq_of_lt (by omega)]
            have h6 : s1.level = L - L % num := by rw [SBuf.level, hok1.len, h5]
            rw [h6, hJ1]
            have h7 := Nat.div_add_mod L num
            have h8 : 1 ≤ L / num := (Nat.one_le_div_iff hn).2 (by omega)
            have h9 : num * 1 ≤ num * (L / num) := Nat.mul_le_mul_left num h8
            omega
      have hlevpos : s1.level > 0 := by
        rcases hcase with ⟨_, h⟩ | h
        · rw [SBuf.level_eq, h]; exact List.length_pos_iff.mpr hrne
        · omega
      rw [if_pos hlevpos, overlapBlocks_step hn _ hrne]
      have hfst : (s1.read num resultNum shift).1 = rem.take (resultNum.getD num) := by
        rw [SBuf.read_fst]
        rcases hcase with ⟨_, h⟩ | h
        · rw [h]
        · rw [← h4, List.take_append_of_le_length]; rw [← SBuf.level_eq]; exact h
      rw [hfst]
      have hrl := List.length_pos_iff.mpr hrne
      rcases hcase with ⟨hs1, hav⟩ | h
      · rw [SBuf.loop_exhausted z hn resultNum hr hs shift hsh fuel _ (by simpa [SBuf.read] using hs1)
          (by simpa [SBuf.read] using hok1.len)
          (by rw [SBuf.read_avail _ hsh, hav, List.length_drop]; omega), SBuf.read_avail _ hsh, hav]
        rfl
      · have hnl : num ≤ s1.avail.length := by rw [← SBuf.level_eq]; omega
        have hread2 : (s1.read num resultNum shift).2 = { s1 with index := s1.index + num } := by
          simp only [SBuf.read, if_pos h]
          rcases hsh with rfl | hsh
          · rfl
          · rw [hsh]; cases shift <;> rfl
        rw [ih (s1.read num resultNum shift).2 (rem.drop num) ?_ (by rw [List.length_drop]; omega) ?_]
        · rfl
        · rw [hread2]
          refine ⟨hok1.len, ?_, ⟨rest1, h3, ?_⟩, hok1.fin⟩
          · have := hok1.len
            show s1.index + num ≤ L
            rw [SBuf.avail, List.length_drop] at hnl; omega
          · rw [← h4, List.drop_append, show num - s1.avail.length = 0 by omega, List.drop_zero]
            show (s1.buf.drop (s1.index + num)) ++ rest1 = _
            rw [SBuf.avail, List.drop_drop]
        · rw [hread2]
          show s1.src = [] ∨ _
          rcases hJ with hJ | hJ | ⟨hJ1, hJ2, hJ3⟩
          · exact absurd hJ hsrc
          · exact Or.inr (Or.inl hJ)
          · rcases hlev with hl | ⟨_, hl⟩
            · exact Or.inl hl
            · refine Or.inr (Or.inr ⟨hJ1, hJ2, ?_⟩)
              show (s1.index + num) % num = L % num
              rw [Nat.add_mod_right, ← hJ3]
              rw [hJ2] at hl; exact hl

/-- Without any condition on the result size nothing is lost, duplicated or reordered. -/
theorem SBuf.loop_flatten {L num snum : Nat} (z : α) (hn : 0 < num) (hs : 0 < snum) (hL : snum < L) :
    ∀ (fuel : Nat) (s : SBuf α) (rem : List α), s.Ok L snum rem → rem.length < fuel →
      ∃ blocks, SBuf.loop z num snum none .resultNum fuel s = ⟨blocks, .returned⟩ ∧
        blocks.flatten = rem ∧ ∀ b ∈ blocks, 0 < b.length ∧ b.length ≤ num := by
  intro fuel
  induction fuel with
  | zero => intro s rem _ h; omega
  | succ fuel ih =>
    intro s rem hok hf
    by_cases hsrc : s.src = []
    · obtain ⟨rest, h1, h2⟩ := hok.src
      have : rest = [] := by
        rw [hsrc] at h1; exact (chunks_eq_nil hs).1 h1.symm
      subst this
      rw [List.append_nil] at h2
      rw [← h2] at hf ⊢
      refine ⟨_, SBuf.loop_exhausted (L := L) z hn none (by simp) hs .resultNum (Or.inr rfl) _ s hsrc hok.len hf,
        ?_, ?_⟩
      · exact flatten_chunks hn _
      · intro b hb
        exact mem_chunks_length hn (data := s.avail) hb
    · have hemp : s.empty = false := by
        cases h : s.empty with
        | false => rfl
        | true => exact absurd (hok.fin h) hsrc
      obtain ⟨rest, h1, h2⟩ := hok.src
      obtain ⟨s1, hfill, hok1, hlev, hidx⟩ := SBuf.fill_ok z hs hL none (by simp) rest s rem hok.len hok.idx h2 hemp
      obtain ⟨rest1, h3, h4⟩ := hok1.src
      have hrne : rem ≠ [] := by
        intro e
        rw [e] at h2
        have : rest = [] := (List.append_eq_nil_iff.1 h2).2
        rw [this, chunks_nil] at h1
        exact hsrc h1
      have hlevpos : s1.level > 0 := by
        rcases hlev with h | ⟨h, _⟩
        · have : rest1 = [] := by rw [h] at h3; exact (chunks_eq_nil hs).1 h3.symm
          rw [this, List.append_nil] at h4
          rw [SBuf.level_eq, h4]; exact List.length_pos_iff.mpr hrne
        · omega
      have hread : s1.read num none .resultNum
          = (s1.avail.take num, { s1 with index := s1.index + min num s1.level }) := by
        have := SBuf.read_fst (num := num) (resultNum := none) (shift := .resultNum) s1
        apply Prod.ext
        · exact this
        · simp only [SBuf.read, Option.getD_none]
          have : (if s1.level ≥ num then num else s1.level) = min num s1.level := by split <;> omega
          rw [this]
      have hav : ({ s1 with index := s1.index + min num s1.level } : SBuf α).avail = s1.avail.drop num := by
        simp only [SBuf.avail, List.drop_drop, SBuf.level]
        by_cases h : num ≤ s1.buf.length - s1.index
        · rw [Nat.min_eq_left h]
        · rw [List.drop_eq_nil_of_le (by omega), List.drop_eq_nil_of_le (by omega)]
      have hlevA := SBuf.level_eq s1
      have hok2 : ({ s1 with index := s1.index + min num s1.level } : SBuf α).Ok L snum (s1.avail.drop num ++ rest1) := by
        refine ⟨hok1.len, ?_, ⟨rest1, h3, by rw [hav]⟩, hok1.fin⟩
        have := hok1.len
        have := hok1.idx
        show s1.index + min num s1.level ≤ L
        rw [SBuf.level]; omega
      obtain ⟨blocks, i1, i2, i3⟩ := ih _ _ hok2 (by
        rw [← h4] at hf
        simp only [List.length_append, List.length_drop] at hf ⊢
        omega)
      refine ⟨s1.avail.take num :: blocks, ?_, ?_, ?_⟩
      · unfold SBuf.loop
        rw [if_neg (by simp [hemp]), h1, hfill]
        simp only
        rw [if_pos hlevpos, hread]
        simp only [i1]
        rfl
      · rw [List.flatten_cons, i2, ← List.append_assoc, List.take_append_drop, h4]
      · intro b hb
        rcases List.mem_cons.1 hb with rfl | hb
        · rw [List.length_take]; omega
        · exact i3 b hb

end Acoular
