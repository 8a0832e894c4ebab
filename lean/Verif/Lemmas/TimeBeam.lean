import Verif.Model.TimeBeam
import Verif.Lemmas.SamplesBuffer

/-! # The buffer machine with a consumer that changes the blocks in place -/

namespace Acoular
open Spec

variable {α : Type*}

/-- Blocks of `r k` rows, starting at every multiple of `num`; the rows of a block are changed by `w`, also for the
following blocks. -/
def touchBlocks (num : ℕ) (w : α → α) (r : ℕ → ℕ) : (fuel k : ℕ) → List α → List (List α)
  | 0, _, _ => []
  | _ + 1, _, [] => []
  | fuel + 1, k, x :: l =>
    let b := ((x :: l).take (r k)).map w
    b :: touchBlocks num w r fuel (k + 1) ((b ++ (x :: l).drop (r k)).drop num)

theorem touchBlocks_nil (num : ℕ) (w : α → α) (r : ℕ → ℕ) (fuel k : ℕ) : touchBlocks num w r fuel k [] = [] := by
  cases fuel <;> rfl

theorem touchBlocks_step (num : ℕ) (w : α → α) (r : ℕ → ℕ) (fuel k : ℕ) {l : List α} (hl : l ≠ []) :
    touchBlocks num w r (fuel + 1) k l = (l.take (r k)).map w ::
      touchBlocks num w r fuel (k + 1) (((l.take (r k)).map w ++ l.drop (r k)).drop num) := by
  obtain ⟨x, l, rfl⟩ := List.exists_cons_of_ne_nil hl
  rfl

theorem SBuf.touchRead_fst (num r : ℕ) (w : α → α) (s : SBuf α) : (s.touchRead num r w).1 = (s.avail.take r).map w := by
  simp only [SBuf.touchRead]
  congr 1
  split
  · rfl
  · next h =>
    rw [SBuf.level_eq] at h ⊢
    rw [← SBuf.avail, List.take_of_length_le (Nat.le_refl _), List.take_of_length_le (by omega)]

theorem SBuf.touchRead_snd (num r : ℕ) (w : α → α) (s : SBuf α) :
    (s.touchRead num r w).2.avail = ((s.avail.take r).map w ++ s.avail.drop r).drop num ∧
    (s.touchRead num r w).2.buf.length = s.buf.length ∧ (s.touchRead num r w).2.index = s.index + num ∧
    (s.touchRead num r w).2.src = s.src ∧ (s.touchRead num r w).2.empty = s.empty := by
  have hd : (if s.level ≥ r then r else s.level) = min r s.avail.length := by
    rw [SBuf.level_eq]; split <;> omega
  have e1 : s.avail.take (min r s.avail.length) = s.avail.take r := by
    rcases Nat.le_total r s.avail.length with h | h
    · rw [Nat.min_eq_left h]
    · rw [Nat.min_eq_right h, List.take_of_length_le (Nat.le_refl _), List.take_of_length_le h]
  have e2 : s.avail.drop (min r s.avail.length) = s.avail.drop r := by
    rcases Nat.le_total r s.avail.length with h | h
    · rw [Nat.min_eq_left h]
    · rw [Nat.min_eq_right h, List.drop_eq_nil_of_le (Nat.le_refl _), List.drop_eq_nil_of_le h]
  have hbuf : (s.touchRead num r w).2.buf = s.buf.take s.index ++ ((s.avail.take r).map w ++ s.avail.drop r) := by
    simp only [SBuf.touchRead, hd]
    rw [← SBuf.avail, e1, ← e2, ← List.drop_drop, ← SBuf.avail]
  refine ⟨?_, ?_, rfl, rfl, rfl⟩
  · show (s.touchRead num r w).2.buf.drop (s.index + num) = _
    rw [hbuf, ← List.drop_drop]
    rcases Nat.le_total s.index s.buf.length with h | h
    · rw [List.drop_append, List.length_take, Nat.min_eq_left h, Nat.sub_self, List.drop_zero, List.drop_take,
        Nat.sub_self, List.take_zero, List.nil_append]
    · have : s.avail = [] := by rw [SBuf.avail]; exact List.drop_eq_nil_of_le h
      rw [this]
      simp [List.drop_eq_nil_of_le]
  · rw [hbuf]
    simp only [List.length_append, List.length_take, List.length_map, List.length_drop, SBuf.avail]
    omega

/-- The state between two blocks. -/
structure SBuf.Dyn (num : ℕ) (rem : List α) (s : SBuf α) : Prop where
  src : ∃ rest, s.src = chunks num rest ∧ s.avail ++ rest = rem
  fin : s.empty = true → s.src = []
  idx : num ≤ s.index
  ali : s.src = [] ∨ (s.index ≤ s.buf.length ∧ s.index % num = 0 ∧ s.buf.length % num = 0)
  len : num < s.buf.length

theorem SBuf.increase_ok (z : α) {num : ℕ} (hn : 0 < num) (r : ℕ) (s : SBuf α) :
    (s.increase z num (some r)).avail = s.avail ∧ s.index ≤ (s.increase z num (some r)).index ∧
    s.buf.length ≤ (s.increase z num (some r)).buf.length ∧ r ≤ (s.increase z num (some r)).buf.length ∧
    (s.increase z num (some r)).index % num = s.index % num ∧
    (s.increase z num (some r)).buf.length % num = s.buf.length % num ∧
    (s.increase z num (some r)).index - s.index = (s.increase z num (some r)).buf.length - s.buf.length ∧
    (s.increase z num (some r)).src = s.src ∧ (s.increase z num (some r)).empty = s.empty ∧
    (s.increase z num (some r)).increase z num (some r) = s.increase z num (some r) := by
  set add := (r - s.buf.length + num - 1) / num * num with hadd
  have hs : s.increase z num (some r) = ⟨List.replicate add z ++ s.buf, s.index + add, s.src, s.empty⟩ := rfl
  have hge : r - s.buf.length ≤ add := by
    have h1 := Nat.div_add_mod (r - s.buf.length + num - 1) num
    have h2 := Nat.mod_lt (r - s.buf.length + num - 1) hn
    rw [Nat.mul_comm] at h1
    omega
  have hlen : (List.replicate add z ++ s.buf).length = add + s.buf.length := by simp
  rw [hs]
  refine ⟨?_, ?_, ?_, ?_, ?_, ?_, ?_, rfl, rfl, ?_⟩
  · show (List.replicate add z ++ s.buf).drop (s.index + add) = s.buf.drop s.index
    rw [List.drop_append, List.length_replicate, List.drop_eq_nil_of_le (by simp)]
    simp
  · show s.index ≤ s.index + add; omega
  · show _ ≤ (List.replicate add z ++ s.buf).length; omega
  · show _ ≤ (List.replicate add z ++ s.buf).length; omega
  · show (s.index + add) % num = _
    rw [hadd, Nat.add_mul_mod_self_right]
  · show (List.replicate add z ++ s.buf).length % num = _
    rw [hlen, hadd, Nat.add_comm, Nat.add_mul_mod_self_right]
  · show s.index + add - s.index = (List.replicate add z ++ s.buf).length - s.buf.length
    omega
  · have h0 : (r - (List.replicate add z ++ s.buf).length + num - 1) / num = 0 := Nat.div_eq_of_lt (by omega)
    simp only [SBuf.increase, h0, Nat.zero_mul, List.replicate_zero, List.nil_append, Nat.add_zero]

/-- One round of filling: afterwards everything is there, or enough for the next block. -/
theorem SBuf.fill_dyn (z : α) {num : ℕ} (hn : 0 < num) (r : ℕ) (s : SBuf α) (rem : List α)
    (h : s.Dyn num rem) (he : s.empty = false) :
    ∃ s1, s.fill z num (some r) s.src = .ok s1 ∧ (∃ rest, s1.src = chunks num rest ∧ s1.avail ++ rest = rem) ∧
      (s1.empty = true → s1.src = []) ∧ num < s1.buf.length ∧
      ((s1.src = [] ∧ s1.avail = rem) ∨
        (r ≤ s1.avail.length ∧ s1.index = 0 ∧ s1.buf.length % num = 0)) := by
  obtain ⟨rest, h1, h2⟩ := h.src
  obtain ⟨i1, i2, i3, i4, i5, i6, i7, i8, i9, i10⟩ := SBuf.increase_ok z hn r s
  have hidx := h.idx
  by_cases hsrc : s.src = []
  · have hrest : rest = [] := by rw [hsrc] at h1; exact (chunks_eq_nil hn).1 h1.symm
    subst hrest
    rw [List.append_nil] at h2
    refine ⟨{ s.increase z num (some r) with src := [], empty := true }, ?_, ⟨[], by simp [chunks_nil], ?_⟩, fun _ => rfl,
      ?_, Or.inl ⟨rfl, ?_⟩⟩
    · rw [hsrc]; unfold SBuf.fill; rw [if_pos hidx]
    · rw [List.append_nil]; exact i1.trans h2
    · exact Nat.lt_of_lt_of_le h.len i3
    · exact i1.trans h2
  · obtain ⟨a1, a2, a3⟩ := h.ali.resolve_left hsrc
    set s' := s.increase z num (some r) with hs'
    have hfill : s.fill z num (some r) s.src = s'.fill z num (some r) s.src := by
      cases hc : s.src with
      | nil => exact absurd hc hsrc
      | cons b l =>
        unfold SBuf.fill
        rw [if_pos hidx, if_pos (show s'.index ≥ num by omega), i10]
    have hlen := h.len
    obtain ⟨s1, f1, f2, f3, f4⟩ := SBuf.fill_ok (L := s'.buf.length) (snum := num) z hn (by omega) (some r)
      (by rintro _ ⟨⟩; exact i4) rest s' rem rfl (by omega) (by rw [i1]; exact h2) (by rw [i9]; exact he)
    rw [← h1] at f1
    refine ⟨s1, by rw [hfill]; exact f1, f2.src, f2.fin, by rw [f2.len]; omega, ?_⟩
    obtain ⟨rest1, g1, g2⟩ := f2.src
    by_cases hs1 : s1.src = []
    · left
      refine ⟨hs1, ?_⟩
      have : rest1 = [] := by rw [hs1] at g1; exact (chunks_eq_nil hn).1 g1.symm
      rw [this, List.append_nil] at g2; exact g2
    · right
      have f3' := f3.resolve_left hs1
      have hie : s1.empty = false := by
        cases hh : s1.empty with
        | false => rfl
        | true => exact absurd (f2.fin hh) hs1
      have hlt := f4 hie
      have h0 : s1.index = 0 := by
        have := f3'.2
        rw [i5, a2, Nat.mod_eq_of_lt hlt] at this
        exact this
      refine ⟨?_, h0, by rw [f2.len, i6, a3]⟩
      rw [← SBuf.level_eq, SBuf.level, f2.len, h0]
      omega

/-- The whole run. -/
theorem SBuf.loopDyn_eq (z : α) {num : ℕ} (hn : 0 < num) (w : α → α) (r : ℕ → ℕ) (hr : ∀ k, num ≤ r k) :
    ∀ (fuel k : ℕ) (s : SBuf α) (rem : List α), s.Dyn num rem → rem.length < fuel →
      SBuf.loopDyn z num w r fuel k s = ⟨touchBlocks num w r fuel k rem, .returned⟩ := by
  intro fuel
  induction fuel with
  | zero => intro k s rem _ h; omega
  | succ fuel ih =>
    intro k s rem hs hf
    -- what happens once the block is to be read from a state in which enough is available
    have key : ∀ s1 : SBuf α, (∃ rest, s1.src = chunks num rest ∧ s1.avail ++ rest = rem) →
        (s1.empty = true → s1.src = []) → num < s1.buf.length →
        ((s1.src = [] ∧ s1.avail = rem) ∨ (r k ≤ s1.avail.length ∧ s1.index = 0 ∧ s1.buf.length % num = 0)) →
        (if s1.level > 0 then
          (SBuf.loopDyn z num w r fuel (k + 1) (s1.touchRead num (r k) w).2).cons (s1.touchRead num (r k) w).1
        else Trace.stop) = ⟨touchBlocks num w r (fuel + 1) k rem, .returned⟩ := by
      intro s1 ⟨rest, h1, h2⟩ hfin hlen hcase
      have hrk := hr k
      by_cases hrem : rem = []
      · have : s1.avail = [] := by rw [hrem] at h2; exact (List.append_eq_nil_iff.1 h2).1
        rw [if_neg (by rw [SBuf.level_eq, this]; simp), hrem, touchBlocks_nil]
        rfl
      · have hpos := List.length_pos_iff.mpr hrem
        have hlev : s1.level > 0 := by
          rw [SBuf.level_eq]
          rcases hcase with ⟨_, h⟩ | ⟨h, _⟩
          · rw [h]; exact hpos
          · omega
        obtain ⟨t1, t2, t3, t4, t5⟩ := SBuf.touchRead_snd num (r k) w s1
        have htake : s1.avail.take (r k) = rem.take (r k) := by
          rcases hcase with ⟨_, h⟩ | ⟨h, _⟩
          · rw [h]
          · rw [← h2, List.take_append_of_le_length h]
        have hdrop : s1.avail.drop (r k) ++ rest = rem.drop (r k) := by
          rcases hcase with ⟨hc, h⟩ | ⟨h, _⟩
          · have : rest = [] := by rw [hc] at h1; exact (chunks_eq_nil hn).1 h1.symm
            rw [this, h, List.append_nil]
          · rw [← h2, List.drop_append_of_le_length h]
        rw [if_pos hlev, touchBlocks_step _ _ _ _ _ hrem, SBuf.touchRead_fst, htake]
        have hlen2 : ((rem.take (r k)).map w ++ rem.drop (r k)).length = rem.length := by
          rw [List.length_append, List.length_map, ← List.length_append, List.take_append_drop]
        have hnx : (s1.touchRead num (r k) w).2.Dyn num (((rem.take (r k)).map w ++ rem.drop (r k)).drop num) := by
          refine ⟨⟨rest, by rw [t4]; exact h1, ?_⟩, by rw [t4, t5]; exact hfin, by rw [t3]; omega, ?_, by rw [t2]; exact hlen⟩
          · rw [t1, htake, ← hdrop, ← List.append_assoc]
            rcases hcase with ⟨hc, h⟩ | ⟨h, _⟩
            · have : rest = [] := by rw [hc] at h1; exact (chunks_eq_nil hn).1 h1.symm
              rw [this, List.append_nil, List.append_nil]
            · rw [List.drop_append_of_le_length (l₁ := _ ++ _)]
              rw [List.length_append, List.length_map, ← htake, List.length_take]
              omega
          · rw [t4, t3, t2]
            rcases hcase with ⟨hc, _⟩ | ⟨_, h0, hm⟩
            · exact Or.inl hc
            · right
              rw [h0]
              exact ⟨by omega, by simp, hm⟩
        rw [ih (k + 1) _ _ hnx (by rw [List.length_drop, hlen2]; omega)]
        rfl
    unfold SBuf.loopDyn
    by_cases he : s.empty = true
    · rw [if_pos he]
      obtain ⟨rest, h1, h2⟩ := hs.src
      have : rest = [] := by rw [hs.fin he] at h1; exact (chunks_eq_nil hn).1 h1.symm
      refine key s hs.src hs.fin hs.len (Or.inl ⟨hs.fin he, ?_⟩)
      rw [this, List.append_nil] at h2; exact h2
    · rw [if_neg he]
      obtain ⟨s1, f1, f2, f3, f4, f5⟩ := SBuf.fill_dyn z hn (r k) s rem hs (by simpa using he)
      rw [f1]
      exact key s1 f2 f3 f4 f5

/-- A new buffer. -/
theorem SBuf.create_dyn (z : α) {num L : ℕ} (hn : 0 < num) (hL : num < L) (hm : L % num = 0) {data : List α}
    {src : List (List α)} (hsrc : IsBlocking num data src) : (SBuf.create z L src).Dyn num data := by
  refine ⟨⟨data, (isBlocking_iff hn).1 hsrc, by simp [SBuf.create, SBuf.avail]⟩, by simp [SBuf.create], ?_, ?_, ?_⟩
  · show num ≤ L; omega
  · right
    refine ⟨by simp [SBuf.create], hm, by simpa [SBuf.create] using hm⟩
  · simpa [SBuf.create] using hL

/-- If changing a row twice is the same as changing it once, the blocks are the changed windows. -/
theorem touchBlocks_idem {num : ℕ} (hn : 0 < num) (w : α → α) (hw : ∀ x, w (w x) = w x) (r : ℕ → ℕ) :
    ∀ (fuel k : ℕ) (data rem : List α), rem.length = data.length → rem.map w = data.map w → data.length < fuel →
      touchBlocks num w r fuel k rem =
        (List.range ((data.length + num - 1) / num)).map fun j => ((data.drop (j * num)).take (r (k + j))).map w := by
  intro fuel
  induction fuel with
  | zero => intro k data rem _ _ h; omega
  | succ fuel ih =>
    intro k data rem hlen hmap hf
    by_cases hd : rem = []
    · have h0 : data = [] := by rw [hd] at hlen; exact List.length_eq_zero_iff.1 hlen.symm
      have h1 : ((0 + num - 1) / num) = 0 := Nat.div_eq_of_lt (by omega)
      rw [hd, h0, touchBlocks_nil, List.length_nil, h1]
      rfl
    · have hl := List.length_pos_iff.mpr hd
      rw [touchBlocks_step _ _ _ _ _ hd]
      have hmap2 : ((rem.take (r k)).map w ++ rem.drop (r k)).map w = data.map w := by
        rw [List.map_append, List.map_map, show w ∘ w = w from funext hw, ← List.map_append, List.take_append_drop, hmap]
      have hlen2 : ((rem.take (r k)).map w ++ rem.drop (r k)).length = data.length := by
        rw [List.length_append, List.length_map, ← List.length_append, List.take_append_drop, hlen]
      rw [ih (k + 1) (data.drop num) _ (by rw [List.length_drop, List.length_drop, hlen2])
        (by rw [List.map_drop, List.map_drop, hmap2]) (by rw [List.length_drop]; omega)]
      have hcount : (data.length + num - 1) / num = ((data.drop num).length + num - 1) / num + 1 := by
        rw [List.length_drop]
        by_cases h : num ≤ data.length
        · rw [show data.length + num - 1 = (data.length - num + num - 1) + num by omega, Nat.add_div_right _ hn]
        · rw [show data.length - num = 0 by omega, Nat.div_eq_of_lt (a := 0 + num - 1) (by omega)]
          rw [show data.length + num - 1 = (data.length - 1) + num by omega, Nat.add_div_right _ hn,
            Nat.div_eq_of_lt (by omega)]
      rw [hcount, List.range_succ_eq_map, List.map_cons, List.map_map]
      congr 1
      · rw [Nat.zero_mul, List.drop_zero, Nat.add_zero, List.map_take, List.map_take, hmap]
      · apply List.map_congr_left
        intro j _
        simp only [Function.comp_apply]
        rw [List.drop_drop, Nat.succ_mul, Nat.add_comm num, show k + 1 + j = k + (j + 1) by omega]

end Acoular
