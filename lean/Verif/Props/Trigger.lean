import Verif.Model.Trigger
import Verif.Spec.Trigger
import Verif.Spec.Stream
import Verif.Lemmas.Stream
import Mathlib.Algebra.Order.Ring.Rat
import Mathlib.Data.Rat.Defs
import Mathlib.Tactic.Linarith
import Mathlib.Tactic.NormNum

/-!
# Property theorems: trigger identification (C54, C78)
-/

set_option linter.unusedSectionVars false

namespace Acoular
open Spec

variable {K : Type*} [Field K] [LinearOrder K] [IsStrictOrderedRing K]

/-! ### Thinning -/

private theorem isChain_get {α : Type*} {R : α → α → Prop} {l : List α} (h : l.IsChain R) (i : ℕ) (a b : α)
    (ha : l[i]? = some a) (hb : l[i + 1]? = some b) : R a b := by
  induction h generalizing i with
  | nil => simp at ha
  | singleton x => simp at hb
  | cons_cons hr _ ih =>
    cases i with
    | zero => simp at ha hb; subst ha hb; exact hr
    | succ i => exact ih i (by simpa using ha) (by simpa using hb)

private theorem thinStep_cc (pc : PeakChoice) (thr : K) (a b : ℕ × K) (l : List (ℕ × K)) :
    thinStep pc thr (a :: b :: l) =
      if ((b.1 - a.1 : ℕ) : K) < thr then
        (match pc with
        | .extremum => if |a.2| ≤ |b.2| then some (b :: l) else some (a :: l)
        | .first => some (a :: l))
      else (thinStep pc thr (b :: l)).map (a :: ·) := rfl

private theorem thinStep_some (pc : PeakChoice) (thr : K) (l l' : List (ℕ × K)) (h : thinStep pc thr l = some l') :
    l'.length + 1 = l.length ∧ l'.Sublist l := by
  induction l generalizing l' with
  | nil => simp [thinStep] at h
  | cons a l ih =>
    cases l with
    | nil => simp [thinStep] at h
    | cons b l =>
      rw [thinStep_cc] at h
      split at h
      · cases pc with
        | extremum =>
          simp only at h
          split at h
          · obtain rfl := Option.some.inj h
            exact ⟨by simp, List.sublist_cons_self _ _⟩
          · obtain rfl := Option.some.inj h
            exact ⟨by simp, (List.sublist_cons_self _ _).cons_cons _⟩
        | first =>
          obtain rfl := Option.some.inj h
          exact ⟨by simp, (List.sublist_cons_self _ _).cons_cons _⟩
      · rw [Option.map_eq_some_iff] at h
        obtain ⟨m, hm, rfl⟩ := h
        obtain ⟨h1, h2⟩ := ih m hm
        exact ⟨by simp only [List.length_cons] at h1 ⊢; omega, h2.cons_cons _⟩

private theorem thinStep_none (pc : PeakChoice) (thr : K) (l : List (ℕ × K)) (h : thinStep pc thr l = none) :
    l.IsChain fun a b => thr ≤ ((b.1 - a.1 : ℕ) : K) := by
  induction l with
  | nil => exact List.IsChain.nil
  | cons a l ih =>
    cases l with
    | nil => exact List.IsChain.singleton _
    | cons b l =>
      rw [thinStep_cc] at h
      split at h
      · cases pc with
        | extremum => simp only at h; split at h <;> simp at h
        | first => simp at h
      · rename_i hc
        rw [Option.map_eq_none_iff] at h
        exact List.IsChain.cons_cons (not_lt.1 hc) (ih h)

private theorem thinLoop_spec (pc : PeakChoice) (thr : K) (fuel : ℕ) (l : List (ℕ × K)) (hf : l.length < fuel)
    (P : List (ℕ × K) → Prop) (h0 : P l) (hstep : ∀ m m', P m → thinStep pc thr m = some m' → P m') :
    ∃ r, thinLoop pc thr fuel l = some r ∧ r.Sublist l ∧ (r.IsChain fun a b => thr ≤ ((b.1 - a.1 : ℕ) : K)) ∧ P r := by
  induction fuel generalizing l with
  | zero => omega
  | succ fuel ih =>
    rw [thinLoop]
    cases hs : thinStep pc thr l with
    | none => exact ⟨l, rfl, List.Sublist.refl _, thinStep_none pc thr l hs, h0⟩
    | some l' =>
      obtain ⟨h1, h2⟩ := thinStep_some pc thr l l' hs
      obtain ⟨r, hr, hsub, hch, hP⟩ := ih l' (by omega) (hstep l l' h0 hs)
      exact ⟨r, hr, hsub.trans h2, hch, hP⟩

/-- The thinning ends for every list of peaks (the fuel `length + 1` suffices: at most one iteration per peak); the
peaks kept are a subsequence of those detected, and no two neighbouring ones are closer than the threshold. -/
theorem C54_thinning (pc : PeakChoice) (thr : K) (peaks : List (ℕ × K)) (fuel : ℕ) (hf : peaks.length < fuel) :
    ∃ r, thinLoop pc thr fuel peaks = some r ∧ r.Sublist peaks ∧
      ∀ i a b, r[i]? = some a → r[i + 1]? = some b → thr ≤ ((b.1 - a.1 : ℕ) : K) := by
  obtain ⟨r, h1, h2, h3, -⟩ := thinLoop_spec pc thr fuel peaks hf (fun _ => True) trivial fun _ _ _ _ => trivial
  refine ⟨r, h1, h2, ?_⟩
  exact fun i a b ha hb => isChain_get h3 i a b ha hb

/-- The hypotheses of `C54_thinning` are met: -/
example := C54_thinning (K := ℚ) .extremum 10 [(3, 1), (4, 2), (100, 1), (200, 1), (201, 1)] 10 (by decide)

/-- If no pair is too close, nothing is removed. -/
theorem C54_nothing_removed (pc : PeakChoice) (thr : K) (peaks : List (ℕ × K)) (fuel : ℕ) (hf : 0 < fuel)
    (h : ∀ i a b, peaks[i]? = some a → peaks[i + 1]? = some b → thr ≤ ((b.1 - a.1 : ℕ) : K)) :
    thinLoop pc thr fuel peaks = some peaks := by
  obtain ⟨f, rfl⟩ := Nat.exists_eq_add_of_lt hf
  have hs : thinStep pc thr peaks = none := by
    clear hf
    induction peaks with
    | nil => rfl
    | cons a l ih =>
      cases l with
      | nil => rfl
      | cons b l =>
        have h0 := h 0 a b rfl rfl
        rw [thinStep_cc, if_neg (not_lt.2 h0), ih fun i x y hx hy => h (i + 1) x y hx hy]
        rfl
  rw [show 0 + f + 1 = f + 1 by omega, thinLoop, hs]

/-- The hypotheses of `C54_nothing_removed` are met: -/
example := C54_nothing_removed (K := ℚ) .extremum 10 [(3, 1), (100, 1)] 10 (by decide) (by
  intro i a b h h'
  match i with
  | 0 => simp only [List.getElem?_cons_zero, List.getElem?_cons_succ, Option.some.injEq] at h h'; subst h; subst h'; norm_num
  | i + 1 => simp at h')

private theorem thinStep_extremum (thr : K) (l l' : List (ℕ × K)) (h : thinStep .extremum thr l = some l') :
    ∀ p ∈ l, ∃ q ∈ l', |p.2| ≤ |q.2| := by
  induction l generalizing l' with
  | nil => simp
  | cons a l ih =>
    cases l with
    | nil => simp [thinStep] at h
    | cons b l =>
      rw [thinStep_cc] at h
      split at h
      · simp only at h
        split at h
        · rename_i hab
          obtain rfl := Option.some.inj h
          intro p hp
          rcases List.mem_cons.1 hp with rfl | hp
          · exact ⟨b, by simp, hab⟩
          · exact ⟨p, hp, le_refl _⟩
        · rename_i hab
          obtain rfl := Option.some.inj h
          intro p hp
          rcases List.mem_cons.1 hp with rfl | hp
          · exact ⟨p, by simp, le_refl _⟩
          · rcases List.mem_cons.1 hp with rfl | hp
            · exact ⟨a, by simp, (not_le.1 hab).le⟩
            · exact ⟨p, List.mem_cons_of_mem _ hp, le_refl _⟩
      · rw [Option.map_eq_some_iff] at h
        obtain ⟨m, hm, rfl⟩ := h
        intro p hp
        rcases List.mem_cons.1 hp with rfl | hp
        · exact ⟨p, by simp, le_refl _⟩
        · obtain ⟨q, hq, hpq⟩ := ih m hm p hp
          exact ⟨q, List.mem_cons_of_mem _ hq, hpq⟩

/-- Choice `extremum`: no removal loses the largest peak: for every detected peak one that is at least as large is
kept. -/
theorem C54_extremum_kept (thr : K) (peaks : List (ℕ × K)) (fuel : ℕ) (hf : peaks.length < fuel) :
    ∃ r, thinLoop .extremum thr fuel peaks = some r ∧ ∀ p ∈ peaks, ∃ q ∈ r, |p.2| ≤ |q.2| := by
  obtain ⟨r, h1, -, -, h4⟩ := thinLoop_spec .extremum thr fuel peaks hf (fun m => ∀ p ∈ peaks, ∃ q ∈ m, |p.2| ≤ |q.2|)
    (fun p hp => ⟨p, hp, le_refl _⟩) (by
      intro m m' hm hs p hp
      obtain ⟨q, hq, hpq⟩ := hm p hp
      obtain ⟨q', hq', hqq⟩ := thinStep_extremum thr m m' hs q hq
      exact ⟨q', hq', hpq.trans hqq⟩)
  exact ⟨r, h1, h4⟩

/-- The hypotheses of `C54_extremum_kept` are met: -/
example := C54_extremum_kept (K := ℚ) 10 [(3, 1), (4, 2), (100, 1), (200, 1), (201, 1)] 10 (by decide)

private theorem thinStep_first (thr : K) (l l' : List (ℕ × K)) (h : thinStep .first thr l = some l') : l'.head? = l.head? := by
  cases l with
  | nil => simp [thinStep] at h
  | cons a l =>
    cases l with
    | nil => simp [thinStep] at h
    | cons b l =>
      rw [thinStep_cc] at h
      split at h
      · obtain rfl := Option.some.inj h; rfl
      · rw [Option.map_eq_some_iff] at h
        obtain ⟨m, hm, rfl⟩ := h
        rfl

/-- Choice `first`: the first peak is kept. -/
theorem C54_first_kept (thr : K) (peaks : List (ℕ × K)) (fuel : ℕ) (hf : peaks.length < fuel) :
    ∃ r, thinLoop .first thr fuel peaks = some r ∧ r.head? = peaks.head? := by
  obtain ⟨r, h1, -, -, h4⟩ := thinLoop_spec .first thr fuel peaks hf (fun m => m.head? = peaks.head?) rfl (by
      intro m m' hm hs; rw [thinStep_first thr m m' hs, hm])
  exact ⟨r, h1, h4⟩

/-- The hypotheses of `C54_first_kept` are met: -/
example := C54_first_kept (K := ℚ) 10 [(3, 1), (4, 2), (100, 1), (200, 1), (201, 1)] 10 (by decide)

/-- Two neighbouring peaks at least `D` apart. -/
private def HasGap (D : ℕ) : List (ℕ × K) → Prop
  | a :: b :: l => D ≤ b.1 - a.1 ∨ HasGap D (b :: l)
  | _ => False

private theorem hasGap_head_le {D : ℕ} {a a' : ℕ × K} {l : List (ℕ × K)} (h : HasGap D (a :: l)) (ha : a'.1 ≤ a.1) :
    HasGap D (a' :: l) := by
  cases l with
  | nil => exact h
  | cons b l =>
    rcases h with h | h
    · exact Or.inl (by omega)
    · exact Or.inr h

private theorem hasGap_cons {D : ℕ} {a : ℕ × K} {l : List (ℕ × K)} (h : HasGap D l) : HasGap D (a :: l) := by
  cases l with
  | nil => exact h.elim
  | cons b l => exact Or.inr h

private theorem thinStep_gap (pc : PeakChoice) (thr : K) (D : ℕ) (hD : thr ≤ (D : K)) (l l' : List (ℕ × K))
    (hs : l.Pairwise fun a b => a.1 ≤ b.1) (h : thinStep pc thr l = some l') (hg : HasGap D l) : HasGap D l' := by
  induction l generalizing l' with
  | nil => simp [thinStep] at h
  | cons a l ih =>
    cases l with
    | nil => simp [thinStep] at h
    | cons b l =>
      have hab : a.1 ≤ b.1 := (List.pairwise_cons.1 hs).1 b (by simp)
      rw [thinStep_cc] at h
      split at h
      · rename_i hc
        have hrest : HasGap D (b :: l) := by
          rcases hg with hg | hg
          · exfalso
            have : (D : K) ≤ ((b.1 - a.1 : ℕ) : K) := by exact_mod_cast hg
            linarith
          · exact hg
        cases pc with
        | extremum =>
          simp only at h
          split at h
          · obtain rfl := Option.some.inj h
            exact hrest
          · obtain rfl := Option.some.inj h
            exact hasGap_head_le hrest hab
        | first =>
          obtain rfl := Option.some.inj h
          exact hasGap_head_le hrest hab
      · rename_i hc
        rw [Option.map_eq_some_iff] at h
        obtain ⟨m, hm, rfl⟩ := h
        rcases hg with hg | hg
        · -- the gap is between a and b; the head of m is at least b
          have hsub := (thinStep_some pc thr (b :: l) m hm).2
          have hlen := (thinStep_some pc thr (b :: l) m hm).1
          cases m with
          | nil =>
            exfalso
            simp only [List.length_nil, List.length_cons] at hlen
            have hl : l = [] := List.length_eq_zero_iff.1 (by omega)
            subst hl
            simp [thinStep] at hm
          | cons c m =>
            left
            have hmem : c ∈ b :: l := hsub.subset (by simp)
            have hbc : b.1 ≤ c.1 := by
              rcases List.mem_cons.1 hmem with rfl | hc'
              · exact le_refl _
              · exact (List.pairwise_cons.1 (List.pairwise_cons.1 hs).2).1 c hc'
            omega
        · exact hasGap_cons (ih m (List.pairwise_cons.1 hs).2 hm hg)

private theorem hasGap_max (l : List (ℕ × K)) (h : 2 ≤ l.length) : HasGap ((peakDists l).foldr max 0) l := by
  induction l with
  | nil => simp at h
  | cons a l ih =>
    cases l with
    | nil => simp at h
    | cons b l =>
      have e : (peakDists (a :: b :: l)).foldr max 0 = max (b.1 - a.1) ((peakDists (b :: l)).foldr max 0) := rfl
      rw [e]
      by_cases hl : l = []
      · subst hl
        left
        simp [peakDists, diffs]
      · have hlen : 2 ≤ (b :: l).length := by
          have := List.length_pos_iff.2 hl
          simp only [List.length_cons]; omega
        have := ih hlen
        by_cases hm : (peakDists (b :: l)).foldr max 0 ≤ b.1 - a.1
        · left; rw [max_eq_left hm]
        · right; rw [max_eq_right (by omega)]; exact this

private theorem hasGap_max_ge (D : ℕ) (l : List (ℕ × K)) (h : HasGap D l) : D ≤ (peakDists l).foldr max 0 := by
  induction l with
  | nil => exact h.elim
  | cons a l ih =>
    cases l with
    | nil => exact h.elim
    | cons b l =>
      have e : (peakDists (a :: b :: l)).foldr max 0 = max (b.1 - a.1) ((peakDists (b :: l)).foldr max 0) := rfl
      rw [e]
      rcases h with h | h
      · exact le_max_of_le_left h
      · exact le_max_of_le_right (ih h)

/-- With a hunk length of at most 1 and at least two detected peaks the result exists: the process ends, the sample
numbers are a subsequence of those detected, at least two are kept, neighbouring ones are at least `hunk_length` times
the largest original distance apart, and the largest distance is not smaller than before. -/
theorem C54_result (pc : PeakChoice) (hunk : K) (h1 : hunk ≤ 1) (peaks : List (ℕ × K))
    (hs : peaks.Pairwise fun a b => a.1 < b.1) (h2 : 2 ≤ peaks.length) (fuel : ℕ) (hf : peaks.length < fuel) :
    ∃ locs mx mn, thinPeaks pc hunk fuel peaks = .ok locs mx mn ∧ locs.Sublist (peaks.map Prod.fst) ∧ 2 ≤ locs.length ∧
      (∀ i a b, locs[i]? = some a → locs[i + 1]? = some b → hunk * (((peakDists peaks).foldr max 0 : ℕ) : K) ≤ ((b - a : ℕ) : K)) ∧
      (peakDists peaks).foldr max 0 ≤ mx := by
  set D := (peakDists peaks).foldr max 0 with hD
  have hthr : hunk * (D : K) ≤ (D : K) := by
    have : (0 : K) ≤ (D : K) := Nat.cast_nonneg _
    nlinarith
  obtain ⟨r, hr, hsub, hch, hg, -⟩ := thinLoop_spec pc (hunk * (D : K)) fuel peaks hf
    (fun m => HasGap D m ∧ m.Sublist peaks) ⟨hasGap_max peaks h2, List.Sublist.refl _⟩ (by
      rintro m m' ⟨hm1, hm2⟩ hst
      refine ⟨thinStep_gap pc _ D hthr m m' ?_ hst hm1, (thinStep_some pc _ m m' hst).2.trans hm2⟩
      exact (hs.sublist hm2).imp fun h => le_of_lt h)
  have hge := hasGap_max_ge D r hg
  unfold thinPeaks
  rw [if_neg (by omega), ← hD, hr]
  match r, hg, hsub, hch, hge with
  | a :: b :: r, hg, hsub, hch, hge =>
    refine ⟨_, _, _, rfl, hsub.map _, by simp, ?_, hge⟩
    intro i x y hx hy
    rw [List.getElem?_map, Option.map_eq_some_iff] at hx hy
    obtain ⟨x', hx', rfl⟩ := hx
    obtain ⟨y', hy', rfl⟩ := hy
    exact isChain_get hch i x' y' hx' hy'

/-- The hypotheses of `C54_result` are met: -/
example := C54_result (K := ℚ) .first (1 / 10) (by norm_num) [(3, 1), (4, 2), (100, 1), (200, 1), (201, 1)] (by decide) (by decide) 10 (by decide)

/-- Fewer than two peaks: an exception. -/
theorem C54_few_peaks (pc : PeakChoice) (hunk : K) (peaks : List (ℕ × K)) (h : peaks.length ≤ 1) (fuel : ℕ) :
    thinPeaks pc hunk fuel peaks = .raised .runtimeError := by
  unfold thinPeaks; rw [if_pos h]

/-- The hypotheses of `C54_few_peaks` are met: -/
example := C54_few_peaks (K := ℚ) .first (1 / 10) [(3, 1)] (by decide) 10

/-- A hunk length above 1 (the trait accepts every float) can remove all peaks but one; taking the largest distance then
raises ValueError. -/
theorem C54_hunk_above_one_violated (pc : PeakChoice) (hunk : K) (h1 : 1 < hunk) (d : ℕ) (hd : 0 < d) (v : K) (fuel : ℕ) :
    thinPeaks pc hunk (fuel + 3) [(0, v), (d, v)] = .raised .valueError := by
  have hd' : (0 : K) < (d : K) := by exact_mod_cast hd
  have hlt : (d : K) < hunk * (d : K) := by nlinarith
  cases pc <;> simp [thinPeaks, peakDists, diffs, thinLoop, thinStep, hlt]

example : thinPeaks (K := ℚ) .extremum (1 / 10) 10 [(3, 1), (4, 2), (100, 1), (200, 1), (201, 1)] = .ok [4, 100, 201] 101 96 := by
  decide +kernel

example : thinPeaks (K := ℚ) .first (1 / 10) 10 [(3, 1), (4, 2), (100, 1), (200, 1), (201, 1)] = .ok [3, 100, 200] 100 97 := by
  decide +kernel

/-! ### Detection -/

private theorem triggerComp_iff (thr x : K) : triggerComp thr x = true ↔ beyond thr x := by
  unfold triggerComp beyond
  split <;> simp

private theorem mem_localPeaks (flags : List Bool) (x : List K) (d i : ℕ) (v : K) :
    (i, v) ∈ localPeaks flags x d ↔ d ≤ i ∧ flags[i - d]? = some true ∧ x[i - d]? = some v := by
  unfold localPeaks
  rw [List.mem_filterMap]
  constructor
  · rintro ⟨⟨⟨f, w⟩, j⟩, hmem, hp⟩
    rw [List.mk_mem_zipIdx_iff_le_and_getElem?_sub, List.getElem?_zip_eq_some] at hmem
    obtain ⟨h1, h2, h3⟩ := hmem
    cases f with
    | false => simp at hp
    | true =>
      simp only [if_true, Option.some.injEq, Prod.mk.injEq] at hp
      obtain ⟨rfl, rfl⟩ := hp
      exact ⟨h1, h2, h3⟩
  · rintro ⟨h1, h2, h3⟩
    refine ⟨((true, v), i), ?_, rfl⟩
    rw [List.mk_mem_zipIdx_iff_le_and_getElem?_sub, List.getElem?_zip_eq_some]
    exact ⟨h1, h2, h3⟩

private theorem getElem?_diffs (l : List K) (j : ℕ) (z : K) :
    (diffs l)[j]? = some z ↔ ∃ a b, l[j]? = some a ∧ l[j + 1]? = some b ∧ z = b - a := by
  induction l generalizing j with
  | nil => simp [diffs]
  | cons a l ih =>
    cases l with
    | nil => simp [diffs]
    | cons b l =>
      cases j with
      | zero => simp [diffs, eq_comm]
      | succ j =>
        rw [show diffs (a :: b :: l) = (b - a) :: diffs (b :: l) from rfl, List.getElem?_cons_succ, ih j]
        simp

private theorem flags_true (thr : K) (l : List K) (j : ℕ) :
    (l.map (triggerComp thr))[j]? = some true ↔ ∃ z, l[j]? = some z ∧ beyond thr z := by
  rw [List.getElem?_map, Option.map_eq_some_iff]
  simp only [triggerComp_iff]

private theorem getElem?_take_or_drop (data : List K) (num k : ℕ) (v : K) :
    data[k]? = some v ↔ (data.take num)[k]? = some v ∨ (num ≤ k ∧ (data.drop num)[k - num]? = some v) := by
  by_cases h : k < num
  · rw [List.getElem?_take_of_lt h]
    constructor
    · exact Or.inl
    · rintro (h' | ⟨h', -⟩)
      · exact h'
      · omega
  · rw [List.getElem?_eq_none (l := data.take num) (by rw [List.length_take]; omega), List.getElem?_drop,
      show num + (k - num) = k by omega]
    constructor
    · exact fun h' => Or.inr ⟨by omega, h'⟩
    · rintro (h' | ⟨-, h'⟩)
      · simp at h'
      · exact h'

private theorem mem_detect_dirac (thr : K) (num : ℕ) (hn : 0 < num) (data : List K) (x0 : Option K) (d i : ℕ) (v : K) :
    (i, v) ∈ detectPeaks .dirac thr num x0 d (chunks num data) ↔ d ≤ i ∧ data[i - d]? = some v ∧ beyond thr v := by
  induction data using chunk_induction hn generalizing x0 d with
  | nil => simp [chunks_nil, detectPeaks]
  | step l hl ih =>
    rw [chunks_step hn hl, detectPeaks, List.mem_append, mem_localPeaks, ih, getElem?_take_or_drop l num (i - d) v,
      triggerFlags, flags_true]
    constructor
    · rintro (⟨h1, ⟨z, h2, h3⟩, h4⟩ | ⟨h1, h2, h3⟩)
      · rw [h2] at h4
        obtain rfl := Option.some.inj h4
        exact ⟨h1, Or.inl h2, h3⟩
      · exact ⟨by omega, Or.inr ⟨by omega, by rw [show i - d - num = i - (d + num) by omega]; exact h2⟩, h3⟩
    · rintro ⟨h1, h2 | ⟨h2, h3⟩, h4⟩
      · exact Or.inl ⟨h1, ⟨v, h2, h4⟩, h2⟩
      · exact Or.inr ⟨by omega, by rw [show i - (d + num) = i - d - num by omega]; exact h3, h4⟩

private theorem localPeaks_bounds (flags : List Bool) (x : List K) (d : ℕ) (p : ℕ × K) (hp : p ∈ localPeaks flags x d) :
    d ≤ p.1 ∧ p.1 < d + x.length := by
  obtain ⟨i, v⟩ := p
  obtain ⟨h1, -, h3⟩ := (mem_localPeaks flags x d i v).1 hp
  have := (List.getElem?_eq_some_iff.1 h3).1
  exact ⟨h1, by simp only; omega⟩

private theorem localPeaks_sorted (flags : List Bool) (x : List K) (d : ℕ) :
    (localPeaks flags x d).Pairwise fun a b => a.1 < b.1 := by
  unfold localPeaks
  rw [List.pairwise_filterMap]
  have : ((flags.zip x).zipIdx d).Pairwise fun a b => a.2 < b.2 := by
    generalize flags.zip x = l
    induction l generalizing d with
    | nil => simp
    | cons a l ih =>
      rw [List.zipIdx_cons, List.pairwise_cons]
      refine ⟨?_, ih (d + 1)⟩
      rintro ⟨y, j⟩ hj
      rw [List.mk_mem_zipIdx_iff_le_and_getElem?_sub] at hj
      simp only; omega
  refine this.imp ?_
  rintro ⟨⟨f, u⟩, i⟩ ⟨⟨g, w⟩, j⟩ hij a ha b hb
  cases f <;> cases g <;> simp at ha hb
  subst ha hb
  exact hij

private theorem detect_bounds (tt : TriggerType) (thr : K) (num : ℕ) (hn : 0 < num) (data : List K) (x0 : Option K) (d : ℕ) :
    ∀ p ∈ detectPeaks tt thr num x0 d (chunks num data), d ≤ p.1 := by
  induction data using chunk_induction hn generalizing x0 d with
  | nil => simp [chunks_nil, detectPeaks]
  | step l hl ih =>
    rw [chunks_step hn hl, detectPeaks]
    intro p hp
    rcases List.mem_append.1 hp with hp | hp
    · exact (localPeaks_bounds _ _ _ _ hp).1
    · have := ih _ (d + num) p hp
      omega

/-- The peaks are found in increasing order, without repetitions (both trigger types, every block size). -/
theorem C78_increasing (tt : TriggerType) (thr : K) (num : ℕ) (hn : 0 < num) (data : List K) (blocks : List (List K))
    (hb : IsBlocking num data blocks) : (detectPeaks tt thr num none 0 blocks).Pairwise fun a b => a.1 < b.1 := by
  rw [(isBlocking_iff hn).1 hb]
  clear hb
  generalize (none : Option K) = x0
  generalize (0 : ℕ) = d
  induction data using chunk_induction hn generalizing x0 d with
  | nil => simp [chunks_nil, detectPeaks]
  | step l hl ih =>
    rw [chunks_step hn hl, detectPeaks, List.pairwise_append]
    refine ⟨localPeaks_sorted _ _ _, ih _ _, ?_⟩
    intro a ha b hb
    have h1 := (localPeaks_bounds _ _ _ _ ha).2
    have h2 := detect_bounds tt thr num hn _ _ _ b hb
    have : (l.take num).length ≤ num := by rw [List.length_take]; omega
    omega

/-- The hypotheses of `C78_increasing` are met: -/
example := C78_increasing (K := ℚ) .rect 1 2 (by decide) [0, 3, 0, 0, 5, 0] _ (isBlocking_chunks (by decide) _)

/-- Trigger type `dirac`: the samples found are exactly those whose value is beyond the threshold, for every block size,
and each is kept with its value. -/
theorem C78_dirac (thr : K) (num : ℕ) (hn : 0 < num) (data : List K) (blocks : List (List K)) (hb : IsBlocking num data blocks)
    (i : ℕ) : (∃ v, (i, v) ∈ detectPeaks .dirac thr num none 0 blocks ∧ data[i]? = some v) ↔ isPeak thr data i := by
  rw [(isBlocking_iff hn).1 hb]
  simp only [mem_detect_dirac thr num hn, Nat.zero_le, true_and, Nat.sub_zero, isPeak]
  constructor
  · rintro ⟨v, ⟨h1, h2⟩, -⟩; exact ⟨v, h1, h2⟩
  · rintro ⟨v, h1, h2⟩; exact ⟨v, ⟨h1, h2⟩, h1⟩

/-- The hypotheses of `C78_dirac` are met: -/
example := C78_dirac (K := ℚ) 1 2 (by decide) [0, 3, 0, 0, 5, 0] _ (isBlocking_chunks (by decide) _) 4

private theorem getLast?_take (l : List K) (num : ℕ) (hn : 0 < num) (h : num ≤ l.length) : (l.take num).getLast? = l[num - 1]? := by
  rw [List.getLast?_eq_getElem?, List.length_take, Nat.min_eq_left h, List.getElem?_take_of_lt (by omega)]

private theorem mem_detect_rect (thr : K) (num : ℕ) (hn : 0 < num) (data : List K) (u : K) (d i : ℕ) (v : K) :
    (i, v) ∈ detectPeaks .rect thr num (some u) d (chunks num data) ↔
      d ≤ i ∧ data[i - d]? = some v ∧ ∃ w, (u :: data)[i - d]? = some w ∧ beyond thr (v - w) := by
  induction data using chunk_induction hn generalizing u d with
  | nil => simp [chunks_nil, detectPeaks]
  | step l hl ih =>
    rw [chunks_step hn hl, detectPeaks, List.mem_append, mem_localPeaks, triggerFlags, flags_true]
    have hfirst : (d ≤ i ∧ (∃ z, (diffs ((some u).toList ++ l.take num))[i - d]? = some z ∧ beyond thr z) ∧
        (l.take num)[i - d]? = some v) ↔
        (d ≤ i ∧ i - d < num ∧ l[i - d]? = some v ∧ ∃ w, (u :: l)[i - d]? = some w ∧ beyond thr (v - w)) := by
      simp only [getElem?_diffs, Option.toList_some, List.singleton_append]
      by_cases hk : i - d < num
      · have e : (u :: l.take num)[i - d]? = (u :: l)[i - d]? := by
          cases hj : i - d with
          | zero => rfl
          | succ k => rw [List.getElem?_cons_succ, List.getElem?_cons_succ, List.getElem?_take_of_lt (by omega)]
        rw [e, List.getElem?_cons_succ, List.getElem?_take_of_lt hk]
        constructor
        · rintro ⟨h1, ⟨z, ⟨a, b, ha, hb, rfl⟩, hz⟩, hv⟩
          rw [hb] at hv
          obtain rfl := Option.some.inj hv
          exact ⟨h1, hk, hb, a, ha, hz⟩
        · rintro ⟨h1, -, hv, w, hw, hz⟩
          exact ⟨h1, ⟨v - w, ⟨w, v, hw, hv, rfl⟩, hz⟩, hv⟩
      · rw [List.getElem?_eq_none (l := l.take num) (i := i - d) (by rw [List.length_take]; omega)]
        constructor
        · rintro ⟨-, -, h⟩; simp at h
        · rintro ⟨-, h, -⟩; exact absurd h hk
    rw [hfirst]
    by_cases hlen : num ≤ l.length
    · obtain ⟨u', hu'⟩ : ∃ u', (l.take num).getLast? = some u' := by
        rw [getLast?_take l num hn hlen]
        exact ⟨l[num - 1]'(by omega), List.getElem?_eq_getElem (by omega)⟩
      rw [hu', ih u' (d + num)]
      rw [getLast?_take l num hn hlen] at hu'
      have hkey : d + num ≤ i → (l.drop num)[i - (d + num)]? = l[i - d]? ∧ (u' :: l.drop num)[i - (d + num)]? = (u :: l)[i - d]? := by
        intro hi
        constructor
        · rw [List.getElem?_drop]; congr 1; omega
        · obtain ⟨k, hk⟩ := Nat.exists_eq_add_of_le hi
          subst hk
          rw [show d + num + k - (d + num) = k by omega, show d + num + k - d = (num - 1 + k) + 1 by omega, List.getElem?_cons_succ]
          cases k with
          | zero => rw [List.getElem?_cons_zero, ← hu', Nat.add_zero]
          | succ k => rw [List.getElem?_cons_succ, List.getElem?_drop]; congr 1; omega
      constructor
      · rintro (⟨h1, -, h2, h3⟩ | ⟨h1, h2, h3⟩)
        · exact ⟨h1, h2, h3⟩
        · rw [(hkey h1).1] at h2; rw [(hkey h1).2] at h3
          exact ⟨by omega, h2, h3⟩
      · rintro ⟨h1, h2, h3⟩
        by_cases hk : i - d < num
        · exact Or.inl ⟨h1, hk, h2, h3⟩
        · have h1' : d + num ≤ i := by omega
          rw [← (hkey h1').1] at h2; rw [← (hkey h1').2] at h3
          exact Or.inr ⟨h1', h2, h3⟩
    · have hd : l.drop num = [] := List.drop_eq_nil_of_le (by omega)
      rw [hd, chunks_nil]
      simp only [detectPeaks, List.not_mem_nil, or_false]
      constructor
      · rintro ⟨h1, -, h2, h3⟩; exact ⟨h1, h2, h3⟩
      · rintro ⟨h1, h2, h3⟩
        refine ⟨h1, ?_, h2, h3⟩
        have := (List.getElem?_eq_some_iff.1 h2).1
        omega

/-- Trigger type `rect`: edges at samples after the first block are found at their sample; edges within the first block
are reported one sample too early. -/
theorem C78_rect_partial (thr : K) (num : ℕ) (hn : 0 < num) (data : List K) (blocks : List (List K))
    (hb : IsBlocking num data blocks) (i : ℕ) :
    (∃ v, (i, v) ∈ detectPeaks .rect thr num none 0 blocks) ↔
      (num ≤ i ∧ isEdge thr data i) ∨ (i + 1 < num ∧ isEdge thr data (i + 1)) := by
  rw [(isBlocking_iff hn).1 hb]
  by_cases hl : data = []
  · subst hl
    simp [chunks_nil, detectPeaks, isEdge]
  rw [chunks_step hn hl, detectPeaks]
  simp only [List.mem_append, mem_localPeaks, triggerFlags, flags_true, getElem?_diffs, Option.toList_none, List.nil_append,
    Nat.zero_le, true_and, Nat.sub_zero]
  have hfirst : (∃ v, (∃ z, (∃ a b, (data.take num)[i]? = some a ∧ (data.take num)[i + 1]? = some b ∧ z = b - a) ∧ beyond thr z) ∧
      (data.take num)[i]? = some v) ↔ (i + 1 < num ∧ isEdge thr data (i + 1)) := by
    constructor
    · rintro ⟨v, ⟨z, ⟨a, b, ha, hb, rfl⟩, hz⟩, -⟩
      have hlt := (List.getElem?_eq_some_iff.1 hb).1
      rw [List.length_take] at hlt
      rw [List.getElem?_take_of_lt (by omega)] at ha hb
      exact ⟨by omega, a, b, by omega, ha, hb, hz⟩
    · rintro ⟨h1, a, b, -, ha, hb, hz⟩
      rw [Nat.add_sub_cancel] at ha
      rw [List.getElem?_take_of_lt (by omega), List.getElem?_take_of_lt h1]
      exact ⟨a, ⟨b - a, ⟨a, b, ha, hb, rfl⟩, hz⟩, ha⟩
  rw [exists_or, hfirst, or_comm]
  apply or_congr_left
  by_cases hlen : num ≤ data.length
  · obtain ⟨u, hu⟩ : ∃ u, (data.take num).getLast? = some u := by
      rw [getLast?_take data num hn hlen]
      exact ⟨data[num - 1]'(by omega), List.getElem?_eq_getElem (by omega)⟩
    rw [hu]
    rw [getLast?_take data num hn hlen] at hu
    simp only [mem_detect_rect thr num hn]
    constructor
    · rintro ⟨v, h1, h2, w, h3, h4⟩
      refine ⟨by omega, w, v, by omega, ?_, ?_, h4⟩
      · obtain ⟨k, rfl⟩ := Nat.exists_eq_add_of_le h1
        rw [show 0 + num + k - (0 + num) = k by omega] at h3
        rw [← h3]
        cases k with
        | zero => rw [List.getElem?_cons_zero, ← hu]; congr 1; omega
        | succ k => rw [List.getElem?_cons_succ, List.getElem?_drop]; congr 1; omega
      · rw [← h2, List.getElem?_drop]; congr 1; omega
    · rintro ⟨h1, w, v, -, hw, hv, hz⟩
      refine ⟨v, by omega, ?_, w, ?_, hz⟩
      · rw [← hv, List.getElem?_drop]; congr 1; omega
      · obtain ⟨k, rfl⟩ := Nat.exists_eq_add_of_le h1
        rw [show num + k - (0 + num) = k by omega, ← hw]
        cases k with
        | zero => rw [List.getElem?_cons_zero, ← hu, Nat.add_zero]
        | succ k => rw [List.getElem?_cons_succ, List.getElem?_drop]; congr 1
  · have hd : data.drop num = [] := List.drop_eq_nil_of_le (by omega)
    rw [hd, chunks_nil]
    simp only [detectPeaks, List.not_mem_nil, exists_false, false_iff]
    rintro ⟨h1, w, v, -, -, hv, -⟩
    have := (List.getElem?_eq_some_iff.1 hv).1
    omega

/-- The hypotheses of `C78_rect_partial` are met: -/
example := C78_rect_partial (K := ℚ) 1 2 (by decide) [0, 3, 0, 0, 5, 0] _ (isBlocking_chunks (by decide) _) 4

/-- Consequence: the same signal gives different edges for different block sizes, hence (edges 1 and 3 of the signal
0 1 0 1 0 with blocks of 2, which are 2 samples apart) a wrong distance. -/
theorem C78_rect_violated :
    (detectPeaks (K := ℚ) .rect (1 / 2) 2 none 0 [[0, 1], [0, 1], [0]]).map Prod.fst = [0, 3] ∧
    (detectPeaks (K := ℚ) .rect (1 / 2) 8 none 0 [[0, 1, 0, 1, 0]]).map Prod.fst = [0, 2] ∧
    isEdge (K := ℚ) (1 / 2) [0, 1, 0, 1, 0] 1 ∧ isEdge (K := ℚ) (1 / 2) [0, 1, 0, 1, 0] 3 := by
  refine ⟨by decide +kernel, by decide +kernel, ⟨0, 1, by norm_num, rfl, rfl, ?_⟩, ⟨0, 1, by norm_num, rfl, rfl, ?_⟩⟩ <;>
    (unfold beyond; norm_num)

/-- Detection and thinning together: a source with one channel, hunk length at most 1, trigger type `dirac`, at least two
samples beyond the threshold: the result exists and lists only such samples. -/
theorem C78_trigger_data (pc : PeakChoice) (thr hunk : K) (h1 : hunk ≤ 1) (num : ℕ) (hn : 0 < num) (data : List K)
    (blocks : List (List K)) (hb : IsBlocking num data blocks) (i j : ℕ) (hij : i < j) (hi : isPeak thr data i)
    (hj : isPeak thr data j) (fuel : ℕ) (hf : (detectPeaks .dirac thr num none 0 blocks).length < fuel) :
    ∃ locs mx mn, triggerData 1 .dirac pc thr hunk num fuel blocks = .ok locs mx mn ∧ ∀ k ∈ locs, isPeak thr data k := by
  obtain ⟨v, hv, -⟩ := (C78_dirac thr num hn data blocks hb i).2 hi
  obtain ⟨w, hw, -⟩ := (C78_dirac thr num hn data blocks hb j).2 hj
  have hlen : 2 ≤ (detectPeaks .dirac thr num none 0 blocks).length := by
    rcases hP : detectPeaks .dirac thr num none 0 blocks with _ | ⟨a, _ | ⟨b, l⟩⟩
    · rw [hP] at hv; simp at hv
    · rw [hP, List.mem_singleton] at hv hw
      rw [← hv] at hw
      have := (Prod.mk.inj hw).1
      omega
    · simp
  obtain ⟨locs, mx, mn, h2, h3, -⟩ := C54_result pc hunk h1 _ (C78_increasing .dirac thr num hn data blocks hb) hlen fuel hf
  refine ⟨locs, mx, mn, by unfold triggerData; rw [if_neg (by simp)]; exact h2, ?_⟩
  intro k hk
  obtain ⟨⟨k', x⟩, hp, rfl⟩ := List.mem_map.1 (h3.subset hk)
  rw [(isBlocking_iff hn).1 hb] at hp
  have := (mem_detect_dirac thr num hn data none 0 k' x).1 hp
  exact ⟨x, by simpa using this.2.1, this.2.2⟩

/-- The hypotheses of `C78_trigger_data` are met: -/
example := C78_trigger_data (K := ℚ) .first 1 (1 / 10) (by norm_num) 2 (by decide) [0, 3, 0, 0, 5, 0] (chunks 2 [0, 3, 0, 0, 5, 0])
  (isBlocking_chunks (by decide) _) 1 4 (by decide) (by simp [isPeak, beyond]) (by simp [isPeak, beyond]) 10 (by simp [chunks]; decide +kernel)

end Acoular
