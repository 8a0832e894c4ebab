import Verif.Props.Inverse
import Mathlib.Data.List.Perm.Subperm
import Mathlib.Data.Fintype.Card

/-!
# C83, C85: generalised inverse beamforming
-/

namespace Acoular

open Spec Matrix Complex

variable {N n : ℕ}

/-! ## C83: superposition of the eigenmodes -/

theorem gibModes_ok (eva : List ℝ) (solve : ℕ → GibMode N) (ss : List ℕ) (loc : Option (List (Fin N)))
    (h : ∀ s ∈ ss, s < eva.length) :
    ∃ l, gibModes eva solve ss loc = .ok (ss.map (fun s => if 0 < eva.getD s 0 then (solve s).row else fun _ => 0), l) ∧
      (l = loc ∨ ∃ s ∈ ss, 0 < eva.getD s 0 ∧ l = some (solve s).loc) ∧
      ((∃ s ∈ ss, 0 < eva.getD s 0) → ∃ s ∈ ss, 0 < eva.getD s 0 ∧ l = some (solve s).loc) := by
  induction ss generalizing loc with
  | nil => exact ⟨loc, rfl, .inl rfl, by simp⟩
  | cons s ss ih =>
    have hs := h s (by simp)
    have he : eva[s]? = some (eva.getD s 0) := by simp [List.getD, hs]
    by_cases hv : 0 < eva.getD s 0
    · obtain ⟨l, h1, h2, h3⟩ := ih (some (solve s).loc) fun k hk => h k (by simp [hk])
      refine ⟨l, ?_, ?_, ?_⟩
      · simp only [gibModes, he, if_pos hv, h1, List.map_cons]
      · rcases h2 with h2 | ⟨k, hk, h2⟩
        · exact .inr ⟨s, by simp, hv, h2⟩
        · exact .inr ⟨k, by simp [hk], h2⟩
      · intro _
        rcases h2 with h2 | ⟨k, hk, h2⟩
        · exact ⟨s, by simp, hv, h2⟩
        · exact ⟨k, by simp [hk], h2⟩
    · obtain ⟨l, h1, h2, h3⟩ := ih loc fun k hk => h k (by simp [hk])
      refine ⟨l, ?_, ?_, ?_⟩
      · simp only [gibModes, he, if_neg hv, h1, List.map_cons]
      · rcases h2 with h2 | ⟨k, hk, h2⟩
        · exact .inl h2
        · exact .inr ⟨k, by simp [hk], h2⟩
      · rintro ⟨k, hk, hv'⟩
        rcases List.mem_cons.1 hk with rfl | hk
        · exact absurd hv' hv
        · obtain ⟨k', hk', h4⟩ := h3 ⟨k, hk, hv'⟩
          exact ⟨k', by simp [hk'], h4⟩

/-- **C83** (part) If all points stay in use for every eigenmode, the map is the sum of the squared magnitudes of the
amplitudes of the modes with positive eigenvalue, provided the line has such a mode. -/
theorem C83_sum_partial (m k : ℕ) (eva : List ℝ) (solve : ℕ → GibMode N) (loc : Option (List (Fin N)))
    (hlen : m + k ≤ eva.length) (hall : ∀ s, m ≤ s → s < m + k → 0 < eva.getD s 0 → ∀ p, p ∈ (solve s).loc)
    (hpos : ∃ s, m ≤ s ∧ s < m + k ∧ 0 < eva.getD s 0) :
    ∃ line l, gibLine m k eva solve loc = .ok (line, l) ∧
      ∀ p, line p = ∑ s ∈ Finset.Ico m (m + k), if 0 < eva.getD s 0 then ‖(solve s).row p‖ ^ 2 else 0 := by
  obtain ⟨l, h1, _, h3⟩ := gibModes_ok eva solve (List.range' m k) loc fun s hs => by
    have := List.mem_range'_1.1 hs; omega
  obtain ⟨s, hs, hv, rfl⟩ := h3 (by
    obtain ⟨s, a, b, c⟩ := hpos
    exact ⟨s, List.mem_range'_1.2 ⟨a, b⟩, c⟩)
  refine ⟨_, _, by rw [gibLine, h1], fun p => ?_⟩
  have hs' := List.mem_range'_1.1 hs
  rw [if_pos (hall s hs'.1 hs'.2 hv p), List.map_map]
  have e : (Finset.Ico m (m + k)) = (List.range' m k).toFinset := by
    ext x; simp [List.mem_range'_1]
  rw [e, List.sum_toFinset _ (List.nodup_range')]
  refine congrArg List.sum (List.map_congr_left fun x _ => ?_)
  simp only [Function.comp]
  split <;> simp

/-- The hypotheses of `C83_sum_partial` are met: -/
example := C83_sum_partial (N := 2) 0 2 [1, 0] (fun _ => ⟨fun _ => 2, [0, 1]⟩) none (by simp) (fun s _ _ _ p => by fin_cases p <;> simp)
  ⟨0, by simp⟩

theorem suzukiStep_loc_all (radius : ∀ k : ℕ, Matrix (Fin k) (Fin k) ℂ → ℝ) (epsPerc pnorm beta : ℝ) (left : ℕ → ℕ)
    (A : Matrix (Fin n) (Fin N) ℂ) (e : Fin n → ℂ) (its : List ℕ) (h : 1 ≤ beta ∨ ∀ it ∈ its, it ≤ 1) (s : SuzukiState N) :
    (its.foldl (suzukiStep radius epsPerc pnorm beta left A e) s).loc = s.loc := by
  induction its generalizing s with
  | nil => rfl
  | cons it its ih =>
    rw [List.foldl_cons, ih (h.imp id fun k i hi => k i (by simp [hi]))]
    show (if beta < 1 ∧ 1 < it then _ else s.loc) = s.loc
    rw [if_neg]
    rintro ⟨h1, h2⟩
    rcases h with h | h
    · linarith
    · have := h it (by simp); omega

/-- With method `'Suzuki'` all points stay in use if `beta` is at least 1 or there are at most two iterations. -/
theorem C83_suzuki_all_points (radius : ∀ k : ℕ, Matrix (Fin k) (Fin k) ℂ → ℝ) (epsPerc pnorm beta : ℝ) (left : ℕ → ℕ)
    (nIter : ℕ) (A : Matrix (Fin n) (Fin N) ℂ) (e : Fin n → ℂ) (h : 1 ≤ beta ∨ nIter ≤ 2) (p : Fin N) :
    p ∈ (suzukiMode radius epsPerc pnorm beta left nIter A e).loc := by
  show p ∈ ((List.range nIter).foldl (suzukiStep radius epsPerc pnorm beta left A e) _).loc
  rw [suzukiStep_loc_all]
  · exact List.mem_finRange p
  · refine h.imp id fun h it hit => ?_
    have := List.mem_range.1 hit; omega

/-- The hypotheses of `C83_suzuki_all_points` are met: -/
example := C83_suzuki_all_points (n := 2) (N := 3) (fun _ _ => 1) 5 1 (9 / 10) (fun _ => 1) 2 (fun _ _ => 1) ![1, I] (.inr (by decide)) 2

theorem suzukiKeep_sublist (mag : Fin N → ℝ) (loc : List (Fin N)) (left : ℕ) :
    (suzukiKeep mag loc left).Sublist loc := List.filter_sublist

theorem suzukiKeep_length (mag : Fin N → ℝ) (loc : List (Fin N)) (hd : loc.Nodup) (left : ℕ) :
    (suzukiKeep mag loc left).length ≤ left := by
  set idx := (loc.mergeSort fun p q => decide (mag p ≤ mag q)).reverse with hidx
  have hsub : suzukiKeep mag loc left ⊆ idx.take left := by
    intro p hp
    unfold suzukiKeep at hp
    rw [List.mem_filter] at hp
    have h1 : p ∈ idx := by
      rw [hidx, List.mem_reverse, List.mem_mergeSort]
      exact hp.1
    rw [← List.take_append_drop left idx, List.mem_append] at h1
    refine h1.resolve_right fun h => ?_
    have := hp.2
    rw [decide_eq_true (by exact h)] at this
    simp at this
  have h1 := (hd.sublist (suzukiKeep_sublist mag loc left)).subperm hsub |>.length_le
  exact h1.trans (List.length_take_le _ _)

theorem suzukiStep_nodup (radius : ∀ k : ℕ, Matrix (Fin k) (Fin k) ℂ → ℝ) (epsPerc pnorm beta : ℝ) (left : ℕ → ℕ)
    (A : Matrix (Fin n) (Fin N) ℂ) (e : Fin n → ℂ) (s : SuzukiState N) (it : ℕ) (h : s.loc.Nodup) :
    (suzukiStep radius epsPerc pnorm beta left A e s it).loc.Nodup := by
  show (if beta < 1 ∧ 1 < it then _ else s.loc).Nodup
  split
  · exact h.sublist (suzukiKeep_sublist _ _ _)
  · exact h

theorem suzukiMode_length (radius : ∀ k : ℕ, Matrix (Fin k) (Fin k) ℂ → ℝ) (epsPerc pnorm beta : ℝ) (left : ℕ → ℕ)
    (nIter : ℕ) (A : Matrix (Fin n) (Fin N) ℂ) (e : Fin n → ℂ) (hb : beta < 1) (hn : 3 ≤ nIter) :
    (suzukiMode radius epsPerc pnorm beta left nIter A e).loc.length ≤ left (nIter - 1) := by
  obtain ⟨k, rfl⟩ : ∃ k, nIter = k + 1 := ⟨nIter - 1, by omega⟩
  unfold suzukiMode
  rw [List.range_succ, List.foldl_append, List.foldl_cons, List.foldl_nil]
  have hnd : ∀ its : List ℕ, ∀ s : SuzukiState N, s.loc.Nodup →
      (its.foldl (suzukiStep radius epsPerc pnorm beta left A e) s).loc.Nodup := by
    intro its
    induction its with
    | nil => exact fun s h => h
    | cons it its ih => exact fun s h => ih _ (suzukiStep_nodup _ _ _ _ _ _ _ _ _ h)
  have h1 := hnd (List.range k) ⟨fun _ => 0, List.finRange N, fun _ => 1⟩ (List.nodup_finRange N)
  set s := (List.range k).foldl (suzukiStep radius epsPerc pnorm beta left A e) ⟨fun _ => 0, List.finRange N, fun _ => 1⟩
  show (if beta < 1 ∧ 1 < k then suzukiKeep _ s.loc (left k) else s.loc).length ≤ left k
  rw [if_pos ⟨hb, by omega⟩]
  exact suzukiKeep_length _ _ h1 _

/-- Whatever the number of eigenmodes, with method `'Suzuki'`, `beta` below 1 and three iterations or more a line of the
map has at most `round(num_points * beta ** n_iter)` points that are not zero: those of one eigenmode. -/
theorem C83_support (radius : ∀ k : ℕ, Matrix (Fin k) (Fin k) ℂ → ℝ) (epsPerc pnorm beta : ℝ) (nIter : ℕ)
    (A : Matrix (Fin n) (Fin N) ℂ) (emode : ℕ → Fin n → ℂ) (hb : beta < 1) (hn : 3 ≤ nIter) (m k : ℕ) (eva : List ℝ)
    (line : Fin N → ℝ) (l : Option (List (Fin N)))
    (h : gibLine m k eva (fun s => suzukiMode radius epsPerc pnorm beta (gibLeft N beta) nIter A (emode s)) none
      = .ok (line, l)) :
    (Finset.univ.filter fun p => line p ≠ 0).card ≤ gibLeft N beta (nIter - 1) := by
  have hlen : ∀ s ∈ List.range' m k, s < eva.length := by
    by_contra hc
    push Not at hc
    obtain ⟨s, hs, hse⟩ := hc
    have : ∀ (ss : List ℕ) loc, s ∈ ss → ∃ e, gibModes eva
        (fun s => suzukiMode radius epsPerc pnorm beta (gibLeft N beta) nIter A (emode s)) ss loc = .error e := by
      intro ss
      induction ss with
      | nil => simp
      | cons a ss ih =>
        intro loc hmem
        unfold gibModes
        rcases List.mem_cons.1 hmem with rfl | hmem
        · rw [List.getElem?_eq_none hse]; exact ⟨_, rfl⟩
        · rcases eva[a]? with _ | v
          · exact ⟨_, rfl⟩
          · simp only
            split
            · obtain ⟨e, he⟩ := ih (some (suzukiMode radius epsPerc pnorm beta (gibLeft N beta) nIter A (emode a)).loc) hmem
              rw [he]; exact ⟨_, rfl⟩
            · obtain ⟨e, he⟩ := ih loc hmem
              rw [he]; exact ⟨_, rfl⟩
    obtain ⟨e, he⟩ := this _ none hs
    rw [gibLine, he] at h
    simp at h
  obtain ⟨l', h1, h2, _⟩ := gibModes_ok eva
    (fun s => suzukiMode radius epsPerc pnorm beta (gibLeft N beta) nIter A (emode s)) (List.range' m k) none hlen
  rw [gibLine, h1] at h
  rcases h2 with rfl | ⟨s, _, _, rfl⟩
  · simp at h
  · simp only [Except.ok.injEq, Prod.mk.injEq] at h
    obtain ⟨rfl, _⟩ := h
    refine le_trans ?_ (suzukiMode_length radius epsPerc pnorm beta (gibLeft N beta) nIter A (emode s) hb hn)
    refine le_trans (Finset.card_le_card (t := (suzukiMode radius epsPerc pnorm beta (gibLeft N beta) nIter A
      (emode s)).loc.toFinset) fun p hp => ?_) (List.toFinset_card_le _)
    rw [List.mem_toFinset]
    by_contra hc
    rw [Finset.mem_filter] at hp
    exact hp.2 (if_neg hc)

/-- Of 10 points at most one is left after three iterations that keep half of them. -/
example : gibLeft 10 (1 / 2) (3 - 1) = 1 := by
  have h : ⌊(10 : ℝ) * (1 / 2) ^ (2 + 1)⌋₊ = 1 := by
    rw [Nat.floor_eq_iff (by norm_num)]; norm_num
  unfold gibLeft
  norm_num at h ⊢
  rw [h]
  norm_num

/-- What an eigenmode contributes at a point: its amplitude if the point is in use for it at the end. -/
noncomputable def gibFound (g : GibMode N) (p : Fin N) : ℝ := if p ∈ g.loc then ‖g.row p‖ ^ 2 else 0

/-- The sum over the modes is not what the map shows if their points differ: the point of the first mode is missing,
and at the point of the second mode an amplitude that was abandoned is added. -/
theorem C83_dropped_violated : ∃ (solve : ℕ → GibMode 2) (eva : List ℝ) (line : Fin 2 → ℝ) (l : Option (List (Fin 2))),
    gibLine 0 2 eva solve none = .ok (line, l) ∧ (∀ s < 2, 0 < eva.getD s 0) ∧
    line 0 = 0 ∧ gibFound (solve 0) 0 + gibFound (solve 1) 0 = 4 ∧
    line 1 = 10 ∧ gibFound (solve 0) 1 + gibFound (solve 1) 1 = 9 := by
  refine ⟨fun s => if s = 0 then ⟨fun p => if p = 0 then 2 else 1, [0]⟩ else ⟨fun p => if p = 0 then 1 else 3, [1]⟩,
    [2, 1], fun p => if p = 1 then 10 else 0, some [1], ?_, ?_, by simp, ?_, by simp, ?_⟩
  · simp only [gibLine, gibModes, List.range']
    norm_num
    funext p
    fin_cases p <;> norm_num
  · intro s hs
    rcases (by omega : s = 0 ∨ s = 1) with rfl | rfl <;> norm_num
  · simp [gibFound]; norm_num
  · simp [gibFound]; norm_num

/-- A line without positive eigenvalue (silence) that comes first cannot be computed: the name `locpoints` is not
bound. -/
theorem C83_silent_violated (m k : ℕ) (eva : List ℝ) (solve : ℕ → GibMode N) (hlen : m + k ≤ eva.length)
    (h0 : ∀ v ∈ eva, v ≤ 0) (ls : List (List ℝ × (ℕ → GibMode N))) :
    gibCalc m k ((eva, solve) :: ls) none = .error .unboundLocalError := by
  have hz : ∀ s, ¬ 0 < eva.getD s 0 := by
    intro s
    by_cases hs : s < eva.length
    · simp only [List.getD, List.getElem?_eq_getElem hs, Option.getD_some]
      exact not_lt.2 (h0 _ (List.getElem_mem hs))
    · simp [List.getD, List.getElem?_eq_none (not_lt.1 hs)]
  obtain ⟨l, h1, h2, _⟩ := gibModes_ok eva solve (List.range' m k) none fun s hs => by
    have := List.mem_range'_1.1 hs; omega
  rcases h2 with rfl | ⟨s, _, hv, _⟩
  · simp only [gibCalc, gibLine, h1]
  · exact absurd hv (hz s)

/-- … but the same line behind one with a positive eigenvalue is computed (a map of zeros): whether the result of a line is
available depends on the lines before. -/
theorem C83_silent_later_violated (m k : ℕ) (eva : List ℝ) (solve : ℕ → GibMode N) (hlen : m + k ≤ eva.length)
    (hpos : ∃ s, m ≤ s ∧ s < m + k ∧ 0 < eva.getD s 0) (silent : List ℝ) (solve' : ℕ → GibMode N)
    (hlen' : m + k ≤ silent.length) (h0 : ∀ v ∈ silent, v ≤ 0) :
    gibCalc m k [(silent, solve')] none = .error .unboundLocalError ∧
      ∃ line, gibCalc m k [(eva, solve), (silent, solve')] none = .ok [line, fun _ => 0] := by
  refine ⟨C83_silent_violated m k silent solve' hlen' h0 [], ?_⟩
  obtain ⟨l, h1, _, h3⟩ := gibModes_ok eva solve (List.range' m k) none fun s hs => by
    have := List.mem_range'_1.1 hs; omega
  obtain ⟨s, hs, hv, rfl⟩ := h3 (by
    obtain ⟨s, a, b, c⟩ := hpos
    exact ⟨s, List.mem_range'_1.2 ⟨a, b⟩, c⟩)
  have hz : ∀ s, ¬ 0 < silent.getD s 0 := by
    intro s
    by_cases hs : s < silent.length
    · simp only [List.getD, List.getElem?_eq_getElem hs, Option.getD_some]
      exact not_lt.2 (h0 _ (List.getElem_mem hs))
    · simp [List.getD, List.getElem?_eq_none (not_lt.1 hs)]
  obtain ⟨l', g1, g2, _⟩ := gibModes_ok silent solve' (List.range' m k) (some (solve s).loc) fun s hs => by
    have := List.mem_range'_1.1 hs; omega
  rcases g2 with rfl | ⟨s', _, hv', _⟩
  · have e : gibLine m k silent solve' (some (solve s).loc) = .ok (fun _ => 0, some (solve s).loc) := by
      simp only [gibLine, g1, hz, if_false]
      congr 2
      funext p
      split
      · exact List.sum_eq_zero (by simp)
      · rfl
    obtain ⟨line, e1⟩ : ∃ line, gibLine m k eva solve none = .ok (line, some (solve s).loc) := ⟨_, by rw [gibLine, h1]⟩
    exact ⟨line, by rw [gibCalc, e1]; simp only [gibCalc, e]⟩
  · exact absurd hv' (hz s')

/-- Both kinds of line exist. -/
example : ∃ line, gibCalc 0 1 [([1, 0], fun _ => (⟨fun _ => 2, [0]⟩ : GibMode 1)), ([0, 0], fun _ => ⟨fun _ => 0, []⟩)] none
    = .ok [line, fun _ => 0] :=
  (C83_silent_later_violated 0 1 [1, 0] _ (by simp) ⟨0, by simp⟩ [0, 0] _ (by simp) (by simp)).2

/-- If the modes asked for go beyond the number of channels, the calculation ends with an error (`m` is not taken into
account when the number of modes is limited). -/
theorem C83_index_violated : ∃ (solve : ℕ → GibMode 1), gibLine 2 2 [3, 2, 1] solve none = .error .indexError := by
  refine ⟨fun _ => ⟨fun _ => 1, [0]⟩, ?_⟩
  simp [gibLine, gibModes, List.range']

/-! ## C85: phase of the eigenvectors -/

theorem suzukiStore_mul (z : ℂ) (row : Fin N → ℂ) (l : List (Fin N × ℂ)) :
    suzukiStore (fun p => z * row p) (l.map fun v => (v.1, z * v.2)) = fun p => z * suzukiStore row l p := by
  induction l generalizing row with
  | nil => rfl
  | cons v l ih =>
    show suzukiStore (Function.update _ v.1 (z * v.2)) _ = fun p => z * suzukiStore (Function.update row v.1 v.2) l p
    rw [← ih]
    congr 1
    funext p
    by_cases h : p = v.1
    · subst h; simp
    · simp [h]

theorem suzukiStep_phase (radius : ∀ k : ℕ, Matrix (Fin k) (Fin k) ℂ → ℝ) (epsPerc pnorm beta : ℝ) (left : ℕ → ℕ)
    (A : Matrix (Fin n) (Fin N) ℂ) (e : Fin n → ℂ) (z : ℂ) (hz : ‖z‖ = 1) (s : SuzukiState N) (it : ℕ) :
    suzukiStep radius epsPerc pnorm beta left A (z • e) ⟨fun p => z * s.row p, s.loc, s.weight⟩ it =
      ⟨fun p => z * (suzukiStep radius epsPerc pnorm beta left A e s it).row p,
        (suzukiStep radius epsPerc pnorm beta left A e s it).loc,
        (suzukiStep radius epsPerc pnorm beta left A e s it).weight⟩ := by
  have hq : suzukiSolve radius epsPerc A (z • e) ⟨fun p => z * s.row p, s.loc, s.weight⟩ =
      fun j => z * suzukiSolve radius epsPerc A e s j := by
    funext j
    unfold suzukiSolve
    simp only
    split
    · rw [Matrix.mulVec_smul]; rfl
    · rw [Matrix.mulVec_smul]; rfl
  have hrow : (suzukiStep radius epsPerc pnorm beta left A (z • e) ⟨fun p => z * s.row p, s.loc, s.weight⟩ it).row =
      fun p => z * (suzukiStep radius epsPerc pnorm beta left A e s it).row p := by
    show suzukiStore _ ((List.finRange s.loc.length).map fun j => (s.loc.get j, _)) = _
    rw [hq]
    have := suzukiStore_mul z s.row ((List.finRange s.loc.length).map fun j => (s.loc.get j, suzukiSolve radius epsPerc A e s j))
    rw [List.map_map] at this
    exact this
  have hn : ∀ p, ‖(suzukiStep radius epsPerc pnorm beta left A (z • e) ⟨fun p => z * s.row p, s.loc, s.weight⟩ it).row p‖ =
      ‖(suzukiStep radius epsPerc pnorm beta left A e s it).row p‖ := by
    intro p
    rw [hrow, norm_mul, hz, one_mul]
  have hloc : (suzukiStep radius epsPerc pnorm beta left A (z • e) ⟨fun p => z * s.row p, s.loc, s.weight⟩ it).loc =
      (suzukiStep radius epsPerc pnorm beta left A e s it).loc := by
    show (if beta < 1 ∧ 1 < it then suzukiKeep (fun p => ‖(suzukiStep radius epsPerc pnorm beta left A (z • e)
        ⟨fun p => z * s.row p, s.loc, s.weight⟩ it).row p‖) s.loc (left it) else s.loc) =
      if beta < 1 ∧ 1 < it then suzukiKeep (fun p => ‖(suzukiStep radius epsPerc pnorm beta left A e s it).row p‖) s.loc (left it)
        else s.loc
    simp only [hn]
  have hw : (suzukiStep radius epsPerc pnorm beta left A (z • e) ⟨fun p => z * s.row p, s.loc, s.weight⟩ it).weight =
      (suzukiStep radius epsPerc pnorm beta left A e s it).weight := by
    show (fun p => ‖(suzukiStep radius epsPerc pnorm beta left A (z • e)
        ⟨fun p => z * s.row p, s.loc, s.weight⟩ it).row p‖ ^ (2 - pnorm)) =
      fun p => ‖(suzukiStep radius epsPerc pnorm beta left A e s it).row p‖ ^ (2 - pnorm)
    simp only [hn]
  generalize suzukiStep radius epsPerc pnorm beta left A (z • e) ⟨fun p => z * s.row p, s.loc, s.weight⟩ it = a at *
  cases a
  simp only at hrow hloc hw
  rw [hrow, hloc, hw]

theorem suzukiMode_phase (radius : ∀ k : ℕ, Matrix (Fin k) (Fin k) ℂ → ℝ) (epsPerc pnorm beta : ℝ) (left : ℕ → ℕ)
    (nIter : ℕ) (A : Matrix (Fin n) (Fin N) ℂ) (e : Fin n → ℂ) (z : ℂ) (hz : ‖z‖ = 1) :
    suzukiMode radius epsPerc pnorm beta left nIter A (z • e) =
      ⟨fun p => z * (suzukiMode radius epsPerc pnorm beta left nIter A e).row p,
        (suzukiMode radius epsPerc pnorm beta left nIter A e).loc⟩ := by
  have key : ∀ (its : List ℕ) (s : SuzukiState N),
      its.foldl (suzukiStep radius epsPerc pnorm beta left A (z • e)) ⟨fun p => z * s.row p, s.loc, s.weight⟩ =
        ⟨fun p => z * (its.foldl (suzukiStep radius epsPerc pnorm beta left A e) s).row p,
          (its.foldl (suzukiStep radius epsPerc pnorm beta left A e) s).loc,
          (its.foldl (suzukiStep radius epsPerc pnorm beta left A e) s).weight⟩ := by
    intro its
    induction its with
    | nil => exact fun s => rfl
    | cons it its ih =>
      intro s
      rw [List.foldl_cons, suzukiStep_phase _ _ _ _ _ _ _ _ hz, ih, List.foldl_cons]
  have := key (List.range nIter) ⟨fun _ => 0, List.finRange N, fun _ => 1⟩
  simp only [mul_zero] at this
  unfold suzukiMode
  simp only [this]

/-- **C85** With method `'Suzuki'` the map does not depend on which unit factors the eigenvectors carry. -/
theorem C85_phase_suzuki (radius : ∀ k : ℕ, Matrix (Fin k) (Fin k) ℂ → ℝ) (epsPerc pnorm beta : ℝ) (left : ℕ → ℕ)
    (nIter : ℕ) (A : Matrix (Fin n) (Fin N) ℂ) (emode : ℕ → Fin n → ℂ) (z : ℕ → ℂ) (hz : ∀ s, ‖z s‖ = 1) (m k : ℕ)
    (eva : List ℝ) (loc : Option (List (Fin N))) :
    gibLine m k eva (fun s => suzukiMode radius epsPerc pnorm beta left nIter A (z s • emode s)) loc =
      gibLine m k eva (fun s => suzukiMode radius epsPerc pnorm beta left nIter A (emode s)) loc := by
  set f := fun s => suzukiMode radius epsPerc pnorm beta left nIter A (emode s) with hf
  have h1 : (fun s => suzukiMode radius epsPerc pnorm beta left nIter A (z s • emode s)) =
      fun s => ⟨fun p => z s * (f s).row p, (f s).loc⟩ := by
    funext s
    exact suzukiMode_phase _ _ _ _ _ _ _ _ _ (hz s)
  rw [h1]
  have key : ∀ (ss : List ℕ) loc, match gibModes eva f ss loc with
      | .error e => gibModes eva (fun s => ⟨fun p => z s * (f s).row p, (f s).loc⟩) ss loc = .error e
      | .ok r => ∃ rows, gibModes eva (fun s => ⟨fun p => z s * (f s).row p, (f s).loc⟩) ss loc = .ok (rows, r.2) ∧
          ∀ p, (rows.map fun q => ‖q p‖ ^ 2) = r.1.map fun q => ‖q p‖ ^ 2 := by
    intro ss
    induction ss with
    | nil => exact fun loc => ⟨[], rfl, fun p => rfl⟩
    | cons s ss ih =>
      intro loc
      unfold gibModes
      rcases eva[s]? with _ | v
      · rfl
      · simp only
        by_cases hv : 0 < v
        · simp only [if_pos hv]
          have := ih (some (f s).loc)
          rcases hg : gibModes eva f ss (some (f s).loc) with e | r
          · rw [hg] at this
            simp only at this ⊢
            rw [this]
          · rw [hg] at this
            obtain ⟨rows, hr, hp⟩ := this
            refine ⟨(fun p => z s * (f s).row p) :: rows, by rw [hr], fun p => ?_⟩
            rw [List.map_cons, List.map_cons, hp p, norm_mul, hz, one_mul]
        · simp only [if_neg hv]
          have := ih loc
          rcases hg : gibModes eva f ss loc with e | r
          · rw [hg] at this
            simp only at this ⊢
            rw [this]
          · rw [hg] at this
            obtain ⟨rows, hr, hp⟩ := this
            refine ⟨(fun p => 0) :: rows, by rw [hr], fun p => ?_⟩
            rw [List.map_cons, List.map_cons, hp p]
  have := key (List.range' m k) loc
  unfold gibLine
  rcases hg : gibModes eva f (List.range' m k) loc with e | ⟨rows, l⟩
  · rw [hg] at this
    simp only at this
    rw [this]
  · rw [hg] at this
    obtain ⟨rows', hr, hp⟩ := this
    rw [hr]
    rcases l with _ | l
    · rfl
    · simp only [hp]

/-- The hypotheses of `C85_phase_suzuki` are met: -/
example := C85_phase_suzuki (n := 2) (N := 3) (fun _ _ => 1) 5 1 (9 / 10) (fun _ => 1) 2 (fun _ _ => 1) (fun _ => ![1, I]) (fun _ => I)
  (fun _ => Complex.norm_I) 0 1 [1, 2] none

theorem sklearnResult_iff {ι : Type} [Fintype ι] (u : ℝ) (hu : 0 < u) (norms : Fin N → ℝ) (hn : ∀ p, 0 < norms p)
    (A : ι → Fin N → ℝ) (y : ι → ℝ) (x : Fin N → ℝ) : SklearnResult 0 u norms A y x ↔ IsFit true 0 A y x := by
  rw [C84_unit_sklearn 0 u 1 hu one_pos]
  have ho : ∀ c : Fin N → ℝ, ∀ b, fitObjective 0 (fun i p => A i p / norms p) y c b =
      fitObjective 0 A y (fun p => c p / norms p) b := by
    intro c b
    unfold fitObjective
    simp only [zero_mul]
    congr 2
    refine Finset.sum_congr rfl fun i _ => ?_
    congr 3
    exact Finset.sum_congr rfl fun p _ => by ring
  unfold SklearnResult
  simp only [mul_one, div_one]
  constructor
  · rintro ⟨c, ⟨h0, b, _, hm⟩, rfl⟩
    refine ⟨fun p => div_nonneg (h0 p) (hn p).le, b, by simp, fun x' b' h0' hb' => ?_⟩
    have := hm (fun p => x' p * norms p) b' (fun p => mul_nonneg (h0' p) (hn p).le) (by simp)
    rw [ho, ho] at this
    have e : (fun p => x' p * norms p / norms p) = x' := funext fun p => mul_div_cancel_right₀ _ (hn p).ne'
    rwa [e] at this
  · rintro ⟨h0, b, _, hm⟩
    have e : (fun p => x p * norms p / norms p) = x := funext fun p => mul_div_cancel_right₀ _ (hn p).ne'
    refine ⟨fun p => x p * norms p, ⟨fun p => mul_nonneg (h0 p) (hn p).le, b, by simp, fun x' b' h0' hb' => ?_⟩, e.symm⟩
    rw [ho, ho, e]
    exact hm _ b' (fun p => div_nonneg (h0' p) (hn p).le) (by simp)

theorem four_squares (p q r s : ℝ) (h : p ^ 2 + q ^ 2 + r ^ 2 + s ^ 2 ≤ 0) : p = 0 ∧ q = 0 ∧ r = 0 ∧ s = 0 := by
  have hp := sq_nonneg p
  have hq := sq_nonneg q
  have hr := sq_nonneg r
  have hs := sq_nonneg s
  refine ⟨?_, ?_, ?_, ?_⟩ <;> refine pow_eq_zero_iff two_ne_zero |>.1 (le_antisymm ?_ (sq_nonneg _)) <;> linarith

theorem gib_example_identity (a d c : ℝ) :
    (a + (c - 15 / 11) + 1) ^ 2 + (2 * a + (c - 15 / 11) + 2) ^ 2 + (d + 9 / 11 + (c - 15 / 11)) ^ 2 +
      (2 * (d + 9 / 11) + (c - 15 / 11)) ^ 2 =
    (a + c) ^ 2 + (2 * a + c) ^ 2 + (d + c) ^ 2 + (2 * d + c) ^ 2 + 20 / 11 * a + 10 / 11 := by ring

theorem gib_example_min (x0 x1 b : ℝ) (h0 : 0 ≤ x0) :
    10 / 11 ≤ (x0 + b + 1) ^ 2 + (2 * x0 + b + 2) ^ 2 + (x1 + b) ^ 2 + (2 * x1 + b) ^ 2 ∧
    ((x0 + b + 1) ^ 2 + (2 * x0 + b + 2) ^ 2 + (x1 + b) ^ 2 + (2 * x1 + b) ^ 2 ≤ 10 / 11 → x0 = 0 ∧ x1 = 9 / 11) := by
  have h := gib_example_identity x0 (x1 - 9 / 11) (b + 15 / 11)
  rw [sub_add_cancel, add_sub_cancel_right] at h
  have h1 := sq_nonneg (x0 + (b + 15 / 11))
  have h2 := sq_nonneg (2 * x0 + (b + 15 / 11))
  have h3 := sq_nonneg (x1 - 9 / 11 + (b + 15 / 11))
  have h4 := sq_nonneg (2 * (x1 - 9 / 11) + (b + 15 / 11))
  refine ⟨by linarith, fun h5 => ?_⟩
  obtain ⟨e1, e2, e3, _⟩ := four_squares _ _ _ _ (by linarith :
    (x0 + (b + 15 / 11)) ^ 2 + (2 * x0 + (b + 15 / 11)) ^ 2 + (x1 - 9 / 11 + (b + 15 / 11)) ^ 2 +
      (2 * (x1 - 9 / 11) + (b + 15 / 11)) ^ 2 ≤ 0)
  constructor <;> linarith

/-- With the methods that fit non negative real and imaginary parts it does: for one source and two microphones the
eigenvector `e` gives the amplitude 1, and the eigenvector `-e` the amplitude `9/11 i`. -/
theorem C85_phase_positive_violated : ∃ (A : Matrix (Fin 2) (Fin 1) ℂ) (e : Fin 2 → ℂ), ∀ u > 0, ∀ norms : Fin (1 + 1) → ℝ,
    (∀ p, 0 < norms p) → (∀ q, GibFitResult 0 u norms A e q ↔ q = fun _ => 1) ∧
      (∀ q, GibFitResult 0 u norms A (-e) q ↔ q = fun _ => 9 / 11 * I) := by
  set A : Matrix (Fin 2) (Fin 1) ℂ := Matrix.of fun i _ => if i = 0 then 1 else 2 with hA
  set e : Fin 2 → ℂ := fun i => if i = 0 then 1 else 2 with he
  refine ⟨A, e, fun u hu norms hn => ?_⟩
  have ho : ∀ (x : Fin (1 + 1) → ℝ) (b : ℝ), fitObjective 0 (gibAB A) (gibR e) x b =
      ((x 0 + b - 1) ^ 2 + (2 * x 0 + b - 2) ^ 2 + (x 1 + b) ^ 2 + (2 * x 1 + b) ^ 2) / 8 := by
    intro x b
    simp [fitObjective, Fintype.sum_prod_type, Fin.sum_univ_two, gibAB, gibR, hA, he, Fin.append, Fin.addCases]
    ring
  have ho' : ∀ (x : Fin (1 + 1) → ℝ) (b : ℝ), fitObjective 0 (gibAB A) (gibR (-e)) x b =
      ((x 0 + b + 1) ^ 2 + (2 * x 0 + b + 2) ^ 2 + (x 1 + b) ^ 2 + (2 * x 1 + b) ^ 2) / 8 := by
    intro x b
    simp [fitObjective, Fintype.sum_prod_type, Fin.sum_univ_two, gibAB, gibR, hA, he, Fin.append, Fin.addCases]
    ring
  have hj : ∀ x : Fin (1 + 1) → ℝ, gibJoin x = fun _ => (x 0 : ℂ) + x 1 * I := by
    intro x; funext p; rw [Subsingleton.elim p 0]; rfl
  have hext : ∀ x x' : Fin (1 + 1) → ℝ, x 0 = x' 0 → x 1 = x' 1 → x = x' := by
    intro x x' h0 h1; funext p; fin_cases p <;> [exact h0; exact h1]
  have h1 : ∀ x, IsFit true 0 (gibAB A) (gibR e) x ↔ x = ![1, 0] := by
    intro x
    constructor
    · rintro ⟨_, b, _, hm⟩
      have := hm ![1, 0] 0 (by intro p; fin_cases p <;> simp) (by simp)
      rw [ho, ho] at this
      simp at this
      obtain ⟨e1, e2, e3, _⟩ := four_squares (x 0 + b - 1) (2 * x 0 + b - 2) (x 1 + b) (2 * x 1 + b) (by linarith)
      refine hext _ _ ?_ ?_
      · show x 0 = 1; linarith
      · show x 1 = 0; linarith
    · rintro rfl
      refine ⟨by intro p; fin_cases p <;> simp, 0, by simp, fun x' b' _ _ => ?_⟩
      rw [ho, ho]
      have : (0 : ℝ) ≤ ((x' 0 + b' - 1) ^ 2 + (2 * x' 0 + b' - 2) ^ 2 + (x' 1 + b') ^ 2 + (2 * x' 1 + b') ^ 2) / 8 := by
        positivity
      simpa using this
  have h2 : ∀ x, IsFit true 0 (gibAB A) (gibR (-e)) x ↔ x = ![0, 9 / 11] := by
    intro x
    constructor
    · rintro ⟨h0, b, _, hm⟩
      have := hm ![0, 9 / 11] (-15 / 11) (by intro p; fin_cases p <;> simp; norm_num) (by simp)
      rw [ho', ho'] at this
      have h00 := h0 0
      have e4 : ((![0, 9 / 11] : Fin 2 → ℝ) 0) = 0 := rfl
      have e5 : ((![0, 9 / 11] : Fin 2 → ℝ) 1) = 9 / 11 := rfl
      rw [e4, e5] at this
      obtain ⟨g1, g2⟩ := (gib_example_min (x 0) (x 1) b h00).2 (by
        have e6 : ((0 : ℝ) + -15 / 11 + 1) ^ 2 + (2 * 0 + -15 / 11 + 2) ^ 2 + (9 / 11 + -15 / 11) ^ 2 +
          (2 * (9 / 11) + -15 / 11) ^ 2 = 10 / 11 := by norm_num
        rw [e6] at this
        linarith)
      exact hext _ _ g1 g2
    · rintro rfl
      refine ⟨by intro p; fin_cases p <;> simp; norm_num, -15 / 11, by simp, fun x' b' h0' _ => ?_⟩
      rw [ho', ho']
      have e4 : ((![0, 9 / 11] : Fin 2 → ℝ) 0) = 0 := rfl
      have e5 : ((![0, 9 / 11] : Fin 2 → ℝ) 1) = 9 / 11 := rfl
      rw [e4, e5]
      have e6 : ((0 : ℝ) + -15 / 11 + 1) ^ 2 + (2 * 0 + -15 / 11 + 2) ^ 2 + (9 / 11 + -15 / 11) ^ 2 +
        (2 * (9 / 11) + -15 / 11) ^ 2 = 10 / 11 := by norm_num
      rw [e6]
      have := (gib_example_min (x' 0) (x' 1) b' (h0' 0)).1
      linarith
  constructor
  · intro q
    unfold GibFitResult
    simp only [sklearnResult_iff u hu norms hn, h1, exists_eq_left, hj]
    simp
  · intro q
    unfold GibFitResult
    simp only [sklearnResult_iff u hu norms hn, h2, exists_eq_left, hj]
    simp

/-- A unit factor that changes an eigenvector. -/
example : ‖(I : ℂ)‖ = 1 ∧ I • (fun _ : Fin 2 => (1 : ℂ)) ≠ fun _ => 1 := by
  refine ⟨Complex.norm_I, fun h => ?_⟩
  have := congrArg Complex.re (congrFun h 0)
  simp at this

/-- The real system that is solved with the other methods is the complex one: the sum of squares of its residuals is that
of the residuals of `A q = e` for the amplitudes `q` read off the solution. -/
theorem C85_real_system (A : Matrix (Fin n) (Fin N) ℂ) (e : Fin n → ℂ) (x : Fin (N + N) → ℝ) :
    ∑ i, (gibR e i - ∑ p, gibAB A i p * x p) ^ 2 = ∑ i, normSq (e i - ∑ p, A i p * gibJoin x p) := by
  rw [Fintype.sum_prod_type]
  refine Finset.sum_congr rfl fun i _ => ?_
  have hre : ∑ p, gibAB A (i, false) p * x p = (∑ p, A i p * gibJoin x p).re := by
    rw [Fin.sum_univ_add, re_sum, ← Finset.sum_add_distrib]
    refine Finset.sum_congr rfl fun p _ => ?_
    simp only [gibAB, gibJoin, Fin.append_left, Fin.append_right, mul_re, mul_im, add_re, add_im, ofReal_re, ofReal_im, I_re,
      I_im, Bool.false_eq_true, if_false, if_true]
    ring
  have him : ∑ p, gibAB A (i, true) p * x p = (∑ p, A i p * gibJoin x p).im := by
    rw [Fin.sum_univ_add, im_sum, ← Finset.sum_add_distrib]
    refine Finset.sum_congr rfl fun p _ => ?_
    simp only [gibAB, gibJoin, Fin.append_left, Fin.append_right, mul_re, mul_im, add_re, add_im, ofReal_re, ofReal_im, I_re,
      I_im, Bool.false_eq_true, if_false, if_true]
    ring
  rw [Fintype.sum_bool, hre, him, normSq_apply, sub_re, sub_im]
  simp only [gibR, if_true, Bool.false_eq_true, if_false]
  ring

end Acoular
