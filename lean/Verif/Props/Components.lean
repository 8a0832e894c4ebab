import Verif.Model.Components
import Verif.Props.EigBeam
import Verif.Props.Gridless

/-!
# C167: the components asked for last
-/

namespace Acoular

open Finset

variable {n g : ℕ}

private theorem acts_snoc (s : CompState) (h : List CompAct) (a : CompAct) : s.acts (h ++ [a]) = (s.acts h).act a := by
  simp only [CompState.acts, List.foldl_append, List.foldl_cons, List.foldl_nil]

namespace Spec

/-- The sum over the map. -/
def Total (r : Except PyErr (Fin g → ℝ)) (t : ℝ) : Prop := ∃ row, r = .ok row ∧ ∑ p, row p = t

/-- Component number `l` is what Python calls number `i`: counted from the beginning or, if negative, from the end. -/
def Names (n : ℕ) (i : ℤ) (l : Fin n) : Prop := i = l.val ∨ i = (l.val : ℤ) - n

end Spec

open Spec

private theorem pyIndex_names (i : ℤ) (l : Fin n) (h : Names n i l) : pyIndex n i = some l := by
  have hl := l.isLt
  unfold pyIndex
  rcases h with h | h
  · rw [dif_pos (by omega)]
    exact congrArg some (Fin.ext (by simp [h]))
  · rw [dif_neg (by omega), dif_pos (by omega)]
    exact congrArg some (Fin.ext (by simp; omega))

private theorem map_names (is : List ℤ) (ls : List (Fin n)) (h : List.Forall₂ (Names n) is ls) :
    is.map (pyIndex n) = ls.map some := by
  induction h with
  | nil => rfl
  | cons h _ ih => rw [List.map_cons, List.map_cons, pyIndex_names _ _ h, ih]

private theorem orth_total (s : CompState) (geo : SteerGeo n (g + 1)) (rDiag : Bool) (nf : ℝ) (eva : Fin n → ℝ)
    (eve : Fin n → Fin n → ℂ) (ls : List (Fin n)) (h : List.Forall₂ (Names n) s.eva ls) :
    Total (s.orth geo rDiag nf eva eve) ((ls.map eva).sum / n) := by
  obtain ⟨row, h1, h2⟩ := C66_orth_sum geo rDiag nf eva eve s.eva ls (map_names _ _ h) (fun _ => 0)
  refine ⟨row, by rw [CompState.orth, h1], ?_⟩
  rw [h2, sum_const_zero, zero_add]
  clear h h1 h2
  induction ls with
  | nil => simp
  | cons l ls ih => rw [List.map_cons, List.sum_cons, List.map_cons, List.sum_cons, ih, add_div]

/-- **C167: a list of components** that was assigned last is used, whatever happened before: `BeamformerOrth` distributes the sum of these
eigenvalues, counted from either end. -/
theorem C167_list (history : List CompAct) (is : List ℤ) (ls : List (Fin n)) (h : List.Forall₂ (Names n) is ls)
    (geo : SteerGeo n (g + 1)) (rDiag : Bool) (nf : ℝ) (eva : Fin n → ℝ) (eve : Fin n → Fin n → ℂ) :
    Total ((CompState.fresh.acts (history ++ [.setEva is])).orth geo rDiag nf eva eve) ((ls.map eva).sum / n) := by
  rw [acts_snoc]
  exact orth_total _ geo rDiag nf eva eve ls h

/-- The hypothesis of `C167_list` is met: the largest and the smallest of four. -/
example : List.Forall₂ (Names 4) [-1, 0] [3, 0] := .cons (Or.inr rfl) (.cons (Or.inl rfl) .nil)

/-- **C167: a list of components, gridless.** The components looked for are exactly those named, each once, larger ones first. -/
theorem C167_list_gridless (history : List CompAct) (is : List ℤ) (ls : List (Fin n)) (h : List.Forall₂ (Names n) is ls) :
    let found := (CompState.fresh.acts (history ++ [.setEva is])).gridless n
    (∀ m, m ∈ found ↔ ∃ l ∈ ls, l.val = m) ∧ found.Pairwise (· > ·) := by
  intro found
  have hf : found = evaIndices n is := by
    simp only [found]
    rw [acts_snoc]
    rfl
  rw [hf]
  have hmod : ∀ (i : ℤ) (l : Fin n), Names n i l → i % (n : ℤ) = l.val := by
    intro i l hi
    have hl := l.isLt
    rcases hi with hi | hi
    · rw [hi, Int.emod_eq_of_lt (by omega) (by omega)]
    · rw [hi, Int.sub_emod_right, Int.emod_eq_of_lt (by omega) (by omega)]
  have hmap : is.map (· % (n : ℤ)) = ls.map fun l => ((l.val : ℕ) : ℤ) := by
    clear hf found
    induction h with
    | nil => rfl
    | cons h _ ih => rw [List.map_cons, List.map_cons, hmod _ _ h, ih]
  constructor
  · intro m
    unfold evaIndices
    rw [List.mem_reverse, List.mem_filter, List.mem_range, hmap, decide_eq_true_iff, List.mem_map]
    constructor
    · rintro ⟨_, l, hl, e⟩
      exact ⟨l, hl, by exact_mod_cast e⟩
    · rintro ⟨l, hl, rfl⟩
      exact ⟨l.isLt, l, hl, rfl⟩
  · unfold evaIndices
    rw [List.pairwise_reverse]
    exact List.pairwise_lt_range.filter _

/-- **C167: a number of components.** After any history, assigning a new value to `n` selects the `n` largest eigenvalues, in both classes.
The value must be a new one (`C167_restored_violated`). -/
theorem C167_number_partial (history : List CompAct) (m : ℕ) (hm : m ≤ n) (hnew : (m : ℤ) ≠ (CompState.fresh.acts history).n)
    (geo : SteerGeo n (g + 1)) (rDiag : Bool) (nf : ℝ) (eva : Fin n → ℝ) (eve : Fin n → Fin n → ℂ) :
    let s := CompState.fresh.acts (history ++ [.setN m])
    Total (s.orth geo rDiag nf eva eve) ((∑ l ∈ univ.filter (fun l : Fin n => n - m ≤ l.val), eva l) / n) ∧
      s.gridless n = (List.range m).map fun j => n - 1 - j := by
  intro s
  have hs : s.eva = orthEvaList m := by
    simp only [s]
    rw [acts_snoc]
    simp only [CompState.act, if_neg hnew, Int.toNat_natCast]
  constructor
  · obtain ⟨row, h1, h2⟩ := C66_orth_n geo rDiag nf eva eve m hm
    exact ⟨row, by rw [CompState.orth, hs, h1], h2⟩
  · unfold CompState.gridless
    rw [hs]
    exact C46_largest n m hm

/-- The hypotheses of `C167_number_partial` are met. -/
example : ((2 : ℕ) : ℤ) ≠ (CompState.fresh.acts [.setEva [0, 1]]).n := by decide

/-- **C167: a fresh object** uses the largest eigenvalue. -/
theorem C167_fresh (geo : SteerGeo (n + 1) (g + 1)) (rDiag : Bool) (nf : ℝ) (eva : Fin (n + 1) → ℝ) (eve : Fin (n + 1) → Fin (n + 1) → ℂ) :
    Total (CompState.fresh.orth geo rDiag nf eva eve) (eva (Fin.last n) / (n + 1)) ∧ CompState.fresh.gridless (n + 1) = [n] ∧
      CompState.fresh.n = 1 := by
  refine ⟨?_, ?_, rfl⟩
  · have := orth_total CompState.fresh geo rDiag nf eva eve [Fin.last n] (.cons (Or.inr (by simp)) .nil)
    simpa using this
  · have := C46_largest (n + 1) 1 (by omega)
    simpa [CompState.gridless, CompState.fresh, evaOfN] using this

/-- **C167: no components** for `n ≤ 0`: an empty map, nothing to look for. -/
theorem C167_none (history : List CompAct) (m : ℤ) (hm : m ≤ 0) (hnew : m ≠ (CompState.fresh.acts history).n)
    (geo : SteerGeo n (g + 1)) (rDiag : Bool) (nf : ℝ) (eva : Fin n → ℝ) (eve : Fin n → Fin n → ℂ) :
    let s := CompState.fresh.acts (history ++ [.setN m])
    s.orth geo rDiag nf eva eve = .ok (fun _ => 0) ∧ s.gridless n = [] := by
  intro s
  have hs : s.eva = [] := by
    simp only [s]
    rw [acts_snoc]
    simp only [CompState.act, if_neg hnew, Int.toNat_of_nonpos hm]
    rfl
  constructor
  · rw [CompState.orth, hs]
    rfl
  · rw [CompState.gridless, hs]
    simp [evaIndices]

/-- The hypotheses of `C167_none` are met. -/
example : (0 : ℤ) ≤ 0 ∧ (0 : ℤ) ≠ (CompState.fresh.acts []).n := by decide

/-- **C167: a component that does not exist** is refused by `BeamformerOrth`, wherever it stands in the list. -/
theorem C167_refused (s : CompState) (i : ℤ) (hi : i ∈ s.eva) (hbad : ∀ l, ¬ Names n i l)
    (geo : SteerGeo n (g + 1)) (rDiag : Bool) (nf : ℝ) (eva : Fin n → ℝ) (eve : Fin n → Fin n → ℂ) :
    s.orth geo rDiag nf eva eve = .error .indexError := by
  have hnone : pyIndex n i = none := by
    unfold pyIndex
    by_cases h1 : 0 ≤ i ∧ i < n
    · exact absurd (Or.inl (by simp; omega)) (hbad ⟨i.toNat, by omega⟩)
    · by_cases h2 : -n ≤ i ∧ i < 0
      · exact absurd (Or.inr (by simp; omega)) (hbad ⟨(n + i).toNat, by omega⟩)
      · rw [dif_neg h1, dif_neg h2]
  have key : ∀ (is : List ℤ) (ac : Fin (g + 1) → ℝ), i ∈ is → orthCalc geo rDiag nf eva eve is ac = none := by
    intro is
    induction is with
    | nil => intro ac h; cases h
    | cons j is ih =>
      intro ac h
      rcases List.mem_cons.1 h with rfl | h
      · rw [orthCalc, hnone]
      · rw [orthCalc]
        cases pyIndex n j with
        | none => rfl
        | some l => exact ih _ h
  rw [CompState.orth, key _ _ hi]

/-- The hypotheses of `C167_refused` are met: five components of four channels. -/
example : (-5 : ℤ) ∈ (CompState.fresh.acts [.setN 5]).eva ∧ ∀ l, ¬ Names 4 (-5) l :=
  ⟨by decide, fun l h => by have := l.isLt; rcases h with h | h <;> omega⟩

/-- **C167 fails if `n` is assigned the value it had before**: after a list of components this does not select the `n` largest. -/
theorem C167_restored_violated (history : List CompAct) (is : List ℤ) (ls : List (Fin n)) (h : List.Forall₂ (Names n) is ls)
    (geo : SteerGeo n (g + 1)) (rDiag : Bool) (nf : ℝ) (eva : Fin n → ℝ) (eve : Fin n → Fin n → ℂ) :
    let before := CompState.fresh.acts (history ++ [.setEva is])
    let after := before.act (.setN (CompState.fresh.acts history).n)
    after.eva = is ∧ Total (after.orth geo rDiag nf eva eve) ((ls.map eva).sum / n) := by
  intro before after
  have hb : before.eva = is := by
    simp only [before]
    rw [acts_snoc]
    rfl
  have hn : before.n = (CompState.fresh.acts history).n := by
    simp only [before]
    rw [acts_snoc]
    rfl
  have ha : after = before := by
    simp only [after, CompState.act, hn, if_pos]
  rw [ha]
  exact ⟨hb, orth_total before geo rDiag nf eva eve ls (hb ▸ h)⟩

/-- `C167_restored_violated` in an example: `n = 1` is assigned and two components are used. -/
example : (CompState.fresh.acts [.setEva [-1, -2], .setN 1]).n = 1 ∧ (CompState.fresh.acts [.setEva [-1, -2], .setN 1]).eva = [-1, -2] := by
  decide

/-- **C167 fails for components named twice** (`-1` and `num_channels - 1`): `BeamformerOrth` counts the eigenvalue twice, the gridless class
once. -/
theorem C167_twice_violated (geo : SteerGeo (n + 1) (g + 1)) (rDiag : Bool) (nf : ℝ) (eva : Fin (n + 1) → ℝ) (eve : Fin (n + 1) → Fin (n + 1) → ℂ) :
    let s := CompState.fresh.acts [.setEva [-1, n]]
    Total (s.orth geo rDiag nf eva eve) (2 * eva (Fin.last n) / (n + 1)) ∧ s.gridless (n + 1) = [n] := by
  intro s
  constructor
  · have := orth_total s geo rDiag nf eva eve [Fin.last n, Fin.last n] (.cons (Or.inr (by simp)) (.cons (Or.inl (by simp)) .nil))
    simpa [two_mul] using this
  · have h1 : s.gridless (n + 1) = CompState.fresh.gridless (n + 1) := by
      unfold CompState.gridless evaIndices
      refine congrArg List.reverse (List.filter_congr fun m _ => decide_eq_decide.2 ?_)
      have e1 : (-1 : ℤ) % ((n + 1 : ℕ) : ℤ) = n := by
        rw [show (-1 : ℤ) = n + ((n + 1 : ℕ) : ℤ) * (-1) by push_cast; ring, Int.add_mul_emod_self_left, Int.emod_eq_of_lt (by omega) (by omega)]
      have e2 : (n : ℤ) % ((n + 1 : ℕ) : ℤ) = n := Int.emod_eq_of_lt (by omega) (by omega)
      show (m : ℤ) ∈ List.map _ [-1, (n : ℤ)] ↔ (m : ℤ) ∈ List.map _ [-1]
      simp only [List.map_cons, List.map_nil, e1, e2, List.mem_cons, List.not_mem_nil, or_false, or_self]
    rw [h1]
    exact (C167_fresh geo rDiag nf eva eve).2.1

/-- **C167 fails for components that do not exist, gridless**: number `num_channels` is one too many and is taken for the smallest
eigenvalue. -/
theorem C167_wrap_violated (n : ℕ) : (CompState.fresh.acts [.setEva [(n : ℤ) + 1]]).gridless (n + 1) = [0] ∧
    ∀ l, ¬ Names (n + 1) ((n : ℤ) + 1) l := by
  constructor
  · show ((List.range (n + 1)).filter fun m : ℕ => decide ((m : ℤ) ∈ [((n : ℤ) + 1)].map (· % ((n + 1 : ℕ) : ℤ)))).reverse = [0]
    have e : ((n : ℤ) + 1) % ((n + 1 : ℕ) : ℤ) = 0 := by
      push_cast
      exact Int.emod_self
    simp only [List.map_cons, List.map_nil, e, List.mem_singleton, Nat.cast_eq_zero]
    rw [List.range_succ_eq_map, List.filter_cons_of_pos (by simp), List.filter_eq_nil_iff.2]
    · rfl
    · intro m hm
      obtain ⟨k, _, rfl⟩ := List.mem_map.1 hm
      simp
  · intro l h
    have := l.isLt
    rcases h with h | h <;> push_cast at h <;> omega

end Acoular
