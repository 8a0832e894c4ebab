import Verif.Model.AdaptiveInt
import Verif.Props.Gridless
import Mathlib.Algebra.BigOperators.Intervals

/-!
# C115: integration over sectors without predefined grid
-/

namespace Acoular

/-- What the integral over a sector is: the levels of the components of the frequency whose positions are in it. -/
def Spec.sectorLevel {P V : Type*} [AddCommMonoid V] (contains : P → Bool) (pos : ℕ → ℕ → P) (lev : ℕ → ℕ → V) (evas : List ℕ)
    (i : ℕ) : V := (evas.map fun m => if contains (pos i m) then lev i m else 0).sum

open Spec

variable {P V : Type*} [AddCommMonoid V]

private theorem maskedSum_eq (mask : List Bool) : ∀ row : List V, mask.length = row.length →
    maskedSum mask row = ∑ k ∈ Finset.range row.length, if mask.getD k false then row.getD k 0 else 0 := by
  induction mask with
  | nil =>
    intro row h
    have : row = [] := List.length_eq_zero_iff.1 h.symm
    subst this
    simp [maskedSum]
  | cons b mask ih =>
    intro row h
    cases row with
    | nil => simp at h
    | cons v row =>
      have h' := ih row (by simpa using h)
      rw [List.length_cons, Finset.sum_range_succ']
      simp only [List.getD_cons_succ, List.getD_cons_zero]
      rw [← h']
      cases b <;> simp [maskedSum, add_comm]

private theorem mapSum_eq (f : ℕ → V) (l : List ℕ) : (l.map f).sum = ∑ j ∈ Finset.range l.length, (l[j]?.map f).getD 0 := by
  induction l with
  | nil => simp
  | cons a l ih =>
    rw [List.length_cons, Finset.sum_range_succ']
    simp [ih, add_comm]

/-- The rows of calculated lines hold the levels in the slots of the line and zeros elsewhere, all others zeros. -/
private structure Good (par : GridlessPar P V) (s : GridlessState P V) : Prop where
  wf : GridlessWF par.F (gridlessSize par.n par.F) s
  lev : ∀ i, i < par.F → ∀ k, k < gridlessSize par.n par.F →
    s.level i k = some (if s.fr[i]? = some true ∧ i * par.n ≤ k then (par.evas[k - i * par.n]?.map (par.lev i)).getD 0 else 0)

private theorem slot_lt {n F i j : ℕ} (hi : i < F) (hj : j < n) : i * n + j < gridlessSize n F := by
  unfold gridlessSize
  have := Nat.mul_le_mul_right n (show i + 1 ≤ F from hi)
  have e : (i + 1) * n = i * n + n := by ring
  have e' := Nat.mul_comm F n
  omega

private theorem good_zeros (par : GridlessPar P V) (p0 : P) :
    Good par (GridlessState.zeros par.F (gridlessSize par.n par.F) p0 0) := by
  refine ⟨gridlessWF_zeros _ _ _ _, fun i hi k hk => ?_⟩
  simp [GridlessState.level, GridlessState.zeros, hi, hk]

private theorem good_calc (par : GridlessPar P V) (hlen : par.evas.length ≤ par.n) (ind : List ℕ) (s : GridlessState P V)
    (h : Good par s) (hind : ∀ i ∈ ind, i < par.F ∧ s.fr[i]? = some false) :
    ∃ s', gridlessCalc par.pos par.lev par.n par.evas ind s = .ok s' ∧ Good par s' ∧ (∀ i ∈ ind, s'.fr[i]? = some true) ∧
      (∀ r, r ∉ ind → s'.fr[r]? = s.fr[r]?) ∧
      (∀ i ∈ ind, ∀ j m, par.evas[j]? = some m → s'.gpos[i * par.n + j]? = some (par.pos i m)) := by
  obtain ⟨s', e, w, f, c, -, a, nf⟩ := C46_slots_partial par.pos par.lev par.n par.F par.evas ind s h.wf
    (fun i hi => (hind i hi).1) hlen
  refine ⟨s', e, ⟨w, fun i hi k hk => ?_⟩, f, nf, fun i hi j m hj => (c i hi j m hj).1⟩
  by_cases hin : i ∈ ind
  · by_cases hk2 : i * par.n ≤ k ∧ k - i * par.n < par.evas.length
    · obtain ⟨h1, h2⟩ := hk2
      have hm : par.evas[k - i * par.n]? = some par.evas[k - i * par.n] := List.getElem?_eq_getElem h2
      have := (c i hin _ _ hm).2
      rw [show i * par.n + (k - i * par.n) = k by omega] at this
      rw [this, if_pos ⟨f i hin, h1⟩, hm]
      simp
    · rw [a i k (fun _ j hj e => hk2 ⟨by omega, by omega⟩), h.lev i hi k hk, if_neg (by rw [(hind i hin).2]; simp)]
      split
      · rename_i h3
        rw [List.getElem?_eq_none (by omega)]
        simp
      · rfl
  · rw [a i k (fun h => absurd h hin), h.lev i hi k hk, nf i hin]

/-- The integral for given slots. -/
private noncomputable def slotSum (par : GridlessPar P V) (mask : List Bool) (i : ℕ) : V :=
  ∑ j ∈ Finset.range par.evas.length, if mask.getD (i * par.n + j) false then (par.evas[j]?.map (par.lev i)).getD 0 else 0

private theorem good_row (par : GridlessPar P V) (hlen : par.evas.length ≤ par.n) (mask : List Bool)
    (hmask : mask.length = gridlessSize par.n par.F) (s : GridlessState P V) (h : Good par s) (i : ℕ) (hi : i < par.F)
    (hf : s.fr[i]? = some true) : maskedSum mask (s.ac.getD i []) = slotSum par mask i := by
  have hia : i < s.ac.length := by rw [h.wf.ac]; exact hi
  have hrow : (s.ac.getD i []).length = gridlessSize par.n par.F := by
    have : s.ac.getD i [] = s.ac[i] := by simp [hia]
    rw [this]
    exact h.wf.row _ (List.getElem_mem _)
  have hent : ∀ k, k < gridlessSize par.n par.F → (s.ac.getD i []).getD k 0 =
      if i * par.n ≤ k then (par.evas[k - i * par.n]?.map (par.lev i)).getD 0 else 0 := by
    intro k hk
    have h1 := h.lev i hi k hk
    simp only [hf, true_and] at h1
    unfold GridlessState.level at h1
    rw [List.getElem?_eq_getElem hia] at h1
    have h1' : s.ac[i][k]? = some _ := h1
    have : s.ac.getD i [] = s.ac[i] := by simp [hia]
    rw [this, List.getD_eq_getElem?_getD, h1']
    rfl
  rw [maskedSum_eq mask _ (by rw [hmask, hrow]), hrow]
  have hsub : Finset.Ico (i * par.n) (i * par.n + par.evas.length) ⊆ Finset.range (gridlessSize par.n par.F) := by
    intro k hk
    rw [Finset.mem_Ico] at hk
    rw [Finset.mem_range]
    have := slot_lt (n := par.n) (j := k - i * par.n) hi (by omega)
    omega
  rw [← Finset.sum_subset hsub, Finset.sum_Ico_eq_sum_range, slotSum]
  · rw [Nat.add_sub_cancel_left]
    refine Finset.sum_congr rfl fun j hj => ?_
    rw [Finset.mem_range] at hj
    rw [hent _ (slot_lt hi (by omega)), Nat.add_sub_cancel_left, if_pos (show i * par.n ≤ i * par.n + j by omega)]
  · intro k hk hk2
    rw [Finset.mem_range] at hk
    rw [Finset.mem_Ico] at hk2
    rw [hent k hk]
    split
    · split
      · rw [List.getElem?_eq_none (by omega)]
        simp
      · rfl
    · rfl

private theorem loop_eq (par : GridlessPar P V) (hlen : par.evas.length ≤ par.n) (mask : List Bool)
    (hmask : mask.length = gridlessSize par.n par.F) (is : List ℕ) : ∀ s : GridlessState P V, Good par s →
    (∀ i ∈ is, i < par.F) →
    ∃ s', par.integrateLoop mask is s = .ok (is.map (slotSum par mask), s') ∧ Good par s' ∧
      ((∀ i ∈ is, s.fr[i]? = some true) → s' = s) := by
  induction is with
  | nil => intro s h _; exact ⟨s, rfl, h, fun _ => rfl⟩
  | cons i is ih =>
    intro s h hi
    have hiF : i < par.F := hi i (by simp)
    have hline : ∃ s1, par.line i s = .ok s1 ∧ Good par s1 ∧ s1.fr[i]? = some true ∧ (s.fr[i]? = some true → s1 = s) := by
      unfold GridlessPar.line
      by_cases hf : s.fr[i]? = some false
      · obtain ⟨s1, e1, g1, f1, -⟩ := good_calc par hlen [i] s h (by simpa using ⟨hiF, hf⟩)
        exact ⟨s1, by rw [if_pos hf, e1], g1, f1 i (by simp), by simp [hf]⟩
      · rw [if_neg hf]
        refine ⟨s, rfl, h, ?_, fun _ => rfl⟩
        have hl : i < s.fr.length := by rw [h.wf.fr]; exact hiF
        rw [List.getElem?_eq_getElem hl] at hf ⊢
        cases hb : s.fr[i] <;> simp_all
    obtain ⟨s1, e1, g1, f1, u1⟩ := hline
    obtain ⟨s2, e2, g2, u2⟩ := ih s1 g1 (fun k hk => hi k (by simp [hk]))
    refine ⟨s2, ?_, g2, fun hall => ?_⟩
    · rw [GridlessPar.integrateLoop, e1]
      simp only
      rw [e2]
      simp only
      rw [good_row par hlen mask hmask s1 g1 i hiF f1, List.map_cons]
    · have := u1 (hall i (by simp))
      subst this
      exact u2 fun k hk => hall k (by simp [hk])

private theorem slotSum_mask (par : GridlessPar P V) (mask : List Bool) (c : ℕ → Bool) (i : ℕ)
    (h : ∀ j m, par.evas[j]? = some m → mask.getD (i * par.n + j) false = c m) :
    slotSum par mask i = (par.evas.map fun m => if c m then par.lev i m else 0).sum := by
  rw [mapSum_eq, slotSum]
  refine Finset.sum_congr rfl fun j hj => ?_
  rw [Finset.mem_range] at hj
  rw [List.getElem?_eq_getElem hj, h j _ (List.getElem?_eq_getElem hj)]
  simp

/-- **C115** (part) Once the map has been calculated, the integral over a sector is, for every frequency, the sum of the levels
of the components found in the sector. -/
theorem C115_integral_partial (par : GridlessPar P V) (hlen : par.evas.length ≤ par.n) (p0 : P) (contains : P → Bool) :
    ∃ o, par.compute p0 ⟨none, false⟩ = .ok o ∧
      par.integrate p0 (some contains) o = .ok ((List.range par.F).map (sectorLevel contains par.pos par.lev par.evas), o) := by
  set z : GridlessState P V := GridlessState.zeros par.F (gridlessSize par.n par.F) p0 0 with hz
  have hfr : ∀ i, i < par.F → z.fr[i]? = some false := fun i hi => by simp [hz, GridlessState.zeros, hi]
  have hfil : ((List.range par.F).filter fun i => z.fr[i]? == some false) = List.range par.F := by
    rw [List.filter_eq_self]
    intro i hi
    simp [hfr i (List.mem_range.1 hi)]
  obtain ⟨s, e, g, f, -, gp⟩ := good_calc par hlen (List.range par.F) z (good_zeros par p0)
    (fun i hi => ⟨List.mem_range.1 hi, hfr i (List.mem_range.1 hi)⟩)
  refine ⟨⟨some s, true⟩, ?_, ?_⟩
  · unfold GridlessPar.compute
    simp only [GridlessPar.access]
    rw [← hz, hfil, e]
  · have hm : (s.gpos.map contains).length = gridlessSize par.n par.F := by rw [List.length_map, g.wf.gpos]
    obtain ⟨s', e', -, u⟩ := loop_eq par hlen (s.gpos.map contains) hm (List.range par.F) s g (fun i hi => List.mem_range.1 hi)
    have := u f
    subst this
    unfold GridlessPar.integrate GridlessPar.subdomain
    simp only [GridlessPar.access, if_pos g.wf.gpos, e']
    congr 2
    refine List.map_congr_left fun i hi => ?_
    refine slotSum_mask par _ _ i fun j m hj => ?_
    rw [List.getD_eq_getElem?_getD, List.getElem?_map, gp i hi j m hj]
    rfl

/-- The hypotheses of `C115_integral_partial` are met: -/
example := C115_integral_partial (P := ℕ) (V := ℕ) ⟨fun i m => i + m, fun i m => 100 * i + m, 2, [4, 3], 2⟩ (by decide) 0 (· == 4)

/-- **C115** Complementary sectors share the total of the map. -/
theorem C115_complement (contains : P → Bool) (pos : ℕ → ℕ → P) (lev : ℕ → ℕ → V) (evas : List ℕ) (i : ℕ) :
    sectorLevel contains pos lev evas i + sectorLevel (fun p => !contains p) pos lev evas i = (evas.map (lev i)).sum := by
  unfold sectorLevel
  induction evas with
  | nil => simp
  | cons m evas ih =>
    simp only [List.map_cons, List.sum_cons]
    rw [← ih]
    by_cases hc : contains (pos i m) <;> simp [hc, add_assoc, add_left_comm]

/-- The hypotheses of `C115_complement` are met: -/
example := C115_complement (P := ℕ) (V := ℕ) (· == 4) (fun i m => i + m) (fun i m => 100 * i + m) [4, 3] 1

/-- **C115** What is not a sector is refused. -/
theorem C115_no_sector (par : GridlessPar P V) (p0 : P) (o : GridlessObj P V) :
    par.integrate p0 none o = .error .notImplementedError := rfl

/-- Without a previous access to the result the integration fails. -/
theorem C115_first_use_violated (par : GridlessPar P V) (p0 : P) (contains : P → Bool) :
    par.integrate p0 (some contains) ⟨none, false⟩ = .error .typeError := rfl

/-- The sector is applied to the positions of before the calculation: if the result has been accessed but not calculated, to
those of the empty arrays, so that the integral contains either all components or none. -/
theorem C115_uncalculated_violated (par : GridlessPar P V) (hlen : par.evas.length ≤ par.n) (p0 : P) (contains : P → Bool) :
    ∃ o', par.integrate p0 (some contains) ⟨some (GridlessState.zeros par.F (gridlessSize par.n par.F) p0 0), true⟩ =
      .ok ((List.range par.F).map fun i => if contains p0 then (par.evas.map (par.lev i)).sum else 0, o') := by
  set z : GridlessState P V := GridlessState.zeros par.F (gridlessSize par.n par.F) p0 0 with hz
  have g := good_zeros par p0
  have hm : (z.gpos.map contains).length = gridlessSize par.n par.F := by rw [List.length_map, g.wf.gpos]
  obtain ⟨s', e', -, -⟩ := loop_eq par hlen (z.gpos.map contains) hm (List.range par.F) z g (fun i hi => List.mem_range.1 hi)
  refine ⟨⟨some s', true⟩, ?_⟩
  unfold GridlessPar.integrate GridlessPar.subdomain
  have hg : z.gpos.length = gridlessSize par.n par.F := g.wf.gpos
  simp only [GridlessPar.access, if_pos hg, e']
  congr 2
  refine List.map_congr_left fun i hi => ?_
  rw [slotSum_mask par _ (fun _ => contains p0) i]
  · cases contains p0 <;> simp
  · intro j m hj
    have hjl : j < par.evas.length := (List.getElem?_eq_some_iff.1 hj).1
    have := slot_lt (n := par.n) (j := j) (List.mem_range.1 hi) (by omega)
    rw [List.getD_eq_getElem?_getD, List.getElem?_map]
    simp [hz, GridlessState.zeros, this]

/-- After a change of a parameter, the new levels are assigned to the sector by the old positions. -/
theorem C115_stale_violated (par : GridlessPar P V) (hlen : par.evas.length ≤ par.n) (p0 : P) (contains : P → Bool)
    (pos₀ : ℕ → ℕ → P) :
    ∃ o o', ({par with pos := pos₀}).compute p0 ⟨none, false⟩ = .ok o ∧
      par.integrate p0 (some contains) ⟨o.arrays, false⟩ =
        .ok ((List.range par.F).map (sectorLevel contains pos₀ par.lev par.evas), o') := by
  set z : GridlessState P V := GridlessState.zeros par.F (gridlessSize par.n par.F) p0 0 with hz
  set par₀ : GridlessPar P V := {par with pos := pos₀} with hp
  have hfr : ∀ i, i < par.F → z.fr[i]? = some false := fun i hi => by simp [hz, GridlessState.zeros, hi]
  have hfil : ((List.range par.F).filter fun i => z.fr[i]? == some false) = List.range par.F := by
    rw [List.filter_eq_self]
    intro i hi
    simp [hfr i (List.mem_range.1 hi)]
  obtain ⟨s, e, g, f, -, gp⟩ := good_calc par₀ hlen (List.range par.F) z (good_zeros par₀ p0)
    (fun i hi => ⟨List.mem_range.1 hi, hfr i (List.mem_range.1 hi)⟩)
  have hm : (s.gpos.map contains).length = gridlessSize par.n par.F := by rw [List.length_map]; exact g.wf.gpos
  obtain ⟨s', e', -, -⟩ := loop_eq par hlen (s.gpos.map contains) hm (List.range par.F) z (good_zeros par p0)
    (fun i hi => List.mem_range.1 hi)
  refine ⟨⟨some s, true⟩, ⟨some s', true⟩, ?_, ?_⟩
  · unfold GridlessPar.compute
    simp only [GridlessPar.access]
    rw [show GridlessState.zeros par₀.F (gridlessSize par₀.n par₀.F) p0 0 = z from rfl, show par₀.F = par.F from rfl, hfil, e]
  · have hg : s.gpos.length = gridlessSize par.n par.F := g.wf.gpos
    unfold GridlessPar.integrate GridlessPar.subdomain
    simp only [GridlessPar.access, if_pos hg, e', ← hz]
    congr 2
    refine List.map_congr_left fun i hi => ?_
    refine slotSum_mask par _ (fun m => contains (pos₀ i m)) i fun j m hj => ?_
    rw [List.getD_eq_getElem?_getD, List.getElem?_map]
    have := gp i hi j m hj
    rw [show i * par.n + j = i * par₀.n + j from rfl, this]
    rfl

/-- After a change that alters the number of components or of frequencies, the sector is compared with the positions of
before the change, whose number does not fit: ValueError. -/
theorem C115_resized_violated (par par' : GridlessPar P V) (hlen : par.evas.length ≤ par.n) (p0 : P) (contains : P → Bool)
    (hne : gridlessSize par.n par.F ≠ gridlessSize par'.n par'.F) :
    ∃ o, par.compute p0 ⟨none, false⟩ = .ok o ∧
      par'.integrate p0 (some contains) ⟨o.arrays, false⟩ = .error .valueError := by
  set z : GridlessState P V := GridlessState.zeros par.F (gridlessSize par.n par.F) p0 0 with hz
  have hfr : ∀ i, i < par.F → z.fr[i]? = some false := fun i hi => by simp [hz, GridlessState.zeros, hi]
  have hfil : ((List.range par.F).filter fun i => z.fr[i]? == some false) = List.range par.F := by
    rw [List.filter_eq_self]
    intro i hi
    simp [hfr i (List.mem_range.1 hi)]
  obtain ⟨s, e, g, -, -, -⟩ := good_calc par hlen (List.range par.F) z (good_zeros par p0)
    (fun i hi => ⟨List.mem_range.1 hi, hfr i (List.mem_range.1 hi)⟩)
  refine ⟨⟨some s, true⟩, ?_, ?_⟩
  · unfold GridlessPar.compute
    simp only [GridlessPar.access]
    rw [← hz, hfil, e]
  · unfold GridlessPar.integrate GridlessPar.subdomain
    simp only
    rw [if_neg (by rw [g.wf.gpos]; exact hne)]

-- two frequencies, two components; the sector contains the first component only
private def parEx : GridlessPar ℕ ℕ := ⟨fun i m => i + m, fun i m => 100 * i + m, 2, [4, 3], 2⟩

example : ((parEx.compute 0 ⟨none, false⟩).toOption.bind fun o => (parEx.integrate 0 (some (· == 4)) o).toOption.map (·.1)) =
    some [4, 103] := by decide +kernel
example : (parEx.integrate 0 (some (· == 4)) ⟨some (GridlessState.zeros 2 4 0 0), true⟩).toOption.map (·.1) = some [0, 0] := by
  decide +kernel

end Acoular
