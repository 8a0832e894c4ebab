import Verif.Model.GridMore
import Mathlib.Tactic.Linarith
import Mathlib.Tactic.Ring
import Mathlib.Tactic.FieldSimp
import Mathlib.Tactic.NormNum
import Mathlib.Tactic.FinCases

/-!
# C86 – C88: line grids, merged grids, convex sectors
-/

namespace Acoular

/-! ## C86: line grids -/

theorem norm3_smul (c : ℝ) (v : P3) : norm3 (fun a => c * v a) = |c| * norm3 v := by
  unfold norm3
  rw [← Real.sqrt_sq_eq_abs, ← Real.sqrt_mul (sq_nonneg c)]
  congr 1
  ring

theorem norm3_pos (v : P3) (h : v ≠ 0) : 0 < norm3 v := by
  unfold norm3
  refine Real.sqrt_pos.2 ?_
  by_contra hn
  refine h (funext fun a => ?_)
  have h0 := sq_nonneg (v 0)
  have h1 := sq_nonneg (v 1)
  have h2 := sq_nonneg (v 2)
  have : v a ^ 2 = 0 := by fin_cases a <;> [skip; skip; skip] <;> simp only [Fin.zero_eta, Fin.mk_one, Fin.reduceFinMk] <;> linarith
  exact pow_eq_zero_iff two_ne_zero |>.1 this

/-- **C86** (part) With two points or more a line grid starts at `loc`, ends at the distance `length` from it in the
given direction, and all neighbours have the distance `length / (num_points - 1)`. -/
theorem C86_line_partial (loc direction : P3) (hd : direction ≠ 0) (length : ℝ) (hl : 0 ≤ length) (k : ℕ) :
    ∃ l : List P3, lineGridPos loc direction length (k + 2 : ℤ) = .ok l ∧ ∃ hlen : l.length = k + 2,
      l[0] = loc ∧ (∀ a, l[k + 1] a = loc a + length * (direction a / norm3 direction)) ∧
      ∀ s, ∀ hs : s < k + 1, norm3 (fun a => l[s + 1] a - l[s] a) = length / (k + 1) := by
  have hn : (k + 2 : ℤ).toNat = k + 2 := by omega
  have hp := norm3_pos direction hd
  have hc : (((k + 2 : ℤ) - 1 : ℤ) : ℝ) = k + 1 := by push_cast; ring
  refine ⟨(List.range (k + 2 : ℤ).toNat).map fun (s : ℕ) a =>
    loc a + direction a / norm3 direction * (length / (((k + 2 : ℤ) - 1 : ℤ) : ℝ)) * s, ?_, ?_, ?_, ?_, ?_⟩
  · rw [lineGridPos, if_neg (by omega)]
    dsimp only
    rw [if_neg (by omega)]
  · rw [List.length_map, List.length_range, hn]
  · funext a
    simp
  · intro a
    simp only [List.getElem_map, List.getElem_range]
    rw [hc]
    push_cast
    have : (k : ℝ) + 1 ≠ 0 := by positivity
    field_simp
  · intro s hs
    simp only [List.getElem_map, List.getElem_range]
    rw [hc]
    have e : (fun a => loc a + direction a / norm3 direction * (length / (k + 1)) * ((s + 1 : ℕ) : ℝ) -
        (loc a + direction a / norm3 direction * (length / (k + 1)) * (s : ℝ))) =
        fun a => (length / (k + 1) / norm3 direction) * direction a := by
      funext a
      push_cast
      ring
    rw [e, norm3_smul, abs_of_nonneg (by positivity), div_mul_cancel₀ _ hp.ne']

/-- A line grid with one point, which is the default, has no positions: reading them raises. -/
theorem C86_single_violated (loc direction : P3) (length : ℝ) :
    lineGridPos loc direction length 1 = .error .zeroDivisionError := by
  rw [lineGridPos, if_pos (by norm_num)]

/-- The hypotheses of `C86_line_partial` hold for the line of the documentation. -/
example : (fun a : Fin 3 => if a = 0 then (1 : ℝ) else 0) ≠ 0 ∧ (0 : ℝ) ≤ 4 := by
  refine ⟨fun h => ?_, by norm_num⟩
  have := congrFun h 0
  simp at this

/-! ## C87: merged grids -/

theorem mem_dropEqual (l : List Lex3) (x : Lex3) : x ∈ dropEqual l ↔ x ∈ l := by
  induction l with
  | nil => rfl
  | cons a l ih =>
    cases l with
    | nil => rfl
    | cons b l =>
      rw [dropEqual]
      split
      · rename_i h
        subst h
        rw [ih]; simp
      · rw [List.mem_cons, ih]; simp

theorem dropEqual_sorted (l : List Lex3) (h : l.Pairwise (· ≤ ·)) : (dropEqual l).Pairwise (· < ·) := by
  induction l with
  | nil => exact List.Pairwise.nil
  | cons a l ih =>
    cases l with
    | nil => simp [dropEqual]
    | cons b l =>
      have h' := List.pairwise_cons.1 h
      rw [dropEqual]
      split
      · exact ih h'.2
      · rename_i hab
        refine List.pairwise_cons.2 ⟨fun x hx => ?_, ih h'.2⟩
        rw [mem_dropEqual] at hx
        have h1 : a < b := lt_of_le_of_ne (h'.1 b (by simp)) hab
        rcases List.mem_cons.1 hx with rfl | hx
        · exact h1
        · exact h1.trans_le ((List.pairwise_cons.1 h'.2).1 x hx)

theorem foldl_append_pos (gs : List NamedGrid) (b : List Lex3) :
    gs.foldl (fun b g => b ++ g.pos) b = b ++ gs.flatMap NamedGrid.pos := by
  induction gs generalizing b with
  | nil => simp
  | cons g gs ih => simp [ih]

/-- **C87** The points of a merged grid are the points of its grids, without duplicates, in ascending order of x, then y,
then z. -/
theorem C87_points (gs : List NamedGrid) :
    (∀ x, x ∈ mergePos gs ↔ ∃ g ∈ gs, x ∈ g.pos) ∧ (mergePos gs).Pairwise (· < ·) := by
  constructor
  · intro x
    rw [mergePos, uniqueCols, mem_dropEqual, List.mem_mergeSort, foldl_append_pos]
    simp [List.mem_flatMap]
  · refine dropEqual_sorted _ ?_
    have := List.pairwise_mergeSort (le := fun a b : Lex3 => decide (a ≤ b))
      (fun a b c h1 h2 => by simp only [decide_eq_true_eq] at *; exact h1.trans h2)
      (fun a b => by simp only [Bool.or_eq_true, decide_eq_true_eq]; exact le_total a b)
      (gs.foldl (fun b g => b ++ g.pos) [])
    exact this.imp fun h => by simpa using h

/-- The size is the number of different points. -/
theorem C87_size (gs : List NamedGrid) : mergeSize gs = (gs.flatMap NamedGrid.pos).toFinset.card := by
  have h := C87_points gs
  rw [mergeSize, ← List.toFinset_card_of_nodup (h.2.imp fun k => k.ne)]
  congr 1
  ext x
  rw [List.mem_toFinset, List.mem_toFinset, h.1, List.mem_flatMap]

theorem mergeSubgrids_length (gs : List NamedGrid) :
    (mergeSubgrids gs).length = (gs.flatMap NamedGrid.pos).length := by
  have : ∀ b : List String, (gs.foldl (fun b g => b ++ List.replicate g.pos.length g.name) b).length =
      b.length + (gs.flatMap NamedGrid.pos).length := by
    induction gs with
    | nil => simp
    | cons g gs ih =>
      intro b
      rw [List.foldl_cons, ih]
      simp; omega
  simpa [mergeSubgrids] using this []

/-- There is a name for every point only if no point occurs twice. -/
theorem C87_subgrids_length (gs : List NamedGrid) :
    (mergeSubgrids gs).length = mergeSize gs ↔ (gs.flatMap NamedGrid.pos).Nodup := by
  rw [mergeSubgrids_length, C87_size]
  constructor
  · intro h
    have := List.toFinset_card_of_nodup (l := gs.flatMap NamedGrid.pos)
    rw [← Multiset.coe_nodup, ← Multiset.toFinset_card_eq_card_iff_nodup]
    exact h.symm
  · intro h
    exact (List.toFinset_card_of_nodup h).symm

/-- … and even then the names do not belong to the points: here every point carries the name of the other grid. -/
theorem C87_subgrids_violated : ∃ (a b : Lex3) (gs : List NamedGrid), gs = [⟨"A", [b]⟩, ⟨"B", [a]⟩] ∧
    (gs.flatMap NamedGrid.pos).Nodup ∧ mergePos gs = [a, b] ∧ mergeSubgrids gs = ["A", "B"] := by
  have hab : (toLex (0, toLex (0, 0)) : Lex3) < toLex (1, toLex (0, 0)) := by
    rw [Prod.Lex.toLex_lt_toLex]; left; norm_num
  refine ⟨toLex (0, toLex (0, 0)), toLex (1, toLex (0, 0)), _, rfl, ?_, ?_, rfl⟩
  · simp [hab.ne']
  · have h := C87_points [⟨"A", [toLex (1, toLex (0, 0))]⟩, ⟨"B", [toLex (0, toLex (0, 0))]⟩]
    refine List.Perm.eq_of_pairwise (le := (· ≤ ·)) (fun a b _ _ => le_antisymm) (h.2.imp le_of_lt) ?_ ?_
    · simp [hab.le]
    · refine (List.perm_ext_iff_of_nodup (h.2.imp fun k => k.ne) (by simp [hab.ne])).2 fun x => ?_
      rw [h.1]; simp [or_comm]

/-! ## C88: convex sectors -/

/-- **C88** (part) With the border included, a point is in the convex sector exactly if it is in the convex hull of the
corners (if the hull contains a grid point or `default_nearest` is off). -/
theorem C88_border {pts : Set (ℝ × ℝ)} (d : Delaunay pts) (p : ℝ × ℝ) :
    inHull d true p = true ↔ p ∈ convexHull ℝ pts := by
  rw [d.cover]
  unfold inHull
  rw [if_pos rfl, decide_eq_true_eq]
  constructor
  · intro h
    by_contra hn
    push Not at hn
    rw [d.outside p hn] at h
    omega
  · intro h
    obtain ⟨k, hk, _⟩ := d.inside p h
    rw [hk]; omega

open Classical in
/-- **C88** (part) So a convex sector with its border selects the grid points in the hull of its corners, if there are any
or if the nearest point is not asked for in that case. -/
theorem C88_sector_partial {pts : Set (ℝ × ℝ)} (d : Delaunay pts) (o : SectorOpts ℝ) (ho : o.border = true) (mean : ℝ × ℝ)
    (pos : List (ℝ × ℝ × ℝ)) (h : o.nearest = false ∨ ∃ p ∈ pos, (p.1, p.2.1) ∈ convexHull ℝ pts) :
    convexContains d o mean pos = .ok (pos.map fun p => decide ((p.1, p.2.1) ∈ convexHull ℝ pts)) := by
  have e : (pos.map fun p => inHull d o.border (p.1, p.2.1)) = pos.map fun p => decide ((p.1, p.2.1) ∈ convexHull ℝ pts) := by
    refine List.map_congr_left fun p _ => ?_
    rw [ho, Bool.eq_iff_iff, C88_border, decide_eq_true_eq]
  unfold convexContains polyFallback
  rw [e, if_neg]
  rcases h with h | ⟨p, hp, hm⟩
  · simp [h]
  · have : (pos.map fun p => decide ((p.1, p.2.1) ∈ convexHull ℝ pts)).any id = true :=
      List.any_eq_true.2 ⟨true, List.mem_map.2 ⟨p, hp, by simpa using hm⟩, rfl⟩
    simp [this]

/-- A triangulation as assumed: the hull as one simplex. -/
private noncomputable def oneSimplex (pts : Set (ℝ × ℝ)) : Delaunay pts where
  simplices := [convexHull ℝ pts]
  find p := by classical exact if p ∈ convexHull ℝ pts then 0 else -1
  cover p := by simp
  outside p h := if_neg (h (convexHull ℝ pts) (by simp))
  inside p h := ⟨0, if_pos (by simpa using h), by simp, by simpa using h⟩

/-- No point outside is ever taken for inside. -/
theorem C88_outside_partial {pts : Set (ℝ × ℝ)} (d : Delaunay pts) (border : Bool) (p : ℝ × ℝ) (h : inHull d border p = true) :
    p ∈ convexHull ℝ pts := by
  rw [← C88_border d]
  cases border
  · unfold inHull at *
    simp only [Bool.false_eq_true, if_false, if_true, decide_eq_true_eq] at *
    omega
  · exact h

/-- The hypotheses of `C88_outside_partial` are met: -/
example (p : ℝ × ℝ) := C88_outside_partial (oneSimplex {(0, 0), (1, 0), (0, 1)}) true p

/-- Without the border, everything in the first triangle that is in no other one is left out, wherever it is. -/
theorem C88_first_simplex_violated {pts : Set (ℝ × ℝ)} (d : Delaunay pts) (p : ℝ × ℝ) (h : p ∈ convexHull ℝ pts)
    (h0 : ∀ k, ∀ hk : k < d.simplices.length, p ∈ d.simplices[k] → k = 0) : inHull d false p = false := by
  obtain ⟨k, hk, hlt, hmem⟩ := d.inside p ((d.cover p).1 h)
  have := h0 k hlt hmem
  subst this
  unfold inHull
  rw [if_neg (by simp), hk]
  simp

/-- In particular a convex sector with three corners and without border contains no point at all. -/
theorem C88_triangle_violated {pts : Set (ℝ × ℝ)} (d : Delaunay pts) (h1 : d.simplices.length = 1) (p : ℝ × ℝ) :
    inHull d false p = false := by
  by_cases h : p ∈ convexHull ℝ pts
  · exact C88_first_simplex_violated d p h fun k hk _ => by omega
  · by_contra hn
    exact h (C88_outside_partial d false p (by simpa using hn))

/-- … and one without border selects no point outside, under the same conditions. -/
theorem C88_sector_outside_partial {pts : Set (ℝ × ℝ)} (d : Delaunay pts) (o : SectorOpts ℝ) (ho : o.nearest = false)
    (mean : ℝ × ℝ) (pos : List (ℝ × ℝ × ℝ)) :
    ∃ sel, convexContains d o mean pos = .ok sel ∧ sel.length = pos.length ∧
      ∀ i (h : i < pos.length), sel[i]? = some true → (pos[i].1, pos[i].2.1) ∈ convexHull ℝ pts := by
  refine ⟨_, by unfold convexContains polyFallback; rw [if_neg (by simp [ho])], by simp, fun i h hi => ?_⟩
  simp only [List.getElem?_map, List.getElem?_eq_getElem h, Option.map_some, Option.some.injEq] at hi
  exact C88_outside_partial d _ _ hi

/-- The hypotheses of `C88_sector_outside_partial` are met: -/
example := C88_sector_outside_partial (oneSimplex {(0, 0), (1, 0), (0, 1)}) ⟨true, 0, false⟩ rfl (0, 0) [(0, 0, 1), (3, 3, 1)]

/-- A sector with three corners and without border selects nothing. -/
theorem C88_sector_triangle_violated {pts : Set (ℝ × ℝ)} (d : Delaunay pts) (h1 : d.simplices.length = 1)
    (o : SectorOpts ℝ) (hb : o.border = false) (ho : o.nearest = false) (mean : ℝ × ℝ) (pos : List (ℝ × ℝ × ℝ)) :
    convexContains d o mean pos = .ok (pos.map fun _ => false) := by
  unfold convexContains polyFallback
  rw [if_neg (by simp [ho]), hb]
  exact congrArg _ (List.map_congr_left fun p _ => C88_triangle_violated d h1 _)

/-- A convex sector without a point inside, of which the point nearest to the mean of its corners is wanted: as for polygon
sectors (`C32_poly_fallback_violated`) it is the point number 0 or 1 that is selected, whatever their distance. -/
theorem C88_fallback_violated {pts : Set (ℝ × ℝ)} (d : Delaunay pts) (o : SectorOpts ℝ) (ho : o.nearest = true) (mean : ℝ × ℝ)
    (a b : ℝ × ℝ × ℝ) (rest : List (ℝ × ℝ × ℝ)) (h : ∀ p ∈ a :: b :: rest, (p.1, p.2.1) ∉ convexHull ℝ pts) :
    convexContains d o mean (a :: b :: rest) =
      .ok (if mean.1 ≤ mean.2 then true :: false :: rest.map fun _ => false else false :: true :: rest.map fun _ => false) := by
  have e : ((a :: b :: rest).map fun p => inHull d o.border (p.1, p.2.1)) = (a :: b :: rest).map fun _ => false :=
    List.map_congr_left fun p hp => by
      by_contra hn
      exact h p hp (C88_outside_partial d _ _ (by simpa using hn))
  unfold convexContains polyFallback
  rw [e, if_pos (by simp [ho])]
  have hk : argminList [mean.1, mean.2] = if mean.1 ≤ mean.2 then 0 else 1 := rfl
  dsimp only
  rw [hk]
  by_cases h1 : mean.1 ≤ mean.2 <;> simp [h1, setTrue]

/-- The hypotheses of `C88_fallback_violated` are met: of three points outside of the hull of `(2, 2)` the first is selected, not
the third, which is nearest. -/
example : convexContains (oneSimplex {(2, 2)}) ⟨true, 0, true⟩ (2, 2) [(0, 0, 1), (1, 0, 1), (2, 1, 1)] = .ok [true, false, false] := by
  rw [C88_fallback_violated _ _ rfl _ _ _ _ (by simp [convexHull_singleton])]
  simp

/-- Points on an edge between the second triangle and the outside are taken for inside points. -/
theorem C88_edge_violated {pts : Set (ℝ × ℝ)} (d : Delaunay pts) (p : ℝ × ℝ) (k : ℕ) (hk : 0 < k)
    (h : k < d.simplices.length) (hp : p ∈ d.simplices[k])
    (h0 : ∀ j, ∀ hj : j < d.simplices.length, p ∈ d.simplices[j] → j = k) : inHull d false p = true := by
  obtain ⟨j, hj, hlt, hmem⟩ := d.inside p ⟨_, List.getElem_mem h, hp⟩
  have := h0 j hlt hmem
  subst this
  unfold inHull
  rw [if_neg (by simp), hj]
  simpa using hk

/-- A triangulation: one triangle. -/
noncomputable example : Delaunay {((0 : ℝ), (0 : ℝ)), (1, 0), (0, 1)} := by
  classical
  exact
  { simplices := [convexHull ℝ {((0 : ℝ), (0 : ℝ)), (1, 0), (0, 1)}]
    find := fun p => if p ∈ convexHull ℝ {((0 : ℝ), (0 : ℝ)), (1, 0), (0, 1)} then 0 else -1
    cover := fun p => by simp
    outside := fun p h => if_neg (h _ (by simp))
    inside := fun p h => by
      obtain ⟨s, hs, hp⟩ := h
      rw [List.mem_singleton.1 hs] at hp
      exact ⟨0, if_pos hp, by simp, hp⟩ }

/-- The hypotheses of `C88_sector_partial` are met: -/
example := C88_sector_partial (oneSimplex {(0, 0), (1, 0), (0, 1)}) ⟨true, 0, true⟩ rfl (0, 0) [(0, 0, 1), (3, 3, 1)] (.inr ⟨(0, 0, 1), by simp, subset_convexHull ℝ _ (by simp)⟩)

end Acoular
