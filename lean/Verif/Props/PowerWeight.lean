import Verif.Model.PowerWeight
import Mathlib.Tactic.Linarith
import Mathlib.Tactic.FieldSimp
import Mathlib.Tactic.Ring
import Mathlib.Tactic.Positivity
import Mathlib.Tactic.NormNum
import Mathlib.Algebra.Order.BigOperators.Group.List

/-!
# C101: constant power per area
-/

namespace Acoular

/-- The ring of the microphones at distance `d`: it reaches half way to the next microphones on both sides, or to the
centre; the outermost ring reaches half its inner width beyond its microphones. -/
structure Spec.ArrayRing (r : List ℝ) (d inner outer : ℝ) : Prop where
  /-- there are microphones -/
  mem : d ∈ r
  /-- inner edge -/
  inner_edge : ((∀ x ∈ r, d ≤ x) ∧ inner = 0) ∨ ∃ p ∈ r, p < d ∧ (∀ x ∈ r, x < d → x ≤ p) ∧ inner = (p + d) / 2
  /-- outer edge -/
  outer_edge : ((∀ x ∈ r, x ≤ d) ∧ outer = d + (d - inner) / 2) ∨
    ∃ q ∈ r, d < q ∧ (∀ x ∈ r, d < x → q ≤ x) ∧ outer = (d + q) / 2

open Spec

theorem npUnique_sorted (r : List ℝ) : (npUnique r).Pairwise (· < ·) := by
  have h1 : (r.insertionSort (· ≤ ·)).Pairwise (· ≤ ·) := List.pairwise_insertionSort _ _
  have h2 : (npUnique r).Pairwise (· ≤ ·) := h1.sublist (List.dedup_sublist _)
  have h3 : (npUnique r).Nodup := List.nodup_dedup _
  exact (h2.and h3).imp fun h => lt_of_le_of_ne h.1 h.2

theorem mem_npUnique (r : List ℝ) (x : ℝ) : x ∈ npUnique r ↔ x ∈ r := by
  unfold npUnique
  rw [List.mem_dedup, List.mem_insertionSort]

theorem unique_lt {r : List ℝ} {i j : ℕ} (hi : i < (npUnique r).length) (hj : j < (npUnique r).length) :
    (npUnique r)[i] < (npUnique r)[j] ↔ i < j := by
  have h := List.pairwise_iff_getElem.1 (npUnique_sorted r)
  constructor
  · intro hlt
    by_contra hc
    rcases lt_or_eq_of_le (not_lt.1 hc) with h' | h'
    · exact absurd (h j i hj hi h') (not_lt.2 hlt.le)
    · subst h'; exact absurd hlt (lt_irrefl _)
  · exact h i j hi hj

theorem unique_le {r : List ℝ} {i j : ℕ} (hi : i < (npUnique r).length) (hj : j < (npUnique r).length) :
    (npUnique r)[i] ≤ (npUnique r)[j] ↔ i ≤ j := by
  rw [← not_lt, unique_lt hj hi, not_lt]

theorem midpoints_length (l : List ℝ) : (midpoints l).length = l.length - 1 := by
  unfold midpoints; simp

theorem midpoints_get (l : List ℝ) (k : ℕ) (h : k + 1 < l.length) : (midpoints l)[k]? = some ((l[k + 1] + l[k]) / 2) := by
  unfold midpoints
  rw [List.getElem?_zipWith]
  rw [List.getElem?_tail, List.getElem?_eq_getElem h, List.getElem?_dropLast, if_pos (by omega),
    List.getElem?_eq_getElem (by omega)]

/-- The edges, by index. -/
structure Edges (r bins : List ℝ) : Prop where
  len : bins.length = (npUnique r).length + 1
  zero : bins.getD 0 0 = 0
  mid : ∀ k (h : k + 1 < (npUnique r).length), bins.getD (k + 1) 0 = ((npUnique r)[k + 1] + (npUnique r)[k]) / 2
  out : ∀ k (h : k + 1 = (npUnique r).length), bins.getD (k + 1) 0 = 1.5 * (npUnique r)[k] - 0.5 * bins.getD k 0

theorem edges_exist {r : List ℝ} (h2 : 2 ≤ (npUnique r).length) : ∃ bins, ringEdges r = .ok bins ∧ Edges r bins := by
  set u := npUnique r with hu
  have hul : (npUnique r).length = u.length := rfl
  have hml : (midpoints u).length = u.length - 1 := midpoints_length u
  have hlast : (midpoints u).getLast? = some ((u[u.length - 1] + u[u.length - 2]) / 2) := by
    rw [List.getLast?_eq_getElem?, hml]
    have e := midpoints_get u (u.length - 2) (by omega)
    have e1 : u.length - 2 + 1 = u.length - 1 := by omega
    simp only [e1] at e
    have e2 : u.length - 1 - 1 = u.length - 2 := by omega
    rw [e2, e]
  have hmax : r.max? = some u[u.length - 1] := by
    rw [List.max?_eq_some_iff]
    constructor
    · rw [← mem_npUnique]; exact List.getElem_mem _
    · intro b hb
      rw [← mem_npUnique] at hb
      obtain ⟨i, hi, rfl⟩ := List.mem_iff_getElem.1 hb
      exact (unique_le hi (by rw [← hu]; omega)).2 (by rw [← hu] at hi; omega)
  refine ⟨0 :: midpoints u ++ [1.5 * u[u.length - 1] - 0.5 * ((u[u.length - 1] + u[u.length - 2]) / 2)],
    by unfold ringEdges; simp only [← hu, hlast, hmax], ?_, ?_, ?_, ?_⟩
  · simp [hml]; omega
  · rfl
  · intro k hk
    have e := midpoints_get u k hk
    have : k < (midpoints u).length := by omega
    rw [List.cons_append, List.getD_cons_succ]
    simp only [List.getD, List.getElem?_append_left this, e, Option.getD_some]
    rfl
  · intro k hk
    have hk1 : k = u.length - 1 := by omega
    rw [List.cons_append, List.getD_cons_succ]
    have : (midpoints u).length ≤ k := by omega
    simp only [List.getD, List.getElem?_append_right this]
    have e0 : k - (midpoints u).length = 0 := by omega
    rw [e0]
    simp only [List.getElem?_cons_zero, Option.getD_some]
    subst hk1
    congr 2
    obtain ⟨j, hj⟩ : ∃ j, u.length - 1 = j + 1 := ⟨u.length - 2, by omega⟩
    have e := midpoints_get u j (by omega)
    have hjl : j < (midpoints u).length := by omega
    have h3 : u.length - 2 = j := by omega
    simp only [hj, h3, List.getElem?_cons_succ, List.getElem?_append_left hjl, e, Option.getD_some]

theorem edges_ring {r bins : List ℝ} (hb : Edges r bins) {d inner outer : ℝ} (hr : ArrayRing r d inner outer) :
    ∃ k, ∃ h : k < (npUnique r).length, (npUnique r)[k] = d ∧ bins.getD k 0 = inner ∧ bins.getD (k + 1) 0 = outer := by
  obtain ⟨k, hk, rfl⟩ := List.mem_iff_getElem.1 ((mem_npUnique r d).2 hr.mem)
  have hin : bins.getD k 0 = inner := by
    rcases hr.inner_edge with ⟨h, rfl⟩ | ⟨p, hp, hlt, hmax, rfl⟩
    · have : k = 0 := by
        by_contra hc
        have h1 := h _ ((mem_npUnique r _).1 (List.getElem_mem (by omega : 0 < (npUnique r).length)))
        rw [unique_le hk] at h1
        omega
      rw [this]; exact hb.zero
    · obtain ⟨i, hi, rfl⟩ := List.mem_iff_getElem.1 ((mem_npUnique r p).2 hp)
      rw [unique_lt hi hk] at hlt
      obtain ⟨j, rfl⟩ : ∃ j, k = j + 1 := ⟨k - 1, by omega⟩
      have h1 := hmax _ ((mem_npUnique r _).1 (List.getElem_mem (by omega : j < (npUnique r).length)))
        ((unique_lt (by omega) hk).2 (by omega))
      rw [unique_le _ hi] at h1
      have : i = j := by omega
      subst this
      rw [hb.mid i hk]; ring
  refine ⟨k, hk, rfl, hin, ?_⟩
  rcases hr.outer_edge with ⟨h, rfl⟩ | ⟨q, hq, hlt, hmin, rfl⟩
  · have hlast : k + 1 = (npUnique r).length := by
      by_contra hc
      have h1 := h _ ((mem_npUnique r _).1 (List.getElem_mem (by omega : k + 1 < (npUnique r).length)))
      rw [unique_le _ hk] at h1
      omega
    rw [hb.out k hlast, hin]; ring
  · obtain ⟨i, hi, rfl⟩ := List.mem_iff_getElem.1 ((mem_npUnique r q).2 hq)
    rw [unique_lt hk hi] at hlt
    have h1 := hmin _ ((mem_npUnique r _).1 (List.getElem_mem (by omega : k + 1 < (npUnique r).length)))
      ((unique_lt hk (by omega)).2 (by omega))
    rw [unique_le hi] at h1
    have : i = k + 1 := by omega
    subst this
    rw [hb.mid k hi]; ring

theorem edges_contain {r bins : List ℝ} (hb : Edges r bins) (h0 : ∀ x ∈ r, 0 ≤ x) (k : ℕ) (hk : k < (npUnique r).length)
    (h2 : 2 ≤ (npUnique r).length) :
    bins.getD k 0 ≤ (npUnique r)[k] ∧ (npUnique r)[k] < bins.getD (k + 1) 0 := by
  have hlow : bins.getD k 0 ≤ (npUnique r)[k] := by
    match k with
    | 0 => rw [hb.zero]; exact h0 _ ((mem_npUnique r _).1 (List.getElem_mem _))
    | j + 1 =>
      rw [hb.mid j hk]
      have := (unique_lt (r := r) (i := j) (j := j + 1) (by omega) hk).2 (by omega)
      linarith
  refine ⟨hlow, ?_⟩
  by_cases hl : k + 1 < (npUnique r).length
  · rw [hb.mid k hl]
    have := (unique_lt (r := r) (i := k) (j := k + 1) hk hl).2 (by omega)
    linarith
  · rw [hb.out k (by omega)]
    obtain ⟨j, rfl⟩ : ∃ j, k = j + 1 := ⟨k - 1, by omega⟩
    rw [hb.mid j hk]
    have := (unique_lt (r := r) (i := j) (j := j + 1) (by omega) hk).2 (by omega)
    linarith

theorem edges_mono {r bins : List ℝ} (hb : Edges r bins) (h0 : ∀ x ∈ r, 0 ≤ x) (h2 : 2 ≤ (npUnique r).length) :
    ∀ j k, j ≤ k → k < (npUnique r).length → bins.getD j 0 ≤ bins.getD k 0 := by
  intro j k hjk
  induction hjk with
  | refl => intro _; exact le_rfl
  | @step m hm ih =>
    intro hk
    refine (ih (by omega)).trans ?_
    have := edges_contain hb h0 m (by omega) h2
    exact this.1.trans this.2.le

theorem histogram_ring {r bins : List ℝ} (hb : Edges r bins) (h0 : ∀ x ∈ r, 0 ≤ x) (h2 : 2 ≤ (npUnique r).length) (k : ℕ)
    (hk : k < (npUnique r).length) : (npHistogram r bins)[k]? = some (r.count (npUnique r)[k]) := by
  unfold npHistogram
  rw [List.getElem?_map, List.getElem?_range (by rw [hb.len]; omega), Option.map_some, List.count]
  congr 1
  apply List.countP_congr
  intro x hx
  obtain ⟨j, hj, rfl⟩ := List.mem_iff_getElem.1 ((mem_npUnique r x).2 hx)
  simp only [decide_eq_true_eq, beq_iff_eq]
  have hcj := edges_contain hb h0 j hj h2
  have hck := edges_contain hb h0 k hk h2
  constructor
  · rintro ⟨h3, h4⟩
    have h5 : ¬ j < k := by
      intro hlt
      have := edges_mono hb h0 h2 (j + 1) k hlt hk
      linarith [hcj.2]
    have h6 : ¬ k < j := by
      intro hlt
      have := edges_mono hb h0 h2 (k + 1) j hlt hj
      rcases h4 with h4 | ⟨h4, _⟩
      · linarith [hcj.1]
      · rw [hb.len] at h4; omega
    have : j = k := by omega
    subst this; rfl
  · intro h
    rw [h]
    exact ⟨hck.1, Or.inl hck.2⟩

theorem histogram_length {r bins : List ℝ} (hb : Edges r bins) : (npHistogram r bins).length = (npUnique r).length := by
  unfold npHistogram; rw [List.length_map, List.length_range, hb.len]; rfl

theorem sum_ring (r : List ℝ) (g : ℝ → ℝ) (d : ℝ) :
    (((r.zip (r.map g)).filter fun p => decide (p.1 = d)).map fun p => p.2 ^ 2).sum = r.count d * g d ^ 2 := by
  induction r with
  | nil => simp
  | cons a r ih =>
    rw [List.map_cons, List.zip_cons_cons, List.filter_cons]
    by_cases h : a = d
    · subst h
      simp only [decide_true, if_true, List.map_cons, List.sum_cons, ih, List.count_cons_self]
      push_cast; ring
    · have h' : ¬ (a == d) = true := by simpa using h
      simp only [h, decide_false, Bool.false_eq_true, if_false, ih, List.count_cons, h']
      simp

/-- **C101** The sum of the squared weights of the microphones of each ring is proportional to the area of the ring, if
there are at least two rings. -/
theorem C101_constant_power_partial (r : List ℝ) (h0 : ∀ x ∈ r, 0 ≤ x) (h2 : ∃ a ∈ r, ∃ b ∈ r, a ≠ b) :
    ∃ w, constPowerWeight r = .ok w ∧ w.length = r.length ∧ ∃ C, 0 < C ∧ ∀ d inner outer, ArrayRing r d inner outer →
      (((r.zip w).filter fun p => decide (p.1 = d)).map fun p => p.2 ^ 2).sum = C * (outer ^ 2 - inner ^ 2) := by
  have hlen : 2 ≤ (npUnique r).length := by
    obtain ⟨a, ha, b, hb, hab⟩ := h2
    obtain ⟨i, hi, rfl⟩ := List.mem_iff_getElem.1 ((mem_npUnique r a).2 ha)
    obtain ⟨j, hj, rfl⟩ := List.mem_iff_getElem.1 ((mem_npUnique r b).2 hb)
    by_contra hc
    have : i = j := by omega
    subst this
    exact hab rfl
  obtain ⟨bins, hbins, hb⟩ := edges_exist hlen
  have hhl := histogram_length hb
  -- raw weights
  set raw := (List.range (npHistogram r bins).length).map fun k =>
      √((bins.getD (k + 1) 0 * bins.getD (k + 1) 0 - bins.getD k 0 * bins.getD k 0) / (npHistogram r bins).getD k 0) with hraw
  have hrawlen : raw.length = (npUnique r).length := by rw [hraw, List.length_map, List.length_range, hhl]
  have harea : ∀ k, k < (npUnique r).length →
      0 < bins.getD (k + 1) 0 * bins.getD (k + 1) 0 - bins.getD k 0 * bins.getD k 0 := by
    intro k hk
    have h1 := edges_contain hb h0 k hk hlen
    have h3 : 0 ≤ bins.getD k 0 := by
      have := edges_mono hb h0 hlen 0 k (by omega) hk
      rwa [hb.zero] at this
    nlinarith
  have hcount : ∀ k (hk : k < (npUnique r).length), 0 < r.count (npUnique r)[k] := by
    intro k hk
    exact List.count_pos_iff.2 ((mem_npUnique r _).1 (List.getElem_mem hk))
  have hrawk : ∀ k (hk : k < (npUnique r).length), raw[k]? =
      some (√((bins.getD (k + 1) 0 * bins.getD (k + 1) 0 - bins.getD k 0 * bins.getD k 0) / r.count (npUnique r)[k])) := by
    intro k hk
    rw [hraw, List.getElem?_map, List.getElem?_range (by rw [hhl]; exact hk), Option.map_some]
    have := histogram_ring hb h0 hlen k hk
    simp only [List.getD, this, Option.getD_some]
  have hrawpos : ∀ x ∈ raw, 0 < x := by
    intro x hx
    obtain ⟨k, hk⟩ := List.mem_iff_getElem?.1 hx
    have hkl : k < (npUnique r).length := by
      rw [← hrawlen]; exact (List.getElem?_eq_some_iff.1 hk).1
    rw [hrawk k hkl] at hk
    rw [← Option.some.inj hk]
    exact Real.sqrt_pos.2 (div_pos (harea k hkl) (by exact_mod_cast hcount k hkl))
  have hsum : 0 < raw.sum := List.sum_pos raw hrawpos (by intro h; rw [h] at hrawlen; simp at hrawlen; omega)
  have hmean : 0 < raw.sum / raw.length := div_pos hsum (by rw [hrawlen]; exact_mod_cast (by omega : 0 < (npUnique r).length))
  refine ⟨r.map fun x => (raw.map (· / (raw.sum / raw.length))).getD ((npUnique r).idxOf x) 0, ?_, by simp, ?_⟩
  · unfold constPowerWeight
    simp only [hbins]
    rfl
  · refine ⟨1 / (raw.sum / raw.length) ^ 2, by positivity, ?_⟩
    intro d inner outer hring
    rw [sum_ring]
    obtain ⟨k, hk, hd, hin, hout⟩ := edges_ring hb hring
    have hidx : (npUnique r).idxOf d = k := by
      rw [← hd]
      exact List.Nodup.idxOf_getElem ((npUnique_sorted r).imp ne_of_lt) k hk
    rw [hidx]
    have hc := hcount k hk
    have ha := harea k hk
    simp only [List.getD, List.getElem?_map, hrawk k hk, Option.map_some, Option.getD_some]
    rw [div_pow, Real.sq_sqrt (by positivity)]
    rw [hd, ← hin, ← hout]
    rw [hd] at hc
    have hc' : (r.count d : ℝ) ≠ 0 := by exact_mod_cast hc.ne'
    simp only [List.getD]
    field_simp

/-- The hypotheses of `C101_constant_power_partial` are met: -/
example := C101_constant_power_partial [0.5, 1, 1] (by simp; norm_num) ⟨0.5, by simp, 1, by simp, by norm_num⟩

/-- If all distances are equal (a circular array, for example), the weights cannot be calculated. -/
theorem C101_single_ring_violated (r : List ℝ) (d : ℝ) (h : ∀ x ∈ r, x = d) : constPowerWeight r = .error .indexError := by
  have hlen : (npUnique r).length ≤ 1 := by
    by_contra hc
    have h1 := (unique_lt (r := r) (i := 0) (j := 1) (by omega) (by omega)).2 (by omega)
    have h2 := h _ ((mem_npUnique r _).1 (List.getElem_mem (by omega : 0 < (npUnique r).length)))
    have h3 := h _ ((mem_npUnique r _).1 (List.getElem_mem (by omega : 1 < (npUnique r).length)))
    rw [h2, h3] at h1
    exact lt_irrefl _ h1
  have hm : midpoints (npUnique r) = [] := List.length_eq_zero_iff.1 (by rw [midpoints_length]; omega)
  unfold constPowerWeight ringEdges
  simp only [hm, List.getLast?_nil]

/-- A case: one microphone at half the radius and two at the edge. The rings end at 0.75 and 1.125. -/
example : ArrayRing [0.5, 1, 1] 0.5 0 0.75 ∧ ArrayRing [0.5, 1, 1] 1 0.75 1.125 := by
  constructor
  · refine ⟨by simp, Or.inl ⟨?_, rfl⟩, Or.inr ⟨1, by simp, by norm_num, ?_, by norm_num⟩⟩
    · simp; norm_num
    · simp
  · refine ⟨by simp, Or.inr ⟨0.5, by simp, by norm_num, ?_, by norm_num⟩, Or.inl ⟨?_, by norm_num⟩⟩
    · simp
    · simp; norm_num

end Acoular
