import Verif.Model.InterpMesh
import Verif.Props.Interp
import Mathlib.Analysis.Convex.StdSimplex
import Mathlib.Topology.Order.Compact
import Mathlib.Analysis.Normed.Module.Basic
import Mathlib.Topology.Algebra.Monoid

/-!
# C148: linear interpolation for plane arrays
-/

namespace Acoular

open Real Spec

/-! ## Triangulations as described exist -/

private theorem hull_weights {n : ℕ} (z : Fin n → ℝ × ℝ) (S : Set (Fin n)) (q : ℝ × ℝ) (h : q ∈ convexHull ℝ (z '' S)) :
    ∃ u : Fin n → ℝ, (∀ k, 0 ≤ u k) ∧ (∀ k, u k ≠ 0 → k ∈ S) ∧ ∑ k, u k = 1 ∧ ∑ k, u k • z k = q := by
  classical
  rw [convexHull_eq] at h
  obtain ⟨ι, t, w, y, hw, hw1, hy, rfl⟩ := h
  have hk : ∀ i, ∃ k, i ∈ t → k ∈ S ∧ z k = y i := by
    intro i
    by_cases hi : i ∈ t
    · obtain ⟨k, hk, e⟩ := hy i hi
      exact ⟨k, fun _ => ⟨hk, e⟩⟩
    · have : 0 < n := by
        by_contra h0
        have hn : n = 0 := by omega
        subst hn
        have : t = ∅ := by
          apply Finset.eq_empty_of_forall_notMem
          intro j hj
          obtain ⟨k, -, -⟩ := hy j hj
          exact k.elim0
        rw [this] at hw1
        simp at hw1
      exact ⟨⟨0, this⟩, fun h => absurd h hi⟩
  choose κ hκ using hk
  refine ⟨fun k => ∑ i ∈ t.filter fun i => κ i = k, w i, ?_, ?_, ?_, ?_⟩
  · intro k
    exact Finset.sum_nonneg fun i hi => hw i (Finset.mem_filter.1 hi).1
  · intro k hk
    obtain ⟨i, hi, -⟩ := Finset.exists_ne_zero_of_sum_ne_zero hk
    obtain ⟨hi', rfl⟩ := Finset.mem_filter.1 hi
    exact (hκ i hi').1
  · rw [Finset.sum_fiberwise, hw1]
  · rw [Finset.centerMass_eq_of_sum_1 _ _ hw1]
    simp only [Finset.sum_smul]
    rw [← Finset.sum_fiberwise t κ fun i => w i • y i]
    refine Finset.sum_congr rfl fun k _ => Finset.sum_congr rfl fun i hi => ?_
    obtain ⟨hi', rfl⟩ := Finset.mem_filter.1 hi
    rw [(hκ i hi').2]

/-- There are such triangulations for all points. -/
theorem C148_mesh_exists (pts : List (ℝ × ℝ)) : Nonempty (PlaneMesh pts) := by
  classical
  set n := pts.length with hn
  let z : Fin n → ℝ × ℝ := fun k => pts[k]
  have hset : {q | q ∈ pts} = z '' Set.univ := by
    ext q
    constructor
    · intro hq
      obtain ⟨k, hk, rfl⟩ := List.getElem_of_mem hq
      exact ⟨⟨k, hk⟩, trivial, rfl⟩
    · rintro ⟨k, -, rfl⟩
      exact List.getElem_mem _
  have hx : ∀ p : ℝ × ℝ, ∃ o : Option (Fin n → ℝ), (o = none ↔ p ∉ convexHull ℝ {q | q ∈ pts}) ∧
      ∀ w, o = some w → (∀ k, 0 ≤ w k) ∧ ∑ k, w k = 1 ∧ ∑ k, w k • z k = p ∧
        (∀ j, z j ∈ convexHull ℝ (z '' {k | w k ≠ 0}) → (∃ k, w k ≠ 0 ∧ z k = z j)) ∧
        ∀ j, z j = p → ∀ k, w k ≠ 0 → z k = p := by
    intro p
    by_cases hp : p ∈ convexHull ℝ {q | q ∈ pts}
    · have hp' := hp
      rw [hset] at hp'
      obtain ⟨w0, h0, -, h01, h0p⟩ := hull_weights z _ p hp'
      let A : Set (Fin n → ℝ) := stdSimplex ℝ (Fin n) ∩ {w | ∑ k, w k • z k = p}
      have hA : IsCompact A := by
        refine (isCompact_stdSimplex ℝ (Fin n)).inter_right ?_
        exact isClosed_eq (continuous_finsetSum _ fun k _ => (continuous_apply k).smul continuous_const) continuous_const
      have hAne : A.Nonempty := ⟨w0, ⟨h0, h01⟩, h0p⟩
      have hf : ContinuousOn (fun w : Fin n → ℝ => ∑ k, w k * ((z k).1 ^ 2 + (z k).2 ^ 2)) A :=
        (continuous_finsetSum _ fun k _ => (continuous_apply k).mul continuous_const).continuousOn
      obtain ⟨w, ⟨⟨hw0, hw1⟩, hwp⟩, hmin⟩ := hA.exists_isMinOn hAne hf
      refine ⟨some w, by simp [hp], ?_⟩
      intro w' hw'
      obtain rfl := Option.some.inj hw'
      have hvar0 : ∀ (u : Fin n → ℝ) (q : ℝ × ℝ), ∑ k, u k = 1 → ∑ k, u k • z k = q →
          ∑ k, u k * (((z k).1 - q.1) ^ 2 + ((z k).2 - q.2) ^ 2) = ∑ k, u k * ((z k).1 ^ 2 + (z k).2 ^ 2) - (q.1 ^ 2 + q.2 ^ 2) := by
        intro u q hu1 huj
        have h1 : ∑ k, u k * (z k).1 = q.1 := by
          rw [← huj]; simp [Prod.fst_sum]
        have h2 : ∑ k, u k * (z k).2 = q.2 := by
          rw [← huj]; simp [Prod.snd_sum]
        have : ∀ k, u k * (((z k).1 - q.1) ^ 2 + ((z k).2 - q.2) ^ 2) =
            u k * ((z k).1 ^ 2 + (z k).2 ^ 2) - 2 * q.1 * (u k * (z k).1) - 2 * q.2 * (u k * (z k).2)
              + (q.1 ^ 2 + q.2 ^ 2) * u k := fun k => by ring
        simp only [this]
        rw [Finset.sum_add_distrib, Finset.sum_sub_distrib, Finset.sum_sub_distrib, ← Finset.mul_sum, ← Finset.mul_sum,
          ← Finset.mul_sum, h1, h2, hu1]
        ring
      have hflat : ∀ (u : Fin n → ℝ) (q : ℝ × ℝ), (∀ k, 0 ≤ u k) → ∑ k, u k * (((z k).1 - q.1) ^ 2 + ((z k).2 - q.2) ^ 2) ≤ 0 →
          ∀ k, u k ≠ 0 → z k = q := by
        intro u q hu0 hle k1 hk1
        have hnn : ∀ k ∈ Finset.univ, 0 ≤ u k * (((z k).1 - q.1) ^ 2 + ((z k).2 - q.2) ^ 2) :=
          fun k _ => mul_nonneg (hu0 k) (by positivity)
        have h3 := (Finset.sum_eq_zero_iff_of_nonneg hnn).1 (le_antisymm hle (Finset.sum_nonneg hnn)) k1 (Finset.mem_univ _)
        have h4 : ((z k1).1 - q.1) ^ 2 + ((z k1).2 - q.2) ^ 2 = 0 := (mul_eq_zero.1 h3).resolve_left hk1
        apply Prod.ext
        · nlinarith [sq_nonneg ((z k1).1 - q.1), sq_nonneg ((z k1).2 - q.2)]
        · nlinarith [sq_nonneg ((z k1).1 - q.1), sq_nonneg ((z k1).2 - q.2)]
      refine ⟨hw0, hw1, hwp, ?_, ?_⟩
      swap
      · intro j hj
        refine hflat w p hw0 ?_
        rw [hvar0 w p hw1 hwp]
        have hle := hmin (show (Pi.single j 1 : Fin n → ℝ) ∈ A from ⟨⟨fun k => by
          by_cases h : k = j
          · subst h; simp
          · simp [Pi.single_eq_of_ne h], by simp⟩, by
            show ∑ k, (Pi.single j 1 : Fin n → ℝ) k • z k = p
            rw [Finset.sum_eq_single j (by intro k _ h; simp [Pi.single_eq_of_ne h]) (by simp)]
            simpa using hj⟩)
        simp only [Set.mem_ofPred_eq] at hle
        rw [Finset.sum_eq_single (f := fun k => (Pi.single j 1 : Fin n → ℝ) k * _) j
          (by intro k _ h; simp [Pi.single_eq_of_ne h]) (by simp)] at hle
        simp only [Pi.single_eq_same, one_mul, hj] at hle
        linarith
      intro j hj
      by_cases hwj : w j = 0
      swap
      · exact ⟨j, hwj, rfl⟩
      obtain ⟨u, hu0, hus, hu1, huj⟩ := hull_weights z _ _ hj
      -- some positive weight
      obtain ⟨k0, -, hk0⟩ : ∃ k ∈ Finset.univ, w k ≠ 0 := by
        by_contra hcon
        push Not at hcon
        rw [Finset.sum_congr rfl hcon] at hw1
        simp at hw1
      obtain ⟨km, hkm, hkmin⟩ := Finset.exists_min_image (Finset.univ.filter fun k => w k ≠ 0) w ⟨k0, by simp [hk0]⟩
      have hkm' : w km ≠ 0 := (Finset.mem_filter.1 hkm).2
      set l := w km with hl
      have hlpos : 0 < l := lt_of_le_of_ne (hw0 km) (Ne.symm hkm')
      have hule : ∀ k, u k ≤ 1 := fun k => by
        rw [← hu1]; exact Finset.single_le_sum (fun i _ => hu0 i) (Finset.mem_univ k)
      let v : Fin n → ℝ := fun k => w k - l * u k + if k = j then l else 0
      have hv : v ∈ A := by
        refine ⟨⟨?_, ?_⟩, ?_⟩
        · intro k
          have h1 : 0 ≤ w k - l * u k := by
            by_cases hk : u k = 0
            · rw [hk]; simpa using hw0 k
            · have h2 : l ≤ w k := hkmin k (by simpa using hus k hk)
              nlinarith [hule k]
          show 0 ≤ w k - l * u k + if k = j then l else 0
          split <;> linarith
        · show ∑ k, (w k - l * u k + if k = j then l else 0) = 1
          rw [Finset.sum_add_distrib, Finset.sum_sub_distrib, ← Finset.mul_sum, hw1, hu1]
          simp
        · show ∑ k, (w k - l * u k + if k = j then l else 0) • z k = p
          simp only [add_smul, sub_smul, mul_smul, ite_smul, zero_smul]
          rw [Finset.sum_add_distrib, Finset.sum_sub_distrib, ← Finset.smul_sum, hwp, huj]
          simp
      have hle := hmin hv
      simp only [Set.mem_ofPred_eq] at hle
      have hexp : ∑ k, v k * ((z k).1 ^ 2 + (z k).2 ^ 2) = ∑ k, w k * ((z k).1 ^ 2 + (z k).2 ^ 2)
          - l * ∑ k, u k * ((z k).1 ^ 2 + (z k).2 ^ 2) + l * ((z j).1 ^ 2 + (z j).2 ^ 2) := by
        show ∑ k, (w k - l * u k + if k = j then l else 0) * ((z k).1 ^ 2 + (z k).2 ^ 2) = _
        simp only [add_mul, sub_mul, ite_mul, zero_mul]
        rw [Finset.sum_add_distrib, Finset.sum_sub_distrib, Finset.mul_sum]
        simp [mul_assoc]
      obtain ⟨k1, -, hk1⟩ : ∃ k ∈ Finset.univ, u k ≠ 0 := by
        by_contra hcon
        push Not at hcon
        rw [Finset.sum_congr rfl hcon] at hu1
        simp at hu1
      refine ⟨k1, hus k1 hk1, hflat u (z j) hu0 ?_ k1 hk1⟩
      rw [hvar0 u (z j) hu1 huj]
      rw [hexp] at hle
      nlinarith
    · exact ⟨none, by simp [hp], by simp⟩
  choose f hf using hx
  let F : (Fin n → ℝ) → List (ℕ × ℝ) := fun w => ((Finset.univ.filter fun k => w k ≠ 0).toList).map fun k => (k.1, w k)
  have hF : ∀ p ws, ((f p).map F) = some ws → ∃ w, f p = some w ∧ ws = F w := by
    intro p ws h
    obtain ⟨w, hw, rfl⟩ := Option.map_eq_some_iff.1 h
    exact ⟨w, hw, rfl⟩
  have hsum : ∀ (w : Fin n → ℝ) (g : Fin n → ℝ), (∀ k, w k = 0 → g k = 0) →
      (((Finset.univ.filter fun k => w k ≠ 0).toList).map g).sum = ∑ k, g k := by
    intro w g hg
    rw [Finset.sum_map_toList]
    refine Finset.sum_filter_of_ne ?_
    intro k _ hk h0
    exact hk (hg k h0)
  have hcorner : ∀ w : Fin n → ℝ, {c | ∃ kw ∈ F w, pts[kw.1]? = some c} = z '' {k | w k ≠ 0} := by
    intro w
    ext c
    constructor
    · rintro ⟨kw, hkw, hc⟩
      obtain ⟨k, hk, rfl⟩ := List.mem_map.1 hkw
      have hk' : w k ≠ 0 := by simpa using hk
      refine ⟨k, hk', ?_⟩
      have := (List.getElem?_eq_some_iff.1 hc).2
      exact this
    · rintro ⟨k, hk, rfl⟩
      refine ⟨(k.1, w k), List.mem_map.2 ⟨k, by simpa using hk, rfl⟩, ?_⟩
      exact List.getElem?_eq_getElem k.2
  refine ⟨⟨fun p => (f p).map F, ?_, ?_, ?_, ?_, ?_, ?_, ?_⟩⟩
  · intro p
    rw [Option.map_eq_none_iff]
    exact (hf p).1
  · intro p ws h kw hkw
    obtain ⟨w, hw, rfl⟩ := hF p ws h
    obtain ⟨k, -, rfl⟩ := List.mem_map.1 hkw
    exact k.2
  · intro p ws h kw hkw
    obtain ⟨w, hw, rfl⟩ := hF p ws h
    obtain ⟨k, -, rfl⟩ := List.mem_map.1 hkw
    exact ((hf p).2 w hw).1 k
  · intro p ws h
    obtain ⟨w, hw, rfl⟩ := hF p ws h
    rw [List.map_map]
    show (((Finset.univ.filter fun k => w k ≠ 0).toList).map fun k => w k).sum = 1
    rw [hsum w w fun k h => h]
    exact ((hf p).2 w hw).2.1
  · intro p ws h
    obtain ⟨w, hw, rfl⟩ := hF p ws h
    have hp := ((hf p).2 w hw).2.2.1
    have hz : ∀ k : Fin n, pts.getD k.1 0 = z k := fun k => by
      rw [List.getD_eq_getElem?_getD, List.getElem?_eq_getElem k.2]; rfl
    constructor
    · rw [List.map_map]
      show (((Finset.univ.filter fun k => w k ≠ 0).toList).map fun k => w k * (pts.getD k.1 0).1).sum = p.1
      rw [hsum w (fun k => w k * (pts.getD k.1 0).1) (fun k h => by simp [h]), ← hp]
      simp only [hz]
      simp [Prod.fst_sum]
    · rw [List.map_map]
      show (((Finset.univ.filter fun k => w k ≠ 0).toList).map fun k => w k * (pts.getD k.1 0).2).sum = p.2
      rw [hsum w (fun k => w k * (pts.getD k.1 0).2) (fun k h => by simp [h]), ← hp]
      simp only [hz]
      simp [Prod.snd_sum]
  · intro p ws h q hq hh
    obtain ⟨w, hw, rfl⟩ := hF p ws h
    rw [hcorner] at hh
    obtain ⟨j, hj, rfl⟩ := List.getElem_of_mem hq
    obtain ⟨k, hk, e⟩ := ((hf p).2 w hw).2.2.2.1 ⟨j, hj⟩ hh
    have : (z k) ∈ {c | ∃ kw ∈ F w, pts[kw.1]? = some c} := by rw [hcorner]; exact ⟨k, hk, rfl⟩
    rw [e] at this
    exact this
  · intro q hq ws h kw hkw h0
    obtain ⟨w, hw, rfl⟩ := hF q ws h
    obtain ⟨k, hk, rfl⟩ := List.mem_map.1 hkw
    obtain ⟨j, hj, e⟩ := List.getElem_of_mem hq
    have := ((hf q).2 w hw).2.2.2.2 ⟨j, hj⟩ e k (by simpa using hk)
    rw [← this]
    exact List.getElem?_eq_getElem k.2

/-! ## Neighbours across the seam -/

private theorem zero_terms (ws : List (ℕ × ℝ)) (f : ℕ → ℝ) (h : ∀ kw ∈ ws, 0 ≤ kw.2 * f kw.1)
    (hs : (ws.map fun kw => kw.2 * f kw.1).sum = 0) : ∀ kw ∈ ws, kw.2 * f kw.1 = 0 := by
  intro kw hkw
  refine List.all_zero_of_le_zero_le_of_sum_eq_zero (l := ws.map fun kw => kw.2 * f kw.1) ?_ hs
    (List.mem_map.2 ⟨kw, hkw, rfl⟩)
  intro x hx
  obtain ⟨k, hk, rfl⟩ := List.mem_map.1 hx
  exact h k hk

private theorem sum_shift (ws : List (ℕ × ℝ)) (f : ℕ → ℝ) (c : ℝ) :
    (ws.map fun kw => kw.2 * (f kw.1 - c)).sum = (ws.map fun kw => kw.2 * f kw.1).sum - c * (ws.map Prod.snd).sum := by
  induction ws with
  | nil => simp
  | cons a r ih => simp only [List.map_cons, List.sum_cons, ih]; ring

private theorem sum_neg (ws : List (ℕ × ℝ)) (f : ℕ → ℝ) :
    (ws.map fun kw => kw.2 * -(f kw.1)).sum = -((ws.map fun kw => kw.2 * f kw.1).sum) := by
  induction ws with
  | nil => simp
  | cons a r ih => simp only [List.map_cons, List.sum_cons, ih]; ring

private theorem sum_scale (ws : List (ℕ × ℝ)) (f : ℕ → ℝ) (c : ℝ) :
    (ws.map fun kw => kw.2 * (c * f kw.1)).sum = c * (ws.map fun kw => kw.2 * f kw.1).sum := by
  induction ws with
  | nil => simp
  | cons a r ih => simp only [List.map_cons, List.sum_cons, ih]; ring

/-- Some corner with weight is not on the wrong side. -/
private theorem some_side (ws : List (ℕ × ℝ)) (hn : ∀ kw ∈ ws, 0 ≤ kw.2) (ht : (ws.map Prod.snd).sum = 1) (f : ℕ → ℝ) (c : ℝ)
    (hf : (ws.map fun kw => kw.2 * f kw.1).sum = c) : ∃ kw ∈ ws, 0 < kw.2 ∧ f kw.1 ≤ c := by
  by_contra hcon
  push Not at hcon
  have hz := zero_terms ws (fun k => f k - c) (fun kw hkw => by
    rcases (hn kw hkw).eq_or_lt with h | h
    · rw [← h]; simp
    · exact mul_nonneg h.le (sub_nonneg.2 (hcon kw hkw h).le)) (by rw [sum_shift, hf, ht]; ring)
  have h0 : ∀ kw ∈ ws, kw.2 = 0 := by
    intro kw hkw
    rcases (hn kw hkw).eq_or_lt with h | h
    · exact h.symm
    · exact (mul_eq_zero.1 (hz kw hkw)).resolve_right (sub_ne_zero.2 (hcon kw hkw h).ne')
  have : (ws.map Prod.snd).sum = 0 := List.sum_eq_zero (by
    intro x hx
    obtain ⟨kw, hkw, rfl⟩ := List.mem_map.1 hx
    exact h0 kw hkw)
  rw [this] at ht
  exact zero_ne_one ht

private theorem between_mem (S : Set (ℝ × ℝ)) (a b x r : ℝ) (ha : (a, r) ∈ convexHull ℝ S) (hb : (b, r) ∈ convexHull ℝ S) (h1 : a ≤ x)
    (h2 : x ≤ b) : (x, r) ∈ convexHull ℝ S := by
  rcases (h1.trans h2).eq_or_lt with h | h
  · have : x = a := le_antisymm (h ▸ h2) h1
    rw [this]; exact ha
  · have hd : 0 < b - a := sub_pos.2 h
    have := (convex_convexHull ℝ S) ha hb (div_nonneg (sub_nonneg.2 h2) hd.le) (div_nonneg (sub_nonneg.2 h1) hd.le)
      (by field_simp; ring)
    convert this using 1
    apply Prod.ext
    · simp only [Prod.fst_add, Prod.smul_fst, smul_eq_mul]; field_simp; ring
    · simp only [Prod.snd_add, Prod.smul_snd, smul_eq_mul]; field_simp; ring

private theorem between_mem' (S : Set (ℝ × ℝ)) (a b x r : ℝ) (ha : (x, a) ∈ convexHull ℝ S) (hb : (x, b) ∈ convexHull ℝ S) (h1 : a ≤ r)
    (h2 : r ≤ b) : (x, r) ∈ convexHull ℝ S := by
  rcases (h1.trans h2).eq_or_lt with h | h
  · have : r = a := le_antisymm (h ▸ h2) h1
    rw [this]; exact ha
  · have hd : 0 < b - a := sub_pos.2 h
    have := (convex_convexHull ℝ S) ha hb (div_nonneg (sub_nonneg.2 h2) hd.le) (div_nonneg (sub_nonneg.2 h1) hd.le)
      (by field_simp; ring)
    convert this using 1
    apply Prod.ext
    · simp only [Prod.fst_add, Prod.smul_fst, smul_eq_mul]; field_simp; ring
    · simp only [Prod.snd_add, Prod.smul_snd, smul_eq_mul]; field_simp; ring

/-- Points next to each other on a border line are neighbours. -/
private theorem border_neighbours {S : List (ℝ × ℝ)} (mesh : PlaneMesh S) (hS : S.Nodup) (s a b r : ℝ) (hs : s ≠ 0) (i j : ℕ)
    (hi : S[i]? = some (a, r)) (hj : S[j]? = some (b, r)) (hab : a < b) (hmax : ∀ q ∈ S, s * q.2 ≤ s * r)
    (hno : ∀ q ∈ S, q.2 = r → ¬(a < q.1 ∧ q.1 < b)) : mesh.Neighbour i j := by
  have hmi : (a, r) ∈ S := List.mem_of_getElem? hi
  have hmj : (b, r) ∈ S := List.mem_of_getElem? hj
  have hm : ((a + b) / 2, r) ∈ convexHull ℝ {q | q ∈ S} :=
    between_mem _ a b _ r (subset_convexHull ℝ {q | q ∈ S} hmi) (subset_convexHull ℝ {q | q ∈ S} hmj) (by linarith) (by linarith)
  cases hf : mesh.find ((a + b) / 2, r) with
  | none => exact absurd hm ((mesh.outside _).1 hf)
  | some ws =>
    have hn := mesh.nonneg _ _ hf
    have ht := mesh.total _ _ hf
    have hc := mesh.coord _ _ hf
    have hin : ∀ kw ∈ ws, ∃ q ∈ S, S[kw.1]? = some q ∧ S.getD kw.1 0 = q := by
      intro kw hkw
      have := mesh.index _ _ hf kw hkw
      exact ⟨S[kw.1], List.getElem_mem _, List.getElem?_eq_getElem this, by
        rw [List.getD_eq_getElem?_getD, List.getElem?_eq_getElem this]; rfl⟩
    -- corners with weight are on the line
    have hline : ∀ kw ∈ ws, 0 < kw.2 → (S.getD kw.1 0).2 = r := by
      intro kw hkw hp
      have hz := zero_terms ws (fun k => -(s * (S.getD k 0).2 - s * r)) (fun kw hkw => by
        obtain ⟨q, hq, -, e⟩ := hin kw hkw
        refine mul_nonneg (hn kw hkw) ?_
        rw [e]
        linarith [hmax q hq]) (by
          rw [sum_neg ws (fun k => s * (S.getD k 0).2 - s * r), sum_shift ws (fun k => s * (S.getD k 0).2), sum_scale ws (fun k => (S.getD k 0).2), hc.2, ht]
          ring)
      have h1 := (mul_eq_zero.1 (hz kw hkw)).resolve_left hp.ne'
      have h2 : s * ((S.getD kw.1 0).2 - r) = 0 := by linarith
      exact sub_eq_zero.1 ((mul_eq_zero.1 h2).resolve_left hs)
    obtain ⟨kl, hkl, hkl0, hl⟩ := some_side ws hn ht (fun k => (S.getD k 0).1) _ hc.1
    obtain ⟨kr, hkr, hkr0, hr⟩ := some_side ws hn ht (fun k => -(S.getD k 0).1) (-((a + b) / 2)) (by
      rw [sum_neg ws (fun k => (S.getD k 0).1), hc.1])
    obtain ⟨ql, hql, el, el'⟩ := hin kl hkl
    obtain ⟨qr, hqr, er, er'⟩ := hin kr hkr
    have hll := hline kl hkl hkl0
    have hrl := hline kr hkr hkr0
    rw [el'] at hll
    rw [er'] at hrl
    simp only [el'] at hl
    simp only [er'] at hr
    have hla : ql.1 ≤ a := by
      by_contra h
      exact hno ql hql hll ⟨not_le.1 h, by linarith⟩
    have hrb : b ≤ qr.1 := by
      by_contra h
      exact hno qr hqr hrl ⟨by linarith, not_le.1 h⟩
    have hcl : (ql.1, r) ∈ convexHull ℝ {c | ∃ kw ∈ ws, S[kw.1]? = some c} := by
      refine subset_convexHull ℝ _ ⟨kl, hkl, ?_⟩
      rw [el, ← hll]
    have hcr : (qr.1, r) ∈ convexHull ℝ {c | ∃ kw ∈ ws, S[kw.1]? = some c} := by
      refine subset_convexHull ℝ _ ⟨kr, hkr, ?_⟩
      rw [er, ← hrl]
    have huniq : ∀ (k m : ℕ) (q : ℝ × ℝ), S[k]? = some q → S[m]? = some q → k = m := by
      intro k m q h1 h2
      obtain ⟨h1', e1⟩ := List.getElem?_eq_some_iff.1 h1
      obtain ⟨h2', e2⟩ := List.getElem?_eq_some_iff.1 h2
      exact (List.Nodup.getElem_inj_iff hS).1 (e1.trans e2.symm)
    obtain ⟨ki, hki, hi'⟩ := mesh.proper _ _ hf _ hmi (between_mem _ _ _ _ _ hcl hcr hla (hab.le.trans hrb))
    obtain ⟨kj, hkj, hj'⟩ := mesh.proper _ _ hf _ hmj (between_mem _ _ _ _ _ hcl hcr (hla.trans hab.le) hrb)
    exact ⟨_, ws, hf, ⟨ki, hki, huniq _ _ _ hi' hi⟩, kj, hkj, huniq _ _ _ hj' hj⟩

section Seam

variable {pts : List (ℝ × ℝ)} {hull : List ℕ}

private theorem seam_length : (seamPoints pts hull).length = pts.length + hull.length + hull.length := by
  simp [seamPoints, add_assoc]

private theorem seam_orig {k : ℕ} (h : k < pts.length) : (seamPoints pts hull)[k]? = pts[k]? := by
  unfold seamPoints
  rw [List.append_assoc, List.getElem?_append_left h]

private theorem seam_left {m : ℕ} (h : m < hull.length) :
    (seamPoints pts hull)[pts.length + m]? = some ((pts.getD hull[m] 0).1 - 2 * π, (pts.getD hull[m] 0).2) := by
  unfold seamPoints
  rw [List.getElem?_append_left (by simpa using h), List.getElem?_append_right (by omega)]
  simp [h]

private theorem seam_right {m : ℕ} (h : m < hull.length) :
    (seamPoints pts hull)[pts.length + hull.length + m]? = some ((pts.getD hull[m] 0).1 + 2 * π, (pts.getD hull[m] 0).2) := by
  unfold seamPoints
  rw [List.getElem?_append_right (by simp)]
  simp [h]

private theorem getD_mem {k : ℕ} (h : k < pts.length) : pts.getD k 0 ∈ pts := by
  rw [List.getD_eq_getElem?_getD, List.getElem?_eq_getElem h]
  exact List.getElem_mem _

private theorem seam_mem (hh : HullNumbers pts hull) {q : ℝ × ℝ} (hq : q ∈ seamPoints pts hull) :
    q ∈ pts ∨ ∃ o ∈ pts, o.2 = q.2 ∧ (q.1 = o.1 - 2 * π ∨ q.1 = o.1 + 2 * π) := by
  unfold seamPoints at hq
  rcases List.mem_append.1 hq with h | h
  · rcases List.mem_append.1 h with h | h
    · exact .inl h
    · obtain ⟨k, hk, rfl⟩ := List.mem_map.1 h
      exact .inr ⟨_, getD_mem (hh.index k hk), rfl, .inl rfl⟩
  · obtain ⟨k, hk, rfl⟩ := List.mem_map.1 h
    exact .inr ⟨_, getD_mem (hh.index k hk), rfl, .inr rfl⟩

private theorem seam_nodup (hh : HullNumbers pts hull) (hn : pts.Nodup) (ha : ∀ q ∈ pts, -π < q.1 ∧ q.1 ≤ π) :
    (seamPoints pts hull).Nodup := by
  have hinj : ∀ c : ℝ, (hull.map fun k => ((pts.getD k 0).1 + c, (pts.getD k 0).2)).Nodup := by
    intro c
    refine List.Nodup.map_on ?_ hh.nodup
    intro x hx y hy e
    have h1 := hh.index x hx
    have h2 := hh.index y hy
    have e1 : (pts.getD x 0).1 + c = (pts.getD y 0).1 + c := (Prod.mk.inj e).1
    have e2 : (pts.getD x 0).2 = (pts.getD y 0).2 := (Prod.mk.inj e).2
    have e3 : pts.getD x 0 = pts.getD y 0 := Prod.ext (by linarith) e2
    rw [List.getD_eq_getElem?_getD, List.getD_eq_getElem?_getD, List.getElem?_eq_getElem h1, List.getElem?_eq_getElem h2] at e3
    exact (List.Nodup.getElem_inj_iff hn).1 e3
  have hpi := Real.pi_pos
  unfold seamPoints
  rw [List.nodup_append, List.nodup_append]
  refine ⟨⟨hn, by simpa [sub_eq_add_neg] using hinj (-(2 * π)), ?_⟩, hinj _, ?_⟩
  · intro a haa b hb e
    subst e
    obtain ⟨k, hk, rfl⟩ := List.mem_map.1 hb
    have h1 := (ha _ haa).1
    have h2 := (ha _ (getD_mem (hh.index k hk))).2
    simp only at h1
    linarith
  · intro a haa b hb e
    subst e
    obtain ⟨k, hk, rfl⟩ := List.mem_map.1 hb
    have h2 := (ha _ (getD_mem (hh.index k hk))).1
    rcases List.mem_append.1 haa with h | h
    · have h1 := (ha _ h).2
      simp only at h1
      linarith
    · obtain ⟨k', hk', e⟩ := List.mem_map.1 h
      have h3 := (ha _ (getD_mem (hh.index k' hk'))).2
      have e1 := congrArg Prod.fst e
      simp only at e1
      linarith

private theorem kept_iff (mesh : PlaneMesh (seamPoints pts hull)) {k : ℕ} : k ∈ keptPoints pts hull mesh ↔
    k < (seamPoints pts hull).length ∧ (k < pts.length ∨ ∃ h ∈ hull, mesh.Neighbour h k) := by
  simp [keptPoints]

private theorem remesh_mem (mesh : PlaneMesh (seamPoints pts hull)) {k : ℕ} {q : ℝ × ℝ} (hq : (seamPoints pts hull)[k]? = some q)
    (hk : k < pts.length ∨ ∃ h ∈ hull, mesh.Neighbour h k) : q ∈ remeshPoints pts hull mesh := by
  obtain ⟨h1, e⟩ := List.getElem?_eq_some_iff.1 hq
  refine List.mem_map.2 ⟨k, (kept_iff mesh).2 ⟨h1, hk⟩, ?_⟩
  rw [List.getD_eq_getElem?_getD, hq]
  rfl

private theorem remesh_sub (mesh : PlaneMesh (seamPoints pts hull)) {q : ℝ × ℝ} (hq : q ∈ remeshPoints pts hull mesh) :
    q ∈ seamPoints pts hull := by
  obtain ⟨k, hk, rfl⟩ := List.mem_map.1 hq
  have h := ((kept_iff mesh).1 hk).1
  rw [List.getD_eq_getElem?_getD, List.getElem?_eq_getElem h]
  exact List.getElem_mem _

/-- The whole circle at the least and at the greatest radius is in the second mesh. -/
private theorem border_circle (hh : HullNumbers pts hull) (hn : pts.Nodup) (ha : ∀ q ∈ pts, -π < q.1 ∧ q.1 ≤ π)
    (mesh : PlaneMesh (seamPoints pts hull)) (s r : ℝ) (hs : s ≠ 0) (q0 : ℝ × ℝ) (hq0 : q0 ∈ pts) (hr : q0.2 = r)
    (hmax : ∀ q ∈ pts, s * q.2 ≤ s * r) (x : ℝ) (hx1 : -π ≤ x) (hx2 : x ≤ π) :
    (x, r) ∈ convexHull ℝ {q | q ∈ remeshPoints pts hull mesh} := by
  classical
  have hpi := Real.pi_pos
  have hSn := seam_nodup hh hn ha
  have hne : (pts.toFinset.filter fun q => q.2 = r).Nonempty := ⟨q0, by simp [hq0, hr]⟩
  obtain ⟨qt, hqt, htmin⟩ := Finset.exists_min_image _ (fun q : ℝ × ℝ => q.1) hne
  obtain ⟨qT, hqT, hTmax⟩ := Finset.exists_max_image _ (fun q : ℝ × ℝ => q.1) hne
  have ht : qt ∈ pts ∧ qt.2 = r := by simpa using hqt
  have hT : qT ∈ pts ∧ qT.2 = r := by simpa using hqT
  have hmin' : ∀ q ∈ pts, q.2 = r → qt.1 ≤ q.1 := fun q hq e => htmin q (by simp [hq, e])
  have hmax' : ∀ q ∈ pts, q.2 = r → q.1 ≤ qT.1 := fun q hq e => hTmax q (by simp [hq, e])
  have hat := ha qt ht.1
  have haT := ha qT hT.1
  obtain ⟨kt, hkt, ekt⟩ := List.getElem_of_mem ht.1
  obtain ⟨kT, hkT, ekT⟩ := List.getElem_of_mem hT.1
  have hbord : ∀ k (h : k < pts.length), pts[k].2 = r → k ∈ hull := by
    intro k h e
    refine hh.border k _ (List.getElem?_eq_getElem h) 0 s (by simpa [Prod.ext_iff] using hs) ?_
    intro q hq
    have := hmax q hq
    rw [e]; linarith
  have hktH : kt ∈ hull := hbord kt hkt (by rw [ekt]; exact ht.2)
  have hkTH : kT ∈ hull := hbord kT hkT (by rw [ekT]; exact hT.2)
  obtain ⟨mt, hmt, emt⟩ := List.getElem_of_mem hktH
  obtain ⟨mT, hmT, emT⟩ := List.getElem_of_mem hkTH
  have gkt : pts.getD kt 0 = qt := by rw [List.getD_eq_getElem?_getD, List.getElem?_eq_getElem hkt, ekt]; rfl
  have gkT : pts.getD kT 0 = qT := by rw [List.getD_eq_getElem?_getD, List.getElem?_eq_getElem hkT, ekT]; rfl
  have hiL : (seamPoints pts hull)[pts.length + mT]? = some (qT.1 - 2 * π, r) := by
    rw [seam_left hmT, emT, gkT, hT.2]
  have hiR : (seamPoints pts hull)[pts.length + hull.length + mt]? = some (qt.1 + 2 * π, r) := by
    rw [seam_right hmt, emt, gkt, ht.2]
  have hot : (seamPoints pts hull)[kt]? = some (qt.1, r) := by
    rw [seam_orig hkt, List.getElem?_eq_getElem hkt, ekt, ← ht.2]
  have hoT : (seamPoints pts hull)[kT]? = some (qT.1, r) := by
    rw [seam_orig hkT, List.getElem?_eq_getElem hkT, ekT, ← hT.2]
  have hmaxS : ∀ q ∈ seamPoints pts hull, s * q.2 ≤ s * r := by
    intro q hq
    rcases seam_mem hh hq with h | ⟨o, ho, e, -⟩
    · exact hmax q h
    · rw [← e]; exact hmax o ho
  have hL : mesh.Neighbour (pts.length + mT) kt := by
    refine border_neighbours mesh hSn s _ _ r hs _ _ hiL hot (by linarith) hmaxS ?_
    intro q hq e
    rcases seam_mem hh hq with h | ⟨o, ho, e', h | h⟩
    · have := hmin' q h e
      exact fun hc => absurd hc.2 (by linarith)
    · have := hmax' o ho (e'.trans e)
      exact fun hc => absurd hc.1 (by linarith)
    · have := hmin' o ho (e'.trans e)
      exact fun hc => absurd hc.2 (by linarith)
  have hR : mesh.Neighbour kT (pts.length + hull.length + mt) := by
    refine border_neighbours mesh hSn s _ _ r hs _ _ hoT hiR (by linarith) hmaxS ?_
    intro q hq e
    rcases seam_mem hh hq with h | ⟨o, ho, e', h | h⟩
    · have := hmax' q h e
      exact fun hc => absurd hc.1 (by linarith)
    · have := hmax' o ho (e'.trans e)
      exact fun hc => absurd hc.1 (by linarith)
    · have := hmin' o ho (e'.trans e)
      exact fun hc => absurd hc.2 (by linarith)
  have hL' : mesh.Neighbour kt (pts.length + mT) := by
    obtain ⟨p, ws, h1, h2, h3⟩ := hL
    exact ⟨p, ws, h1, h3, h2⟩
  exact between_mem _ _ _ _ _
    (subset_convexHull ℝ {q | q ∈ remeshPoints pts hull mesh} (remesh_mem mesh hiL (.inr ⟨kt, hktH, hL'⟩)))
    (subset_convexHull ℝ {q | q ∈ remeshPoints pts hull mesh} (remesh_mem mesh hiR (.inr ⟨kT, hkTH, hR⟩)))
    (by linarith) (by linarith)

private theorem band_covered (hh : HullNumbers pts hull) (hn : pts.Nodup) (ha : ∀ q ∈ pts, -π < q.1 ∧ q.1 ≤ π)
    (mesh : PlaneMesh (seamPoints pts hull)) (p : ℝ × ℝ) (hx1 : -π ≤ p.1) (hx2 : p.1 ≤ π) (hlo : ∃ q ∈ pts, q.2 ≤ p.2)
    (hhi : ∃ q ∈ pts, p.2 ≤ q.2) : p ∈ convexHull ℝ {q | q ∈ remeshPoints pts hull mesh} := by
  classical
  obtain ⟨ql, hql, hl⟩ := hlo
  obtain ⟨qh, hqh, hh'⟩ := hhi
  obtain ⟨a, ha1, hamin⟩ := Finset.exists_min_image pts.toFinset (fun q : ℝ × ℝ => q.2) ⟨ql, by simpa using hql⟩
  obtain ⟨b, hb1, hbmax⟩ := Finset.exists_max_image pts.toFinset (fun q : ℝ × ℝ => q.2) ⟨ql, by simpa using hql⟩
  have h1 := border_circle hh hn ha mesh (-1) a.2 (by norm_num) a (by simpa using ha1) rfl
    (fun q hq => by have := hamin q (by simpa using hq); linarith) p.1 hx1 hx2
  have h2 := border_circle hh hn ha mesh 1 b.2 (by norm_num) b (by simpa using hb1) rfl
    (fun q hq => by have := hbmax q (by simpa using hq); linarith) p.1 hx1 hx2
  exact between_mem' _ a.2 b.2 p.1 p.2 h1 h2 ((hamin ql (by simpa using hql)).trans hl) (hh'.trans (hbmax qh (by simpa using hqh)))

private theorem origin_lt (hh : HullNumbers pts hull) {k : ℕ} (hk : k < (seamPoints pts hull).length) :
    (seamOrigin pts.length hull).getD k 0 < pts.length := by
  have hl : k < (seamOrigin pts.length hull).length := by
    rw [seam_length] at hk; simp [seamOrigin]; omega
  have hm : (seamOrigin pts.length hull).getD k 0 ∈ seamOrigin pts.length hull := by
    rw [List.getD_eq_getElem?_getD, List.getElem?_eq_getElem hl]
    exact List.getElem_mem _
  generalize (seamOrigin pts.length hull).getD k 0 = m at hm
  unfold seamOrigin at hm
  rcases List.mem_append.1 hm with h | h
  · rcases List.mem_append.1 h with h | h
    · simpa using h
    · exact hh.index _ h
  · exact hh.index _ h

end Seam

private theorem weighted_range (lo hi : ℝ) (f : ℕ → ℝ) : ∀ ws : List (ℕ × ℝ), (∀ kw ∈ ws, 0 ≤ kw.2) →
    (∀ kw ∈ ws, lo ≤ f kw.1 ∧ f kw.1 ≤ hi) → lo * (ws.map Prod.snd).sum ≤ (ws.map fun kw => kw.2 * f kw.1).sum ∧
      (ws.map fun kw => kw.2 * f kw.1).sum ≤ hi * (ws.map Prod.snd).sum
  | [], _, _ => by simp
  | a :: r, h0, hb => by
    obtain ⟨h1, h2⟩ := weighted_range lo hi f r (fun k hk => h0 k (List.mem_cons_of_mem _ hk))
      fun k hk => hb k (List.mem_cons_of_mem _ hk)
    have h3 := h0 a (by simp)
    have h4 := hb a (by simp)
    simp only [List.map_cons, List.sum_cons]
    constructor <;> nlinarith

private theorem meshValue_range {pts : List (ℝ × ℝ)} (mesh : PlaneMesh pts) (values : List ℝ) (lo hi : ℝ)
    (hl : values.length = pts.length) (hv : ∀ v ∈ values, lo ≤ v ∧ v ≤ hi) (p : ℝ × ℝ) (hp : p ∈ convexHull ℝ {q | q ∈ pts}) :
    lo ≤ meshValue mesh values p ∧ meshValue mesh values p ≤ hi := by
  unfold meshValue
  cases hf : mesh.find p with
  | none => exact absurd hp ((mesh.outside _).1 hf)
  | some ws =>
    have h := weighted_range lo hi (fun k => values.getD k 0) ws (mesh.nonneg _ _ hf) (fun kw hkw => by
      have hk := mesh.index _ _ hf kw hkw
      rw [← hl] at hk
      refine hv _ ?_
      rw [List.getD_eq_getElem?_getD, List.getElem?_eq_getElem hk]
      exact List.getElem_mem _)
    rw [mesh.total _ _ hf, mul_one, mul_one] at h
    exact h

private theorem meshValue_corner {pts : List (ℝ × ℝ)} (mesh : PlaneMesh pts) (values : List ℝ) (hn : pts.Nodup) (k : ℕ) (q : ℝ × ℝ)
    (f : ℝ) (hk : pts[k]? = some q) (hf : values[k]? = some f) : meshValue mesh values q = f := by
  have hq : q ∈ pts := List.mem_of_getElem? hk
  unfold meshValue
  cases hfi : mesh.find q with
  | none => exact absurd (subset_convexHull ℝ {q | q ∈ pts} hq) ((mesh.outside _).1 hfi)
  | some ws =>
    have hc := mesh.corner q hq ws hfi
    have : ∀ kw ∈ ws, kw.2 * values.getD kw.1 0 = kw.2 * f := by
      intro kw hkw
      by_cases h0 : kw.2 = 0
      · simp [h0]
      · have h1 := hc kw hkw h0
        obtain ⟨h1', e1⟩ := List.getElem?_eq_some_iff.1 h1
        obtain ⟨h2', e2⟩ := List.getElem?_eq_some_iff.1 hk
        have : kw.1 = k := (List.Nodup.getElem_inj_iff hn).1 (e1.trans e2.symm)
        rw [this, List.getD_eq_getElem?_getD, hf]
        rfl
    simp only []
    rw [List.map_congr_left this]
    have : (ws.map fun kw => kw.2 * f).sum = (ws.map Prod.snd).sum * f := by
      rw [← List.sum_map_mul_right]
    rw [this, mesh.total _ _ hfi, one_mul]

private theorem plane_angles (Q : Matrix (Fin 3) (Fin 3) ℝ) (mics : List (Fin 3 → ℝ)) (zero : Bool) :
    ∀ q ∈ planePoints Q mics zero, -π < q.1 ∧ q.1 ≤ π := by
  intro q hq
  have hpi := Real.pi_pos
  unfold planePoints at hq
  rcases List.mem_append.1 hq with h | h
  · obtain ⟨m, -, rfl⟩ := List.mem_map.1 h
    exact ⟨Complex.neg_pi_lt_arg _, Complex.arg_le_pi _⟩
  · cases zero
    · simp at h
    · have : q = (0, 0) := by simpa using h
      subst this
      exact ⟨by simpa using hpi, hpi.le⟩

private theorem shifted_range (x : ℝ) : -π ≤ pyFmod (x + π) (2 * π) - π ∧ pyFmod (x + π) (2 * π) - π < π := by
  have := pyFmod_range (x + π) (p := 2 * π) (by positivity)
  constructor <;> linarith

/-! ## C148 -/

/-- Distance of a position from the axis of rotation, with the transformation `Q`. -/
noncomputable def Spec.axisRadius (Q : Matrix (Fin 3) (Fin 3) ℝ) (x : Fin 3 → ℝ) : ℝ :=
  √((Q.mulVec x 0) ^ 2 + (Q.mulVec x 1) ^ 2)

/-- Angle of a position about the axis. -/
noncomputable def Spec.axisAngle (Q : Matrix (Fin 3) (Fin 3) ℝ) (x : Fin 3 → ℝ) : ℝ :=
  Complex.arg ⟨Q.mulVec x 0, Q.mulVec x 1⟩

/-- Different places in the plane: no two microphones with the same angle and radius; none in the origin if a point is added
there. -/
def Spec.DifferentPlaces (Q : Matrix (Fin 3) (Fin 3) ℝ) (mics : List (Fin 3 → ℝ)) (zero : Bool) : Prop :=
  mics.Pairwise (fun a b => ¬(axisAngle Q a = axisAngle Q b ∧ axisRadius Q a = axisRadius Q b)) ∧
    (zero = true → ∀ m ∈ mics, axisRadius Q m ≠ 0)

private theorem angleRadius_eq (Q : Matrix (Fin 3) (Fin 3) ℝ) (x : Fin 3 → ℝ) : angleRadius Q x = (axisAngle Q x, axisRadius Q x) := rfl

private theorem plane_nodup {Q : Matrix (Fin 3) (Fin 3) ℝ} {mics : List (Fin 3 → ℝ)} {zero : Bool} (h : DifferentPlaces Q mics zero) :
    (planePoints Q mics zero).Nodup := by
  unfold planePoints
  rw [List.nodup_append]
  refine ⟨?_, ?_, ?_⟩
  · rw [List.Nodup, List.pairwise_map]
    refine h.1.imp ?_
    intro a b hab e
    rw [angleRadius_eq, angleRadius_eq] at e
    exact hab ⟨congrArg Prod.fst e, congrArg Prod.snd e⟩
  · cases zero <;> simp
  · intro a ha b hb e
    cases zero
    · simp at hb
    · obtain ⟨m, hm, rfl⟩ := List.mem_map.1 ha
      have hb' : b = (0, 0) := by simpa using hb
      rw [hb', angleRadius_eq] at e
      exact h.2 rfl m hm (congrArg Prod.snd e)

private theorem remesh_values {pts : List (ℝ × ℝ)} {hull : List ℕ} (hh : HullNumbers pts hull) (mesh : PlaneMesh (seamPoints pts hull))
    (row : List ℝ) (hl : row.length = pts.length) (lo hi : ℝ) (hb : ∀ v ∈ row, lo ≤ v ∧ v ≤ hi) :
    (remeshValues pts hull mesh row).length = (remeshPoints pts hull mesh).length ∧
      ∀ v ∈ remeshValues pts hull mesh row, lo ≤ v ∧ v ≤ hi := by
  refine ⟨by simp [remeshValues, remeshPoints], ?_⟩
  intro v hv
  obtain ⟨k, hk, rfl⟩ := List.mem_map.1 hv
  have h1 := origin_lt hh ((kept_iff mesh).1 hk).1
  refine hb _ ?_
  generalize (seamOrigin pts.length hull).getD k 0 = a at h1
  rw [← hl] at h1
  rw [List.getD_eq_getElem?_getD, List.getElem?_eq_getElem h1]
  exact List.getElem_mem _

private theorem remesh_nodup {pts : List (ℝ × ℝ)} {hull : List ℕ} (hh : HullNumbers pts hull) (hn : pts.Nodup)
    (ha : ∀ q ∈ pts, -π < q.1 ∧ q.1 ≤ π) (mesh : PlaneMesh (seamPoints pts hull)) : (remeshPoints pts hull mesh).Nodup := by
  have hS := seam_nodup hh hn ha
  refine List.Nodup.map_on ?_ (List.Nodup.filter _ List.nodup_range)
  intro x hx y hy e
  have h1 := ((kept_iff mesh).1 hx).1
  have h2 := ((kept_iff mesh).1 hy).1
  rw [List.getD_eq_getElem?_getD, List.getD_eq_getElem?_getD, List.getElem?_eq_getElem h1, List.getElem?_eq_getElem h2] at e
  exact (List.Nodup.getElem_inj_iff hS).1 e

/-- A virtual microphone between the least and the greatest radius: the value is between the least and the greatest sample, at
every angle of rotation. `atZero` and the origin count as microphone if the additional point is asked for. -/
theorem C148_range_partial (Q : Matrix (Fin 3) (Fin 3) ℝ) (mics virtMics : List (Fin 3 → ℝ)) (zero : Bool)
    (mesh : ArrayMesh (planePoints Q mics zero)) (row : List ℝ) (atZero phi lo hi : ℝ) (hl : row.length = mics.length)
    (hd : DifferentPlaces Q mics zero) (hb : ∀ f ∈ row, lo ≤ f ∧ f ≤ hi) (hz : zero = true → lo ≤ atZero ∧ atZero ≤ hi) (i : ℕ)
    (v : Fin 3 → ℝ) (hv : virtMics[i]? = some v) (h1 : zero = true ∨ ∃ m ∈ mics, axisRadius Q m ≤ axisRadius Q v)
    (h2 : ∃ m ∈ mics, axisRadius Q v ≤ axisRadius Q m) :
    ∃ y, (planeRow Q mics virtMics zero mesh row atZero phi)[i]? = some y ∧ lo ≤ y ∧ y ≤ hi := by
  unfold planeRow
  simp only [List.getElem?_map, hv, Option.map_some]
  refine ⟨_, rfl, ?_⟩
  have ha := plane_angles Q mics zero
  have hn := plane_nodup hd
  have hmem : ∀ m ∈ mics, angleRadius Q m ∈ planePoints Q mics zero := fun m hm =>
    List.mem_append_left _ (List.mem_map.2 ⟨m, hm, rfl⟩)
  obtain ⟨g1, g2⟩ := remesh_values mesh.first mesh.second (row ++ if zero then [atZero] else []) (by
    cases zero <;> simp [planePoints, hl]) lo hi (by
      intro f hf
      rcases List.mem_append.1 hf with h | h
      · exact hb f h
      · cases zero
        · simp at h
        · have : f = atZero := by simpa using h
          rw [this]; exact hz rfl)
  refine meshValue_range mesh.third _ lo hi g1 g2 _ ?_
  obtain ⟨r1, r2⟩ := shifted_range ((angleRadius Q v).1 + phi)
  refine band_covered mesh.first hn ha mesh.second _ r1 r2.le ?_ ?_
  · rcases h1 with h | ⟨m, hm, h⟩
    · refine ⟨(0, 0), ?_, Real.sqrt_nonneg _⟩
      unfold planePoints
      rw [h]; simp
    · exact ⟨_, hmem m hm, h⟩
  · obtain ⟨m, hm, h⟩ := h2
    exact ⟨_, hmem m hm, h⟩

/-- A virtual microphone that the rotation brings to the place of a microphone gets its sample (microphones exactly opposite to
the origin of the angle, at `π`, excepted). -/
theorem C148_aligned_partial (Q : Matrix (Fin 3) (Fin 3) ℝ) (mics virtMics : List (Fin 3 → ℝ)) (zero : Bool)
    (mesh : ArrayMesh (planePoints Q mics zero)) (row : List ℝ) (atZero phi : ℝ) (hl : row.length = mics.length)
    (hd : DifferentPlaces Q mics zero) (i j : ℕ) (v m : Fin 3 → ℝ) (f : ℝ) (hv : virtMics[i]? = some v) (hm : mics[j]? = some m)
    (hf : row[j]? = some f) (hr : axisRadius Q v = axisRadius Q m) (hang : SameAngle (2 * π) (axisAngle Q v + phi) (axisAngle Q m))
    (hpi : axisAngle Q m ≠ π) : (planeRow Q mics virtMics zero mesh row atZero phi)[i]? = some f := by
  unfold planeRow
  simp only [List.getElem?_map, hv, Option.map_some, Option.some.injEq]
  have ha := plane_angles Q mics zero
  have hn := plane_nodup hd
  have hj : j < mics.length := (List.getElem?_eq_some_iff.1 hm).1
  have hjp : j < (planePoints Q mics zero).length := by simp [planePoints]; omega
  have hpj : (planePoints Q mics zero)[j]? = some (angleRadius Q m) := by
    unfold planePoints
    rw [List.getElem?_append_left (by simpa using hj)]
    simp [hm]
  -- the point is the place of the microphone
  have hx : pyFmod ((angleRadius Q v).1 + phi + π) (2 * π) - π = axisAngle Q m := by
    obtain ⟨r1, r2⟩ := shifted_range ((angleRadius Q v).1 + phi)
    have hm1 : -π < axisAngle Q m ∧ axisAngle Q m ≤ π := ha _ (List.mem_of_getElem? hpj)
    have h3 : axisAngle Q m < π := lt_of_le_of_ne hm1.2 hpi
    obtain ⟨k, hk⟩ := hang
    have e : pyFmod ((angleRadius Q v).1 + phi + π) (2 * π) - π
        = axisAngle Q m + ((k : ℝ) - ⌊((angleRadius Q v).1 + phi + π) / (2 * π)⌋) * (2 * π) := by
      unfold pyFmod
      have : (angleRadius Q v).1 + phi = axisAngle Q m + k * (2 * π) := hk
      linarith
    have hpos := Real.pi_pos
    generalize ⌊((angleRadius Q v).1 + phi + π) / (2 * π)⌋ = n at e
    have e2 : ((k - n : ℤ) : ℝ) * (2 * π) = pyFmod ((angleRadius Q v).1 + phi + π) (2 * π) - π - axisAngle Q m := by
      push_cast; linarith
    have hk0 : k - n = 0 := by
      by_contra hne
      rcases lt_or_gt_of_ne hne with h | h
      · have : ((k - n : ℤ) : ℝ) ≤ -1 := by exact_mod_cast (by omega : k - n ≤ -1)
        nlinarith
      · have : (1 : ℝ) ≤ ((k - n : ℤ) : ℝ) := by exact_mod_cast (by omega : 1 ≤ k - n)
        nlinarith
    rw [hk0] at e2
    simp only [Int.cast_zero, zero_mul] at e2
    linarith
  rw [hx, show (angleRadius Q v).2 = axisRadius Q m from hr]
  have hS : (seamPoints (planePoints Q mics zero) mesh.hull)[j]? = some (axisAngle Q m, axisRadius Q m) := by
    rw [seam_orig hjp, hpj]; rfl
  have hjS := (List.getElem?_eq_some_iff.1 hS).1
  have hkept : j ∈ keptPoints _ mesh.hull mesh.second := (kept_iff mesh.second).2 ⟨hjS, .inl hjp⟩
  obtain ⟨a, haa, ea⟩ := List.getElem_of_mem hkept
  refine meshValue_corner mesh.third _ (remesh_nodup mesh.first hn ha mesh.second) a _ f ?_ ?_
  · unfold remeshPoints
    rw [List.getElem?_map, List.getElem?_eq_getElem haa, ea, Option.map_some, List.getD_eq_getElem?_getD, hS]
    rfl
  · unfold remeshValues
    have ho : (seamOrigin (planePoints Q mics zero).length mesh.hull).getD j 0 = j := by
      unfold seamOrigin
      rw [List.append_assoc, List.getD_eq_getElem?_getD, List.getElem?_append_left (by simpa using hjp)]
      simp [hjp]
    rw [List.getElem?_map, List.getElem?_eq_getElem haa, ea, Option.map_some, ho, List.getD_eq_getElem?_getD,
      List.getElem?_append_left (by omega), hf]
    rfl

/-- Outside of the radii of the microphones the result is zero, whatever the samples are. -/
theorem C148_outside_violated (Q : Matrix (Fin 3) (Fin 3) ℝ) (mics virtMics : List (Fin 3 → ℝ)) (mesh : ArrayMesh (planePoints Q mics false))
    (row : List ℝ) (atZero phi : ℝ) (i : ℕ) (v : Fin 3 → ℝ) (hv : virtMics[i]? = some v)
    (h : (∀ m ∈ mics, axisRadius Q m < axisRadius Q v) ∨ ∀ m ∈ mics, axisRadius Q v < axisRadius Q m) :
    (planeRow Q mics virtMics false mesh row atZero phi)[i]? = some 0 := by
  unfold planeRow
  simp only [List.getElem?_map, hv, Option.map_some, Option.some.injEq]
  unfold meshValue
  have hnone : mesh.third.find (pyFmod ((angleRadius Q v).1 + phi + π) (2 * π) - π, (angleRadius Q v).2) = none := by
    rw [mesh.third.outside]
    intro hc
    have hsub : ∀ q ∈ remeshPoints _ mesh.hull mesh.second, ∃ m ∈ mics, axisRadius Q m = q.2 := by
      intro q hq
      have hpl : ∀ o ∈ planePoints Q mics false, ∃ m ∈ mics, axisRadius Q m = o.2 := by
        intro o ho
        obtain ⟨m, hm, rfl⟩ : ∃ m ∈ mics, angleRadius Q m = o := by simpa [planePoints] using ho
        exact ⟨m, hm, rfl⟩
      rcases seam_mem mesh.first (remesh_sub mesh.second hq) with h | ⟨o, ho, e, -⟩
      · exact hpl q h
      · obtain ⟨m, hm, e'⟩ := hpl o ho
        exact ⟨m, hm, e'.trans e⟩
    rcases h with h | h
    · have hconv : Convex ℝ {q : ℝ × ℝ | q.2 < axisRadius Q v} := convex_halfSpace_lt (IsLinearMap.mk (by simp) (by simp)) _
      have := convexHull_min (t := {q : ℝ × ℝ | q.2 < axisRadius Q v}) (fun q hq => by
        obtain ⟨m, hm, e⟩ := hsub q hq
        show q.2 < _
        rw [← e]; exact h m hm) hconv hc
      exact lt_irrefl (axisRadius Q v) this
    · have hconv : Convex ℝ {q : ℝ × ℝ | axisRadius Q v < q.2} := convex_halfSpace_gt (IsLinearMap.mk (by simp) (by simp)) _
      have := convexHull_min (t := {q : ℝ × ℝ | axisRadius Q v < q.2}) (fun q hq => by
        obtain ⟨m, hm, e⟩ := hsub q hq
        show _ < q.2
        rw [← e]; exact h m hm) hconv hc
      exact lt_irrefl (axisRadius Q v) this
  rw [hnone]

/-- The sample at the origin: between the least and the greatest sample if the origin is in the convex hull of the microphones in
the plane, otherwise zero. -/
theorem C148_origin (Q : Matrix (Fin 3) (Fin 3) ℝ) (mics : List (Fin 3 → ℝ)) (mesh) (row : List ℝ) (lo hi : ℝ)
    (hl : row.length = mics.length) (hb : ∀ f ∈ row, lo ≤ f ∧ f ≤ hi) :
    ((0, 0) ∈ convexHull ℝ {q : ℝ × ℝ | ∃ m ∈ mics, q = (Q.mulVec m 0, Q.mulVec m 1)} →
      lo ≤ originSample Q mics mesh row ∧ originSample Q mics mesh row ≤ hi) ∧
    ((0, 0) ∉ convexHull ℝ {q : ℝ × ℝ | ∃ m ∈ mics, q = (Q.mulVec m 0, Q.mulVec m 1)} → originSample Q mics mesh row = 0) := by
  have hset : {q | q ∈ mics.map fun x => (cylToCart (cartToCyl (Q.mulVec x)) 0, cylToCart (cartToCyl (Q.mulVec x)) 1)}
      = (LinearEquiv.prodComm ℝ ℝ ℝ).toLinearMap '' {q : ℝ × ℝ | ∃ m ∈ mics, q = (Q.mulVec m 0, Q.mulVec m 1)} := by
    ext q
    constructor
    · intro hq
      obtain ⟨m, hm, rfl⟩ := List.mem_map.1 hq
      refine ⟨_, ⟨m, hm, rfl⟩, ?_⟩
      have h := cyl_round (Q.mulVec m)
      simp only [cylToCart, Matrix.cons_val_zero, Matrix.cons_val_one, h.1, h.2]
      rfl
    · rintro ⟨_, ⟨m, hm, rfl⟩, rfl⟩
      refine List.mem_map.2 ⟨m, hm, ?_⟩
      have h := cyl_round (Q.mulVec m)
      simp only [cylToCart, Matrix.cons_val_zero, Matrix.cons_val_one, h.1, h.2]
      rfl
  have hiff : ((0, 0) : ℝ × ℝ) ∈ convexHull ℝ {q | q ∈ mics.map fun x =>
      (cylToCart (cartToCyl (Q.mulVec x)) 0, cylToCart (cartToCyl (Q.mulVec x)) 1)} ↔
      ((0, 0) : ℝ × ℝ) ∈ convexHull ℝ {q : ℝ × ℝ | ∃ m ∈ mics, q = (Q.mulVec m 0, Q.mulVec m 1)} := by
    rw [hset, ← LinearMap.image_convexHull]
    constructor
    · rintro ⟨q, hq, e⟩
      have e1 : q.2 = 0 := congrArg Prod.fst e
      have e2 : q.1 = 0 := congrArg Prod.snd e
      have : q = (0, 0) := Prod.ext e2 e1
      rwa [this] at hq
    · intro h
      exact ⟨_, h, rfl⟩
  constructor
  · intro h
    exact meshValue_range mesh row lo hi (by simpa using hl) hb _ (hiff.2 h)
  · intro h
    unfold originSample meshValue
    rw [(mesh.outside _).2 fun hc => h (hiff.1 hc)]

/-- There are triangulations for every array. -/
theorem C148_array_exists (pts : List (ℝ × ℝ)) : Nonempty (ArrayMesh pts) := by
  obtain ⟨second⟩ := C148_mesh_exists (seamPoints pts (List.range pts.length))
  obtain ⟨third⟩ := C148_mesh_exists (remeshPoints pts (List.range pts.length) second)
  refine ⟨⟨List.range pts.length, ⟨by simp, List.nodup_range, ?_⟩, second, third⟩⟩
  intro k q hk _ _ _ _
  simpa using (List.getElem?_eq_some_iff.1 hk).1

private noncomputable def threeMics : List (Fin 3 → ℝ) := [![1, 0, 0], ![0, 2, 0], ![2, 0, 0]]

private theorem three_different : DifferentPlaces 1 threeMics false := by
  refine ⟨?_, by simp⟩
  simp only [threeMics, List.pairwise_cons, List.mem_cons, List.not_mem_nil, or_false, forall_eq_or_imp, forall_eq]
  have hI : Complex.arg ⟨0, 2⟩ = π / 2 := by
    rw [Complex.arg_eq_pi_div_two_iff]; simp
  have h2 : Complex.arg ⟨2, 0⟩ = 0 := by
    rw [Complex.arg_eq_zero_iff]; simp
  refine ⟨⟨?_, ?_⟩, ?_, by simp⟩
  · intro h
    have := h.2
    simp [axisRadius] at this
  · intro h
    have := h.2
    simp [axisRadius] at this
  · intro h
    have := h.1
    simp [axisAngle, hI, h2, Real.pi_ne_zero] at this

/-- The hypotheses of `C148_range_partial`, `C148_aligned_partial` and `C148_outside_violated` are met: three microphones, virtual
ones at the radii 3/2, 1 and 3. -/
example (row : List ℝ) (a b c : ℝ) (hrow : row = [a, b, c]) (lo hi : ℝ) (hb : ∀ f ∈ row, lo ≤ f ∧ f ≤ hi) (phi : ℝ) :
    ∃ mesh : ArrayMesh (planePoints 1 threeMics false),
      (∃ y, (planeRow 1 threeMics [![3/2, 0, 0], ![1, 0, 0], ![3, 0, 0]] false mesh row 0 phi)[0]? = some y ∧ lo ≤ y ∧ y ≤ hi) ∧
      (planeRow 1 threeMics [![3/2, 0, 0], ![1, 0, 0], ![3, 0, 0]] false mesh row 0 (2 * π))[1]? = some a ∧
      (planeRow 1 threeMics [![3/2, 0, 0], ![1, 0, 0], ![3, 0, 0]] false mesh row 0 phi)[2]? = some 0 := by
  obtain ⟨mesh⟩ := C148_array_exists (planePoints 1 threeMics false)
  subst hrow
  have s4 : √(2 ^ 2 : ℝ) = 2 := Real.sqrt_sq (by norm_num)
  have s9 : √(3 ^ 2 : ℝ) = 3 := Real.sqrt_sq (by norm_num)
  have s3 : √((3 / 2) ^ 2 : ℝ) = 3 / 2 := Real.sqrt_sq (by norm_num)
  have h1 : Complex.arg ⟨1, 0⟩ = 0 := by
    rw [Complex.arg_eq_zero_iff]; simp
  refine ⟨mesh, ?_, ?_, ?_⟩
  · refine C148_range_partial 1 threeMics _ false mesh [a, b, c] 0 phi lo hi rfl three_different hb (by simp) 0 _ rfl
      (.inr ⟨![1, 0, 0], by simp [threeMics], ?_⟩) ⟨![2, 0, 0], by simp [threeMics], ?_⟩
    · simp only [axisRadius, Matrix.one_mulVec, Matrix.cons_val_zero, Matrix.cons_val_one]
      apply Real.sqrt_le_sqrt; norm_num
    · simp only [axisRadius, Matrix.one_mulVec, Matrix.cons_val_zero, Matrix.cons_val_one]
      apply Real.sqrt_le_sqrt; norm_num
  · refine C148_aligned_partial 1 threeMics _ false mesh [a, b, c] 0 (2 * π) rfl three_different 1 0 ![1, 0, 0] ![1, 0, 0] a rfl rfl rfl rfl
      ⟨1, by simp⟩ ?_
    simp [axisAngle, h1, Real.pi_ne_zero.symm]
  · refine C148_outside_violated 1 threeMics _ mesh [a, b, c] 0 phi 2 ![3, 0, 0] rfl (.inl ?_)
    intro m hm
    simp only [threeMics, List.mem_cons, List.not_mem_nil, or_false] at hm
    rcases hm with rfl | rfl | rfl <;> simp only [axisRadius, Matrix.one_mulVec, Matrix.cons_val_zero, Matrix.cons_val_one] <;>
      apply Real.sqrt_lt_sqrt <;> norm_num

/-- The hypotheses of `C148_origin` are met: -/
example : ∃ mesh, ∀ row : List ℝ, row.length = 3 → (∀ f ∈ row, 1 ≤ f ∧ f ≤ 2) → originSample 1 threeMics mesh row = 0 := by
  obtain ⟨mesh⟩ := C148_mesh_exists (threeMics.map fun x => (cylToCart (cartToCyl ((1 : Matrix (Fin 3) (Fin 3) ℝ).mulVec x)) 0,
    cylToCart (cartToCyl ((1 : Matrix (Fin 3) (Fin 3) ℝ).mulVec x)) 1))
  refine ⟨mesh, fun row hl hb => (C148_origin 1 threeMics mesh row 1 2 hl hb).2 ?_⟩
  intro hc
  have hconv : Convex ℝ {q : ℝ × ℝ | 0 < q.1 + q.2} := convex_halfSpace_gt (IsLinearMap.mk (by intros; simp; ring) (by intros; simp; ring)) _
  have : (0, 0) ∈ {q : ℝ × ℝ | 0 < q.1 + q.2} := convexHull_min (fun q hq => by
    obtain ⟨m, hm, rfl⟩ := hq
    simp only [threeMics, List.mem_cons, List.not_mem_nil, or_false] at hm
    rcases hm with rfl | rfl | rfl <;> simp) hconv hc
  simp at this

end Acoular
