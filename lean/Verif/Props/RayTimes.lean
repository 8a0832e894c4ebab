import Verif.Model.RayTimes
import Verif.Props.Rays
import Verif.Props.Env
import Mathlib.Analysis.Convex.KreinMilman
import Mathlib.Analysis.Convex.Combination
import Mathlib.Analysis.InnerProductSpace.PiL2

/-!
# Property theorems: travel times in a general flow (C145)
-/

namespace Acoular

open Spec Real

/-- `t` is the time sound needs from `p` to `x0` in a fluid that moves with the velocity `V`: the wave front that starts at
`p` and is carried with the fluid has the radius `c t` and reaches `x0`. -/
def Spec.IsTravelTime (c : ℝ) (V p x0 : Fin 3 → ℝ) (t : ℝ) : Prop :=
  0 ≤ t ∧ len3 (fun i => x0 i - (p i + t * V i)) = c * t

/-! ### Weighted sums -/

private theorem len3_toLp (x : Fin 3 → ℝ) : len3 x = ‖(WithLp.toLp 2 x : EuclideanSpace ℝ (Fin 3))‖ := by
  rw [EuclideanSpace.norm_eq, Fin.sum_univ_three]
  simp [len3]

private theorem len3_add (a b : Fin 3 → ℝ) : len3 (fun i => a i + b i) ≤ len3 a + len3 b := by
  simp only [len3_toLp]
  exact norm_add_le (WithLp.toLp 2 a : EuclideanSpace ℝ (Fin 3)) (WithLp.toLp 2 b)

private theorem len3_smul (k : ℝ) (a : Fin 3 → ℝ) : len3 (fun i => k * a i) = |k| * len3 a := by
  simp only [len3_toLp]
  exact norm_smul k (WithLp.toLp 2 a : EuclideanSpace ℝ (Fin 3))

/-- Sum of `f` with the weights. -/
private def ws (l : List (ℕ × ℝ)) (f : ℕ × ℝ → ℝ) : ℝ := (l.map fun kw => kw.2 * f kw).sum

private theorem ws_add (l : List (ℕ × ℝ)) (f g : ℕ × ℝ → ℝ) : ws l (fun k => f k + g k) = ws l f + ws l g := by
  induction l with
  | nil => simp [ws]
  | cons a l ih => simp only [ws, List.map_cons, List.sum_cons] at ih ⊢; rw [ih]; ring

private theorem ws_mul (l : List (ℕ × ℝ)) (a : ℝ) (f : ℕ × ℝ → ℝ) : ws l (fun k => a * f k) = a * ws l f := by
  induction l with
  | nil => simp [ws]
  | cons b l ih => simp only [ws, List.map_cons, List.sum_cons] at ih ⊢; rw [ih]; ring

private theorem ws_const (l : List (ℕ × ℝ)) (h : (l.map Prod.snd).sum = 1) (a : ℝ) : ws l (fun _ => a) = a := by
  have : ws l (fun _ => a) = a * (l.map Prod.snd).sum := by
    clear h
    induction l with
    | nil => simp [ws]
    | cons b l ih => simp only [ws, List.map_cons, List.sum_cons] at ih ⊢; rw [ih]; ring
  rw [this, h, mul_one]

private theorem ws_mono (l : List (ℕ × ℝ)) (hw : ∀ kw ∈ l, 0 ≤ kw.2) (f g : ℕ × ℝ → ℝ) (h : ∀ kw ∈ l, f kw ≤ g kw) :
    ws l f ≤ ws l g := by
  induction l with
  | nil => simp [ws]
  | cons a l ih =>
    have := ih (fun k hk => hw k (by simp [hk])) (fun k hk => h k (by simp [hk]))
    have h1 := mul_le_mul_of_nonneg_left (h a (by simp)) (hw a (by simp))
    simp only [ws, List.map_cons, List.sum_cons] at this ⊢
    linarith

private theorem ws_congr (l : List (ℕ × ℝ)) (f g : ℕ × ℝ → ℝ) (h : ∀ kw ∈ l, f kw = g kw) : ws l f = ws l g := by
  unfold ws
  congr 1
  apply List.map_congr_left
  intro k hk; rw [h k hk]

private theorem ws_len (l : List (ℕ × ℝ)) (hw : ∀ kw ∈ l, 0 ≤ kw.2) (g : ℕ × ℝ → Fin 3 → ℝ) :
    len3 (fun i => ws l fun k => g k i) ≤ ws l fun k => len3 (g k) := by
  induction l with
  | nil => simp [ws, len3]
  | cons a l ih =>
    have := ih (fun k hk => hw k (by simp [hk]))
    simp only [ws, List.map_cons, List.sum_cons] at this ⊢
    refine (len3_add (fun i => a.2 * g a i) _).trans ?_
    rw [len3_smul, abs_of_nonneg (hw a (by simp))]
    linarith

private theorem ws_bounds (l : List (ℕ × ℝ)) (hw : ∀ kw ∈ l, 0 ≤ kw.2) (h : (l.map Prod.snd).sum = 1) (f : ℕ × ℝ → ℝ) :
    (∃ a ∈ l, f a ≤ ws l f) ∧ ∃ b ∈ l, ws l f ≤ f b := by
  classical
  have hne : l.toFinset.Nonempty := by
    rw [List.toFinset_nonempty_iff]
    rintro rfl
    simp at h
  obtain ⟨a, ha, hamin⟩ := l.toFinset.exists_min_image f hne
  obtain ⟨b, hb, hbmax⟩ := l.toFinset.exists_max_image f hne
  refine ⟨⟨a, by simpa using ha, ?_⟩, b, by simpa using hb, ?_⟩
  · have := ws_mono l hw (fun _ => f a) f fun k hk => hamin k (by simpa using hk)
    rwa [ws_const l h] at this
  · have := ws_mono l hw f (fun _ => f b) fun k hk => hbmax k (by simpa using hk)
    rwa [ws_const l h] at this

private theorem ws_zero (l : List (ℕ × ℝ)) (hw : ∀ kw ∈ l, 0 ≤ kw.2) (f : ℕ × ℝ → ℝ) (hf : ∀ kw ∈ l, 0 ≤ f kw)
    (h : ws l f ≤ 0) : ∀ kw ∈ l, kw.2 * f kw = 0 := by
  induction l with
  | nil => simp
  | cons a l ih =>
    have h1 := mul_nonneg (hw a (by simp)) (hf a (by simp))
    have h2 : 0 ≤ ws l f := by
      have := ws_mono l (fun k hk => hw k (by simp [hk])) (fun _ => 0) f (fun k hk => hf k (by simp [hk]))
      have e : ws l (fun _ => 0) = 0 := by
        have := ws_mul l 0 (fun _ => 0); simpa using this
      linarith
    simp only [ws, List.map_cons, List.sum_cons] at h h2
    intro k hk
    rcases List.mem_cons.1 hk with rfl | hk
    · linarith
    · exact ih (fun k hk => hw k (by simp [hk])) (fun k hk => hf k (by simp [hk])) (by unfold ws; linarith) k hk

/-! ### Points and times -/

section
variable {pts : List ((Fin 3 → ℝ) × ℝ)}

private theorem corner_mem {k : ℕ} (h : k < (pts.map Prod.fst).length) :
    ((pts.map Prod.fst).getD k 0, (pts.map Prod.snd).getD k 0) ∈ pts := by
  rw [List.length_map] at h
  have e1 : (pts.map Prod.fst).getD k 0 = pts[k].1 := by simp [List.getD_eq_getElem?_getD, h]
  have e2 : (pts.map Prod.snd).getD k 0 = pts[k].2 := by simp [List.getD_eq_getElem?_getD, h]
  rw [e1, e2]
  exact List.getElem_mem h

private theorem rayTime_some {mesh : RayMesh (pts.map Prod.fst)} {p : Fin 3 → ℝ} {r : ℝ} (h : rayTime pts mesh p = some r) :
    ∃ l, mesh.find p = some l ∧ r = ws l fun kw => (pts.map Prod.snd).getD kw.1 0 := by
  unfold rayTime at h
  rw [Option.map_eq_some_iff] at h
  obtain ⟨l, h1, h2⟩ := h
  exact ⟨l, h1, h2.symm⟩

private theorem flowDistance_some {mesh : RayMesh (pts.map Prod.fst)} {p : Fin 3 → ℝ} {c r : ℝ}
    (h : flowDistance c pts mesh p = some r) : ∃ t, rayTime pts mesh p = some t ∧ r = c * t := by
  unfold flowDistance at h
  rw [Option.map_eq_some_iff] at h
  obtain ⟨t, h1, h2⟩ := h
  exact ⟨t, h1, h2.symm⟩

/-- A distance is never below the smallest and never above the greatest one on the rays: no extrapolation. -/
theorem C145_bounds (c : ℝ) (hc : 0 ≤ c) (mesh : RayMesh (pts.map Prod.fst)) (p : Fin 3 → ℝ) (r : ℝ)
    (h : flowDistance c pts mesh p = some r) :
    (∃ q ∈ pts, c * q.2 ≤ r) ∧ ∃ q ∈ pts, r ≤ c * q.2 := by
  obtain ⟨t, ht, rfl⟩ := flowDistance_some h
  obtain ⟨l, hl, rfl⟩ := rayTime_some ht
  obtain ⟨⟨a, ha, h1⟩, b, hb, h2⟩ := ws_bounds l (mesh.nonneg p l hl) (mesh.total p l hl)
    (fun kw => (pts.map Prod.snd).getD kw.1 0)
  exact ⟨⟨_, corner_mem (mesh.index p l hl a ha), mul_le_mul_of_nonneg_left h1 hc⟩,
    _, corner_mem (mesh.index p l hl b hb), mul_le_mul_of_nonneg_left h2 hc⟩

/-- On the rays the times are those of the rays (where rays meet, they must have the same times there). -/
theorem C145_on_rays (c : ℝ) (mesh : RayMesh (pts.map Prod.fst)) (hmesh : mesh.IsDelaunay) (y : Fin 3 → ℝ) (t : ℝ) (h : (y, t) ∈ pts)
    (hsame : ∀ t', (y, t') ∈ pts → t' = t) : flowDistance c pts mesh y = some (c * t) := by
  have hy : y ∈ pts.map Prod.fst := List.mem_map.2 ⟨_, h, rfl⟩
  cases hf : mesh.find y with
  | none => exact absurd (subset_convexHull ℝ {q | q ∈ pts.map Prod.fst} hy) ((mesh.outside y).1 hf)
  | some l =>
    have hw := mesh.nonneg y l hf
    have h1 := mesh.total y l hf
    obtain ⟨o, R, hR, hout⟩ := hmesh y l hf
    have hco : ∀ i, ws l (fun kw => (pts.map Prod.fst).getD kw.1 0 i) = y i := mesh.coord y l hf
    have hRy := hout y hy
    generalize hv : (fun kw : ℕ × ℝ => (pts.map Prod.fst).getD kw.1 0) = v at *
    have hv' : ∀ kw : ℕ × ℝ, (pts.map Prod.fst).getD kw.1 0 = v kw := fun kw => by rw [← hv]
    simp only [hv'] at hco hR
    have hsum : ws l (fun kw => (v kw 0 - y 0) ^ 2 + (v kw 1 - y 1) ^ 2 + (v kw 2 - y 2) ^ 2) ≤ 0 := by
      have e : ws l (fun kw => (v kw 0 - y 0) ^ 2 + (v kw 1 - y 1) ^ 2 + (v kw 2 - y 2) ^ 2) =
          ws l (fun kw => ((v kw 0 - o 0) ^ 2 + (v kw 1 - o 1) ^ 2 + (v kw 2 - o 2) ^ 2) +
            (2 * (o 0 - y 0) * v kw 0 + (2 * (o 1 - y 1) * v kw 1 + (2 * (o 2 - y 2) * v kw 2 +
              (y 0 ^ 2 + y 1 ^ 2 + y 2 ^ 2 - o 0 ^ 2 - o 1 ^ 2 - o 2 ^ 2))))) :=
        ws_congr _ _ _ fun kw _ => by ring
      have e2 : ws l (fun kw => (v kw 0 - o 0) ^ 2 + (v kw 1 - o 1) ^ 2 + (v kw 2 - o 2) ^ 2) = R := by
        rw [ws_congr l _ (fun _ => R) hR, ws_const l h1]
      rw [e, ws_add l (fun kw => (v kw 0 - o 0) ^ 2 + (v kw 1 - o 1) ^ 2 + (v kw 2 - o 2) ^ 2), e2, ws_add, ws_add, ws_add, ws_mul, ws_mul, ws_mul, ws_const l h1, hco, hco, hco]
      nlinarith
    have hz := ws_zero l hw _ (fun kw _ => by positivity) hsum
    have ht : ∀ kw ∈ l, kw.2 * (pts.map Prod.snd).getD kw.1 0 = kw.2 * t := by
      intro kw hkw
      rcases mul_eq_zero.1 (hz kw hkw) with h0 | h0
      · rw [h0]; simp
      · have hy' : v kw = y := by
          have s0 := sq_nonneg (v kw 0 - y 0)
          have s1 := sq_nonneg (v kw 1 - y 1)
          have s2 := sq_nonneg (v kw 2 - y 2)
          have a0 : (v kw 0 - y 0) ^ 2 = 0 := by linarith
          have a1 : (v kw 1 - y 1) ^ 2 = 0 := by linarith
          have a2 : (v kw 2 - y 2) ^ 2 = 0 := by linarith
          funext i
          fin_cases i
          · exact sub_eq_zero.1 (pow_eq_zero_iff (two_ne_zero) |>.1 a0)
          · exact sub_eq_zero.1 (pow_eq_zero_iff (two_ne_zero) |>.1 a1)
          · exact sub_eq_zero.1 (pow_eq_zero_iff (two_ne_zero) |>.1 a2)
        have := corner_mem (mesh.index y l hf kw hkw)
        rw [hv', hy'] at this
        rw [hsame _ this]
    have hr : (l.map fun kw => kw.2 * (pts.map Prod.snd).getD kw.1 0).sum = t := by
      rw [List.map_congr_left ht]
      exact ws_const l h1 t
    unfold flowDistance rayTime
    rw [hf]
    simp only [Option.map_some, hr]

/-- As `C145_uniform`, for any points with the right times. -/
private theorem uniform_aux (c : ℝ) (V x0 : Fin 3 → ℝ) (hV : len3 V < c) (hpts : ∀ q ∈ pts, IsTravelTime c V q.1 x0 q.2)
    (mesh : RayMesh (pts.map Prod.fst)) (p : Fin 3 → ℝ) (r T d : ℝ) (h : rayTime pts mesh p = some r)
    (hT : IsTravelTime c V p x0 T)
    (hd : ∀ l, mesh.find p = some l → ∀ kw ∈ l, len3 (fun i => (pts.map Prod.fst).getD kw.1 0 i - p i) ≤ d) :
    T ≤ r ∧ r ≤ T + d / (c - len3 V) := by
  obtain ⟨l, hf, rfl⟩ := rayTime_some h
  have hV0 : 0 ≤ len3 V := Real.sqrt_nonneg _
  have hw := mesh.nonneg p l hf
  have h1 := mesh.total p l hf
  have hco : ∀ i, ws l (fun kw => (pts.map Prod.fst).getD kw.1 0 i) = p i := mesh.coord p l hf
  have hk : ∀ kw ∈ l, IsTravelTime c V ((pts.map Prod.fst).getD kw.1 0) x0 ((pts.map Prod.snd).getD kw.1 0) :=
    fun kw hkw => hpts _ (corner_mem (mesh.index p l hf kw hkw))
  have hd' := hd l hf
  generalize hv : (fun kw : ℕ × ℝ => (pts.map Prod.fst).getD kw.1 0) = v at *
  generalize ht : (fun kw : ℕ × ℝ => (pts.map Prod.snd).getD kw.1 0) = t at *
  have hv' : ∀ kw : ℕ × ℝ, (pts.map Prod.fst).getD kw.1 0 = v kw := fun kw => by rw [← hv]
  have ht' : ∀ kw : ℕ × ℝ, (pts.map Prod.snd).getD kw.1 0 = t kw := fun kw => by rw [← ht]
  simp only [hv', ht'] at hco hk hd'
  have htri : ∀ a b : ℝ, ∀ p q : Fin 3 → ℝ, len3 (fun i => x0 i - (p i + a * V i)) ≤
      len3 (fun i => x0 i - (q i + b * V i)) + len3 (fun i => p i - q i) + |b - a| * len3 V := by
    intro a b p q
    have e : (fun i => x0 i - (p i + a * V i)) = fun i => ((x0 i - (q i + b * V i)) + (-1) * (p i - q i)) + (b - a) * V i := by
      funext i; ring
    rw [e]
    refine (len3_add _ _).trans ?_
    rw [len3_smul]
    have := len3_add (fun i => x0 i - (q i + b * V i)) (fun i => (-1) * (p i - q i))
    rw [len3_smul (-1) (fun i => p i - q i)] at this
    simp only [abs_neg, abs_one, one_mul] at this
    linarith
  constructor
  · by_contra hlt
    rw [not_le] at hlt
    have hle : len3 (fun i => x0 i - (p i + ws l t * V i)) ≤ c * ws l t := by
      have e : (fun i => x0 i - (p i + ws l t * V i)) = fun i => ws l fun kw => x0 i - (v kw i + t kw * V i) := by
        funext i
        have : ws l (fun kw => x0 i - (v kw i + t kw * V i)) = ws l (fun kw => x0 i + ((-1) * v kw i + (-V i) * t kw)) :=
          ws_congr _ _ _ fun kw _ => by ring
        rw [this, ws_add, ws_add, ws_mul, ws_mul, ws_const l h1, hco]
        ring
      rw [e, ← ws_mul]
      exact (ws_len l hw _).trans (ws_mono l hw _ _ fun kw hkw => (hk kw hkw).2.le)
    have := htri T (ws l t) p p
    rw [hT.2] at this
    have hz : len3 (fun i => p i - p i) = 0 := by simp [len3]
    rw [hz, abs_of_neg (by linarith)] at this
    nlinarith
  · have := ws_mono l hw t (fun _ => T + d / (c - len3 V)) fun kw hkw => by
      rcases le_or_gt (t kw) T with hle | hgt
      · have : 0 ≤ d := (Real.sqrt_nonneg _).trans (hd' kw hkw)
        have := div_nonneg this (sub_nonneg.2 hV.le)
        linarith
      · have h2 := htri (t kw) T (v kw) p
        rw [(hk kw hkw).2, hT.2, abs_of_neg (by linarith)] at h2
        have h3 := hd' kw hkw
        have : (t kw - T) ≤ d / (c - len3 V) := by
          rw [le_div_iff₀ (by linarith)]
          nlinarith
        linarith
    rwa [ws_const l h1] at this

end

/-! ### The loop over the rays -/

section
variable {simplices : List (Fin 3 → ℝ) → List ℕ} {roi : List (Fin 3 → ℝ)} {NN : ℕ}
  {trace : (Fin 3 → ℝ) → List ((Fin 3 → ℝ) × ℝ)}

private theorem loop_stop : ∀ (ns : List (Fin 3 → ℝ)) (i : ℕ) (acc : List ((Fin 3 → ℝ) × ℝ)),
    (rayLoop simplices roi NN trace i ns acc).2 = true →
      ∀ k ∈ simplices (roi ++ (rayLoop simplices roi NN trace i ns acc).1.map Prod.fst), roi.length ≤ k
  | [], _, _, h => by simp [rayLoop] at h
  | n :: ns, i, acc, h => by
    unfold rayLoop at h ⊢
    simp only at h ⊢
    by_cases hc : i ≠ 0 ∧ i % NN = 0 ∧ ∀ k ∈ simplices (roi ++ (acc ++ trace n).map Prod.fst), roi.length ≤ k
    · rw [if_pos hc]
      exact hc.2.2
    · rw [if_neg hc] at h ⊢
      exact loop_stop ns (i + 1) _ h

private theorem loop_mem : ∀ (ns : List (Fin 3 → ℝ)) (i : ℕ) (acc : List ((Fin 3 → ℝ) × ℝ)),
    ∀ q ∈ (rayLoop simplices roi NN trace i ns acc).1, q ∈ acc ∨ ∃ n ∈ ns, q ∈ trace n
  | [], _, _, q, h => Or.inl h
  | n :: ns, i, acc, q, h => by
    unfold rayLoop at h
    simp only at h
    split at h
    · rcases List.mem_append.1 h with h | h
      · exact Or.inl h
      · exact Or.inr ⟨n, by simp, h⟩
    · rcases loop_mem ns (i + 1) _ q h with h | ⟨m, hm, h⟩
      · rcases List.mem_append.1 h with h | h
        · exact Or.inl h
        · exact Or.inr ⟨n, by simp, h⟩
      · exact Or.inr ⟨m, by simp [hm], h⟩

private theorem loop_ends : ∀ (ns : List (Fin 3 → ℝ)) (i m : ℕ) (acc : List ((Fin 3 → ℝ) × ℝ)), i + m ≠ 0 → (i + m) % NN = 0 →
    m < ns.length →
    (∀ k ∈ simplices (roi ++ (acc ++ (ns.take (m + 1)).flatMap trace).map Prod.fst), roi.length ≤ k) →
    (rayLoop simplices roi NN trace i ns acc).2 = true
  | [], _, _, _, _, _, h, _ => by simp at h
  | n :: ns, i, m, acc, h0, hm, hlt, hc => by
    unfold rayLoop
    simp only
    split
    · rfl
    · rename_i hno
      cases m with
      | zero =>
        exact absurd ⟨h0, hm, by simpa using hc⟩ hno
      | succ m =>
        refine loop_ends ns (i + 1) m _ (by omega) (by rw [← hm]; congr 1; omega) (by simpa using hlt) ?_
        simpa [List.append_assoc] using hc

private theorem trace_mem (sol : ℕ → Option (Fin 3 → ℝ)) (x0 : Fin 3 → ℝ) (rmax dt : ℝ) :
    ∀ fuel j, ∀ q ∈ traceRay sol x0 rmax dt fuel j, ∃ k : ℕ, j ≤ k ∧ sol k = some q.1 ∧ q.2 = k * dt
  | 0, _, _, h => by simp [traceRay] at h
  | fuel + 1, j, q, h => by
    unfold traceRay at h
    split at h
    · simp at h
    · rename_i y hy
      split at h
      · simp only [List.mem_singleton] at h
        exact ⟨j, le_rfl, by rw [h, hy], by rw [h]⟩
      · rcases List.mem_cons.1 h with h | h
        · exact ⟨j, le_rfl, by rw [h, hy], by rw [h]⟩
        · obtain ⟨k, hk, h1, h2⟩ := trace_mem sol x0 rmax dt fuel (j + 1) q h
          exact ⟨k, by omega, h1, h2⟩

end

variable (simplices : List (Fin 3 → ℝ) → List ℕ) (N : ℕ) (Om c : ℝ) (fuel : ℕ)
  (sol : (Fin 3 → ℝ) → ℝ → ℕ → Option (Fin 3 → ℝ)) (roi : List (Fin 3 → ℝ)) (x0 : Fin 3 → ℝ)

/-- The points are points of rays with start directions of `spiral_sphere`, with the times of the ray. -/
theorem C145_points : ∀ q ∈ (rayPoints simplices N Om c fuel sol roi x0).1,
    ∃ n0 ∈ spiralSphere N Om fun i => roiMean roi i - x0 i, ∃ (dt : ℝ) (k : ℕ), dt = roiReach roi x0 / √N / c ∧
      sol n0 dt k = some q.1 ∧ q.2 = k * dt := by
  intro q hq
  rcases loop_mem _ _ _ q hq with h | ⟨n, hn, h⟩
  · simp at h
  · obtain ⟨k, _, h1, h2⟩ := trace_mem _ _ _ _ _ _ q h
    exact ⟨n, hn, _, k, rfl, h1, h2⟩

private theorem trace_reach (sol : ℕ → Option (Fin 3 → ℝ)) (x0 : Fin 3 → ℝ) (R dt : ℝ) : ∀ fuel j k : ℕ, j ≤ k → k < j + fuel →
    (∀ i < k, (sol i).isSome) → (∃ y, sol k = some y ∧ R < absVec fun i => y i - x0 i) →
    ∃ q ∈ traceRay sol x0 R dt fuel j, R < absVec fun i => q.1 i - x0 i
  | 0, j, k, h1, h2, _, _ => by omega
  | fuel + 1, j, k, h1, h2, hs, hy => by
    have hj : (sol j).isSome := by
      rcases Nat.lt_or_eq_of_le h1 with h | h
      · exact hs j h
      · obtain ⟨y, hy, _⟩ := hy
        rw [h, hy]
        rfl
    obtain ⟨z, hz⟩ := Option.isSome_iff_exists.1 hj
    unfold traceRay
    rw [hz]
    simp only
    by_cases hf : R < absVec fun i => z i - x0 i
    · rw [if_pos hf]
      exact ⟨(z, j * dt), by simp, hf⟩
    · rw [if_neg hf]
      have hjk : j ≠ k := by
        rintro rfl
        obtain ⟨y, hy, hlt⟩ := hy
        rw [hz] at hy
        rw [Option.some.inj hy] at hf
        exact hf hlt
      obtain ⟨q, hq, hlt⟩ := trace_reach sol x0 R dt fuel (j + 1) k (by omega) (by omega) hs hy
      exact ⟨q, by simp [hq], hlt⟩

private theorem loop_all {simplices : List (Fin 3 → ℝ) → List ℕ} {roi : List (Fin 3 → ℝ)} {NN : ℕ}
    {trace : (Fin 3 → ℝ) → List ((Fin 3 → ℝ) × ℝ)} : ∀ (ns : List (Fin 3 → ℝ)) (i : ℕ) (acc : List ((Fin 3 → ℝ) × ℝ)),
    (∀ q ∈ acc, q ∈ (rayLoop simplices roi NN trace i ns acc).1) ∧
    ((rayLoop simplices roi NN trace i ns acc).2 = false → ∀ n ∈ ns, ∀ q ∈ trace n, q ∈ (rayLoop simplices roi NN trace i ns acc).1) ∧
    (∀ n, ns.head? = some n → ∀ q ∈ trace n, q ∈ (rayLoop simplices roi NN trace i ns acc).1)
  | [], i, acc => ⟨fun q hq => hq, fun _ n hn => by simp at hn, fun n hn => by simp at hn⟩
  | n :: ns, i, acc => by
    obtain ⟨h1, h2, _⟩ := loop_all ns (i + 1) (acc ++ trace n)
    unfold rayLoop
    simp only
    split
    · exact ⟨fun q hq => by simp [hq], fun h => by simp at h, fun m hm q hq => by
        simp only [List.head?_cons, Option.some.injEq] at hm
        rw [hm]
        simp [hq]⟩
    · refine ⟨fun q hq => h1 q (by simp [hq]), fun h m hm q hq => ?_, fun m hm q hq => ?_⟩
      · rcases List.mem_cons.1 hm with rfl | hm
        · exact h1 q (by simp [hq])
        · exact h2 h m hm q hq
      · simp only [List.head?_cons, Option.some.injEq] at hm
        rw [← hm] at hq
        exact h1 q (by simp [hq])

private theorem le_foldr (l : List ℝ) : ∀ x ∈ l, x ≤ l.foldr max 0 := by
  induction l with
  | nil => simp
  | cons a l ih =>
    intro x hx
    rcases List.mem_cons.1 hx with rfl | hx
    · exact le_max_left _ _
    · exact (ih x hx).trans (le_max_right _ _)

private theorem foldr_le (l : List ℝ) (B : ℝ) (hB : 0 ≤ B) (h : ∀ x ∈ l, x ≤ B) : l.foldr max 0 ≤ B := by
  induction l with
  | nil => exact hB
  | cons a l ih => exact max_le (h a (by simp)) (ih fun x hx => h x (by simp [hx]))

/-- The rays are followed beyond the region of interest: if `B` is the greatest distance of its points, and a ray, followed
long enough in steps of length `B / √N`, leaves the ball of radius `2 B`, then the points that are used include one of this
ray that is farther away than the whole region (for the first ray, and for all of them if the search did not end early). -/
theorem C145_reach (hN : 0 < N) (n0 : Fin 3 → ℝ) (hn : n0 ∈ spiralSphere N Om fun i => roiMean roi i - x0 i)
    (hused : (rayPoints simplices N Om c fuel sol roi x0).2 = false ∨
      (spiralSphere N Om fun i => roiMean roi i - x0 i).head? = some n0)
    (B : ℝ) (hgr : IsGreatest {d | ∃ p ∈ roi, d = len3 fun i => p i - x0 i} B)
    (hray : ∃ k < fuel, (∀ j < k, (sol n0 (B / √N / c) j).isSome) ∧
      ∃ y, sol n0 (B / √N / c) k = some y ∧ 2 * B < len3 fun i => y i - x0 i) :
    ∃ q ∈ (rayPoints simplices N Om c fuel sol roi x0).1, (∃ k, sol n0 (B / √N / c) k = some q.1) ∧
      ∀ p ∈ roi, len3 (fun i => p i - x0 i) < len3 fun i => q.1 i - x0 i := by
  have hl : ∀ v : Fin 3 → ℝ, absVec v = len3 v := fun v => by unfold absVec len3; congr 1; ring
  have hroi : ∀ p ∈ roi, len3 (fun i => p i - x0 i) ≤ B := fun p hp => hgr.2 ⟨p, hp, rfl⟩
  have hB : 0 ≤ B := by
    obtain ⟨p, _, hp⟩ := hgr.1
    rw [hp]
    exact Real.sqrt_nonneg _
  have hreach : roiReach roi x0 ≤ B := by
    unfold roiReach
    rw [← Real.sqrt_sq hB]
    refine Real.sqrt_le_sqrt (foldr_le _ _ (by positivity) ?_)
    intro x hx
    obtain ⟨p, hp, rfl⟩ := List.mem_map.1 hx
    have := hroi p hp
    unfold len3 at this
    rw [← Real.sqrt_sq hB] at this
    have h2 := (Real.sqrt_le_sqrt_iff (by positivity)).1 this
    nlinarith
  have hreach' : ∀ p ∈ roi, len3 (fun i => p i - x0 i) ≤ roiReach roi x0 := by
    intro p hp
    unfold roiReach len3
    refine Real.sqrt_le_sqrt ?_
    refine le_trans (le_of_eq ?_) (le_foldr _ _ (List.mem_map.2 ⟨p, hp, rfl⟩))
    ring
  have hBeq : B = roiReach roi x0 := by
    obtain ⟨p, hp, he⟩ := hgr.1
    exact le_antisymm (by rw [he]; exact hreach' p hp) hreach
  subst hBeq
  have hR0 : 0 ≤ roiReach roi x0 := Real.sqrt_nonneg _
  have hN1 : (1 : ℝ) ≤ √N := by
    rw [Real.one_le_sqrt]
    exact_mod_cast hN
  have hstep : roiReach roi x0 / √N ≤ roiReach roi x0 := div_le_self hR0 hN1
  have hstep0 : 0 ≤ roiReach roi x0 / √N := div_nonneg hR0 (Real.sqrt_nonneg _)
  obtain ⟨k, hk, hs, y, hy, hlt⟩ := hray
  obtain ⟨q, hq, hfar⟩ := trace_reach (sol n0 (roiReach roi x0 / √N / c)) x0 (roiReach roi x0 + roiReach roi x0 / √N)
    (roiReach roi x0 / √N / c) fuel 0 k (by omega) (by omega) hs ⟨y, hy, by rw [hl]; linarith⟩
  obtain ⟨k', -, h1, -⟩ := trace_mem _ _ _ _ _ _ q hq
  refine ⟨q, ?_, ⟨k', h1⟩, ?_⟩
  · rcases hused with h | h
    · exact (loop_all _ _ _).2.1 h n0 hn q hq
    · exact (loop_all _ _ _).2.2 n0 h q hq
  · intro p hp
    have := hreach' p hp
    rw [hl] at hfar
    linarith

/-- If the tracing of rays ended early, there is a distance for every point of the region of interest: the points of the
rays enclose them. -/
theorem C145_covered (hull : HullOf simplices) (h : (rayPoints simplices N Om c fuel sol roi x0).2 = true) :
    ∀ p ∈ roi, ∀ mesh : RayMesh ((rayPoints simplices N Om c fuel sol roi x0).1.map Prod.fst),
      ∃ r, flowDistance c (rayPoints simplices N Om c fuel sol roi x0).1 mesh p = some r := by
  intro p hp mesh
  have hs := loop_stop _ _ _ h
  have hmem : p ∈ convexHull ℝ {q | q ∈ (rayPoints simplices N Om c fuel sol roi x0).1.map Prod.fst} := by
    refine convexHull_mono ?_ (hull.spans (roi ++ (rayPoints simplices N Om c fuel sol roi x0).1.map Prod.fst) p
      (by simp [hp]))
    rintro q ⟨k, hk, hq⟩
    have hle := hs k hk
    rw [List.getElem?_append_right hle] at hq
    exact List.mem_of_getElem? hq
  cases hf : mesh.find p with
  | none => exact absurd hmem ((mesh.outside p).1 hf)
  | some l =>
    unfold flowDistance rayTime
    rw [hf]
    exact ⟨_, rfl⟩

/-- The points of the first `m` rays. -/
def Spec.firstRays (N : ℕ) (Om c : ℝ) (fuel : ℕ) (sol : (Fin 3 → ℝ) → ℝ → ℕ → Option (Fin 3 → ℝ)) (roi : List (Fin 3 → ℝ))
    (x0 : Fin 3 → ℝ) (m : ℕ) : Set (Fin 3 → ℝ) :=
  {q | ∃ n0 ∈ (spiralSphere N Om fun i => roiMean roi i - x0 i).take m, ∃ t,
    (q, t) ∈ traceRay (sol n0 (roiReach roi x0 / √N / c)) x0 (roiReach roi x0 + roiReach roi x0 / √N)
      (roiReach roi x0 / √N / c) fuel 0}

/-- The tracing does end early if at one of the checks the points of the region of interest are within the hull of the
rays so far (and none of them is a corner of it). -/
theorem C145_ends (hull : HullOf simplices) (m : ℕ) (hO : 0 < Om) (hO4 : Om < 4 * π) (hb : roiMean roi ≠ x0) (h0 : m ≠ 0)
    (hm : m % N.sqrt = 0) (hlt : m < N)
    (hin : ∀ p ∈ roi, p ∈ convexHull ℝ (firstRays N Om c fuel sol roi x0 (m + 1)) ∧
      p ∉ (convexHull ℝ (firstRays N Om c fuel sol roi x0 (m + 1))).extremePoints ℝ) :
    (rayPoints simplices N Om c fuel sol roi x0).2 = true := by
  have hlen : (spiralSphere N Om fun i => roiMean roi i - x0 i).length = N :=
    (C37_directions N Om _ hO hO4 (fun h => hb (by funext i; have := congrFun h i; simpa [sub_eq_zero] using this))).1
  unfold rayPoints
  refine loop_ends _ 0 m [] (by simpa using h0) (by simpa using hm) (by rw [hlen]; exact hlt) ?_
  intro k hk
  by_contra hlt'
  rw [not_le] at hlt'
  set ys := ([] ++ ((spiralSphere N Om fun i => roiMean roi i - x0 i).take (m + 1)).flatMap
    fun n0 => traceRay (sol n0 (roiReach roi x0 / √N / c)) x0 (roiReach roi x0 + roiReach roi x0 / √N)
          (roiReach roi x0 / √N / c) fuel 0).map Prod.fst with hys
  have hq : (roi ++ ys)[k]? = some roi[k] := by
    rw [List.getElem?_append_left hlt', List.getElem?_eq_getElem hlt']
  have hext := hull.corner _ k hk _ hq
  have hset : firstRays N Om c fuel sol roi x0 (m + 1) ⊆ {q | q ∈ roi ++ ys} := by
    rintro q ⟨n0, hn, t, hq⟩
    refine List.mem_append_right _ ?_
    rw [hys]
    exact List.mem_map.2 ⟨(q, t), by simpa using ⟨n0, hn, hq⟩, rfl⟩
  obtain ⟨h1, h2⟩ := hin roi[k] (List.getElem_mem hlt')
  exact h2 (inter_extremePoints_subset_extremePoints_of_subset (convexHull_mono hset) ⟨h1, hext⟩)

/-- What is assumed about the convex hull can be had for all lists of points. -/
theorem C145_hull_exists : ∃ s, HullOf s := by
  classical
  refine ⟨fun pts => (List.range pts.length).filter fun k => ∃ q, pts[k]? = some q ∧
    q ∈ (convexHull ℝ {q | q ∈ pts}).extremePoints ℝ, ?_, ?_, ?_⟩
  · intro pts k hk
    simpa using (List.mem_filter.1 hk).1
  · intro pts p hp
    have hfin : {q : Fin 3 → ℝ | q ∈ pts}.Finite := List.finite_toSet pts
    have hkm := closure_convexHull_extremePoints (hfin.isCompact_convexHull ℝ) (convex_convexHull ℝ _)
    have hsub := extremePoints_convexHull_subset (𝕜 := ℝ) (A := {q : Fin 3 → ℝ | q ∈ pts})
    have hcl := ((hfin.subset hsub).isClosed_convexHull ℝ).closure_eq
    have hp' : p ∈ convexHull ℝ {q | q ∈ pts} := subset_convexHull ℝ _ hp
    rw [← hkm, hcl] at hp'
    refine convexHull_mono ?_ hp'
    intro q hq
    have hqm : q ∈ pts := hsub hq
    obtain ⟨k, hk, rfl⟩ := List.getElem_of_mem hqm
    refine ⟨k, ?_, List.getElem?_eq_getElem hk⟩
    rw [List.mem_filter]
    exact ⟨by simpa using hk, by simp only [decide_eq_true_eq]; exact ⟨_, List.getElem?_eq_getElem hk, hq⟩⟩
  · intro pts k hk q hq
    have := (List.mem_filter.1 hk).2
    simp only [decide_eq_true_eq] at this
    obtain ⟨q', h1, h2⟩ := this
    rw [hq] at h1
    cases h1
    exact h2

/-- The rays of a uniform flow (`C109_uniform`), exactly integrated. -/
def Spec.straightRays (c : ℝ) (V x0 : Fin 3 → ℝ) (n0 : Fin 3 → ℝ) (dt : ℝ) (j : ℕ) : Option (Fin 3 → ℝ) :=
  some fun i => x0 i + j * dt * (c * n0 i - V i)

private theorem step_nonneg (hc : 0 < c) : 0 ≤ roiReach roi x0 / √N / c :=
  div_nonneg (div_nonneg (Real.sqrt_nonneg _) (Real.sqrt_nonneg _)) hc.le

/-- In a uniform subsonic flow (`V = 0`: fluid at rest) with exactly integrated rays the distance is never less than the
true one, and the excess is bounded by the size of the simplex around the point. -/
theorem C145_uniform (V : Fin 3 → ℝ) (hV : len3 V < c) (hO : 0 < Om) (hO4 : Om < 4 * π) (hb : roiMean roi ≠ x0)
    (mesh : RayMesh ((rayPoints simplices N Om c fuel (straightRays c V x0) roi x0).1.map Prod.fst)) (p : Fin 3 → ℝ)
    (r T d : ℝ) (h : flowDistance c (rayPoints simplices N Om c fuel (straightRays c V x0) roi x0).1 mesh p = some r)
    (hT : IsTravelTime c V p x0 T)
    (hd : ∀ l, mesh.find p = some l → ∀ kw ∈ l,
      len3 (fun i => ((rayPoints simplices N Om c fuel (straightRays c V x0) roi x0).1.map Prod.fst).getD kw.1 0 i - p i) ≤ d) :
    c * T ≤ r ∧ r ≤ c * (T + d / (c - len3 V)) := by
  have hc : 0 < c := lt_of_le_of_lt (Real.sqrt_nonneg _) hV
  obtain ⟨t, ht, rfl⟩ := flowDistance_some h
  have := uniform_aux c V x0 hV ?_ mesh p t T d ht hT hd
  · exact ⟨mul_le_mul_of_nonneg_left this.1 hc.le, mul_le_mul_of_nonneg_left this.2 hc.le⟩
  · intro q hq
    obtain ⟨n0, hn, dt, k, hdt, h1, h2⟩ := C145_points _ _ _ _ _ _ _ _ q hq
    have hn1 : len3 n0 = 1 :=
      (C37_directions N Om _ hO hO4 (fun h => hb (by funext i; have := congrFun h i; simpa [sub_eq_zero] using this))).2.1 n0 hn
    have ht0 : 0 ≤ q.2 := by
      rw [h2, hdt]
      exact mul_nonneg (Nat.cast_nonneg k) (step_nonneg N c roi x0 hc)
    refine ⟨ht0, ?_⟩
    have e : q.1 = fun i => x0 i + q.2 * (c * n0 i - V i) := by
      have := h1
      simp only [straightRays, Option.some.injEq] at this
      rw [← this, h2]
    have e2 : (fun i => x0 i - (q.1 i + q.2 * V i)) = fun i => (-(c * q.2)) * n0 i := by
      funext i; rw [e]; ring
    rw [e2, len3_smul, hn1, abs_neg, abs_of_nonneg (mul_nonneg hc.le ht0), mul_one]

/-- In a fluid at rest a point of the region of interest that is seen from the microphone at a greater angle from the
middle ray than the cone of the solid angle `Om` allows has no distance (nan), however many rays are used. -/
theorem C145_cone_violated (hc : 0 < c) (hO : 0 < Om) (hO2 : Om ≤ 2 * π) (hb : roiMean roi ≠ x0) (a p : Fin 3 → ℝ)
    (ha : (spiralSphere N Om fun i => roiMean roi i - x0 i)[0]? = some a)
    (hp : inner3 (fun i => p i - x0 i) a < (1 - Om / (2 * π)) * len3 (fun i => p i - x0 i))
    (mesh : RayMesh ((rayPoints simplices N Om c fuel (straightRays c 0 x0) roi x0).1.map Prod.fst)) :
    flowDistance c (rayPoints simplices N Om c fuel (straightRays c 0 x0) roi x0).1 mesh p = none := by
  have hpi := Real.pi_pos
  have hdir := C37_directions N Om (fun i => roiMean roi i - x0 i) hO (by linarith)
    (fun h => hb (by funext i; have := congrFun h i; simpa [sub_eq_zero] using this))
  set κ := 1 - Om / (2 * π) with hκ
  have hκ0 : 0 ≤ κ := by
    rw [hκ, sub_nonneg, div_le_one (by linarith)]
    exact hO2
  have hconv : Convex ℝ {y : Fin 3 → ℝ | κ * len3 (fun i => y i - x0 i) ≤ inner3 (fun i => y i - x0 i) a} := by
    intro y hy z hz s t hs ht hst
    simp only [Set.mem_ofPred_eq] at hy hz ⊢
    have e : (fun i => (s • y + t • z) i - x0 i) = fun i => s * (y i - x0 i) + t * (z i - x0 i) := by
      funext i
      have : t = 1 - s := by linarith
      simp only [Pi.add_apply, Pi.smul_apply, smul_eq_mul, this]
      ring
    rw [e]
    have h1 := len3_add (fun i => s * (y i - x0 i)) (fun i => t * (z i - x0 i))
    rw [len3_smul s (fun i => y i - x0 i), len3_smul t (fun i => z i - x0 i), abs_of_nonneg hs, abs_of_nonneg ht] at h1
    have h2 : inner3 (fun i => s * (y i - x0 i) + t * (z i - x0 i)) a =
        s * inner3 (fun i => y i - x0 i) a + t * inner3 (fun i => z i - x0 i) a := by
      unfold inner3; ring
    rw [h2]
    have h3 := mul_le_mul_of_nonneg_left h1 hκ0
    have h4 := mul_le_mul_of_nonneg_left hy hs
    have h5 := mul_le_mul_of_nonneg_left hz ht
    nlinarith
  have hnot : p ∉ convexHull ℝ {q | q ∈ (rayPoints simplices N Om c fuel (straightRays c 0 x0) roi x0).1.map Prod.fst} := by
    intro hmem
    have := convexHull_min (s := {q | q ∈ (rayPoints simplices N Om c fuel (straightRays c 0 x0) roi x0).1.map Prod.fst}) ?_ hconv hmem
    · exact absurd hp (not_lt.2 this)
    · intro q hq
      obtain ⟨q', hq', rfl⟩ := List.mem_map.1 hq
      obtain ⟨n0, hn, dt, k, hdt, h1, -⟩ := C145_points _ _ _ _ _ _ _ _ q' hq'
      simp only [straightRays, Option.some.injEq] at h1
      have hs : 0 ≤ k * dt * c := by
        rw [hdt]
        exact mul_nonneg (mul_nonneg (Nat.cast_nonneg k) (step_nonneg N c roi x0 hc)) hc.le
      have e : (fun i => q'.1 i - x0 i) = fun i => (k * dt * c) * n0 i := by
        funext i; rw [← h1]; simp; ring
      simp only [Set.mem_ofPred_eq]
      rw [e, len3_smul, hdir.2.1 n0 hn, abs_of_nonneg hs]
      have h2 := hdir.2.2.2 n0 hn a ha
      have h3 : inner3 (fun i => (k * dt * c) * n0 i) a = (k * dt * c) * inner3 n0 a := by unfold inner3; ring
      rw [h3]
      nlinarith
  unfold flowDistance rayTime
  rw [(mesh.outside p).2 hnot]
  rfl

/-! ### Instances -/

private theorem mirror_pole (N : ℕ) (Om h : ℝ) (hh : 0 < h) :
    (spiralSphere (N + 1) Om ![0, 0, h])[0]? = some ![0, 0, 1] := by
  have e0 : spiralPoint (N + 1) Om 0 = ![0, 0, -1] := by
    unfold spiralPoint spiralH
    simp [spiralPhi]
  have en : normalize ![0, 0, h] = ![0, 0, 1] := by
    funext i
    fin_cases i <;> simp [normalize, Real.sqrt_mul_self hh.le, hh.ne']
  unfold spiralSphere
  simp only [e0, en]
  have hnot : ¬ √(dotp (fun i => (![0, 0, -1] : Fin 3 → ℝ) i - (![0, 0, 1] : Fin 3 → ℝ) i)
      fun i => (![0, 0, -1] : Fin 3 → ℝ) i - (![0, 0, 1] : Fin 3 → ℝ) i) < 1e-10 := by
    rw [not_lt]
    apply Real.le_sqrt_of_sq_le
    simp [dotp]
    norm_num
  rw [if_neg hnot, List.map_map, List.getElem?_map]
  have er : (List.range (N + 1))[0]? = some 0 := by simp
  rw [er]
  simp only [Option.map_some, Function.comp_apply, e0, Option.some.injEq]
  funext i
  fin_cases i <;> (simp [mirror, Matrix.mulVec, dotProduct, Fin.sum_univ_three, dotp]; try norm_num)

/-- The hypotheses of `C145_cone_violated` are met: four grid points 0.1 above the plane of the microphone, at the corners of
a square of side 2, with the default solid angle and any number of rays. -/
example (simplices : List (Fin 3 → ℝ) → List ℕ) (N fuel : ℕ) (mesh) :=
  C145_cone_violated simplices (N + 1) π 343 fuel [![1, 1, 1/10], ![1, -1, 1/10], ![-1, 1, 1/10], ![-1, -1, 1/10]] 0 (by norm_num)
    Real.pi_pos (by linarith [Real.pi_pos])
    (fun h => by have := congrFun h 2; simp [roiMean] at this; norm_num at this) ![0, 0, 1] ![1, 1, 1/10]
    (by
      have e : (fun i => roiMean [![1, 1, 1/10], ![1, -1, 1/10], ![-1, 1, 1/10], ![-1, -1, 1/10]] i - (0 : Fin 3 → ℝ) i) =
          ![0, 0, 1/10] := by
        funext i
        fin_cases i <;> simp [roiMean] <;> norm_num
      rw [e]
      exact mirror_pole N π _ (by norm_num))
    (by
      have e : (1 : ℝ) - π / (2 * π) = 1 / 2 := by field_simp [Real.pi_ne_zero]; norm_num
      rw [e]
      have : (1 : ℝ) ≤ len3 (fun i => (![1, 1, 1/10] : Fin 3 → ℝ) i - (0 : Fin 3 → ℝ) i) := by
        unfold len3
        apply Real.le_sqrt_of_sq_le
        simp
        norm_num
      simp [inner3] at this ⊢
      linarith)
    mesh

private theorem reach_one : roiReach [![0, 0, 1]] 0 = 1 := by simp [roiReach]

private theorem ray_up : firstRays 4 π 1 10 (straightRays 1 0 0) [![0, 0, 1]] 0 3 ⊇ {![0, 0, 1/2], ![0, 0, 3/2]} := by
  have e : (fun i => roiMean [![0, 0, 1]] i - (0 : Fin 3 → ℝ) i) = ![0, 0, 1] := by
    funext i
    fin_cases i <;> simp [roiMean]
  have hdir : ![0, 0, 1] ∈ (spiralSphere 4 π ![0, 0, 1]).take 3 := by
    have := mirror_pole 3 π 1 one_pos
    refine List.mem_of_getElem? (i := 0) ?_
    rw [List.getElem?_take_of_lt (by norm_num)]
    exact this
  have h4 : √((4 : ℕ) : ℝ) = 2 := by
    rw [show ((4 : ℕ) : ℝ) = 2 ^ 2 by norm_num]
    exact Real.sqrt_sq (by norm_num)
  have habs : ∀ h : ℝ, 0 ≤ h → absVec (fun i => (![0, 0, h] : Fin 3 → ℝ) i - (0 : Fin 3 → ℝ) i) = h := by
    intro h hh
    simp [absVec, Real.sqrt_mul_self hh]
  have hsol : ∀ j : ℕ, straightRays 1 0 0 ![0, 0, 1] (1 / 2 / 1) j = some ![0, 0, (j : ℝ) * (1 / 2)] := by
    intro j
    simp only [straightRays, Option.some.injEq]
    funext i
    fin_cases i <;> simp
  have htr : ∀ j : ℕ, j ≤ 3 → ∀ fuel, 4 ≤ fuel + j →
      (![0, 0, ((3 : ℕ) : ℝ) * (1 / 2)], ((3 : ℕ) : ℝ) * (1 / 2 / 1)) ∈
        traceRay (straightRays 1 0 0 ![0, 0, 1] (1 / 2 / 1)) 0 (1 + 1 / 2) (1 / 2 / 1) fuel j ∧
      (j ≤ 1 → (![0, 0, ((1 : ℕ) : ℝ) * (1 / 2)], ((1 : ℕ) : ℝ) * (1 / 2 / 1)) ∈
        traceRay (straightRays 1 0 0 ![0, 0, 1] (1 / 2 / 1)) 0 (1 + 1 / 2) (1 / 2 / 1) fuel j) := by
    intro j hj
    induction h : 3 - j generalizing j with
    | zero =>
      intro fuel hf
      obtain rfl : j = 3 := by omega
      obtain ⟨f, rfl⟩ : ∃ f, fuel = f + 1 := ⟨fuel - 1, by omega⟩
      refine ⟨?_, fun h => absurd h (by norm_num)⟩
      unfold traceRay
      rw [hsol]
      simp only
      split <;> simp
    | succ k ih =>
      intro fuel hf
      obtain ⟨f, rfl⟩ : ∃ f, fuel = f + 1 := ⟨fuel - 1, by omega⟩
      have hj3 : j < 3 := by omega
      have hno : ¬ (1 + 1 / 2 < absVec (fun i => (![0, 0, (j : ℝ) * (1 / 2)] : Fin 3 → ℝ) i - (0 : Fin 3 → ℝ) i)) := by
        rw [habs _ (by positivity), not_lt]
        have : (j : ℝ) ≤ 3 := by exact_mod_cast hj
        linarith
      have := ih (j + 1) (by omega) (by omega) f (by omega)
      unfold traceRay
      rw [hsol]
      simp only [hno, if_false]
      refine ⟨List.mem_cons_of_mem _ this.1, fun h1 => ?_⟩
      rcases Nat.lt_or_ge j 1 with h0 | h0
      · exact List.mem_cons_of_mem _ (this.2 (by omega))
      · obtain rfl : j = 1 := by omega
        simp
  have := htr 0 (by norm_num) 10 (by norm_num)
  intro q hq
  refine ⟨![0, 0, 1], by rw [e]; exact hdir, ?_⟩
  rw [reach_one, h4]
  rcases hq with rfl | hq
  · have h1 := this.2 (by norm_num)
    have e1 : ((1 : ℕ) : ℝ) * (1 / 2) = 1 / 2 := by norm_num
    rw [e1] at h1
    exact ⟨_, h1⟩
  · rw [Set.mem_singleton_iff] at hq
    subst hq
    have h1 := this.1
    have e1 : ((3 : ℕ) : ℝ) * (1 / 2) = 3 / 2 := by norm_num
    rw [e1] at h1
    exact ⟨_, h1⟩

/-- The hypotheses of `C145_reach` are met: four rays in a fluid at rest, two grid points on the middle one, the second one
farther away. -/
example (simplices) : ∃ q ∈ (rayPoints simplices 4 π 1 10 (straightRays 1 0 0) [![0, 0, 1], ![0, 0, 3]] 0).1,
    3 < len3 fun i => q.1 i - (0 : Fin 3 → ℝ) i := by
  have hm : (fun i => roiMean [![0, 0, 1], ![0, 0, 3]] i - (0 : Fin 3 → ℝ) i) = ![0, 0, 2] := by
    funext i
    fin_cases i <;> simp [roiMean]
    norm_num
  have hpole : (spiralSphere 4 π ![0, 0, 2])[0]? = some ![0, 0, 1] := mirror_pole 3 π 2 two_pos
  have h4 : √((4 : ℕ) : ℝ) = 2 := by
    rw [show ((4 : ℕ) : ℝ) = 2 ^ 2 by norm_num]
    exact Real.sqrt_sq (by norm_num)
  have hlen : ∀ h : ℝ, 0 ≤ h → len3 (fun i => (![0, 0, h] : Fin 3 → ℝ) i - (0 : Fin 3 → ℝ) i) = h := by
    intro h hh
    simp [len3, Real.sqrt_sq hh]
  have hsol : ∀ j : ℕ, straightRays 1 0 0 ![0, 0, 1] (3 / √((4 : ℕ) : ℝ) / 1) j = some ![0, 0, (j : ℝ) * (3 / 2)] := by
    intro j
    rw [h4]
    simp only [straightRays, Option.some.injEq]
    funext i
    fin_cases i <;> simp
  obtain ⟨q, hq, -, h⟩ := C145_reach simplices 4 π 1 10 (straightRays 1 0 0) [![0, 0, 1], ![0, 0, 3]] 0 (by norm_num) ![0, 0, 1]
    (by rw [hm]; exact List.mem_of_getElem? hpole) (Or.inr (by rw [hm, List.head?_eq_getElem?]; exact hpole)) 3 (by
      constructor
      · exact ⟨![0, 0, 3], by simp, (hlen 3 (by norm_num)).symm⟩
      · rintro d ⟨p, hp, rfl⟩
        simp only [List.mem_cons, List.not_mem_nil, or_false] at hp
        rcases hp with rfl | rfl
        · rw [hlen 1 (by norm_num)]; norm_num
        · rw [hlen 3 (by norm_num)])
    ⟨5, by norm_num, fun j _ => by rw [hsol]; rfl, _, hsol 5, by rw [hlen _ (by positivity)]; norm_num⟩
  refine ⟨q, hq, ?_⟩
  have := h ![0, 0, 3] (by simp)
  rwa [hlen 3 (by norm_num)] at this

/-- The hypotheses of `C145_ends` and `C145_covered` are met: four rays in a fluid at rest, a grid point on the middle one. -/
private theorem ends_example (simplices) (hull : HullOf simplices) :
    (rayPoints simplices 4 π 1 10 (straightRays 1 0 0) [![0, 0, 1]] 0).2 = true := by
  refine C145_ends simplices 4 π 1 10 _ _ 0 hull 2 Real.pi_pos (by linarith [Real.pi_pos])
    (fun h => by have := congrFun h 2; simp [roiMean] at this) (by norm_num) (by
      have : Nat.sqrt 4 = 2 := Nat.sqrt_eq 2
      rw [this]) (by norm_num) ?_
  intro p hp
  rw [List.mem_singleton] at hp
  subst hp
  have ha := subset_convexHull ℝ _ (ray_up (Set.mem_insert _ _))
  have hb := subset_convexHull ℝ _ (ray_up (Set.mem_insert_of_mem _ (Set.mem_singleton _)))
  have hseg : (![0, 0, 1] : Fin 3 → ℝ) ∈ openSegment ℝ ![0, 0, 1/2] ![0, 0, 3/2] := by
    refine ⟨1/2, 1/2, by norm_num, by norm_num, by norm_num, ?_⟩
    funext i
    fin_cases i <;> simp <;> norm_num
  refine ⟨(convex_convexHull ℝ _).openSegment_subset ha hb hseg, fun hext => ?_⟩
  have := (mem_extremePoints.1 hext).2 _ ha _ hb hseg
  have h2 := congrFun this.1 2
  simp at h2

/-- A tetrahedron meets what is assumed about the triangulation. -/
private theorem tetra_hull (p : Fin 3 → ℝ) :
    p ∈ convexHull ℝ {q : Fin 3 → ℝ | q ∈ [![0, 0, 0], ![1, 0, 0], ![0, 1, 0], ![0, 0, 1]]} ↔
      0 ≤ p 0 ∧ 0 ≤ p 1 ∧ 0 ≤ p 2 ∧ p 0 + p 1 + p 2 ≤ 1 := by
  constructor
  · intro h
    have hconv : Convex ℝ {p : Fin 3 → ℝ | 0 ≤ p 0 ∧ 0 ≤ p 1 ∧ 0 ≤ p 2 ∧ p 0 + p 1 + p 2 ≤ 1} := by
      rintro x ⟨x0, x1, x2, x3⟩ y ⟨y0, y1, y2, y3⟩ a b ha hb hab
      simp only [Set.mem_ofPred_eq, Pi.add_apply, Pi.smul_apply, smul_eq_mul]
      refine ⟨by positivity, by positivity, by positivity, ?_⟩
      nlinarith [mul_le_mul_of_nonneg_left x3 ha, mul_le_mul_of_nonneg_left y3 hb]
    exact convexHull_min (by
      intro q hq
      simp only [Set.mem_ofPred_eq, List.mem_cons, List.not_mem_nil, or_false] at hq
      rcases hq with rfl | rfl | rfl | rfl <;> simp) hconv h
  · rintro ⟨h0, h1, h2, h3⟩
    have hc := convex_convexHull ℝ {q : Fin 3 → ℝ | q ∈ [![0, 0, 0], ![1, 0, 0], ![0, 1, 0], ![0, 0, 1]]}
    have := hc.sum_mem (t := Finset.univ) (w := ![1 - p 0 - p 1 - p 2, p 0, p 1, p 2])
      (z := ![![0, 0, 0], ![1, 0, 0], ![0, 1, 0], ![0, 0, 1]])
      (by intro i _; fin_cases i <;> simp <;> linarith) (by simp [Fin.sum_univ_four]; ring)
      (by intro i _; apply subset_convexHull; fin_cases i <;> simp)
    have e : ∑ i, (![1 - p 0 - p 1 - p 2, p 0, p 1, p 2] : Fin 4 → ℝ) i •
        (![![0, 0, 0], ![1, 0, 0], ![0, 1, 0], ![0, 0, 1]] : Fin 4 → Fin 3 → ℝ) i = p := by
      funext i
      fin_cases i <;> simp [Fin.sum_univ_four]
    rwa [e] at this

/-- The triangulation of the corners of a tetrahedron. -/
noncomputable def tetraMesh : RayMesh [![0, 0, 0], ![1, 0, 0], ![0, 1, 0], ![0, 0, 1]] where
  find p := open Classical in
    if 0 ≤ p 0 ∧ 0 ≤ p 1 ∧ 0 ≤ p 2 ∧ p 0 + p 1 + p 2 ≤ 1 then
      some [(0, 1 - p 0 - p 1 - p 2), (1, p 0), (2, p 1), (3, p 2)]
    else none
  outside p := by rw [tetra_hull]; split <;> simp_all
  index p l h := by
    split at h <;> simp at h
    subst h; simp
  nonneg p l h := by
    split at h <;> simp at h
    rename_i h'
    subst h; simp; exact ⟨by linarith, h'.1, h'.2.1, h'.2.2.1⟩
  total p l h := by
    split at h <;> simp at h
    subst h; simp; ring
  coord p l h i := by
    split at h <;> simp at h
    subst h; fin_cases i <;> simp

private theorem tetraMesh_delaunay : tetraMesh.IsDelaunay := by
  intro p l h
  simp only [tetraMesh] at h
  split at h <;> simp at h
  subst h
  refine ⟨![1/2, 1/2, 1/2], 3/4, ?_, ?_⟩
  · simp; norm_num
  · simp; norm_num

/-- There is a mesh for all points: -/
private theorem mesh_exists (pts : List (Fin 3 → ℝ)) : Nonempty (RayMesh pts) := by
  classical
  have hx : ∀ p : Fin 3 → ℝ, ∃ o : Option (List (ℕ × ℝ)), (o = none ↔ p ∉ convexHull ℝ {q | q ∈ pts}) ∧
      ∀ l, o = some l → (∀ kw ∈ l, kw.1 < pts.length) ∧ (∀ kw ∈ l, 0 ≤ kw.2) ∧ (l.map Prod.snd).sum = 1 ∧
        ∀ i, (l.map fun kw => kw.2 * pts.getD kw.1 0 i).sum = p i := by
    intro p
    by_cases hp : p ∈ convexHull ℝ {q | q ∈ pts}
    · have hp' := hp
      rw [convexHull_eq] at hp'
      obtain ⟨ι, t, w, z, hw, hw1, hz, rfl⟩ := hp'
      have hk : ∀ i, ∃ k, i ∈ t → ∃ h : k < pts.length, pts[k] = z i := by
        intro i
        by_cases hi : i ∈ t
        · obtain ⟨k, hk, e⟩ := List.getElem_of_mem (hz i hi)
          exact ⟨k, fun _ => ⟨hk, e⟩⟩
        · exact ⟨0, fun h => absurd h hi⟩
      choose κ hκ using hk
      refine ⟨some (t.toList.map fun i => (κ i, w i)), by simp [hp], ?_⟩
      intro l hl
      obtain rfl := Option.some.inj hl
      refine ⟨?_, ?_, ?_, ?_⟩
      · intro kw hkw
        obtain ⟨i, hi, rfl⟩ := List.mem_map.1 hkw
        exact (hκ i (by simpa using hi)).1
      · intro kw hkw
        obtain ⟨i, hi, rfl⟩ := List.mem_map.1 hkw
        exact hw i (by simpa using hi)
      · rw [List.map_map]
        simpa [Function.comp_def] using hw1
      · intro j
        rw [List.map_map, Finset.centerMass_eq_of_sum_1 _ _ hw1]
        simp only [Function.comp_def, Finset.sum_apply, Pi.smul_apply, smul_eq_mul]
        rw [Finset.sum_map_toList]
        refine Finset.sum_congr rfl fun i hi => ?_
        obtain ⟨h1, h2⟩ := hκ i hi
        simp [List.getD_eq_getElem?_getD, h1, h2]
    · exact ⟨none, by simp [hp], by simp⟩
  choose f hf using hx
  exact ⟨⟨f, fun p => (hf p).1, fun p l h => ((hf p).2 l h).1, fun p l h => ((hf p).2 l h).2.1,
    fun p l h => ((hf p).2 l h).2.2.1, fun p l h => ((hf p).2 l h).2.2.2⟩⟩

/-- The hypotheses of `C145_bounds` and `C145_on_rays` are met: -/
example := C145_on_rays (pts := [(![0, 0, 0], 0), (![1, 0, 0], 1), (![0, 1, 0], 1), (![0, 0, 1], 1)]) 343 tetraMesh tetraMesh_delaunay ![0, 1, 0] 1
  (by simp) (by simp)
example := C145_bounds (pts := [(![0, 0, 0], 0), (![1, 0, 0], 1), (![0, 1, 0], 1), (![0, 0, 1], 1)]) 343 (by norm_num) tetraMesh
  ![1/3, 1/3, 0] (343 * (2/3)) (by
    simp [flowDistance, rayTime, tetraMesh]
    norm_num)

/-- The hypotheses of `C145_covered` and `C145_uniform` are met: four rays in a fluid at rest, the distance of a grid point on the
middle ray. -/
example : ∃ (simplices : _) (mesh : RayMesh ((rayPoints simplices 4 π 1 10 (straightRays 1 0 0) [![0, 0, 1]] 0).1.map Prod.fst))
    (r : ℝ), flowDistance 1 (rayPoints simplices 4 π 1 10 (straightRays 1 0 0) [![0, 0, 1]] 0).1 mesh ![0, 0, 1] = some r ∧ 1 ≤ r := by
  obtain ⟨simplices, hull⟩ := C145_hull_exists
  obtain ⟨mesh⟩ := mesh_exists ((rayPoints simplices 4 π 1 10 (straightRays 1 0 0) [![0, 0, 1]] 0).1.map Prod.fst)
  obtain ⟨r, hr⟩ := C145_covered simplices 4 π 1 10 _ _ 0 hull (ends_example simplices hull) ![0, 0, 1] (by simp) mesh
  refine ⟨simplices, mesh, r, hr, ?_⟩
  obtain ⟨t, ht, -⟩ := flowDistance_some hr
  obtain ⟨l, hl, -⟩ := rayTime_some ht
  have := C145_uniform simplices 4 π 1 10 [![0, 0, 1]] 0 0 (by simp [len3]) Real.pi_pos (by linarith [Real.pi_pos])
    (fun h => by have := congrFun h 2; simp [roiMean] at this) mesh ![0, 0, 1] r 1
    ((l.map fun kw => len3 (fun i => ((rayPoints simplices 4 π 1 10 (straightRays 1 0 0) [![0, 0, 1]] 0).1.map Prod.fst).getD
      kw.1 0 i - (![0, 0, 1] : Fin 3 → ℝ) i)).sum) hr ⟨zero_le_one, by simp [len3]⟩ (by
      intro l' hl' kw hkw
      obtain rfl : l = l' := Option.some.inj (hl ▸ hl')
      exact List.single_le_sum (by
        intro x hx
        obtain ⟨k, -, rfl⟩ := List.mem_map.1 hx
        exact Real.sqrt_nonneg _) _ (List.mem_map.2 ⟨kw, hkw, rfl⟩))
  simpa using this.1

end Acoular
