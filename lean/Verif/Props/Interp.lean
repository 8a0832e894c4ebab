import Verif.Model.Interp
import Verif.Lemmas.Stream
import Mathlib.Tactic.Linarith
import Mathlib.Tactic.FieldSimp
import Mathlib.Tactic.Ring
import Mathlib.Tactic.LinearCombination
import Mathlib.Tactic.Positivity

/-!
# C98, C99, C100: interpolation for rotating arrays
-/

set_option linter.unusedSectionVars false

namespace Acoular

/-- The same angle: a difference of whole periods. -/
def Spec.SameAngle {K : Type*} [Field K] (period x y : K) : Prop := ∃ k : ℤ, x = y + k * period

open Spec

section Field

variable {K : Type*} [Field K] [LinearOrder K] [IsStrictOrderedRing K]

theorem interpLin_mem : ∀ (l : List (K × K)), l.Pairwise (fun p q => p.1 < q.1) → ∀ a f, (a, f) ∈ l → interpLin l a = some f
  | [], _, _, _, h => absurd h (by simp)
  | [(b, g)], _, a, f, h => by
    have : a = b ∧ f = g := by simpa using h
    obtain ⟨rfl, rfl⟩ := this
    simp [interpLin]
  | (b, g) :: (c, e) :: r, hp, a, f, h => by
    have h1 := List.pairwise_cons.1 hp
    have hbc : b < c := h1.1 (c, e) (by simp)
    unfold interpLin
    rcases List.mem_cons.1 h with h | h
    · have : a = b ∧ f = g := by simpa using h
      obtain ⟨rfl, rfl⟩ := this
      rw [if_neg (lt_irrefl _), if_pos hbc]
      simp
    · have hca : c ≤ a := by
        rcases List.mem_cons.1 h with h | h
        · have : a = c ∧ f = e := by simpa using h
          exact this.1.ge
        · exact ((List.pairwise_cons.1 h1.2).1 _ h).le
      rw [if_neg (by linarith [hbc, hca] : ¬ a < b), if_neg (not_lt.2 hca)]
      exact interpLin_mem _ h1.2 a f h

theorem interpLin_between : ∀ (l : List (K × K)), l.Pairwise (fun p q => p.1 < q.1) → ∀ a fa b fb x, (a, fa) ∈ l →
    (b, fb) ∈ l → (∀ q ∈ l, ¬(a < q.1 ∧ q.1 < b)) → a ≤ x → x < b →
    interpLin l x = some ((fb - fa) / (b - a) * (x - a) + fa)
  | [], _, _, _, _, _, _, h, _, _, _, _ => absurd h (by simp)
  | [(c, e)], _, a, fa, b, fb, x, ha, hb, _, h1, h2 => by
    have h3 : a = c ∧ fa = e := by simpa using ha
    have h4 : b = c ∧ fb = e := by simpa using hb
    exfalso
    rw [h3.1] at h1; rw [h4.1] at h2
    exact absurd h1 (not_le.2 h2)
  | (c, e) :: (d, g) :: r, hp, a, fa, b, fb, x, ha, hb, hno, h1, h2 => by
    have hp1 := List.pairwise_cons.1 hp
    have hcd : c < d := hp1.1 (d, g) (by simp)
    have hab : a < b := h1.trans_lt h2
    have hbt : (b, fb) ∈ (d, g) :: r := by
      rcases List.mem_cons.1 hb with h | h
      · have h' : b = c ∧ fb = e := by simpa using h
        have : c ≤ a := by
          rcases List.mem_cons.1 ha with h | h
          · have : a = c ∧ fa = e := by simpa using h
            exact this.1.ge
          · exact (hp1.1 _ h).le
        rw [h'.1] at hab
        exact absurd hab (not_lt.2 this)
      · exact h
    unfold interpLin
    rcases List.mem_cons.1 ha with h | h
    · have h' : a = c ∧ fa = e := by simpa using h
      obtain ⟨rfl, rfl⟩ := h'
      have hdb : (b, fb) = (d, g) := by
        rcases List.mem_cons.1 hbt with h | h
        · exact h
        · have : d < b := (List.pairwise_cons.1 hp1.2).1 _ h
          exact absurd ⟨hcd, this⟩ (hno (d, g) (by simp))
      have : b = d ∧ fb = g := by simpa using hdb
      obtain ⟨rfl, rfl⟩ := this
      rw [if_neg (not_lt.2 h1), if_pos h2]
    · have hda : d ≤ a := by
        rcases List.mem_cons.1 h with h | h
        · have : a = d ∧ fa = g := by simpa using h
          exact this.1.ge
        · exact ((List.pairwise_cons.1 hp1.2).1 _ h).le
      rw [if_neg (not_lt.2 (by linarith)), if_neg (not_lt.2 (hda.trans h1))]
      exact interpLin_between _ hp1.2 a fa b fb x h hbt (fun q hq => hno q (List.mem_cons_of_mem _ hq)) h1 h2

/-- Between two bounds stays between two bounds. -/
theorem interpLin_bound (lo hi : K) : ∀ (l : List (K × K)), l.Pairwise (fun p q => p.1 < q.1) → (∀ q ∈ l, lo ≤ q.2 ∧ q.2 ≤ hi) →
    ∀ x, (∃ q, l.head? = some q ∧ q.1 ≤ x) → (∃ q, l.getLast? = some q ∧ x ≤ q.1) →
      ∃ y, interpLin l x = some y ∧ lo ≤ y ∧ y ≤ hi
  | [], _, _, _, h, _ => by obtain ⟨q, h, _⟩ := h; simp at h
  | [(a, f)], _, hb, x, h1, h2 => by
    obtain ⟨q, hq, h1⟩ := h1
    obtain ⟨q', hq', h2⟩ := h2
    simp only [List.head?_cons, List.getLast?_singleton, Option.some.injEq] at hq hq'
    subst hq; subst hq'
    have : x = a := le_antisymm h2 h1
    exact ⟨f, by simp [interpLin, this], hb (a, f) (by simp)⟩
  | (a, fa) :: (b, fb) :: r, hp, hb, x, h1, h2 => by
    obtain ⟨q, hq, h1⟩ := h1
    simp only [List.head?_cons, Option.some.injEq] at hq
    subst hq
    have hp1 := List.pairwise_cons.1 hp
    have hab : a < b := hp1.1 (b, fb) (by simp)
    unfold interpLin
    rw [if_neg (not_lt.2 h1)]
    split
    · rename_i hx
      have ha := hb (a, fa) (by simp)
      have hb' := hb (b, fb) (by simp)
      refine ⟨_, rfl, ?_⟩
      have hd : 0 < b - a := sub_pos.2 hab
      have h1' : a ≤ x := h1
      have e : (fb - fa) / (b - a) * (x - a) + fa = (fa * (b - x) + fb * (x - a)) / (b - a) := by
        field_simp; ring
      rw [e]
      constructor
      · rw [le_div_iff₀ hd]
        nlinarith [mul_le_mul_of_nonneg_right ha.1 (sub_nonneg.2 hx.le), mul_le_mul_of_nonneg_right hb'.1 (sub_nonneg.2 h1')]
      · rw [div_le_iff₀ hd]
        nlinarith [mul_le_mul_of_nonneg_right ha.2 (sub_nonneg.2 hx.le), mul_le_mul_of_nonneg_right hb'.2 (sub_nonneg.2 h1')]
    · rename_i hx
      refine interpLin_bound lo hi _ hp1.2 (fun q hq => hb q (List.mem_cons_of_mem _ hq)) x
        ⟨(b, fb), rfl, not_lt.1 hx⟩ ?_
      simpa using h2

theorem sortPairs_perm {β : Type*} (l : List (K × β)) : (sortPairs l).Perm l := List.perm_insertionSort _ _

theorem sortPairs_sorted {β : Type*} (l : List (K × β)) : (sortPairs l).Pairwise (fun p q => p.1 ≤ q.1) := by
  have : Std.Total fun p q : K × β => p.1 ≤ q.1 := ⟨fun a b => le_total _ _⟩
  have : IsTrans (K × β) fun p q => p.1 ≤ q.1 := ⟨fun _ _ _ h1 h2 => le_trans h1 h2⟩
  exact List.pairwise_insertionSort _ _

theorem sortPairs_strict {β : Type*} (l : List (K × β)) (h : (l.map Prod.fst).Nodup) :
    (sortPairs l).Pairwise (fun p q => p.1 < q.1) := by
  have h1 := sortPairs_sorted l
  have h2 : ((sortPairs l).map Prod.fst).Nodup := ((sortPairs_perm l).map _).nodup_iff.2 h
  rw [List.Nodup, List.pairwise_map] at h2
  exact (h1.and h2).imp fun h => lt_of_le_of_ne h.1 h.2

variable [FloorRing K]

theorem pyFmod_range (x : K) {p : K} (hp : 0 < p) : 0 ≤ pyFmod x p ∧ pyFmod x p < p := by
  unfold pyFmod
  have h1 := Int.floor_le (x / p)
  have h2 := Int.lt_floor_add_one (x / p)
  rw [le_div_iff₀ hp] at h1
  rw [div_lt_iff₀ hp] at h2
  constructor <;> linarith

theorem pyFmod_same (x p : K) : SameAngle p x (pyFmod x p) := ⟨⌊x / p⌋, by unfold pyFmod; ring⟩

theorem Spec.SameAngle.symm {p x y : K} (h : SameAngle p x y) : SameAngle p y x := by
  obtain ⟨k, rfl⟩ := h; exact ⟨-k, by push_cast; ring⟩

theorem Spec.SameAngle.trans {p x y z : K} (h : SameAngle p x y) (h2 : SameAngle p y z) : SameAngle p x z := by
  obtain ⟨k, rfl⟩ := h; obtain ⟨m, rfl⟩ := h2; exact ⟨m + k, by push_cast; ring⟩

/-- Two equal angles less than a period apart are equal. -/
theorem sameAngle_eq {p x y : K} (hp : 0 < p) (h : SameAngle p x y) (h1 : x - y < p) (h2 : y - x < p) : x = y := by
  obtain ⟨k, rfl⟩ := h
  have h3 : (k : K) < 1 := by
    by_contra hc
    have := mul_le_mul_of_nonneg_right (not_lt.1 hc) hp.le
    linarith
  have h4 : (-1 : K) < k := by
    by_contra hc
    have := mul_le_mul_of_nonneg_right (not_lt.1 hc) hp.le
    linarith
  have h5 : k < 1 := by exact_mod_cast h3
  have h6 : -1 < k := by exact_mod_cast h4
  have : k = 0 := by omega
  rw [this]; simp

theorem pyFmod_eq_iff {p : K} (hp : 0 < p) (x y : K) : pyFmod x p = pyFmod y p ↔ SameAngle p x y := by
  constructor
  · intro h
    exact (pyFmod_same x p).trans (h ▸ (pyFmod_same y p).symm)
  · intro h
    have hx := pyFmod_range x hp
    have hy := pyFmod_range y hp
    refine sameAngle_eq hp (((pyFmod_same x p).symm.trans h).trans (pyFmod_same y p)) ?_ ?_ <;> linarith

/-- The points on the circle are different. -/
def DistinctAngles (p : K) (l : List K) : Prop := l.Pairwise fun a b => ¬SameAngle p a b

theorem DistinctAngles.nodup {p : K} (hp : 0 < p) {l : List K} (h : DistinctAngles p l) : (l.map (pyFmod · p)).Nodup := by
  rw [List.Nodup, List.pairwise_map]
  exact h.imp fun hab e => hab ((pyFmod_eq_iff hp _ _).1 e)

/-- The list of points that `interpPeriodic` builds. -/
theorem periodic_list {p : K} (hp : 0 < p) {pts : List (K × K)} (hne : pts ≠ []) (hd : DistinctAngles p (pts.map Prod.fst)) :
    ∃ l : List (K × K), (∀ x, interpPeriodic p pts x = interpLin l (pyFmod x p)) ∧ l.Pairwise (fun a b => a.1 < b.1) ∧
      (∀ a f, (a, f) ∈ pts → (pyFmod a p, f) ∈ l) ∧
      (∀ q ∈ l, ∃ a, (a, q.2) ∈ pts ∧ SameAngle p q.1 a) ∧
      (∃ q, l.head? = some q ∧ q.1 < 0 ∧ (q.1 + p, q.2) ∈ l ∧ ∀ a f, (a, f) ∈ pts → pyFmod a p ≤ q.1 + p) ∧
      (∃ q, l.getLast? = some q ∧ p ≤ q.1 ∧ (q.1 - p, q.2) ∈ l ∧ ∀ a f, (a, f) ∈ pts → q.1 - p ≤ pyFmod a p) := by
  set s := sortPairs (pts.map fun q => (pyFmod q.1 p, q.2)) with hs
  have hperm : s.Perm (pts.map fun q => (pyFmod q.1 p, q.2)) := sortPairs_perm _
  have hstrict : s.Pairwise (fun a b => a.1 < b.1) := by
    apply sortPairs_strict
    have := hd.nodup hp
    simpa [List.map_map, Function.comp_def] using this
  have hsne : s ≠ [] := by
    intro h
    have := hperm.length_eq
    rw [h] at this
    exact hne (List.length_eq_zero_iff.1 (by simpa using this.symm))
  have hmem : ∀ q ∈ s, ∃ a, (a, q.2) ∈ pts ∧ q.1 = pyFmod a p := by
    intro q hq
    obtain ⟨r, hr, rfl⟩ := List.mem_map.1 (hperm.mem_iff.1 hq)
    exact ⟨r.1, hr, rfl⟩
  have hrange : ∀ q ∈ s, 0 ≤ q.1 ∧ q.1 < p := by
    intro q hq
    obtain ⟨a, _, h⟩ := hmem q hq
    rw [h]; exact pyFmod_range a hp
  have hin : ∀ a f, (a, f) ∈ pts → (pyFmod a p, f) ∈ s := by
    intro a f h
    exact hperm.mem_iff.2 (List.mem_map.2 ⟨(a, f), h, rfl⟩)
  obtain ⟨first, rest, hfr⟩ := List.exists_cons_of_ne_nil hsne
  have hfirst : s.head? = some first := by rw [hfr]; rfl
  have hlast : s.getLast? = some (s.getLast hsne) := List.getLast?_eq_some_getLast hsne
  set last := s.getLast hsne with hl
  have hfm : first ∈ s := by rw [hfr]; simp
  have hlm : last ∈ s := List.getLast_mem hsne
  have hle_last : ∀ q ∈ s, q.1 ≤ last.1 := by
    intro q hq
    rw [← List.dropLast_append_getLast hsne] at hq
    have hsl : s.dropLast ++ [s.getLast hsne] = s := List.dropLast_append_getLast hsne
    rw [← hsl] at hstrict
    rcases List.mem_append.1 hq with h | h
    · exact ((List.pairwise_append.1 hstrict).2.2 q h last (by simp [hl])).le
    · rw [List.mem_singleton.1 h]
  have hfirst_le : ∀ q ∈ s, first.1 ≤ q.1 := by
    intro q hq
    rw [hfr] at hq hstrict
    rcases List.mem_cons.1 hq with h | h
    · rw [h]
    · exact ((List.pairwise_cons.1 hstrict).1 q h).le
  refine ⟨(last.1 - p, last.2) :: (s ++ [(first.1 + p, first.2)]), ?_, ?_, ?_, ?_, ?_, ?_⟩
  · intro x
    unfold interpPeriodic
    simp only [← hs, hfirst, hlast]
  · refine List.pairwise_cons.2 ⟨?_, List.pairwise_append.2 ⟨hstrict, by simp, ?_⟩⟩
    · intro q hq
      have := (hrange last hlm).2
      rcases List.mem_append.1 hq with h | h
      · have := (hrange q h).1
        show last.1 - p < q.1
        linarith
      · rw [List.mem_singleton.1 h]
        have := (hrange first hfm).1
        show last.1 - p < first.1 + p
        linarith
    · intro a ha b hb
      rw [List.mem_singleton.1 hb]
      have h1 := (hrange a ha).2
      have h2 := (hrange first hfm).1
      show a.1 < first.1 + p
      linarith
  · intro a f h
    exact List.mem_cons_of_mem _ (List.mem_append_left _ (hin a f h))
  · intro q hq
    rcases List.mem_cons.1 hq with h | h
    · obtain ⟨a, ha, e⟩ := hmem last hlm
      refine ⟨a, by rw [h]; exact ha, ?_⟩
      rw [h, e]
      exact SameAngle.trans ⟨-1, by push_cast; ring⟩ (pyFmod_same a p).symm
    · rcases List.mem_append.1 h with h | h
      · obtain ⟨a, ha, e⟩ := hmem q h
        exact ⟨a, ha, by rw [e]; exact (pyFmod_same a p).symm⟩
      · rw [List.mem_singleton.1 h]
        obtain ⟨a, ha, e⟩ := hmem first hfm
        refine ⟨a, ha, ?_⟩
        rw [e]
        exact SameAngle.trans ⟨1, by push_cast; ring⟩ (pyFmod_same a p).symm
  · refine ⟨_, rfl, by have := (hrange last hlm).2; show last.1 - p < 0; linarith, ?_, ?_⟩
    · refine List.mem_cons_of_mem _ (List.mem_append_left _ ?_)
      simpa using hlm
    · intro a f h
      have := hle_last _ (hin a f h)
      simpa using this
  · refine ⟨(first.1 + p, first.2), by rw [List.getLast?_cons]; simp, ?_, ?_, ?_⟩
    · have := (hrange first hfm).1
      show p ≤ first.1 + p
      linarith
    · refine List.mem_cons_of_mem _ (List.mem_append_left _ ?_)
      simpa using hfm
    · intro a f h
      have := hfirst_le _ (hin a f h)
      simpa using this

/-- Interpolation reproduces the values at the points. -/
theorem periodic_at {p : K} (hp : 0 < p) {pts : List (K × K)} (hd : DistinctAngles p (pts.map Prod.fst)) {a f x : K}
    (h : (a, f) ∈ pts) (hx : SameAngle p x a) : interpPeriodic p pts x = some f := by
  obtain ⟨l, h1, h2, h3, _⟩ := periodic_list hp (List.ne_nil_of_mem h) hd
  rw [h1, (pyFmod_eq_iff hp x a).2 hx]
  exact interpLin_mem l h2 _ _ (h3 a f h)

theorem periodic_bound {p : K} (hp : 0 < p) {pts : List (K × K)} (hne : pts ≠ []) (hd : DistinctAngles p (pts.map Prod.fst))
    {lo hi : K} (hb : ∀ q ∈ pts, lo ≤ q.2 ∧ q.2 ≤ hi) (x : K) :
    ∃ y, interpPeriodic p pts x = some y ∧ lo ≤ y ∧ y ≤ hi := by
  obtain ⟨l, h1, h2, _, h4, ⟨q, hq, hq0, _⟩, ⟨r, hr, hrp, _⟩⟩ := periodic_list hp hne hd
  rw [h1]
  have hx := pyFmod_range x hp
  refine interpLin_bound lo hi l h2 ?_ _ ⟨q, hq, by linarith⟩ ⟨r, hr, by linarith⟩
  intro q hq
  obtain ⟨a, ha, _⟩ := h4 q hq
  exact hb (a, q.2) ha

/-- Between neighbours on the circle the interpolation is linear. -/
theorem periodic_linear {p : K} (hp : 0 < p) {pts : List (K × K)} (hd : DistinctAngles p (pts.map Prod.fst))
    {a fa b fb δ t x : K} (ha : (a, fa) ∈ pts) (hb : (b, fb) ∈ pts) (hδ : SameAngle p (a + δ) b) (ht : 0 ≤ t) (htδ : t < δ)
    (hno : ∀ q ∈ pts, ∀ s, 0 < s → s < δ → ¬SameAngle p (a + s) q.1) (hx : SameAngle p x (a + t)) :
    interpPeriodic p pts x = some (fa + (fb - fa) * (t / δ)) := by
  obtain ⟨l, h1, h2, h3, h4, ⟨q, hq, hq0, hqm, hqmax⟩, ⟨r, hr, hrp, hrm, hrmin⟩⟩ := periodic_list hp (List.ne_nil_of_mem ha) hd
  rw [h1]
  have hx0 := pyFmod_range x hp
  set x' := pyFmod x p with hx'
  -- the neighbours next to `x'`
  set a' := x' - t with ha'
  have hsa : SameAngle p a' a := by
    obtain ⟨k, hk⟩ := ((pyFmod_same x p).symm.trans hx)
    exact ⟨k, by rw [ha', hx', hk]; ring⟩
  have hsb : SameAngle p (a' + δ) b := by
    obtain ⟨k, hk⟩ := hsa
    exact SameAngle.trans ⟨k, by rw [hk]; ring⟩ hδ
  have hno' : ∀ q ∈ pts, ∀ y, SameAngle p y q.1 → a' < y → ¬ y < a' + δ := by
    intro q hq y hy h5 h6
    refine hno q hq (y - a') (by linarith) (by linarith) ?_
    obtain ⟨k, hk⟩ := hsa
    refine SameAngle.trans ⟨-k, ?_⟩ hy
    rw [hk]; push_cast; ring
  have hfun : ∀ {c f g : K}, (c, f) ∈ pts → (c, g) ∈ pts → f = g := by
    intro c f g hf hg
    have hself : SameAngle p c c := ⟨0, by simp⟩
    have e1 := periodic_at hp hd hf hself
    have e2 := periodic_at hp hd hg hself
    rw [e1] at e2
    exact Option.some.inj e2
  have hδp : δ ≤ p := by
    by_contra hc
    refine hno' _ ha (a' + p) (SameAngle.trans ⟨1, by push_cast; ring⟩ hsa) (by linarith) (by linarith)
  -- values at angles
  have hval : ∀ {c f d g : K}, (c, f) ∈ pts → (d, g) ∈ pts → SameAngle p c d → f = g := by
    intro c f d g hf hg h
    have e1 := periodic_at hp hd hf h.symm.symm.symm
    have e2 := periodic_at hp hd hg (⟨0, by simp⟩ : SameAngle p d d)
    rw [e1] at e2
    exact Option.some.inj e2
  have hmemA : (a', fa) ∈ l := by
    by_cases h0 : 0 ≤ a'
    · have : pyFmod a p = a' := by
        have hr := pyFmod_range a hp
        exact sameAngle_eq hp ((pyFmod_same a p).symm.trans hsa.symm) (by linarith) (by linarith)
      have h := h3 a fa ha
      rwa [this] at h
    · have h0 := not_le.1 h0
      have hf : pyFmod a p = a' + p := by
        have hr := pyFmod_range a hp
        exact sameAngle_eq hp ((pyFmod_same a p).symm.trans (hsa.symm.trans ⟨-1, by push_cast; ring⟩)) (by linarith)
          (by linarith)
      have hqa : q.1 = a' := by
        have h5 := hqmax a fa ha
        rw [hf] at h5
        by_contra hne
        have h6 : a' < q.1 := lt_of_le_of_ne (by linarith) (Ne.symm hne)
        obtain ⟨c, hc, hs⟩ := h4 q (List.mem_of_mem_head? hq)
        exact hno' _ hc q.1 hs h6 (by linarith)
      have hqf : q.2 = fa := by
        obtain ⟨c, hc, hs⟩ := h4 q (List.mem_of_mem_head? hq)
        exact hval hc ha (hs.symm.trans (hqa ▸ hsa))
      have : q = (a', fa) := Prod.ext hqa hqf
      rw [← this]
      exact List.mem_of_mem_head? hq
  have hmemB : (a' + δ, fb) ∈ l := by
    by_cases h0 : a' + δ < p
    · have : pyFmod b p = a' + δ := by
        have hr := pyFmod_range b hp
        exact sameAngle_eq hp ((pyFmod_same b p).symm.trans hsb.symm) (by linarith) (by linarith)
      have h := h3 b fb hb
      rwa [this] at h
    · have h0 := not_lt.1 h0
      have hf : pyFmod b p = a' + δ - p := by
        have hr := pyFmod_range b hp
        exact sameAngle_eq hp ((pyFmod_same b p).symm.trans (hsb.symm.trans ⟨1, by push_cast; ring⟩)) (by linarith)
          (by linarith)
      have hrl : r ∈ l := List.mem_of_mem_getLast? hr
      have hra : r.1 = a' + δ := by
        have h5 := hrmin b fb hb
        rw [hf] at h5
        by_contra hne
        have h6 : r.1 < a' + δ := lt_of_le_of_ne (by linarith) hne
        obtain ⟨c, hc, hs⟩ := h4 r hrl
        exact hno' _ hc r.1 hs (by linarith) h6
      have hrf : r.2 = fb := by
        obtain ⟨c, hc, hs⟩ := h4 r hrl
        exact hval hc hb (hs.symm.trans (hra ▸ hsb))
      have : r = (a' + δ, fb) := Prod.ext hra hrf
      rw [← this]
      exact hrl
  rw [interpLin_between l h2 a' fa (a' + δ) fb x' hmemA hmemB ?_ (by linarith) (by linarith)]
  · congr 1
    have hδ0 : δ ≠ 0 := by intro h; linarith
    have e1 : a' + δ - a' = δ := by ring
    have e2 : x' - a' = t := by rw [ha']; ring
    rw [e1, e2]
    field_simp
    ring
  · rintro q hq ⟨h5, h6⟩
    obtain ⟨c, hc, hs⟩ := h4 q hq
    exact hno' _ hc q.1 hs h5 h6

/-! ## C99: ring of microphones -/

theorem ring_points {p : K} {real row : List K} (hl : real.length = row.length) (hd : DistinctAngles p real) :
    DistinctAngles p ((sortPairs (real.zip row)).map Prod.fst) := by
  have h := (sortPairs_perm (real.zip row)).map Prod.fst
  rw [List.map_fst_zip hl.le] at h
  exact (h.pairwise_iff fun {a b} hab h => hab h.symm).2 hd

theorem ring_mem {real row : List K} {j : ℕ} {a f : K} (ha : real[j]? = some a)
    (hf : row[j]? = some f) : (a, f) ∈ sortPairs (real.zip row) := by
  rw [(sortPairs_perm _).mem_iff, List.mem_iff_getElem?]
  refine ⟨j, ?_⟩
  rw [List.getElem?_zip_eq_some]
  exact ⟨ha, hf⟩

theorem shifted_angle {p : K} (x : K) : SameAngle p (pyFmod (x + p / 2) p - p / 2) x := by
  obtain ⟨k, hk⟩ := pyFmod_same (x + p / 2) p
  exact ⟨-k, by push_cast; linear_combination -hk⟩

/-- **C99** A virtual microphone that the rotation has brought to the position of a microphone gets the sample of that
microphone. -/
theorem C99_aligned (p : K) (hp : 0 < p) (real virt row : List K) (hl : real.length = row.length)
    (hd : DistinctAngles p real) (phi : K) (i j : ℕ) (v a f : K) (hv : virt[i]? = some v) (ha : real[j]? = some a)
    (hf : row[j]? = some f) (h : SameAngle p (v + phi) a) : (ringRow p real virt row phi)[i]? = some (some f) := by
  unfold ringRow
  simp only [List.getElem?_map, hv, Option.map_some]
  rw [periodic_at hp (ring_points hl hd) (ring_mem ha hf) ((shifted_angle _).trans h)]

/-- Between two neighbouring microphones, `δ` apart, the value is interpolated linearly. -/
theorem C99_linear (p : K) (hp : 0 < p) (real virt row : List K) (hl : real.length = row.length)
    (hd : DistinctAngles p real) (phi : K) (i j k : ℕ) (v a b fa fb δ t : K) (hv : virt[i]? = some v)
    (ha : real[j]? = some a) (hfa : row[j]? = some fa) (hb : real[k]? = some b) (hfb : row[k]? = some fb)
    (hδ : SameAngle p (a + δ) b) (ht : 0 ≤ t) (htδ : t < δ)
    (hno : ∀ c ∈ real, ∀ s, 0 < s → s < δ → ¬SameAngle p (a + s) c) (h : SameAngle p (v + phi) (a + t)) :
    (ringRow p real virt row phi)[i]? = some (some (fa + (fb - fa) * (t / δ))) := by
  unfold ringRow
  simp only [List.getElem?_map, hv, Option.map_some]
  rw [periodic_linear hp (ring_points hl hd) (ring_mem ha hfa) (ring_mem hb hfb) hδ ht htδ ?_
    ((shifted_angle _).trans h)]
  intro q hq
  rw [(sortPairs_perm _).mem_iff] at hq
  exact hno q.1 (List.of_mem_zip hq).1

/-- All values are within the range of the samples (and are numbers). -/
theorem C99_bounded (p : K) (hp : 0 < p) (real virt row : List K) (hl : real.length = row.length) (hne : real ≠ [])
    (hd : DistinctAngles p real) (phi lo hi : K) (hb : ∀ f ∈ row, lo ≤ f ∧ f ≤ hi) :
    (ringRow p real virt row phi).length = virt.length ∧
      ∀ o ∈ ringRow p real virt row phi, ∃ y, o = some y ∧ lo ≤ y ∧ y ≤ hi := by
  refine ⟨by simp [ringRow], ?_⟩
  intro o ho
  unfold ringRow at ho
  obtain ⟨v, _, rfl⟩ := List.mem_map.1 ho
  refine periodic_bound hp ?_ (ring_points hl hd) ?_ _
  · intro h
    have h1 := (sortPairs_perm (real.zip row)).length_eq
    rw [h] at h1
    have h2 : min real.length row.length = 0 := by simpa using h1.symm
    rw [← hl, min_self] at h2
    exact hne (List.length_eq_zero_iff.1 h2)
  · intro q hq
    rw [(sortPairs_perm _).mem_iff] at hq
    exact hb _ (List.of_mem_zip hq).2

/-! ## C98: constant rotation -/

theorem constantRotation_blocks {α β : Type*} (core : α → K → β) (omega fs : K) : ∀ (bs : List (List α)) (k : ℕ),
    (∀ b ∈ bs, b ≠ []) → ∃ out, constantRotation core omega fs (k * (omega / fs)) bs = .ok out ∧
      out.map List.length = bs.map List.length ∧
      out.flatten = bs.flatten.mapIdx fun n row => core row (((k + n : ℕ) : K) * (omega / fs))
  | [], k, _ => ⟨[], rfl, rfl, rfl⟩
  | b :: bs, k, h => by
    have hb : b ≠ [] := h b (by simp)
    have hlen : 0 < b.length := List.length_pos_iff.2 hb
    have hlen' : (b.length : K) ≠ 0 := by exact_mod_cast hlen.ne'
    obtain ⟨out, h1, h2, h3⟩ := constantRotation_blocks core omega fs bs (k + b.length)
      fun c hc => h c (List.mem_cons_of_mem _ hc)
    have hphi : (linspaceOpen ((b.length : K) / fs * omega) b.length).map (fun t => k * (omega / fs) + t) =
        (List.range b.length).map fun i : ℕ => ((k + i : ℕ) : K) * (omega / fs) := by
      unfold linspaceOpen
      rw [List.map_map]
      apply List.map_congr_left
      intro i _
      simp only [Function.comp_apply]
      have : (b.length : K) / fs * omega / b.length = omega / fs := by
        rw [div_mul_eq_mul_div, div_right_comm, mul_div_assoc, mul_comm, div_mul_cancel_of_imp]
        intro h0; exact absurd h0 hlen'
      rw [this]; push_cast; ring
    have hlast : ((List.range b.length).map fun i : ℕ => ((k + i : ℕ) : K) * (omega / fs)).getLast? =
        some (((k + (b.length - 1) : ℕ) : K) * (omega / fs)) := by
      rw [List.getLast?_map, List.getLast?_range, if_neg hlen.ne']
      rfl
    have hoff : ((k + (b.length - 1) : ℕ) : K) * (omega / fs) + omega / fs = ((k + b.length : ℕ) : K) * (omega / fs) := by
      have : k + b.length = k + (b.length - 1) + 1 := by omega
      rw [this]; push_cast; ring
    refine ⟨(b.zip ((List.range b.length).map fun i : ℕ => ((k + i : ℕ) : K) * (omega / fs))).map (fun q => core q.1 q.2) :: out,
      ?_, ?_, ?_⟩
    · unfold constantRotation
      simp only [hphi, hlast, hoff, h1]
      rfl
    · simp [h2]
    · rw [List.flatten_cons, List.flatten_cons, h3, List.mapIdx_append]
      congr 1
      · apply List.ext_getElem?
        intro i
        rw [List.getElem?_map, List.getElem?_mapIdx]
        by_cases hi : i < b.length
        · have e : (b.zip ((List.range b.length).map fun i : ℕ => ((k + i : ℕ) : K) * (omega / fs)))[i]? =
              some (b[i], ((k + i : ℕ) : K) * (omega / fs)) :=
            List.getElem?_zip_eq_some.2 ⟨List.getElem?_eq_getElem hi, by
              rw [List.getElem?_map, List.getElem?_range hi]; rfl⟩
          rw [e, List.getElem?_eq_getElem hi]
          rfl
        · rw [List.getElem?_eq_none (by simp; omega), List.getElem?_eq_none (by omega)]
          rfl
      · apply congrArg (fun f => List.mapIdx f bs.flatten)
        funext n row
        have : k + b.length + n = k + (n + b.length) := by omega
        rw [this]

/-- **C98** For every block size, row `n` of the result is computed with the angle `n * omega / fs`: the blocks cover the
same rows with the same values for every block size. -/
theorem C98_constant_rotation {α β : Type*} (core : α → K → β) (omega fs : K) (num : ℕ) (hn : 0 < num) (data : List α)
    (blocks : List (List α)) (h : IsBlocking num data blocks) :
    ∃ out, constantRotation core omega fs 0 blocks = .ok out ∧
      IsBlocking num (data.mapIdx fun n row => core row ((n : K) * omega / fs)) out := by
  have hne : ∀ b ∈ blocks, b ≠ [] := by
    intro b hb h0
    have := (isBlocking_iff hn).1 h
    rw [this] at hb
    have := mem_chunks_length hn hb
    rw [h0] at this
    simp at this
  obtain ⟨out, h1, h2, h3⟩ := constantRotation_blocks core omega fs blocks 0 hne
  rw [Nat.cast_zero, zero_mul] at h1
  refine ⟨out, h1, ?_, ?_, ?_⟩
  · rw [h3, h.cover]
    apply congrArg (fun f => List.mapIdx f data)
    funext n row
    rw [Nat.zero_add, mul_div_assoc]
  · intro b hb
    have e : (out.dropLast).map List.length = (blocks.dropLast).map List.length := by
      rw [List.map_dropLast, h2, List.map_dropLast]
    have : b.length ∈ (out.dropLast).map List.length := List.mem_map_of_mem hb
    rw [e] at this
    obtain ⟨c, hc, e⟩ := List.mem_map.1 this
    rw [← e]; exact h.full c hc
  · intro b hb
    have e : (out.map List.length).getLast? = some b.length := by rw [List.getLast?_map, hb]; rfl
    rw [h2, List.getLast?_map] at e
    obtain ⟨c, hc, e⟩ := Option.map_eq_some_iff.1 e
    rw [← e]; exact h.last c hc

/-- The hypotheses of `C98_constant_rotation` are met: -/
example := C98_constant_rotation (K := ℚ) (fun (a : ℕ) (phi : ℚ) => (a, phi)) 1 8 2 (by decide) [5, 6, 7] _ (isBlocking_chunks (by decide) _)

/-! ## C100: inverse distance weighting -/

theorem weighted_bound (w : K → K) (lo hi whole : K) : ∀ (l : List (K × K)), (∀ q ∈ l, 0 ≤ w q.1) → 0 < whole →
    (∀ q ∈ l, lo ≤ q.2 ∧ q.2 ≤ hi) →
    lo * ((l.map fun q => w q.1).sum / whole) ≤ (l.map fun q => q.2 * (w q.1 / whole)).sum ∧
      (l.map fun q => q.2 * (w q.1 / whole)).sum ≤ hi * ((l.map fun q => w q.1).sum / whole)
  | [], _, _, _ => by simp
  | q :: l, hw, hwh, hb => by
    obtain ⟨h1, h2⟩ := weighted_bound w lo hi whole l (fun r hr => hw r (List.mem_cons_of_mem _ hr)) hwh
      fun r hr => hb r (List.mem_cons_of_mem _ hr)
    have h3 : 0 ≤ w q.1 / whole := div_nonneg (hw q (by simp)) hwh.le
    have h4 := hb q (by simp)
    simp only [List.map_cons, List.sum_cons, add_div, mul_add]
    exact ⟨add_le_add (mul_le_mul_of_nonneg_right h4.1 h3) h1, add_le_add (mul_le_mul_of_nonneg_right h4.2 h3) h2⟩

theorem weights_pos (w : K → K) : ∀ (l : List (K × K)), l ≠ [] → (∀ q ∈ l, 0 < w q.1) → 0 < (l.map fun q => w q.1).sum
  | [], h, _ => absurd rfl h
  | [q], _, h => by simpa using h q (by simp)
  | q :: r :: l, _, h => by
    have := weights_pos w (r :: l) (by simp) fun s hs => h s (List.mem_cons_of_mem _ hs)
    rw [List.map_cons, List.sum_cons]
    exact add_pos (h q (by simp)) this

/-- The value is within the range of the samples. -/
theorem idw_bounded (weight : K → K) (hw : ∀ d, 0 < d → 0 < weight d) (num : ℕ) (hn : 0 < num) (near : List (K × K))
    (hne : near ≠ []) (lo hi : K) (hb : ∀ q ∈ near, lo ≤ q.2 ∧ q.2 ≤ hi) :
    ∃ y, idwValue weight num near = .ok y ∧ lo ≤ y ∧ y ≤ hi := by
  have hmem : ∀ q ∈ (sortPairs near).take num, q ∈ near := fun q hq =>
    (sortPairs_perm near).mem_iff.1 (List.mem_of_mem_take hq)
  have hsorted : ((sortPairs near).take num).Pairwise (fun p q => p.1 ≤ q.1) :=
    (sortPairs_sorted near).sublist (List.take_sublist _ _)
  have hl0 : (sortPairs near).take num ≠ [] := by
    intro h
    have h1 := congrArg List.length h
    rw [List.length_take, (sortPairs_perm near).length_eq] at h1
    have := List.length_pos_iff.2 hne
    rw [List.length_nil] at h1
    omega
  unfold idwValue
  generalize (sortPairs near).take num = l at *
  match l with
  | [] => exact absurd rfl hl0
  | (d, f) :: r =>
    simp only
    split
    · exact ⟨f, rfl, hb _ (hmem (d, f) (by simp))⟩
    · rename_i hd
      have hd : (1 : K) / 1000 ≤ d := not_lt.1 hd
      have hpos : ∀ q ∈ (d, f) :: r, 0 < weight q.1 := by
        intro q hq
        apply hw
        have : d ≤ q.1 := by
          rcases List.mem_cons.1 hq with h | h
          · rw [h]
          · exact (List.pairwise_cons.1 hsorted).1 q h
        have h0 : (0 : K) < 1 / 1000 := by positivity
        linarith
      have hwh := weights_pos weight _ (by simp) hpos
      obtain ⟨h1, h2⟩ := weighted_bound weight lo hi _ ((d, f) :: r) (fun q hq => (hpos q hq).le) hwh
        fun q hq => hb q (hmem q hq)
      rw [div_self hwh.ne', mul_one] at h1 h2
      exact ⟨_, rfl, h1, h2⟩

/-- A point at a microphone, with all others at least a millimetre away, gets its sample. -/
theorem idw_at (weight : K → K) (num : ℕ) (hn : 0 < num) (near : List (K × K)) (j : ℕ) (d f : K)
    (hj : near[j]? = some (d, f)) (hd : d < 1 / 1000) (hfar : ∀ k q, near[k]? = some q → k ≠ j → 1 / 1000 ≤ q.1) :
    idwValue weight num near = .ok f := by
  have hjm : (d, f) ∈ near := List.mem_of_getElem? hj
  have hsorted := sortPairs_sorted near
  have hperm := sortPairs_perm near
  unfold idwValue
  match hs : sortPairs near with
  | [] =>
    rw [hs] at hperm
    have := hperm.symm.eq_nil
    rw [this] at hjm
    simp at hjm
  | q :: r =>
    obtain ⟨n, rfl⟩ : ∃ n, num = n + 1 := ⟨num - 1, by omega⟩
    rw [List.take_succ_cons]
    obtain ⟨e, g⟩ := q
    have hqm : (e, g) ∈ near := by
      rw [← hperm.mem_iff, hs]; simp
    have hed : e ≤ d := by
      have : (d, f) ∈ sortPairs near := hperm.mem_iff.2 hjm
      rw [hs] at this hsorted
      rcases List.mem_cons.1 this with h | h
      · have : d = e ∧ f = g := by simpa using h
        exact this.1.ge
      · exact (List.pairwise_cons.1 hsorted).1 _ h
    have hsmall : e < 1 / 1000 := hed.trans_lt hd
    obtain ⟨k, hk⟩ := List.mem_iff_getElem?.1 hqm
    have hkj : k = j := by
      by_contra hne
      have := hfar k _ hk hne
      exact absurd hsmall (not_lt.2 this)
    rw [hkj, hj] at hk
    have : d = e ∧ f = g := by simpa using hk
    simp only [if_pos hsmall, this.2]

end Field

/-! ## Positions -/

open Real

theorem ring_real_distinct {l : List ℝ} (h : l.Pairwise (· ≠ ·)) (hr : ∀ a ∈ l, -π < a ∧ a ≤ π) : DistinctAngles (2 * π) l := by
  unfold DistinctAngles
  refine List.Pairwise.imp_of_mem ?_ h
  intro a b ha hb hne hs
  have h1 := hr a ha
  have h2 := hr b hb
  exact hne (sameAngle_eq (by positivity) hs (by linarith) (by linarith))

theorem cylAngle_range (Q : Matrix (Fin 3) (Fin 3) ℝ) (x : Fin 3 → ℝ) : -π < cylAngle Q x ∧ cylAngle Q x ≤ π := by
  unfold cylAngle cartToCyl arctan2
  exact Complex.arg_mem_Ioc _

/-- **C99** (part) Without rotation, transformation matrix or other virtual microphones the samples are not changed. -/
theorem C99_identity_partial (mics : List (Fin 3 → ℝ)) (row : List ℝ) (hl : mics.length = row.length)
    (hd : (mics.map (cylAngle 1)).Pairwise (· ≠ ·)) : ringInterp 1 mics mics row 0 = row.map some := by
  have hlen : (ringInterp 1 mics mics row 0).length = mics.length := by simp [ringInterp, ringRow]
  apply List.ext_getElem?
  intro i
  by_cases hi : i < row.length
  · rw [List.getElem?_map, List.getElem?_eq_getElem hi]
    have hm : i < (mics.map (cylAngle 1)).length := by rw [List.length_map]; omega
    exact C99_aligned (2 * π) (by positivity) _ _ row (by simpa using hl)
      (ring_real_distinct hd (by intro a ha; obtain ⟨x, _, rfl⟩ := List.mem_map.1 ha; exact cylAngle_range _ _)) 0 i i
      _ _ _ (List.getElem?_eq_getElem hm) (List.getElem?_eq_getElem hm) (List.getElem?_eq_getElem hi) ⟨0, by simp⟩
  · rw [List.getElem?_eq_none (by omega), List.getElem?_eq_none (by simpa using hi)]

/-- With a transformation matrix they are: here `Q` turns by 90 degrees, and the first channel gets the samples of the
fourth microphone. -/
theorem C99_transformation_violated (p0 p1 p2 p3 : ℝ) :
    let Q : Matrix (Fin 3) (Fin 3) ℝ := !![0, -1, 0; 1, 0, 0; 0, 0, 1]
    let mics : List (Fin 3 → ℝ) := [![1, 0, 0], ![0, 1, 0], ![-1, 0, 0], ![0, -1, 0]]
    (ringInterp Q mics mics [p0, p1, p2, p3] 0)[0]? = some (some p3) := by
  intro Q mics
  have a0 : Complex.arg ⟨0, 1⟩ = π / 2 := Complex.arg_I
  have a1 : Complex.arg ⟨-1, 0⟩ = π := by
    have : (⟨-1, 0⟩ : ℂ) = -1 := by apply Complex.ext <;> simp
    rw [this, Complex.arg_neg_one]
  have a2 : Complex.arg ⟨0, -1⟩ = -(π / 2) := by
    have : (⟨0, -1⟩ : ℂ) = -Complex.I := by apply Complex.ext <;> simp
    rw [this, Complex.arg_neg_I]
  have a3 : Complex.arg ⟨1, 0⟩ = 0 := by
    have : (⟨1, 0⟩ : ℂ) = 1 := by apply Complex.ext <;> simp
    rw [this, Complex.arg_one]
  have hr : mics.map (cylAngle Q) = [π / 2, π, -(π / 2), 0] := by
    simp [mics, Q, cylAngle, cartToCyl, arctan2, Matrix.mulVec, dotProduct, Fin.sum_univ_three, a0, a1, a2, a3]
  have hv : (mics.map (cylAngle 1))[0]? = some 0 := by
    simp [mics, cylAngle, cartToCyl, arctan2, a3]
  have hpi := Real.pi_pos
  unfold ringInterp
  rw [hr]
  refine C99_aligned (2 * π) (by positivity) [π / 2, π, -(π / 2), 0] _ [p0, p1, p2, p3] rfl (ring_real_distinct ?_ ?_) 0 0 3 0 0 p3 hv rfl rfl ⟨0, by simp⟩
  · simp only [List.pairwise_cons, List.mem_cons, List.not_mem_nil, or_false, forall_eq_or_imp, forall_eq]
    refine ⟨⟨?_, ?_, ?_⟩, ⟨?_, ?_⟩, ?_, by simp⟩ <;> intro h <;> linarith
  · intro a ha
    simp only [List.mem_cons, List.not_mem_nil, or_false] at ha
    rcases ha with rfl | rfl | rfl | rfl <;> constructor <;> linarith

theorem mapM_ok {α β : Type*} (f : α → Except PyErr β) : ∀ (l : List α), (∀ a ∈ l, ∃ b, f a = .ok b) →
    ∃ out, l.mapM f = .ok out ∧ List.Forall₂ (fun a b => f a = .ok b) l out
  | [], _ => ⟨[], rfl, .nil⟩
  | a :: l, h => by
    obtain ⟨b, hb⟩ := h a (by simp)
    obtain ⟨out, h1, h2⟩ := mapM_ok f l fun c hc => h c (List.mem_cons_of_mem _ hc)
    refine ⟨b :: out, ?_, .cons hb h2⟩
    rw [List.mapM_cons, hb, h1]
    rfl

/-- **C100** Inverse distance weighting gives one value per virtual microphone, within the range of the samples. -/
theorem C100_bounded_partial (power : ℝ) (num : ℕ) (hn : 0 < num) (mics virtMics : List (Fin 3 → ℝ)) (row : List ℝ)
    (hl : mics.length = row.length) (hne : mics ≠ []) (hv : virtMics.length = mics.length ∨ virtMics.length = 1) (phi lo hi : ℝ)
    (hb : ∀ f ∈ row, lo ≤ f ∧ f ≤ hi) :
    ∃ out, idwRow power num mics virtMics row phi = .ok out ∧ out.length = virtMics.length ∧ ∀ y ∈ out, lo ≤ y ∧ y ≤ hi := by
  have key : ∀ v ∈ virtMics, ∃ y, idwValue (fun d => 1 / d ^ power) num
      ((mics.map fun m => dist3 (idwPoint phi v) (cylToCart (cartToCyl m))).zip row) = .ok y ∧ lo ≤ y ∧ y ≤ hi := by
    intro v _
    refine idw_bounded _ (fun d hd => one_div_pos.2 (Real.rpow_pos_of_pos hd _)) num hn _ ?_ lo hi ?_
    · intro h
      have := congrArg List.length h
      rw [List.length_zip, List.length_map, ← hl, min_self, List.length_nil] at this
      exact hne (List.length_eq_zero_iff.1 this)
    · intro q hq
      exact hb _ (List.of_mem_zip hq).2
  obtain ⟨out, h1, h2⟩ := mapM_ok _ virtMics fun v hv => (key v hv).imp fun _ h => h.1
  refine ⟨out, ?_, h2.length_eq.symm, ?_⟩
  · unfold idwRow
    rw [if_neg (by rintro ⟨h3, h4⟩; rcases hv with h | h; exacts [h4 h, h3 h])]
    exact h1
  · intro y hy
    obtain ⟨i, hi', rfl⟩ := List.mem_iff_getElem.1 hy
    have hi2 : i < virtMics.length := by rw [h2.length_eq]; exact hi'
    have h3 := h2.get hi2 hi'
    obtain ⟨z, hz, hzb⟩ := key virtMics[i] (List.getElem_mem hi2)
    have : Except.ok (ε := PyErr) z = .ok out[i] := hz.symm.trans h3
    rw [← Except.ok.inj this]; exact hzb

/-- Any other number of virtual microphones raises. -/
theorem C100_count_violated (power : ℝ) (num : ℕ) (mics virtMics : List (Fin 3 → ℝ)) (row : List ℝ) (phi : ℝ)
    (h1 : virtMics.length ≠ 1) (h2 : virtMics.length ≠ mics.length) :
    idwRow power num mics virtMics row phi = .error .valueError := by
  unfold idwRow; rw [if_pos ⟨h1, h2⟩]

theorem cyl_round (x : Fin 3 → ℝ) : cartToCyl x 1 * sin (cartToCyl x 0) = x 1 ∧ cartToCyl x 1 * cos (cartToCyl x 0) = x 0 := by
  have hn : ‖(⟨x 0, x 1⟩ : ℂ)‖ = √(x 0 ^ 2 + x 1 ^ 2) := by
    rw [Complex.norm_def, Complex.normSq_mk]; simp only [pow_two]
  have h1 := Complex.norm_mul_cos_arg ⟨x 0, x 1⟩
  have h2 := Complex.norm_mul_sin_arg ⟨x 0, x 1⟩
  rw [hn] at h1 h2
  exact ⟨h2, h1⟩

/-- The distances used: those of the positions, with the virtual microphone moved to height zero. -/
theorem idw_dist (v m : Fin 3 → ℝ) :
    dist3 (idwPoint 0 v) (cylToCart (cartToCyl m)) = √((v 0 - m 0) ^ 2 + (v 1 - m 1) ^ 2 + m 2 ^ 2) := by
  obtain ⟨h1, h2⟩ := cyl_round v
  obtain ⟨h3, h4⟩ := cyl_round m
  have h5 : cartToCyl m 2 = m 2 := rfl
  unfold dist3 idwPoint cylToCart
  simp only [Matrix.cons_val_zero, Matrix.cons_val_one, Matrix.cons_val, add_zero, h1, h2, h3, h4, h5]
  congr 1
  ring

/-- **C100** (part) For an array in the plane of height zero, with microphones at least a millimetre apart, the virtual
microphones that coincide with the microphones get their samples. -/
theorem C100_identity_partial (power : ℝ) (num : ℕ) (hn : 0 < num) (mics : List (Fin 3 → ℝ)) (row : List ℝ)
    (hl : mics.length = row.length) (hz : ∀ m ∈ mics, m 2 = 0)
    (hd : mics.Pairwise fun a b => 1 / 1000 ≤ √((a 0 - b 0) ^ 2 + (a 1 - b 1) ^ 2 + (a 2 - b 2) ^ 2)) :
    idwRow power num mics mics row 0 = .ok row := by
  have hd' : ∀ i j (hi : i < mics.length) (hj : j < mics.length), i ≠ j →
      1 / 1000 ≤ √((mics[i] 0 - mics[j] 0) ^ 2 + (mics[i] 1 - mics[j] 1) ^ 2 + (mics[i] 2 - mics[j] 2) ^ 2) := by
    intro i j hi hj hij
    rcases lt_or_gt_of_ne hij with h | h
    · exact List.pairwise_iff_getElem.1 hd i j hi hj h
    · have := List.pairwise_iff_getElem.1 hd j i hj hi h
      convert this using 2
      ring
  have key : ∀ i (hi : i < mics.length) (hi2 : i < row.length), idwValue (fun d => 1 / d ^ power) num
      ((mics.map fun m => dist3 (idwPoint 0 mics[i]) (cylToCart (cartToCyl m))).zip row) = .ok row[i] := by
    intro i hi hi2
    refine idw_at _ num hn _ i 0 _ ?_ (by norm_num) ?_
    · rw [List.getElem?_zip_eq_some]
      refine ⟨?_, List.getElem?_eq_getElem hi2⟩
      rw [List.getElem?_map, List.getElem?_eq_getElem hi, Option.map_some, idw_dist, hz _ (List.getElem_mem hi)]
      simp
    · intro k q hq hk
      obtain ⟨h1, _⟩ := List.getElem?_zip_eq_some.1 hq
      rw [List.getElem?_map] at h1
      obtain ⟨m, hm, hq1⟩ := Option.map_eq_some_iff.1 h1
      obtain ⟨hk2, hm⟩ := List.getElem?_eq_some_iff.1 hm
      rw [← hq1, idw_dist, ← hm, hz _ (List.getElem_mem hk2)]
      have := hd' i k hi hk2 (Ne.symm hk)
      rw [hz _ (List.getElem_mem hk2), hz _ (List.getElem_mem hi)] at this
      simpa using this
  unfold idwRow
  rw [if_neg (by rintro ⟨_, h⟩; exact h rfl)]
  obtain ⟨out, h1, h2⟩ := mapM_ok (fun v => idwValue (fun d => 1 / d ^ power) num
      ((mics.map fun m => dist3 (idwPoint 0 v) (cylToCart (cartToCyl m))).zip row)) mics (by
    intro v hv
    obtain ⟨i, hi, rfl⟩ := List.mem_iff_getElem.1 hv
    exact ⟨_, key i hi (hl ▸ hi)⟩)
  rw [h1]
  congr 1
  apply List.ext_getElem (h2.length_eq.symm.trans hl)
  intro i hi hi2
  have h3 := h2.get (by omega) hi
  exact Except.ok.inj (h3.symm.trans (key i (by omega) hi2))

theorem weighted_lt (w : ℝ → ℝ) (whole : ℝ) (hwh : 0 < whole) : ∀ (l : List (ℝ × ℝ)), (∀ q ∈ l, 0 < w q.1) →
    (∀ q ∈ l, q.2 ≤ 1) → (∃ q ∈ l, q.2 < 1) →
    (l.map fun q => q.2 * (w q.1 / whole)).sum < (l.map fun q => w q.1).sum / whole
  | [], _, _, h => by obtain ⟨q, hq, _⟩ := h; simp at hq
  | q :: l, hw, hb, h => by
    have h1 := weighted_bound w (0 : ℝ) 1 whole
    have hq : 0 < w q.1 / whole := div_pos (hw q (by simp)) hwh
    have hq1 := hb q (by simp)
    have hwl : ∀ r ∈ l, 0 < w r.1 := fun r hr => hw r (List.mem_cons_of_mem _ hr)
    have hbl : ∀ r ∈ l, r.2 ≤ 1 := fun r hr => hb r (List.mem_cons_of_mem _ hr)
    have hle : (l.map fun q => q.2 * (w q.1 / whole)).sum ≤ (l.map fun q => w q.1).sum / whole := by
      clear h h1 hq hq1 hw hb
      induction l with
      | nil => simp
      | cons r l ih =>
        have h1 := ih (fun s hs => hwl s (List.mem_cons_of_mem _ hs)) (fun s hs => hbl s (List.mem_cons_of_mem _ hs))
        have h2 : 0 < w r.1 / whole := div_pos (hwl r (by simp)) hwh
        have h3 := hbl r (by simp)
        simp only [List.map_cons, List.sum_cons, add_div]
        nlinarith
    simp only [List.map_cons, List.sum_cons, add_div]
    obtain ⟨r, hr, hr1⟩ := h
    rcases List.mem_cons.1 hr with rfl | hr
    · nlinarith
    · have := weighted_lt w whole hwh l hwl hbl ⟨r, hr, hr1⟩
      nlinarith

/-- For arrays at any other height (at least a millimetre) this is false for every microphone: the sample of the virtual
microphone is a mixture. -/
theorem C100_height_violated (power : ℝ) (num : ℕ) (hn : 2 ≤ num) (mics : List (Fin 3 → ℝ)) (hm : 2 ≤ mics.length) (h : ℝ)
    (hh : 1 / 1000 ≤ |h|) (hz : ∀ m ∈ mics, m 2 = h) (j : ℕ) (hj : j < mics.length) :
    ∃ row : List ℝ, row.length = mics.length ∧ ∀ out, idwRow power num mics mics row 0 = .ok out →
      ∃ y, out[j]? = some y ∧ y < 1 ∧ row[j]? = some 1 := by
  refine ⟨List.replicate j 0 ++ 1 :: List.replicate (mics.length - j - 1) 0, by simp; omega, ?_⟩
  set row : List ℝ := List.replicate j 0 ++ 1 :: List.replicate (mics.length - j - 1) 0 with hrow
  have hlen : row.length = mics.length := by simp [hrow]; omega
  have hcount : row.countP (fun y => decide (y = 1)) = 1 := by
    simp [hrow, List.countP_replicate]
  have hle1 : ∀ y ∈ row, y ≤ 1 := by
    intro y hy
    simp only [hrow, List.mem_append, List.mem_cons, List.mem_replicate] at hy
    rcases hy with ⟨_, rfl⟩ | rfl | ⟨_, rfl⟩ <;> norm_num
  intro out hout
  unfold idwRow at hout
  rw [if_neg (by rintro ⟨_, h⟩; exact h rfl)] at hout
  set f := fun v => idwValue (fun d => 1 / d ^ power) num
      ((mics.map fun m => dist3 (idwPoint 0 v) (cylToCart (cartToCyl m))).zip row) with hf
  have key : ∀ v ∈ mics, ∃ y, f v = .ok y ∧ y < 1 := by
    intro v _
    rw [hf]
    simp only
    set near := (mics.map fun m => dist3 (idwPoint 0 v) (cylToCart (cartToCyl m))).zip row with hnear
    have hnlen : near.length = mics.length := by simp [hnear, hlen]
    have hdist : ∀ q ∈ near, (1 : ℝ) / 1000 ≤ q.1 := by
      intro q hq
      obtain ⟨m, hm, e⟩ := List.mem_map.1 (List.of_mem_zip hq).1
      rw [← e, idw_dist, hz m hm]
      refine hh.trans ?_
      apply Real.le_sqrt_of_sq_le
      rw [sq_abs]
      nlinarith [sq_nonneg (v 0 - m 0), sq_nonneg (v 1 - m 1)]
    have hncount : near.countP (fun q => decide (q.2 = 1)) = 1 := by
      have e : near.map Prod.snd = row := List.map_snd_zip (by simp [hlen])
      rw [← hcount, ← e, List.countP_map]
      rfl
    have hmem : ∀ q ∈ (sortPairs near).take num, q ∈ near := fun q hq =>
      (sortPairs_perm near).mem_iff.1 (List.mem_of_mem_take hq)
    have hcnt : ((sortPairs near).take num).countP (fun q => decide (q.2 = 1)) ≤ 1 := by
      rw [← hncount, ← (sortPairs_perm near).countP_eq]
      exact (List.take_sublist _ _).countP_le
    have hlen2 : 2 ≤ ((sortPairs near).take num).length := by
      rw [List.length_take, (sortPairs_perm near).length_eq, hnlen]
      omega
    unfold idwValue
    generalize (sortPairs near).take num = l at *
    match l with
    | [] => simp at hlen2
    | (d, g) :: r =>
      have hd := hdist _ (hmem (d, g) (by simp))
      simp only
      rw [if_neg (not_lt.2 hd)]
      have hpos : ∀ q ∈ (d, g) :: r, 0 < (fun d : ℝ => 1 / d ^ power) q.1 := by
        intro q hq
        have := hdist q (hmem q hq)
        exact one_div_pos.2 (Real.rpow_pos_of_pos (by linarith [this, (by norm_num : (0 : ℝ) < 1 / 1000)]) _)
      have hwh := weights_pos (fun d : ℝ => 1 / d ^ power) _ (by simp) hpos
      refine ⟨_, rfl, ?_⟩
      have hlt := weighted_lt (fun d : ℝ => 1 / d ^ power) _ hwh ((d, g) :: r) hpos
        (fun q hq => hle1 _ (List.of_mem_zip (hmem q hq)).2) (by
          by_contra hc
          have hall : ∀ q ∈ (d, g) :: r, decide (q.2 = 1) = true := by
            intro q hq
            have h1 := hle1 _ (List.of_mem_zip (hmem q hq)).2
            have h2 : ¬ q.2 < 1 := fun h => hc ⟨q, hq, h⟩
            simp only [decide_eq_true_eq]
            linarith [not_lt.1 h2]
          rw [List.countP_eq_length.2 hall] at hcnt
          omega)
      rw [div_self hwh.ne'] at hlt
      exact hlt
  obtain ⟨out', h1, h2⟩ := mapM_ok f mics fun v hv => (key v hv).imp fun _ h => h.1
  rw [h1] at hout
  have he : out' = out := Except.ok.inj hout
  subst he
  have hj2 : j < out'.length := by rw [← h2.length_eq]; exact hj
  obtain ⟨y, hy, hy1⟩ := key mics[j] (List.getElem_mem hj)
  refine ⟨y, ?_, hy1, ?_⟩
  · rw [List.getElem?_eq_getElem hj2]
    congr 1
    exact Except.ok.inj ((h2.get hj hj2).symm.trans hy)
  · rw [hrow, List.getElem?_append_right (by simp)]
    simp

/-! ## Examples -/

/-- Four microphones, angles in turns, the array turned by 3/8: the values are means of neighbours. -/
example : ringRow (1 : ℚ) [0, 1/4, 1/2, -1/4] [0, 1/4, 1/2, -1/4] [10, 20, 30, 40] (3/8) =
    [some 25, some 35, some 25, some 15] := by decide +kernel

private theorem four_distinct : DistinctAngles (1 : ℚ) [0, 1/4, 1/2, -1/4] := by
  unfold DistinctAngles
  simp only [List.pairwise_cons, List.mem_cons, List.not_mem_nil, or_false, forall_eq_or_imp, forall_eq]
  refine ⟨⟨?_, ?_, ?_⟩, ⟨?_, ?_⟩, ?_, by simp⟩ <;> intro h <;>
    · have := sameAngle_eq (by norm_num) h (by norm_num) (by norm_num)
      norm_num at this

example : constantRotation (fun (a : ℕ) (phi : ℚ) => (a, phi)) 1 8 0 [[5, 6], [7]] =
    .ok [[(5, 0), (6, 1/8)], [(7, 1/4)]] := by decide +kernel

/-- Two microphones one metre apart. -/
example : idwRow 2 3 [![0, 0, 0], ![1, 0, 0]] [![0, 0, 0], ![1, 0, 0]] [5, 7] 0 = .ok [5, 7] := by
  apply C100_identity_partial 2 3 (by norm_num) _ _ rfl
  · simp
  · simp only [List.pairwise_cons, List.mem_cons, List.not_mem_nil, or_false, forall_eq]
    refine ⟨?_, by simp⟩
    simp
    norm_num

/-- The hypotheses of `C100_height_violated`: the same array at a height of one metre. -/
example : ∀ m ∈ ([![0, 0, 1], ![1, 0, 1]] : List (Fin 3 → ℝ)), m 2 = 1 := by simp

/-- The hypotheses of `C99_aligned` are met: the array turned by a quarter. -/
example := C99_aligned (1 : ℚ) (by norm_num) [0, 1/4, 1/2, -1/4] [0, 1/4, 1/2, -1/4] [10, 20, 30, 40] rfl four_distinct (1/4) 1 2 (1/4) (1/2) 30
  rfl rfl rfl ⟨0, by norm_num⟩

/-- The hypotheses of `C99_linear` are met: the array turned by three eighths. -/
example := C99_linear (1 : ℚ) (by norm_num) [0, 1/4, 1/2, -1/4] [0, 1/4, 1/2, -1/4] [10, 20, 30, 40] rfl four_distinct (3/8) 0 1 2 0 (1/4) (1/2)
  20 30 (1/4) (1/8) rfl rfl rfl rfl rfl ⟨0, by norm_num⟩ (by norm_num) (by norm_num)

/-- The hypotheses of `C99_bounded` are met: -/
example := C99_bounded (1 : ℚ) (by norm_num) [0, 1/4, 1/2, -1/4] [0, 1/4, 1/2, -1/4] [10, 20, 30, 40] rfl (by simp) four_distinct (3/8) 10 40
  (by decide +kernel)

/-- The hypotheses of `C100_bounded_partial` are met: -/
example := C100_bounded_partial 2 3 (by decide) [![0, 0, 0], ![1, 0, 0]] [![0, 0, 0], ![1, 0, 0]] [5, 7] rfl (by simp) (.inl rfl) (1/2) 5 7
  (by norm_num)

end Acoular
