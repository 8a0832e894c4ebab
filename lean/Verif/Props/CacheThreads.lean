import Mathlib.Data.List.Nodup
import Verif.Model.CacheThreads
import Verif.Spec.Stream

/-!
# C138: cache files requested by several threads
-/

namespace Acoular
open Spec

variable {P : Type} [DecidableEq P]

/-- Specification: schedules in which no thread tests `busy` while another one has tested but not yet set it. -/
def Spec.AtomicEntry (twice : Bool) (want : ℕ → P) : CacheThreads P → List ℕ → Prop
  | _, [] => True
  | s, t :: ts => (s.pc t = .wait → ∀ u, s.pc u ≠ .enter) ∧ Spec.AtomicEntry twice want (s.step twice want t) ts

/-- Specification: a thread has begun to use the registry and has not finished. -/
def Spec.Inside (p : CachePc) : Prop := p = .lookup ∨ p = .opening ∨ p = .attach ∨ p = .leave

private structure CtInv (want : ℕ → P) (s : CacheThreads P) : Prop where
  one : ∀ t u, (Inside (s.pc t) ∨ s.pc t = .enter) → (Inside (s.pc u) ∨ s.pc u = .enter) → t = u
  busy : ∀ t, Inside (s.pc t) → s.busy = true
  absent : ∀ t, s.pc t = .opening → s.files (want t) = none
  present : ∀ t, s.pc t = .attach → s.files (want t) ≠ none
  reg : ∀ p, s.files p ≠ none ↔ p ∈ s.opened
  nodup : s.opened.Nodup
  handles : ∀ t, s.handle t = none ∨ s.handle t = s.files (want t)
  fine : ∀ t, s.pc t ≠ .raised
  got : ∀ t, s.pc t = .leave ∨ s.pc t = .done → s.handle t ≠ none

private theorem ct_step (twice : Bool) (want : ℕ → P) {s : CacheThreads P} (h : CtInv want s) (t : ℕ)
    (hx : s.pc t = .wait → ∀ u, s.pc u ≠ .enter) : CtInv want (s.step twice want t) := by
  cases hpc : s.pc t with
  | wait =>
    by_cases hb : s.busy = true
    · simpa only [CacheThreads.step, hpc, if_pos hb] using h
    · have hin : ∀ u, ¬ Inside (s.pc u) := fun u hu => hb (h.busy u hu)
      have hen := hx hpc
      simp only [CacheThreads.step, hpc, if_neg hb, CacheThreads.goto]
      refine ⟨?_, ?_, ?_, ?_, h.reg, h.nodup, h.handles, ?_, ?_⟩
      · intro u v hu hv
        have key : ∀ w, (Inside (if w = t then CachePc.enter else s.pc w) ∨ (if w = t then CachePc.enter else s.pc w) = .enter) → w = t := by
          intro w hw
          by_contra hne
          rw [if_neg hne] at hw
          rcases hw with hw | hw
          · exact hin w hw
          · exact hen w hw
        rw [key u hu, key v hv]
      · intro u hu
        dsimp only at hu
        split at hu
        · simp [Inside] at hu
        · exact absurd hu (hin u)
      · intro u hu
        dsimp only at hu
        split at hu
        · cases hu
        · exact h.absent u hu
      · intro u hu
        dsimp only at hu
        split at hu
        · cases hu
        · exact h.present u hu
      · intro u; dsimp only; split
        · simp
        · exact h.fine u
      · intro u hu
        dsimp only at hu
        split at hu
        · simp at hu
        · exact h.got u hu
  | enter =>
    have hme : ∀ u, (Inside (s.pc u) ∨ s.pc u = .enter) → u = t := fun u hu => h.one u t hu (Or.inr hpc)
    simp only [CacheThreads.step, hpc, CacheThreads.goto]
    refine ⟨?_, fun _ _ => rfl, ?_, ?_, h.reg, h.nodup, h.handles, ?_, ?_⟩
    · intro u v hu hv
      have key : ∀ w, (Inside (if w = t then CachePc.lookup else s.pc w) ∨ (if w = t then CachePc.lookup else s.pc w) = .enter) → w = t := by
        intro w hw
        by_contra hne
        rw [if_neg hne] at hw
        exact hne (hme w hw)
      rw [key u hu, key v hv]
    · intro u hu
      dsimp only at hu
      split at hu
      · cases hu
      · exact h.absent u hu
    · intro u hu
      dsimp only at hu
      split at hu
      · cases hu
      · exact h.present u hu
    · intro u; dsimp only; split
      · simp
      · exact h.fine u
    · intro u hu
      dsimp only at hu
      split at hu
      · simp at hu
      · exact h.got u hu
  | lookup =>
    have hi : Inside (s.pc t) := Or.inl hpc
    have hme : ∀ u, (Inside (s.pc u) ∨ s.pc u = .enter) → u = t := fun u hu => h.one u t hu (Or.inl hi)
    simp only [CacheThreads.step, hpc, CacheThreads.goto]
    refine ⟨?_, fun _ _ => h.busy t hi, ?_, ?_, h.reg, h.nodup, h.handles, ?_, ?_⟩
    · intro u v hu hv
      have key : ∀ w, (Inside (if w = t then (if (s.files (want t)).isNone then CachePc.opening else .attach) else s.pc w) ∨
          (if w = t then (if (s.files (want t)).isNone then CachePc.opening else .attach) else s.pc w) = .enter) → w = t := by
        intro w hw
        by_contra hne
        rw [if_neg hne] at hw
        exact hne (hme w hw)
      rw [key u hu, key v hv]
    · intro u hu
      dsimp only at hu
      split at hu
      · rename_i e; subst e
        split at hu
        · rename_i hn; exact Option.isNone_iff_eq_none.1 hn
        · cases hu
      · exact h.absent u hu
    · intro u hu
      dsimp only at hu
      split at hu
      · rename_i e; subst e
        split at hu
        · cases hu
        · rename_i hn; exact fun e => hn (by rw [e]; rfl)
      · exact h.present u hu
    · intro u; dsimp only; split
      · split <;> simp
      · exact h.fine u
    · intro u hu
      dsimp only at hu
      split at hu
      · split at hu <;> simp at hu
      · exact h.got u hu
  | opening =>
    have hi : Inside (s.pc t) := Or.inr (Or.inl hpc)
    have hme : ∀ u, (Inside (s.pc u) ∨ s.pc u = .enter) → u = t := fun u hu => h.one u t hu (Or.inl hi)
    have habs := h.absent t hpc
    have hnot : want t ∉ s.opened := fun hm => (h.reg _).2 hm habs
    have hcond : ¬ (twice = false ∧ want t ∈ s.opened) := fun hc => hnot hc.2
    simp only [CacheThreads.step, hpc, if_neg hcond, CacheThreads.goto]
    refine ⟨?_, fun _ _ => h.busy t hi, ?_, ?_, ?_, ?_, ?_, ?_, ?_⟩
    · intro u v hu hv
      have key : ∀ w, (Inside (if w = t then CachePc.attach else s.pc w) ∨ (if w = t then CachePc.attach else s.pc w) = .enter) → w = t := by
        intro w hw
        by_contra hne
        rw [if_neg hne] at hw
        exact hne (hme w hw)
      rw [key u hu, key v hv]
    · intro u hu
      dsimp only at hu
      split at hu
      · cases hu
      · rename_i hne
        exact absurd (hme u (Or.inl (by rw [hu]; exact Or.inr (Or.inl rfl)))) hne
    · intro u hu
      dsimp only at hu ⊢
      split at hu
      · rename_i e; subst e; simp
      · rename_i hne
        exact absurd (hme u (Or.inl (by rw [hu]; exact Or.inr (Or.inr (Or.inl rfl))))) hne
    · intro p
      dsimp only
      rw [List.mem_append, List.mem_singleton]
      by_cases hp : p = want t
      · simp [hp]
      · rw [if_neg hp, h.reg p]
        simp [hp]
    · dsimp only
      refine List.nodup_append.2 ⟨h.nodup, by simp, ?_⟩
      intro a ha b hb
      rw [List.mem_singleton] at hb
      subst hb
      exact fun e => hnot (by rw [← e]; exact ha)
    · intro u
      dsimp only
      rcases h.handles u with hu | hu
      · exact Or.inl hu
      · by_cases hw : want u = want t
        · left; rw [hu, hw, habs]
        · right; rw [if_neg hw]; exact hu
    · intro u; dsimp only; split
      · simp
      · exact h.fine u
    · intro u hu
      dsimp only at hu
      split at hu
      · simp at hu
      · exact h.got u hu
  | attach =>
    have hi : Inside (s.pc t) := Or.inr (Or.inr (Or.inl hpc))
    have hme : ∀ u, (Inside (s.pc u) ∨ s.pc u = .enter) → u = t := fun u hu => h.one u t hu (Or.inl hi)
    have hpres := h.present t hpc
    simp only [CacheThreads.step, hpc, CacheThreads.goto]
    refine ⟨?_, fun _ _ => h.busy t hi, ?_, ?_, h.reg, h.nodup, ?_, ?_, ?_⟩
    · intro u v hu hv
      have key : ∀ w, (Inside (if w = t then CachePc.leave else s.pc w) ∨ (if w = t then CachePc.leave else s.pc w) = .enter) → w = t := by
        intro w hw
        by_contra hne
        rw [if_neg hne] at hw
        exact hne (hme w hw)
      rw [key u hu, key v hv]
    · intro u hu
      dsimp only at hu
      split at hu
      · cases hu
      · exact h.absent u hu
    · intro u hu
      dsimp only at hu
      split at hu
      · cases hu
      · exact h.present u hu
    · intro u
      dsimp only
      split
      · rename_i e; subst e; right; rfl
      · exact h.handles u
    · intro u; dsimp only; split
      · simp
      · exact h.fine u
    · intro u hu
      dsimp only at hu ⊢
      split
      · exact hpres
      · rename_i hne; rw [if_neg hne] at hu; exact h.got u hu
  | leave =>
    have hi : Inside (s.pc t) := Or.inr (Or.inr (Or.inr hpc))
    have hme : ∀ u, (Inside (s.pc u) ∨ s.pc u = .enter) → u = t := fun u hu => h.one u t hu (Or.inl hi)
    simp only [CacheThreads.step, hpc, CacheThreads.goto]
    have key : ∀ w, ¬ (Inside (if w = t then CachePc.done else s.pc w) ∨ (if w = t then CachePc.done else s.pc w) = .enter) := by
      intro w hw
      by_cases hne : w = t
      · rw [if_pos hne] at hw; simp [Inside] at hw
      · rw [if_neg hne] at hw
        exact hne (hme w hw)
    refine ⟨fun u v hu _ => absurd hu (key u), fun u hu => absurd (Or.inl hu) (key u), ?_, ?_, h.reg, h.nodup, h.handles, ?_, ?_⟩
    · intro u hu
      dsimp only at hu
      split at hu
      · cases hu
      · exact h.absent u hu
    · intro u hu
      dsimp only at hu
      split at hu
      · cases hu
      · exact h.present u hu
    · intro u; dsimp only; split
      · simp
      · exact h.fine u
    · intro u hu
      dsimp only at hu
      split at hu
      · rename_i e; subst e; exact h.got u (Or.inl hpc)
      · exact h.got u hu
  | done => simpa only [CacheThreads.step, hpc] using h
  | raised => exact absurd hpc (h.fine t)

private theorem ct_run (twice : Bool) (want : ℕ → P) (sched : List ℕ) {s : CacheThreads P} (h : CtInv want s)
    (hx : AtomicEntry twice want s sched) : CtInv want (s.run twice want sched) := by
  induction sched generalizing s with
  | nil => exact h
  | cons t l ih => exact ih (ct_step twice want h t hx.1) hx.2

omit [DecidableEq P] in
private theorem ct_init (want : ℕ → P) : CtInv want (CacheThreads.init P) :=
  ⟨fun t u ht => by simp [CacheThreads.init, Inside] at ht, fun t ht => by simp [CacheThreads.init, Inside] at ht,
   fun t ht => by simp [CacheThreads.init] at ht, fun t ht => by simp [CacheThreads.init] at ht, fun p => by simp [CacheThreads.init],
   by simp [CacheThreads.init], fun t => by simp [CacheThreads.init], fun t => by simp [CacheThreads.init],
   fun t ht => by simp [CacheThreads.init] at ht⟩

/-- **C138 (partial).** If no thread tests the flag between another one's test and its setting of the flag: at most one thread at a
time uses the registry, every file is opened at most once, no call raises, and all objects with the same file that have been served
share one handle.  Missing: the other interleavings, see `C138_exclusion_violated`. -/
theorem C138_shared_partial (twice : Bool) (want : ℕ → P) (sched : List ℕ) (hx : AtomicEntry twice want (CacheThreads.init P) sched) :
    (∀ t u, Inside (((CacheThreads.init P).run twice want sched).pc t) → Inside (((CacheThreads.init P).run twice want sched).pc u) → t = u) ∧
    ((CacheThreads.init P).run twice want sched).opened.Nodup ∧
    (∀ t, ((CacheThreads.init P).run twice want sched).pc t ≠ .raised) ∧
    ∀ t u, ((CacheThreads.init P).run twice want sched).pc t = .done → ((CacheThreads.init P).run twice want sched).pc u = .done →
      want t = want u → ((CacheThreads.init P).run twice want sched).handle t = ((CacheThreads.init P).run twice want sched).handle u ∧
        ((CacheThreads.init P).run twice want sched).handle t ≠ none := by
  have h := ct_run twice want sched (ct_init want) hx
  refine ⟨fun t u ht hu => h.one t u (Or.inl ht) (Or.inl hu), h.nodup, h.fine, fun t u ht hu hw => ?_⟩
  have g1 := h.got t (Or.inr ht)
  have g2 := h.got u (Or.inr hu)
  refine ⟨?_, g1⟩
  rw [(h.handles t).resolve_left g1, (h.handles u).resolve_left g2, hw]

/-- Some thread uses the registry and will not fail; a file is registered exactly if it was opened. -/
private def Sure (want : ℕ → P) (s : CacheThreads P) : Prop :=
  (∀ p, s.files p ≠ none ↔ p ∈ s.opened) ∧
  (s.busy = true → ∃ t, Inside (s.pc t) ∧ ¬ (s.pc t = .opening ∧ want t ∈ s.opened))

private theorem sure_step (twice : Bool) (want : ℕ → P) {s : CacheThreads P} (h : Sure want s) (t : ℕ) : Sure want (s.step twice want t) := by
  obtain ⟨hr, h⟩ := h
  cases hpc : s.pc t with
  | wait =>
    by_cases hb : s.busy = true
    · simpa only [CacheThreads.step, hpc, if_pos hb] using ⟨hr, h⟩
    · simp only [CacheThreads.step, hpc, if_neg hb, CacheThreads.goto]
      exact ⟨hr, fun e => absurd e hb⟩
  | enter =>
    simp only [CacheThreads.step, hpc, CacheThreads.goto]
    exact ⟨hr, fun _ => ⟨t, by dsimp only; rw [if_pos rfl]; exact Or.inl rfl, by simp⟩⟩
  | lookup =>
    simp only [CacheThreads.step, hpc, CacheThreads.goto]
    refine ⟨hr, fun _ => ⟨t, by dsimp only; rw [if_pos rfl]; split <;> simp [Inside], ?_⟩⟩
    rintro ⟨e, hm⟩
    dsimp only at e hm
    rw [if_pos rfl] at e
    have := (hr _).2 hm
    have hn : ¬ (s.files (want t)).isNone = true := fun hn => this (Option.isNone_iff_eq_none.1 hn)
    rw [if_neg hn] at e
    cases e
  | opening =>
    by_cases hc : twice = false ∧ want t ∈ s.opened
    · simp only [CacheThreads.step, hpc, if_pos hc, CacheThreads.goto]
      refine ⟨hr, fun hb => ?_⟩
      obtain ⟨u, hu, hn⟩ := h hb
      have hut : u ≠ t := by
        rintro rfl
        exact hn ⟨hpc, hc.2⟩
      exact ⟨u, by dsimp only; rw [if_neg hut]; exact hu, by dsimp only; rw [if_neg hut]; exact hn⟩
    · simp only [CacheThreads.step, hpc, if_neg hc, CacheThreads.goto]
      refine ⟨fun p => ?_, fun _ => ⟨t, by dsimp only; rw [if_pos rfl]; simp [Inside], by simp⟩⟩
      dsimp only
      rw [List.mem_append, List.mem_singleton]
      by_cases hp : p = want t
      · simp [hp]
      · rw [if_neg hp, hr p]
        simp [hp]
  | attach =>
    simp only [CacheThreads.step, hpc, CacheThreads.goto]
    exact ⟨hr, fun _ => ⟨t, by dsimp only; rw [if_pos rfl]; simp [Inside], by simp⟩⟩
  | leave =>
    simp only [CacheThreads.step, hpc, CacheThreads.goto]
    exact ⟨hr, fun e => by cases e⟩
  | done => simpa only [CacheThreads.step, hpc] using ⟨hr, h⟩
  | raised => simpa only [CacheThreads.step, hpc] using ⟨hr, h⟩

/-- **C138.** Under every interleaving, when all threads have returned or raised or wait, the flag is not set: further calls are
served. -/
theorem C138_no_blocking (twice : Bool) (want : ℕ → P) (sched : List ℕ)
    (hd : ∀ t, ¬ Inside (((CacheThreads.init P).run twice want sched).pc t)) :
    ((CacheThreads.init P).run twice want sched).busy = false := by
  have key : ∀ (sched : List ℕ) (s : CacheThreads P), Sure want s → Sure want (s.run twice want sched) := by
    intro sched
    induction sched with
    | nil => intro s h; exact h
    | cons t l ih => intro s h; exact ih _ (sure_step twice want h t)
  by_contra hb
  obtain ⟨t, ht, -⟩ := (key sched (CacheThreads.init P) ⟨fun p => by simp [CacheThreads.init], fun e => by cases e⟩).2 (by simpa using hb)
  exact hd t ht

/-- **C138 (violated).** Two threads test the flag before either sets it: both use the registry at the same time, and with a library
that allows it the file is opened twice, so that two objects with the same file have different handles. -/
theorem C138_exclusion_violated : ∃ (want : ℕ → Unit) (sched : List ℕ), ∃ s : CacheThreads Unit,
    s = (CacheThreads.init Unit).run true want sched ∧ s.pc 0 = .done ∧ s.pc 1 = .done ∧ s.handle 0 = some 0 ∧ s.handle 1 = some 1 :=
  ⟨fun _ => (), [0, 1, 0, 1, 0, 1, 0, 0, 0, 1, 1, 1], _, rfl, by decide, by decide, by decide, by decide⟩

/-- **C138 (violated).** With a library that refuses this, the second call raises. -/
theorem C138_raises_violated : ∃ (want : ℕ → Unit) (sched : List ℕ), ((CacheThreads.init Unit).run false want sched).pc 1 = .raised :=
  ⟨fun _ => (), [0, 1, 0, 1, 0, 1, 0, 1], by decide⟩

/-- Three threads, two of them with the same file; the second and the third one wait. -/
private def threeFiles : ℕ → Bool := fun t => decide (t = 2)
private def threeSched : List ℕ := [0, 0, 1, 0, 0, 0, 0, 1, 1, 2, 1, 1, 1, 2, 2, 2, 2, 2, 2]

/-- The hypothesis of `C138_shared_partial` is met. -/
example : AtomicEntry false threeFiles (CacheThreads.init Bool) threeSched ∧
    ((CacheThreads.init Bool).run false threeFiles threeSched).handle 0 = some 0 ∧
    ((CacheThreads.init Bool).run false threeFiles threeSched).handle 1 = some 0 ∧
    ((CacheThreads.init Bool).run false threeFiles threeSched).handle 2 = some 1 := by
  refine ⟨?_, by decide, by decide, by decide⟩
  simp only [threeSched, AtomicEntry, CacheThreads.init]
  refine ⟨?_, ?_, ?_, ?_, ?_, ?_, ?_, ?_, ?_, ?_, ?_, ?_, ?_, ?_, ?_, ?_, ?_, ?_, ?_, trivial⟩ <;>
    simp [CacheThreads.step, CacheThreads.goto, threeFiles] <;> intro u <;> (repeat' split) <;> simp

/-- The hypothesis of `C138_no_blocking` is met: nobody is inside at the beginning. -/
example := C138_no_blocking false threeFiles [] (fun t => by simp [CacheThreads.run, CacheThreads.init, Inside])

end Acoular
