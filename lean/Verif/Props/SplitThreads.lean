import Mathlib.Data.Multiset.AddSub
import Mathlib.Algebra.BigOperators.Group.List.Basic
import Mathlib.Algebra.Order.Group.Multiset
import Mathlib.Data.List.Nodup
import Mathlib.Data.List.Infix
import Mathlib.Tactic.Abel
import Verif.Model.SplitThreads
import Verif.Spec.Stream

/-!
# C137: `SampleSplitter` used by several threads

All theorems are about every interleaving of the accesses of the threads to the shared data.
-/

namespace Acoular
open Spec

variable {β : Type}

/-- Specification: the source generator exists and has delivered nothing, every registered object is about to enter the loop. -/
structure Spec.Begun (all : List β) (s : SplitThreads β) : Prop where
  distinct : s.objs.Nodup
  source : s.src = all
  atHead : ∀ o ∈ s.objs, s.pc o = .head
  empty : ∀ o ∈ s.objs, s.queue o = [] ∧ s.out o = []

/-- What thread state `p` still has to append to the buffer of `o`. -/
private def pendPc (p : SplitPc β) (o : Nat) : Multiset β :=
  match p with
  | .give b rest => if o ∈ rest then {b} else 0
  | _ => 0

private def pend (objs : List Nat) (pc : Nat → SplitPc β) (o : Nat) : Multiset β := (objs.map fun t => pendPc (pc t) o).sum

private theorem pend_update {objs : List Nat} (hn : objs.Nodup) {t : Nat} (ht : t ∈ objs) (pc : Nat → SplitPc β) (p : SplitPc β) (o : Nat) :
    pend objs (fun u => if u = t then p else pc u) o + pendPc (pc t) o = pend objs pc o + pendPc p o := by
  induction objs with
  | nil => cases ht
  | cons a l ih =>
    obtain ⟨ha, hl⟩ := List.nodup_cons.1 hn
    simp only [pend, List.map_cons, List.sum_cons]
    by_cases hat : a = t
    · subst hat
      have : (l.map fun u => pendPc (if u = a then p else pc u) o) = l.map fun u => pendPc (pc u) o := by
        apply List.map_congr_left
        intro u hu
        rw [if_neg (fun e => ha (by rw [← e]; exact hu))]
      rw [this, if_pos rfl]
      abel
    · have h2 := ih hl ((List.mem_cons.1 ht).resolve_left (fun e => hat e.symm))
      simp only [pend] at h2
      rw [if_neg hat, add_assoc, h2]
      abel

/-- What holds after every step; `F` are the blocks fetched so far. -/
private structure ThInv (all : List β) (objs : List Nat) (cap : Nat → Nat) (F : List β) (s : SplitThreads β) : Prop where
  objs_eq : s.objs = objs
  cap_eq : s.cap = cap
  fetched : F ++ s.src = all
  past : ∀ t ∈ objs, s.pc t ≠ .start ∧ s.pc t ≠ .create
  rests : ∀ t ∈ objs, ∀ b rest, s.pc t = .give b rest → rest.Nodup
  le : ∀ o ∈ objs, (↑(s.out o) + ↑(s.queue o) + pend objs s.pc o : Multiset β) ≤ ↑F
  eq : ∀ o ∈ objs, all.length ≤ cap o → (↑(s.out o) + ↑(s.queue o) + pend objs s.pc o : Multiset β) = ↑F

private theorem th_quiet {all : List β} {objs : List Nat} {cap : Nat → Nat} {F : List β} {s : SplitThreads β} (hn : objs.Nodup) {t : Nat}
    (ht : t ∈ objs) (h : ThInv all objs cap F s) (p : SplitPc β) (hg : ∀ b rest, p ≠ .give b rest) (hold : ∀ o, pendPc (s.pc t) o = 0)
    (hs : p ≠ .start ∧ p ≠ .create) (s' : SplitThreads β) (e1 : s'.objs = s.objs) (e2 : s'.cap = s.cap) (e3 : s'.src = s.src)
    (e4 : s'.pc = fun u => if u = t then p else s.pc u)
    (e5 : ∀ o ∈ objs, (↑(s'.out o) + ↑(s'.queue o) : Multiset β) = ↑(s.out o) + ↑(s.queue o)) : ThInv all objs cap F s' := by
  have hp : ∀ o, pendPc p o = 0 := by
    intro o
    cases p with
    | give b rest => exact absurd rfl (hg b rest)
    | _ => rfl
  have hpe : ∀ o, pend objs s'.pc o = pend objs s.pc o := by
    intro o
    have := pend_update hn ht s.pc p o
    rw [hp, hold, add_zero, add_zero] at this
    rw [e4, this]
  refine ⟨e1.trans h.objs_eq, e2.trans h.cap_eq, by rw [e3]; exact h.fetched, ?_, ?_, ?_, ?_⟩
  · intro u hu
    rw [e4]
    dsimp only
    split
    · exact hs
    · exact h.past u hu
  · intro u hu b rest he
    rw [e4] at he
    dsimp only at he
    split at he
    · exact absurd he (hg b rest)
    · exact h.rests u hu b rest he
  · intro o ho; rw [e5 o ho, hpe]; exact h.le o ho
  · intro o ho hc; rw [e5 o ho, hpe]; exact h.eq o ho hc

private theorem push_le (cap : Nat) (q : List β) (b : β) : (↑(dequePush cap q b) : Multiset β) ≤ ↑q + {b} := by
  have : (↑q + {b} : Multiset β) = ↑(q ++ [b]) := rfl
  rw [this]
  exact Multiset.coe_le.2 (List.drop_sublist _ _).subperm

private theorem push_room {cap : Nat} {q : List β} (h : q.length < cap) (b : β) : dequePush cap q b = q ++ [b] := by
  unfold dequePush
  have : (q ++ [b]).length - cap = 0 := by rw [List.length_append, List.length_singleton]; omega
  rw [this, List.drop_zero]

private theorem th_step {all : List β} {objs : List Nat} {cap : Nat → Nat} {F : List β} {s : SplitThreads β} (hn : objs.Nodup) {t : Nat}
    (ht : t ∈ objs) (h : ThInv all objs cap F s) : ∃ F', ThInv all objs cap F' (s.step all t) := by
  have hpast := h.past t ht
  cases hpc : s.pc t with
  | start => exact absurd hpc hpast.1
  | create => exact absurd hpc hpast.2
  | head =>
    refine ⟨F, ?_⟩
    have e : s.step all t = s.goto t (if s.overflow then .raised else .check) := by simp only [SplitThreads.step, hpc]
    rw [e]
    refine th_quiet hn ht h _ ?_ (by rw [hpc]; intro; rfl) ?_ _ rfl rfl rfl rfl (fun _ _ => rfl) <;> split <;> simp
  | check =>
    refine ⟨F, ?_⟩
    have e : s.step all t = s.goto t (if (s.queue t).isEmpty then .inspect s.inspected else .pop) := by simp only [SplitThreads.step, hpc]
    rw [e]
    refine th_quiet hn ht h _ ?_ (by rw [hpc]; intro; rfl) ?_ _ rfl rfl rfl rfl (fun _ _ => rfl) <;> split <;> simp
  | pop =>
    refine ⟨F, ?_⟩
    cases hq : s.queue t with
    | nil =>
      have e : s.step all t = s.goto t .indexError := by simp only [SplitThreads.step, hpc, hq]
      rw [e]
      exact th_quiet hn ht h _ (by simp) (by rw [hpc]; intro; rfl) (by simp) _ rfl rfl rfl rfl (fun _ _ => rfl)
    | cons b q =>
      refine th_quiet hn ht h .head (by simp) (by rw [hpc]; intro; rfl) (by simp) _ ?_ ?_ ?_ ?_ ?_
      · simp only [SplitThreads.step, hpc, hq, SplitThreads.goto]
      · simp only [SplitThreads.step, hpc, hq, SplitThreads.goto]
      · simp only [SplitThreads.step, hpc, hq, SplitThreads.goto]
      · simp only [SplitThreads.step, hpc, hq, SplitThreads.goto]
      · intro o _
        simp only [SplitThreads.step, hpc, hq, SplitThreads.goto]
        by_cases ho : o = t
        · subst ho
          rw [if_pos rfl, if_pos rfl, hq]
          rw [Multiset.coe_add, Multiset.coe_add, List.append_assoc]
          rfl
        · rw [if_neg ho, if_neg ho]
  | inspect rest =>
    refine ⟨F, ?_⟩
    cases rest with
    | nil =>
      have e : s.step all t = s.goto t .fetch := by simp only [SplitThreads.step, hpc]
      rw [e]
      exact th_quiet hn ht h _ (by simp) (by rw [hpc]; intro; rfl) (by simp) _ rfl rfl rfl rfl (fun _ _ => rfl)
    | cons o r =>
      refine th_quiet hn ht h (.inspect r) (by simp) (by rw [hpc]; intro; rfl) (by simp) _ ?_ ?_ ?_ ?_ ?_
      · simp only [SplitThreads.step, hpc, SplitThreads.goto]
      · simp only [SplitThreads.step, hpc, SplitThreads.goto]
      · simp only [SplitThreads.step, hpc, SplitThreads.goto]
      · simp only [SplitThreads.step, hpc, SplitThreads.goto]
      · intro o _; simp only [SplitThreads.step, hpc, SplitThreads.goto]
  | fetch =>
    cases hs : s.src with
    | nil =>
      refine ⟨F, ?_⟩
      refine th_quiet hn ht h .done (by simp) (by rw [hpc]; intro; rfl) (by simp) _ ?_ ?_ ?_ ?_ ?_
      · simp only [SplitThreads.step, hpc, hs, SplitThreads.goto]
      · simp only [SplitThreads.step, hpc, hs, SplitThreads.goto]
      · simp only [SplitThreads.step, hpc, hs, SplitThreads.goto]
      · simp only [SplitThreads.step, hpc, hs, SplitThreads.goto]
      · intro o _; simp only [SplitThreads.step, hpc, hs, SplitThreads.goto]
    | cons b rest =>
      refine ⟨F ++ [b], ?_⟩
      have e : s.step all t = ({ s with src := rest } : SplitThreads β).goto t (.give b s.objs) := by simp only [SplitThreads.step, hpc, hs]
      rw [e]
      have hpe : ∀ o ∈ objs, pend objs (fun u => if u = t then .give b s.objs else s.pc u) o = pend objs s.pc o + {b} := by
        intro o ho
        have := pend_update hn ht s.pc (.give b s.objs) o
        rw [hpc] at this
        have e1 : pendPc (.give b s.objs) o = {b} := by simp only [pendPc, h.objs_eq, if_pos ho]
        have e2 : pendPc (.fetch : SplitPc β) o = 0 := rfl
        rw [e1, e2, add_zero] at this
        exact this
      have hF : (↑(F ++ [b]) : Multiset β) = ↑F + {b} := rfl
      refine ⟨h.objs_eq, h.cap_eq, ?_, ?_, ?_, ?_, ?_⟩
      · have := h.fetched
        rw [hs] at this
        simpa [SplitThreads.goto] using this
      · intro u hu
        simp only [SplitThreads.goto]
        split
        · simp
        · exact h.past u hu
      · intro u hu b' rest' he
        simp only [SplitThreads.goto] at he
        split at he
        · cases he; rw [h.objs_eq]; exact hn
        · exact h.rests u hu b' rest' he
      · intro o ho
        simp only [SplitThreads.goto]
        rw [hpe o ho, hF, ← add_assoc]
        exact Multiset.add_le_add_right (h.le o ho)
      · intro o ho hc
        simp only [SplitThreads.goto]
        rw [hpe o ho, hF, ← add_assoc, h.eq o ho hc]
  | give b rest =>
    refine ⟨F, ?_⟩
    cases rest with
    | nil =>
      have e : s.step all t = s.goto t .head := by simp only [SplitThreads.step, hpc]
      rw [e]
      exact th_quiet hn ht h _ (by simp) (by rw [hpc]; intro o; simp [pendPc]) (by simp) _ rfl rfl rfl rfl (fun _ _ => rfl)
    | cons a rest =>
      have hnd := h.rests t ht b (a :: rest) hpc
      obtain ⟨ha, hr⟩ := List.nodup_cons.1 hnd
      have e : s.step all t = ({ s with queue := fun p => if p = a then dequePush (s.cap a) (s.queue a) b else s.queue p } : SplitThreads β).goto t (.give b rest) := by
        simp only [SplitThreads.step, hpc]
      rw [e]
      have hpe : ∀ o, pend objs (fun u => if u = t then .give b rest else s.pc u) o + (if o = a then {b} else 0) = pend objs s.pc o := by
        intro o
        have := pend_update hn ht s.pc (.give b rest) o
        rw [hpc] at this
        by_cases ho : o = a
        · subst ho
          have e1 : pendPc (.give b rest) o = 0 := by simp only [pendPc, if_neg ha]
          have e2 : pendPc (.give b (o :: rest)) o = {b} := by simp [pendPc]
          rw [e1, e2, add_zero] at this
          rw [if_pos rfl]; exact this
        · have e1 : pendPc (.give b (a :: rest)) o = pendPc (.give b rest) o := by simp [pendPc, ho]
          rw [e1] at this
          rw [if_neg ho, add_zero]
          exact add_right_cancel this
      refine ⟨h.objs_eq, h.cap_eq, h.fetched, ?_, ?_, ?_, ?_⟩
      · intro u hu
        simp only [SplitThreads.goto]
        split
        · simp
        · exact h.past u hu
      · intro u hu b' rest' he
        simp only [SplitThreads.goto] at he
        split at he
        · cases he; exact hr
        · exact h.rests u hu b' rest' he
      · intro o ho
        simp only [SplitThreads.goto]
        have hle := h.le o ho
        have hp := hpe o
        by_cases hoa : o = a
        · subst hoa
          rw [if_pos rfl] at hp ⊢
          rw [← hp] at hle
          refine le_trans (Multiset.add_le_add_right (Multiset.add_le_add_left (push_le (s.cap o) (s.queue o) b))) (le_trans (le_of_eq ?_) hle)
          abel
        · rw [if_neg hoa] at hp ⊢
          rw [add_zero] at hp
          rw [hp]; exact hle
      · intro o ho hc
        simp only [SplitThreads.goto]
        have heq := h.eq o ho hc
        have hp := hpe o
        by_cases hoa : o = a
        · subst hoa
          rw [if_pos rfl] at hp ⊢
          have hcard := congrArg Multiset.card heq
          rw [← hp] at heq hcard
          simp only [Multiset.card_add, Multiset.coe_card, Multiset.card_singleton] at hcard
          have hl : F.length ≤ all.length := by rw [← h.fetched, List.length_append]; omega
          have hroom : (s.queue o).length < s.cap o := by rw [h.cap_eq]; omega
          rw [push_room hroom, ← heq]
          have : (↑(s.queue o ++ [b]) : Multiset β) = ↑(s.queue o) + {b} := rfl
          rw [this]
          abel
        · rw [if_neg hoa] at hp ⊢
          rw [add_zero] at hp
          rw [hp]; exact heq
  | done => exact ⟨F, by simpa only [SplitThreads.step, hpc] using h⟩
  | raised => exact ⟨F, by simpa only [SplitThreads.step, hpc] using h⟩
  | indexError => exact ⟨F, by simpa only [SplitThreads.step, hpc] using h⟩

private theorem th_run {all : List β} {objs : List Nat} {cap : Nat → Nat} (hn : objs.Nodup) (sched : List Nat) (hs : ∀ t ∈ sched, t ∈ objs)
    {F : List β} {s : SplitThreads β} (h : ThInv all objs cap F s) : ∃ F', ThInv all objs cap F' (s.run all sched) := by
  induction sched generalizing F s with
  | nil => exact ⟨F, h⟩
  | cons t l ih =>
    obtain ⟨F1, h1⟩ := th_step hn (hs t (by simp)) h
    exact ih (fun u hu => hs u (by simp [hu])) h1

private theorem pend_none (objs : List Nat) (pc : Nat → SplitPc β) (o : Nat) (h : ∀ t ∈ objs, ∀ b rest, pc t ≠ .give b rest) :
    pend objs pc o = 0 := by
  unfold pend
  apply List.sum_eq_zero
  intro x hx
  obtain ⟨t, ht, rfl⟩ := List.mem_map.1 hx
  have := h t ht
  cases hp : pc t with
  | give b rest => exact absurd hp (this b rest)
  | _ => rfl

private theorem th_begun {all : List β} {s : SplitThreads β} (h : Begun all s) : ThInv all s.objs s.cap [] s := by
  have hp : ∀ o, pend s.objs s.pc o = 0 := fun o => pend_none _ _ _ (fun t ht b rest => by rw [h.atHead t ht]; simp)
  refine ⟨rfl, rfl, by simpa using h.source, ?_, ?_, ?_, ?_⟩
  · intro t ht; rw [h.atHead t ht]; simp
  · intro t ht b rest he; rw [h.atHead t ht] at he; cases he
  · intro o ho; rw [hp, (h.empty o ho).1, (h.empty o ho).2]; simp
  · intro o ho _; rw [hp, (h.empty o ho).1, (h.empty o ho).2]; simp

/-- **C137.** Under every interleaving, no object receives a block twice, or a block that is not one of the source. -/
theorem C137_once {all : List β} {s : SplitThreads β} (h : Begun all s) (sched : List Nat) (hs : ∀ t ∈ sched, t ∈ s.objs) (o : Nat)
    (ho : o ∈ s.objs) : ((s.run all sched).out o).Subperm all := by
  obtain ⟨F, hF⟩ := th_run h.distinct sched hs (th_begun h)
  rw [← Multiset.coe_le]
  refine le_trans (le_trans ?_ (hF.le o ho)) ?_
  · rw [add_assoc]; exact Multiset.le_add_right _ _
  · rw [← hF.fetched]; exact Multiset.coe_le.2 (List.sublist_append_left _ _).subperm

/-- **C137.** With buffers that hold all blocks: when no thread is running any more, every block that was fetched has been delivered
to the object or is left in its buffer, exactly once. -/
theorem C137_conserved {all : List β} {s : SplitThreads β} (h : Begun all s) (sched : List Nat) (hs : ∀ t ∈ sched, t ∈ s.objs)
    (hstop : ∀ t ∈ s.objs, (s.run all sched).pc t = .done ∨ (s.run all sched).pc t = .raised ∨ (s.run all sched).pc t = .indexError)
    (o : Nat) (ho : o ∈ s.objs) (hc : all.length ≤ s.cap o) :
    ((s.run all sched).out o ++ (s.run all sched).queue o ++ (s.run all sched).src).Perm all := by
  obtain ⟨F, hF⟩ := th_run h.distinct sched hs (th_begun h)
  have hp : pend s.objs (s.run all sched).pc o = 0 := pend_none _ _ _ (fun t ht b rest => by
    rcases hstop t ht with e | e | e <;> rw [e] <;> simp)
  have := hF.eq o ho hc
  rw [hp, add_zero, Multiset.coe_add] at this
  have h2 := Multiset.coe_eq_coe.1 this
  have h3 := h2.append_right (s.run all sched).src
  rwa [hF.fetched] at h3

/-- Specification: schedules in which no block is fetched while another one is being distributed. -/
def Spec.Exclusive (all : List β) : SplitThreads β → List Nat → Prop
  | _, [] => True
  | s, t :: ts => (s.pc t = .fetch → ∀ u ∈ s.objs, ∀ b rest, s.pc u ≠ .give b rest) ∧ Spec.Exclusive all (s.step all t) ts

/-- What thread state `p` still has to append to the buffer of `o`. -/
private def owedPc (p : SplitPc β) (o : Nat) : List β :=
  match p with
  | .give b rest => if o ∈ rest then [b] else []
  | _ => []

private def owed (objs : List Nat) (pc : Nat → SplitPc β) (o : Nat) : List β := objs.flatMap fun t => owedPc (pc t) o

private theorem owed_none (objs : List Nat) (pc : Nat → SplitPc β) (o : Nat) (h : ∀ t ∈ objs, ∀ b rest, pc t ≠ .give b rest) :
    owed objs pc o = [] := by
  unfold owed
  rw [List.flatMap_eq_nil_iff]
  intro t ht
  have := h t ht
  cases hp : pc t with
  | give b rest => exact absurd hp (this b rest)
  | _ => rfl

private theorem owed_single {objs : List Nat} (hn : objs.Nodup) (pc : Nat → SplitPc β) (o t : Nat) (ht : t ∈ objs)
    (h : ∀ u ∈ objs, u ≠ t → ∀ b rest, pc u ≠ .give b rest) : owed objs pc o = owedPc (pc t) o := by
  induction objs with
  | nil => cases ht
  | cons a l ih =>
    obtain ⟨ha, hl⟩ := List.nodup_cons.1 hn
    have e : owed (a :: l) pc o = owedPc (pc a) o ++ owed l pc o := rfl
    rw [e]
    by_cases hat : a = t
    · subst hat
      rw [owed_none l pc o (fun u hu => h u (by simp [hu]) (fun e => ha (by rw [← e]; exact hu))), List.append_nil]
    · rw [ih hl ((List.mem_cons.1 ht).resolve_left (fun e => hat e.symm)) (fun u hu => h u (by simp [hu]))]
      have : owedPc (pc a) o = [] := by
        have := h a (by simp) hat
        cases hp : pc a with
        | give b rest => exact absurd hp (this b rest)
        | _ => rfl
      rw [this, List.nil_append]

private structure OrdInv (all : List β) (objs : List Nat) (cap : Nat → Nat) (F : List β) (s : SplitThreads β) : Prop where
  objs_eq : s.objs = objs
  cap_eq : s.cap = cap
  fetched : F ++ s.src = all
  past : ∀ t ∈ objs, s.pc t ≠ .start ∧ s.pc t ≠ .create
  rests : ∀ t ∈ objs, ∀ b rest, s.pc t = .give b rest → rest.Nodup
  single : ∀ t ∈ objs, ∀ b rest, s.pc t = .give b rest → ∀ u ∈ objs, u ≠ t → ∀ b' rest', s.pc u ≠ .give b' rest'
  sub : ∀ o ∈ objs, (s.out o ++ s.queue o ++ owed objs s.pc o).Sublist F
  eq : ∀ o ∈ objs, all.length ≤ cap o → s.out o ++ s.queue o ++ owed objs s.pc o = F
  ended : ∀ t ∈ objs, s.pc t = .done → s.src = [] ∧ ∀ u ∈ objs, ∀ b rest, s.pc u ≠ .give b rest

private theorem ord_quiet {all : List β} {objs : List Nat} {cap : Nat → Nat} {F : List β} {s : SplitThreads β} {t : Nat}
    (h : OrdInv all objs cap F s) (p : SplitPc β) (hg : ∀ b rest, p ≠ .give b rest) (hold : ∀ o, owedPc (s.pc t) o = [])
    (hs : p ≠ .start ∧ p ≠ .create) (s' : SplitThreads β) (e1 : s'.objs = s.objs) (e2 : s'.cap = s.cap) (e3 : s'.src = s.src)
    (e4 : s'.pc = fun u => if u = t then p else s.pc u)
    (e5 : ∀ o ∈ objs, s'.out o ++ s'.queue o = s.out o ++ s.queue o)
    (hd : p = .done → s.src = [] ∧ ∀ u ∈ objs, ∀ b rest, s.pc u ≠ .give b rest) : OrdInv all objs cap F s' := by
  have hp : ∀ o, owedPc p o = [] := by
    intro o
    cases p with
    | give b rest => exact absurd rfl (hg b rest)
    | _ => rfl
  have hpe : ∀ o, owed objs s'.pc o = owed objs s.pc o := by
    intro o
    have : (fun u => owedPc (s'.pc u) o) = fun u => owedPc (s.pc u) o := by
      funext u
      rw [e4]
      dsimp only
      split
      · rename_i hu
        rw [hp, hu, hold]
      · rfl
    unfold owed
    rw [this]
  have hgive : ∀ u b rest, s'.pc u = .give b rest → s.pc u = .give b rest := by
    intro u b rest he
    rw [e4] at he
    dsimp only at he
    split at he
    · exact absurd he (hg b rest)
    · exact he
  refine ⟨e1.trans h.objs_eq, e2.trans h.cap_eq, by rw [e3]; exact h.fetched, ?_, ?_, ?_, ?_, ?_, ?_⟩
  · intro u hu
    rw [e4]
    dsimp only
    split
    · exact hs
    · exact h.past u hu
  · intro u hu b rest he
    exact h.rests u hu b rest (hgive u b rest he)
  · intro u hu b rest he v hv hne b' rest' he'
    exact h.single u hu b rest (hgive u b rest he) v hv hne b' rest' (hgive v b' rest' he')
  · intro o ho; rw [e5 o ho, hpe]; exact h.sub o ho
  · intro o ho hc; rw [e5 o ho, hpe]; exact h.eq o ho hc
  · intro u hu he
    have key : s.src = [] ∧ ∀ u ∈ objs, ∀ b rest, s.pc u ≠ .give b rest := by
      rw [e4] at he
      dsimp only at he
      split at he
      · exact hd he
      · exact h.ended u hu he
    exact ⟨by rw [e3]; exact key.1, fun v hv b rest he' => key.2 v hv b rest (hgive v b rest he')⟩

private theorem ord_step {all : List β} {objs : List Nat} {cap : Nat → Nat} {F : List β} {s : SplitThreads β} (hn : objs.Nodup) {t : Nat}
    (ht : t ∈ objs) (hx : s.pc t = .fetch → ∀ u ∈ objs, ∀ b rest, s.pc u ≠ .give b rest) (h : OrdInv all objs cap F s) :
    ∃ F', OrdInv all objs cap F' (s.step all t) := by
  have hpast := h.past t ht
  cases hpc : s.pc t with
  | start => exact absurd hpc hpast.1
  | create => exact absurd hpc hpast.2
  | head =>
    refine ⟨F, ?_⟩
    have e : s.step all t = s.goto t (if s.overflow then .raised else .check) := by simp only [SplitThreads.step, hpc]
    rw [e]
    refine ord_quiet h _ ?_ (by rw [hpc]; intro; rfl) ?_ _ rfl rfl rfl rfl (fun _ _ => rfl) ?_ <;> split <;> simp
  | check =>
    refine ⟨F, ?_⟩
    have e : s.step all t = s.goto t (if (s.queue t).isEmpty then .inspect s.inspected else .pop) := by simp only [SplitThreads.step, hpc]
    rw [e]
    refine ord_quiet h _ ?_ (by rw [hpc]; intro; rfl) ?_ _ rfl rfl rfl rfl (fun _ _ => rfl) ?_ <;> split <;> simp
  | pop =>
    refine ⟨F, ?_⟩
    cases hq : s.queue t with
    | nil =>
      have e : s.step all t = s.goto t .indexError := by simp only [SplitThreads.step, hpc, hq]
      rw [e]
      exact ord_quiet h _ (by simp) (by rw [hpc]; intro; rfl) (by simp) _ rfl rfl rfl rfl (fun _ _ => rfl) (by simp)
    | cons b q =>
      refine ord_quiet h .head (by simp) (by rw [hpc]; intro; rfl) (by simp) _ ?_ ?_ ?_ ?_ ?_ (by simp)
      · simp only [SplitThreads.step, hpc, hq, SplitThreads.goto]
      · simp only [SplitThreads.step, hpc, hq, SplitThreads.goto]
      · simp only [SplitThreads.step, hpc, hq, SplitThreads.goto]
      · simp only [SplitThreads.step, hpc, hq, SplitThreads.goto]
      · intro o _
        simp only [SplitThreads.step, hpc, hq, SplitThreads.goto]
        by_cases ho : o = t
        · subst ho
          rw [if_pos rfl, if_pos rfl, hq, List.append_assoc]
          rfl
        · rw [if_neg ho, if_neg ho]
  | inspect rest =>
    refine ⟨F, ?_⟩
    cases rest with
    | nil =>
      have e : s.step all t = s.goto t .fetch := by simp only [SplitThreads.step, hpc]
      rw [e]
      exact ord_quiet h _ (by simp) (by rw [hpc]; intro; rfl) (by simp) _ rfl rfl rfl rfl (fun _ _ => rfl) (by simp)
    | cons o r =>
      refine ord_quiet h (.inspect r) (by simp) (by rw [hpc]; intro; rfl) (by simp) _ ?_ ?_ ?_ ?_ ?_ (by simp)
      · simp only [SplitThreads.step, hpc, SplitThreads.goto]
      · simp only [SplitThreads.step, hpc, SplitThreads.goto]
      · simp only [SplitThreads.step, hpc, SplitThreads.goto]
      · simp only [SplitThreads.step, hpc, SplitThreads.goto]
      · intro o _; simp only [SplitThreads.step, hpc, SplitThreads.goto]
  | fetch =>
    have hx := hx hpc
    cases hs : s.src with
    | nil =>
      refine ⟨F, ?_⟩
      refine ord_quiet h .done (by simp) (by rw [hpc]; intro; rfl) (by simp) _ ?_ ?_ ?_ ?_ ?_ (fun _ => ⟨hs, hx⟩)
      · simp only [SplitThreads.step, hpc, hs, SplitThreads.goto]
      · simp only [SplitThreads.step, hpc, hs, SplitThreads.goto]
      · simp only [SplitThreads.step, hpc, hs, SplitThreads.goto]
      · simp only [SplitThreads.step, hpc, hs, SplitThreads.goto]
      · intro o _; simp only [SplitThreads.step, hpc, hs, SplitThreads.goto]
    | cons b rest =>
      refine ⟨F ++ [b], ?_⟩
      have e : s.step all t = ({ s with src := rest } : SplitThreads β).goto t (.give b s.objs) := by simp only [SplitThreads.step, hpc, hs]
      rw [e]
      have hother : ∀ u ∈ objs, u ≠ t → ∀ b' rest', (if u = t then SplitPc.give b s.objs else s.pc u) ≠ .give b' rest' := by
        intro u hu hne b' rest'
        rw [if_neg hne]; exact hx u hu b' rest'
      have hpe : ∀ o ∈ objs, owed objs (fun u => if u = t then .give b s.objs else s.pc u) o = [b] := by
        intro o ho
        rw [owed_single hn _ o t ht hother, if_pos rfl]
        simp only [owedPc, h.objs_eq, if_pos ho]
      have hne : ∀ o, owed objs s.pc o = [] := fun o => owed_none _ _ _ hx
      refine ⟨h.objs_eq, h.cap_eq, ?_, ?_, ?_, ?_, ?_, ?_, ?_⟩
      · have := h.fetched
        rw [hs] at this
        simpa [SplitThreads.goto] using this
      · intro u hu
        simp only [SplitThreads.goto]
        split
        · simp
        · exact h.past u hu
      · intro u hu b' rest' he
        simp only [SplitThreads.goto] at he
        split at he
        · cases he; rw [h.objs_eq]; exact hn
        · exact h.rests u hu b' rest' he
      · intro u hu b' rest' he v hv hvu b2 rest2
        simp only [SplitThreads.goto] at he ⊢
        have hut : u = t := by
          by_contra hut
          exact hother u hu hut b' rest' he
        exact hother v hv (fun e => hvu (e.trans hut.symm)) b2 rest2
      · intro o ho
        simp only [SplitThreads.goto]
        have := h.sub o ho
        rw [hne, List.append_nil] at this
        rw [hpe o ho]
        exact this.append (List.Sublist.refl _)
      · intro o ho hc
        simp only [SplitThreads.goto]
        have := h.eq o ho hc
        rw [hne, List.append_nil] at this
        rw [hpe o ho, this]
      · intro u hu he
        simp only [SplitThreads.goto] at he
        split at he
        · cases he
        · have := (h.ended u hu he).1
          rw [hs] at this; cases this
  | give b rest =>
    refine ⟨F, ?_⟩
    cases rest with
    | nil =>
      have e : s.step all t = s.goto t .head := by simp only [SplitThreads.step, hpc]
      rw [e]
      exact ord_quiet h _ (by simp) (by rw [hpc]; intro o; simp [owedPc]) (by simp) _ rfl rfl rfl rfl (fun _ _ => rfl) (by simp)
    | cons a rest =>
      have hnd := h.rests t ht b (a :: rest) hpc
      obtain ⟨ha, hr⟩ := List.nodup_cons.1 hnd
      have e : s.step all t = ({ s with queue := fun p => if p = a then dequePush (s.cap a) (s.queue a) b else s.queue p } : SplitThreads β).goto t (.give b rest) := by
        simp only [SplitThreads.step, hpc]
      rw [e]
      have hsingle := h.single t ht b (a :: rest) hpc
      have hother : ∀ u ∈ objs, u ≠ t → ∀ b' rest', (if u = t then SplitPc.give b rest else s.pc u) ≠ .give b' rest' := by
        intro u hu hne b' rest'
        rw [if_neg hne]; exact hsingle u hu hne b' rest'
      have hnew : ∀ o, owed objs (fun u => if u = t then .give b rest else s.pc u) o = if o ∈ rest then [b] else [] := by
        intro o
        rw [owed_single hn _ o t ht hother, if_pos rfl]
        rfl
      have hold : ∀ o, owed objs s.pc o = if o ∈ a :: rest then [b] else [] := by
        intro o
        rw [owed_single hn _ o t ht hsingle, hpc]
        rfl
      refine ⟨h.objs_eq, h.cap_eq, h.fetched, ?_, ?_, ?_, ?_, ?_, ?_⟩
      · intro u hu
        simp only [SplitThreads.goto]
        split
        · simp
        · exact h.past u hu
      · intro u hu b' rest' he
        simp only [SplitThreads.goto] at he
        split at he
        · cases he; exact hr
        · exact h.rests u hu b' rest' he
      · intro u hu b' rest' he v hv hvu b2 rest2
        simp only [SplitThreads.goto] at he ⊢
        have hut : u = t := by
          by_contra hut
          exact hother u hu hut b' rest' he
        exact hother v hv (fun e => hvu (e.trans hut.symm)) b2 rest2
      · intro o ho
        simp only [SplitThreads.goto]
        have hsub := h.sub o ho
        rw [hold] at hsub
        rw [hnew]
        by_cases hoa : o = a
        · subst hoa
          rw [if_pos rfl, if_neg ha, List.append_nil]
          rw [if_pos (by simp), List.append_assoc] at hsub
          exact ((List.Sublist.refl _).append (List.drop_sublist _ _)).trans hsub
        · rw [if_neg hoa]
          simpa [hoa] using hsub
      · intro o ho hc
        simp only [SplitThreads.goto]
        have heq := h.eq o ho hc
        rw [hold] at heq
        rw [hnew]
        by_cases hoa : o = a
        · subst hoa
          rw [if_pos rfl, if_neg ha, List.append_nil]
          rw [if_pos (by simp)] at heq
          have hcard := congrArg List.length heq
          simp only [List.length_append, List.length_singleton] at hcard
          have hl : F.length ≤ all.length := by rw [← h.fetched, List.length_append]; omega
          have hroom : (s.queue o).length < s.cap o := by rw [h.cap_eq]; omega
          rw [push_room hroom, ← heq, List.append_assoc]
        · rw [if_neg hoa]
          simpa [hoa] using heq
      · intro u hu he
        simp only [SplitThreads.goto] at he
        split at he
        · cases he
        · exact absurd hpc ((h.ended u hu he).2 t ht b (a :: rest))
  | done => exact ⟨F, by simpa only [SplitThreads.step, hpc] using h⟩
  | raised => exact ⟨F, by simpa only [SplitThreads.step, hpc] using h⟩
  | indexError => exact ⟨F, by simpa only [SplitThreads.step, hpc] using h⟩

private theorem ord_run {all : List β} {objs : List Nat} {cap : Nat → Nat} (hn : objs.Nodup) (sched : List Nat) (hs : ∀ t ∈ sched, t ∈ objs)
    {F : List β} {s : SplitThreads β} (hx : Exclusive all s sched) (h : OrdInv all objs cap F s) :
    ∃ F', OrdInv all objs cap F' (s.run all sched) := by
  induction sched generalizing F s with
  | nil => exact ⟨F, h⟩
  | cons t l ih =>
    have hx1 := hx.1
    rw [h.objs_eq] at hx1
    obtain ⟨F1, h1⟩ := ord_step hn (hs t (by simp)) hx1 h
    exact ih (fun u hu => hs u (by simp [hu])) hx.2 h1

private theorem ord_begun {all : List β} {s : SplitThreads β} (h : Begun all s) : OrdInv all s.objs s.cap [] s := by
  have hg : ∀ t ∈ s.objs, ∀ b rest, s.pc t ≠ .give b rest := fun t ht b rest => by rw [h.atHead t ht]; simp
  have hp : ∀ o, owed s.objs s.pc o = [] := fun o => owed_none _ _ _ hg
  refine ⟨rfl, rfl, by simpa using h.source, ?_, ?_, ?_, ?_, ?_, ?_⟩
  · intro t ht; rw [h.atHead t ht]; simp
  · intro t ht b rest he; exact absurd he (hg t ht b rest)
  · intro t ht b rest he; exact absurd he (hg t ht b rest)
  · intro o ho; rw [hp, (h.empty o ho).1, (h.empty o ho).2]; simp
  · intro o ho _; rw [hp, (h.empty o ho).1, (h.empty o ho).2]; simp
  · intro t ht he; rw [h.atHead t ht] at he; cases he

/-- **C137 (partial).** If no block is fetched while another one is being distributed, every object receives its blocks in the order
of the source, and without gaps if the buffers hold all blocks.  Missing: other interleavings, see `C137_order_violated`. -/
theorem C137_order_partial {all : List β} {s : SplitThreads β} (h : Begun all s) (sched : List Nat) (hs : ∀ t ∈ sched, t ∈ s.objs)
    (hx : Exclusive all s sched) (o : Nat) (ho : o ∈ s.objs) :
    ((s.run all sched).out o).Sublist all ∧ (all.length ≤ s.cap o → (s.run all sched).out o <+: all) := by
  obtain ⟨F, hF⟩ := ord_run h.distinct sched hs hx (ord_begun h)
  constructor
  · refine List.Sublist.trans (List.Sublist.trans ?_ (hF.sub o ho)) (hF.fetched ▸ List.sublist_append_left _ _)
    rw [List.append_assoc]
    exact List.sublist_append_left _ _
  · intro hc
    have := hF.eq o ho hc
    rw [List.append_assoc] at this
    exact (List.IsPrefix.trans ⟨_, this⟩ ⟨_, hF.fetched⟩)

/-- **C137 (partial).** Under the same condition, when the generator of some object has come to its end, every object has received
all blocks but those still in its buffer.  Missing: the buffer of the object whose generator has ended need not be empty, see
`C137_last_block_violated`. -/
theorem C137_complete_partial {all : List β} {s : SplitThreads β} (h : Begun all s) (sched : List Nat) (hs : ∀ t ∈ sched, t ∈ s.objs)
    (hx : Exclusive all s sched) (t : Nat) (ht : t ∈ s.objs) (hd : (s.run all sched).pc t = .done) (o : Nat) (ho : o ∈ s.objs)
    (hc : all.length ≤ s.cap o) : (s.run all sched).out o ++ (s.run all sched).queue o = all := by
  obtain ⟨F, hF⟩ := ord_run h.distinct sched hs hx (ord_begun h)
  obtain ⟨e1, e2⟩ := hF.ended t ht hd
  have h1 := hF.eq o ho hc
  rw [owed_none _ _ _ e2, List.append_nil] at h1
  have h2 := hF.fetched
  rw [e1, List.append_nil] at h2
  rw [h1, h2]

/-- What keeps `pop` from failing. -/
private structure PopInv (s : SplitThreads β) : Prop where
  room : ∀ u ∈ s.objs, (s.queue u).length ≤ s.cap u
  sure : ∀ u ∈ s.objs, s.pc u = .pop → s.queue u ≠ []
  fine : ∀ u ∈ s.objs, s.pc u ≠ .start ∧ s.pc u ≠ .create ∧ s.pc u ≠ .indexError

private theorem pop_quiet {s : SplitThreads β} (h : PopInv s) (t : Nat) (p : SplitPc β) (s' : SplitThreads β) (e1 : s'.objs = s.objs)
    (e2 : s'.cap = s.cap) (e3 : s'.pc = fun u => if u = t then p else s.pc u)
    (e4 : ∀ u ∈ s.objs, u ≠ t → (s.queue u ≠ [] → s'.queue u ≠ []) ) (e5 : ∀ u ∈ s.objs, (s'.queue u).length ≤ s.cap u)
    (hp : p = .pop → s'.queue t ≠ []) (hf : p ≠ .start ∧ p ≠ .create ∧ p ≠ .indexError) : PopInv s' := by
  refine ⟨fun u hu => by rw [e2]; exact e5 u (e1 ▸ hu), fun u hu he => ?_, fun u hu => ?_⟩
  · rw [e1] at hu
    rw [e3] at he
    dsimp only at he
    split at he
    · rename_i e; subst e; exact hp he
    · rename_i e; exact e4 u hu e (h.sure u hu he)
  · rw [e1] at hu
    rw [e3]
    dsimp only
    split
    · exact hf
    · exact h.fine u hu

private theorem pop_step (all : List β) {s : SplitThreads β} (h : PopInv s) {t : Nat} (ht : t ∈ s.objs) : PopInv (s.step all t) := by
  obtain ⟨f1, f2, f3⟩ := h.fine t ht
  cases hpc : s.pc t with
  | start => exact absurd hpc f1
  | create => exact absurd hpc f2
  | head =>
    simp only [SplitThreads.step, hpc]
    exact pop_quiet h t (if s.overflow then .raised else .check) _ rfl rfl rfl (fun _ _ _ h => h) h.room (by split <;> simp) (by split <;> simp)
  | check =>
    simp only [SplitThreads.step, hpc]
    refine pop_quiet h t (if (s.queue t).isEmpty then .inspect s.inspected else .pop) _ rfl rfl rfl (fun _ _ _ h => h) h.room ?_ (by split <;> simp)
    cases hq : s.queue t with
    | nil => simp
    | cons b q => intro _; simp [SplitThreads.goto, hq]
  | pop =>
    cases hq : s.queue t with
    | nil => exact absurd hq (h.sure t ht hpc)
    | cons b q =>
      simp only [SplitThreads.step, hpc, hq]
      refine pop_quiet h t .head _ rfl rfl rfl (fun u _ hu h => by simpa [SplitThreads.goto, hu] using h) ?_ (by simp) (by simp)
      intro u hu
      simp only [SplitThreads.goto]
      split
      · rename_i e; subst e
        have := h.room u hu
        rw [hq, List.length_cons] at this
        omega
      · exact h.room u hu
  | inspect rest =>
    cases rest with
    | nil =>
      simp only [SplitThreads.step, hpc]
      exact pop_quiet h t .fetch _ rfl rfl rfl (fun _ _ _ h => h) h.room (by simp) (by simp)
    | cons a r =>
      simp only [SplitThreads.step, hpc]
      exact pop_quiet h t (.inspect r) _ rfl rfl rfl (fun _ _ _ h => h) h.room (by simp) (by simp)
  | fetch =>
    cases hs : s.src with
    | nil =>
      simp only [SplitThreads.step, hpc, hs]
      exact pop_quiet h t .done _ rfl rfl rfl (fun _ _ _ h => h) h.room (by simp) (by simp)
    | cons b rest =>
      simp only [SplitThreads.step, hpc, hs]
      exact pop_quiet h t (.give b s.objs) _ rfl rfl rfl (fun _ _ _ h => h) h.room (by simp) (by simp)
  | give b rest =>
    cases rest with
    | nil =>
      simp only [SplitThreads.step, hpc]
      exact pop_quiet h t .head _ rfl rfl rfl (fun _ _ _ h => h) h.room (by simp) (by simp)
    | cons a r =>
      simp only [SplitThreads.step, hpc]
      refine pop_quiet h t (.give b r) _ rfl rfl rfl ?_ ?_ (by simp) (by simp)
      · intro u hu _ hne
        simp only [SplitThreads.goto]
        split
        · rename_i e; subst e
          intro h0
          have hl := congrArg List.length h0
          have hr := h.room u hu
          have hpos := List.length_pos_of_ne_nil hne
          simp only [dequePush, List.length_drop, List.length_append, List.length_singleton, List.length_nil] at hl
          omega
        · exact hne
      · intro u hu
        simp only [SplitThreads.goto]
        split
        · rename_i e; subst e
          simp only [dequePush, List.length_drop, List.length_append, List.length_singleton]
          omega
        · exact h.room u hu
  | done => simpa only [SplitThreads.step, hpc] using h
  | raised => simpa only [SplitThreads.step, hpc] using h
  | indexError => exact absurd hpc f3

private theorem step_objs (all : List β) (s : SplitThreads β) (t : Nat) : (s.step all t).objs = s.objs := by
  unfold SplitThreads.step
  split <;> (try split) <;> rfl

/-- **C137.** Once the source generator exists, no thread takes a block from an empty buffer, under every interleaving. -/
theorem C137_no_crash {all : List β} {s : SplitThreads β} (h : Begun all s) (sched : List Nat) (hs : ∀ t ∈ sched, t ∈ s.objs) (o : Nat)
    (ho : o ∈ s.objs) : (s.run all sched).pc o ≠ .indexError := by
  have h0 : PopInv s := ⟨fun u hu => by rw [(h.empty u hu).1]; simp, fun u hu he => by (rw [h.atHead u hu] at he; cases he),
    fun u hu => by rw [h.atHead u hu]; simp⟩
  clear h
  induction sched generalizing s with
  | nil => exact (h0.fine o ho).2.2
  | cons t l ih =>
    have e := step_objs all s t
    exact ih (s := s.step all t) (fun u hu => by rw [e]; exact hs u (by simp [hu])) (by rw [e]; exact ho) (pop_step all h0 (hs t (by simp)))

/-- What object `o` may still receive after an overflow. -/
private def allowance (p : SplitPc β) : Nat :=
  match p with
  | .check | .pop => 1
  | _ => 0

/-- **C137.** Once an overflow has been noticed, no object receives more than one further block, under every interleaving. -/
theorem C137_overflow (all : List β) (s : SplitThreads β) (hov : s.overflow = true) (sched : List Nat)
    (hp : ∀ t ∈ sched, s.pc t ≠ .start ∧ s.pc t ≠ .create) (o : Nat) :
    ((s.run all sched).out o).length ≤ (s.out o).length + 1 := by
  suffices hk : ((s.run all sched).out o).length + allowance ((s.run all sched).pc o) ≤ (s.out o).length + allowance (s.pc o) by
    have : allowance (s.pc o) ≤ 1 := by unfold allowance; split <;> omega
    omega
  induction sched generalizing s with
  | nil => exact le_refl _
  | cons t l ih =>
    obtain ⟨hp1, hp2⟩ := hp t (by simp)
    have key : (s.step all t).overflow = true ∧ (∀ u, s.pc u ≠ .start ∧ s.pc u ≠ .create → (s.step all t).pc u ≠ .start ∧ (s.step all t).pc u ≠ .create) ∧
        ((s.step all t).out o).length + allowance ((s.step all t).pc o) ≤ (s.out o).length + allowance (s.pc o) := by
      cases hpc : s.pc t with
      | start => exact absurd hpc hp1
      | create => exact absurd hpc hp2
      | head =>
        simp only [SplitThreads.step, hpc, hov, if_true, SplitThreads.goto]
        refine ⟨trivial, ?_, ?_⟩
        · intro u hu; split <;> simp_all
        · by_cases e : o = t
          · subst e; simp [allowance]
          · simp [e]
      | check =>
        simp only [SplitThreads.step, hpc, SplitThreads.goto]
        refine ⟨hov, ?_, ?_⟩
        · intro u hu; split
          · split <;> simp
          · exact hu
        · by_cases e : o = t
          · subst e; rw [if_pos rfl, hpc]; split <;> simp [allowance]
          · rw [if_neg e]
      | pop =>
        cases hq : s.queue t with
        | nil =>
          simp only [SplitThreads.step, hpc, hq, SplitThreads.goto]
          refine ⟨hov, ?_, ?_⟩
          · intro u hu; split <;> simp_all
          · by_cases e : o = t
            · subst e; simp [allowance]
            · simp [e]
        | cons b q =>
          simp only [SplitThreads.step, hpc, hq, SplitThreads.goto]
          refine ⟨hov, ?_, ?_⟩
          · intro u hu; split <;> simp_all
          · by_cases e : o = t
            · subst e; rw [if_pos rfl, if_pos rfl, hpc]; simp [allowance]
            · rw [if_neg e, if_neg e]
      | inspect rest =>
        cases rest with
        | nil =>
          simp only [SplitThreads.step, hpc, SplitThreads.goto]
          refine ⟨hov, ?_, ?_⟩
          · intro u hu; split <;> simp_all
          · by_cases e : o = t
            · subst e; simp [allowance]
            · simp [e]
        | cons a r =>
          simp only [SplitThreads.step, hpc, SplitThreads.goto]
          refine ⟨by simp [hov], ?_, ?_⟩
          · intro u hu; split <;> simp_all
          · by_cases e : o = t
            · subst e; simp [allowance]
            · simp [e]
      | fetch =>
        cases hs : s.src with
        | nil =>
          simp only [SplitThreads.step, hpc, hs, SplitThreads.goto]
          refine ⟨hov, ?_, ?_⟩
          · intro u hu; split <;> simp_all
          · by_cases e : o = t
            · subst e; simp [allowance]
            · simp [e]
        | cons b rest =>
          simp only [SplitThreads.step, hpc, hs, SplitThreads.goto]
          refine ⟨hov, ?_, ?_⟩
          · intro u hu; split <;> simp_all
          · by_cases e : o = t
            · subst e; simp [allowance]
            · simp [e]
      | give b rest =>
        cases rest with
        | nil =>
          simp only [SplitThreads.step, hpc, SplitThreads.goto]
          refine ⟨hov, ?_, ?_⟩
          · intro u hu; split <;> simp_all
          · by_cases e : o = t
            · subst e; simp [allowance]
            · simp [e]
        | cons a r =>
          simp only [SplitThreads.step, hpc, SplitThreads.goto]
          refine ⟨hov, ?_, ?_⟩
          · intro u hu; split <;> simp_all
          · by_cases e : o = t
            · subst e; simp [allowance]
            · simp [e]
      | done => simp only [SplitThreads.step, hpc]; exact ⟨hov, fun _ h => h, le_refl _⟩
      | raised => simp only [SplitThreads.step, hpc]; exact ⟨hov, fun _ h => h, le_refl _⟩
      | indexError => simp only [SplitThreads.step, hpc]; exact ⟨hov, fun _ h => h, le_refl _⟩
    exact le_trans (ih (s.step all t) key.1 (fun u hu => key.2.1 u (hp u (by simp [hu])))) key.2.2

private theorem start_all (all : List β) (os : List Nat) (s : SplitThreads β) (he : s.sourceExists = true) (hp : ∀ u ∈ os, s.pc u = .start)
    (hn : os.Nodup) : (s.run all os).objs = s.objs ∧ (s.run all os).src = s.src ∧ (s.run all os).queue = s.queue ∧
    (s.run all os).out = s.out ∧ (s.run all os).sourceExists = true ∧ ∀ u, (s.run all os).pc u = if u ∈ os then .head else s.pc u := by
  induction os generalizing s with
  | nil => exact ⟨rfl, rfl, rfl, rfl, he, fun u => by simp [SplitThreads.run]⟩
  | cons t l ih =>
    obtain ⟨ht, hl⟩ := List.nodup_cons.1 hn
    have e : s.step all t = s.goto t .head := by simp only [SplitThreads.step, hp t (by simp), he, if_true]
    have hr : s.run all (t :: l) = (s.goto t .head).run all l := by rw [← e]; rfl
    obtain ⟨h1, h2, h3, h4, h5, h6⟩ := ih (s.goto t .head) he (fun u hu => by
      simp only [SplitThreads.goto]
      rw [if_neg (fun e => ht (by rw [← e]; exact hu))]
      exact hp u (by simp [hu])) hl
    rw [hr]
    refine ⟨h1, h2, h3, h4, h5, fun u => ?_⟩
    rw [h6 u]
    by_cases hu : u ∈ l
    · simp [hu]
    · rw [if_neg hu]
      simp only [SplitThreads.goto, List.mem_cons]
      by_cases hut : u = t <;> simp [hut, hu, ht]

/-- **C137.** The hypothesis of the theorems is met after the first object has started, followed by all others. -/
theorem C137_begin (all : List β) (o : Nat) (os : List Nat) (hn : (o :: os).Nodup) (cap : Nat → Nat) (treat : Nat → Treatment)
    (size : Option Nat) : Begun all ((SplitThreads.init (o :: os) cap treat size).run all (o :: o :: os)) := by
  obtain ⟨ho, hos⟩ := List.nodup_cons.1 hn
  obtain ⟨s, hs⟩ : ∃ s, s = ((SplitThreads.init (β := β) (o :: os) cap treat size).step all o).step all o := ⟨_, rfl⟩
  have hr : (SplitThreads.init (o :: os) cap treat size).run all (o :: o :: os) = s.run all os := by rw [hs]; rfl
  have f1 : s.objs = o :: os := by rw [hs]; simp [SplitThreads.step, SplitThreads.init, SplitThreads.goto]
  have f2 : s.src = all := by rw [hs]; simp [SplitThreads.step, SplitThreads.init, SplitThreads.goto]
  have f3 : s.sourceExists = true := by rw [hs]; simp [SplitThreads.step, SplitThreads.init, SplitThreads.goto]
  have f4 : ∀ u, s.pc u = if u = o then .head else .start := by
    rw [hs]; intro u; by_cases hu : u = o <;> simp [SplitThreads.step, SplitThreads.init, SplitThreads.goto, hu]
  have f5 : ∀ u, s.queue u = [] := by rw [hs]; intro u; simp [SplitThreads.step, SplitThreads.init, SplitThreads.goto]
  have f6 : ∀ u, s.out u = [] := by rw [hs]; intro u; simp [SplitThreads.step, SplitThreads.init, SplitThreads.goto]
  obtain ⟨h1, h2, h3, h4, h5, h6⟩ := start_all all os s f3 (fun u hu => by rw [f4, if_neg (fun e => ho (by rw [← e]; exact hu))]) hos
  rw [hr]
  refine ⟨by rw [h1, f1]; exact hn, by rw [h2, f2], ?_, ?_⟩
  · rw [h1, f1]
    intro u hu
    rw [h6]
    by_cases hus : u ∈ os
    · rw [if_pos hus]
    · rw [if_neg hus, f4, if_pos ((List.mem_cons.1 hu).resolve_right hus)]
  · intro u _
    rw [h3, h4]
    exact ⟨f5 u, f6 u⟩

/-- The hypotheses of `C137_begin` are met: -/
example := C137_begin [10, 20, 30] 0 [1, 2] (by decide) (fun _ => 100) (fun _ => .error) none

/-- Two objects with room for ten blocks. -/
private def two (all : List Nat) : SplitThreads Nat := (SplitThreads.init [0, 1] (fun _ => 10) (fun _ => .error) (some 10)).run all [0, 0, 1]

/-- **C137 (violated).** Two threads fetch one block each and the one that fetched the second block is the first to distribute it:
the blocks are delivered in the wrong order. -/
theorem C137_order_violated : ∃ (all : List Nat) (s : SplitThreads Nat) (sched : List Nat), Begun all s ∧ (∀ t ∈ sched, t ∈ s.objs) ∧
    (∀ o ∈ s.objs, all.length ≤ s.cap o) ∧ all = [10, 20] ∧ (s.run all sched).out 1 = [20, 10] ∧
    (s.run all sched).overflow = false :=
  ⟨[10, 20], two [10, 20], [0, 0, 0, 0, 0, 0, 1, 1, 1, 1, 1, 1] ++ [1, 1, 1, 1, 1, 1] ++ [0, 0, 0] ++ [1, 1, 1],
    C137_begin [10, 20] 0 [1] (by decide) _ _ _, by decide, by decide, rfl, by decide, by decide⟩

/-- **C137 (violated).** An object finds its buffer empty, then another one fetches and distributes the last block, then the first one
finds the source exhausted and ends, without the last block and without an error, although no block was fetched while another one was
being distributed. -/
theorem C137_last_block_violated : ∃ (all : List Nat) (s : SplitThreads Nat) (sched : List Nat), Begun all s ∧
    (∀ t ∈ sched, t ∈ s.objs) ∧ (∀ o ∈ s.objs, all.length ≤ s.cap o) ∧ Exclusive all s sched ∧ all = [10] ∧
    (s.run all sched).pc 1 = .done ∧ (s.run all sched).out 1 = [] ∧ (s.run all sched).overflow = false := by
  refine ⟨[10], two [10], [1, 1, 1, 1, 1] ++ [0, 0, 0, 0, 0, 0, 0, 0, 0] ++ [1], C137_begin [10] 0 [1] (by decide) _ _ _, by decide, by decide, ?_,
    rfl, by decide, by decide, by decide⟩
  simp [Exclusive, two, SplitThreads.run, SplitThreads.step, SplitThreads.init, SplitThreads.goto, SplitThreads.inspected, dequePush]

/-- **C137 (violated).** Two threads start at the same time and both create a generator of the source: a block is delivered twice. -/
theorem C137_two_sources_violated : ∃ sched : List Nat,
    ((SplitThreads.init (β := Nat) [0, 1] (fun _ => 10) (fun _ => .error) (some 10)).run [10, 20] sched).out 0 = [10, 10] :=
  ⟨[0, 1, 0] ++ [0, 0, 0, 0, 0, 0, 0, 0, 0] ++ [0, 0, 0] ++ [1] ++ [0, 0, 0, 0, 0, 0, 0, 0, 0] ++ [0, 0, 0], by decide⟩

/-- **C137 (violated).** Or one of them empties the buffer from which the other one is about to take a block: `IndexError`. -/
theorem C137_crash_violated : ∃ sched : List Nat,
    ((SplitThreads.init (β := Nat) [0, 1] (fun _ => 10) (fun _ => .error) (some 10)).run [10, 20] sched).pc 0 = .indexError :=
  ⟨[0, 1, 0] ++ [0, 0, 0, 0, 0, 0, 0, 0, 0] ++ [0, 0] ++ [1] ++ [0], by decide⟩

/-- **C137 (violated).** Both threads look at the buffers before either appends: blocks are lost although every object asked for an
error on overflow, and nobody is told. -/
theorem C137_silent_loss_violated : ∃ sched : List Nat, ∃ s : SplitThreads Nat,
    s = (SplitThreads.init (β := Nat) [0, 1] (fun _ => 1) (fun _ => .error) (some 1)).run [10, 20] sched ∧
    s.out 0 = [20] ∧ s.out 1 = [20] ∧ s.pc 0 = .done ∧ s.pc 1 = .done :=
  ⟨[0, 0, 1] ++ [0, 0, 0, 0, 0, 0, 1, 1, 1, 1, 1, 1] ++ [0, 0, 0] ++ [1, 1, 1] ++ [0, 0, 0] ++ [1, 1, 1] ++ [0, 0, 0, 0, 0] ++ [1, 1, 1, 1, 1] ++ [0, 1], _, rfl,
    by decide, by decide, by decide, by decide⟩

/-- Two threads have begun; this is the state of the instances below. -/
private def begunEx : SplitThreads ℕ := (SplitThreads.init [0, 1] (fun _ => 100) (fun _ => .error) none).run [10, 20, 30] [0, 0, 1]

private theorem begunEx_begun : Begun [10, 20, 30] begunEx := C137_begin [10, 20, 30] 0 [1] (by decide) _ _ _

/-- The hypotheses of `C137_once` are met: -/
example := C137_once begunEx_begun [0, 0, 1, 0, 1, 1] (by decide) 1 (by decide)

/-- The hypotheses of `C137_no_crash` are met: -/
example := C137_no_crash begunEx_begun [0, 0, 1, 0, 1, 1] (by decide) 1 (by decide)

/-- The two threads run one after the other to their ends. -/
example := C137_conserved begunEx_begun (List.replicate 45 0 ++ List.replicate 20 1) (by decide) (by decide) 1 (by decide) (by decide)

private theorem alone_exclusive {all : List β} (t : Nat) (n : ℕ) (s : SplitThreads β) (h : ∀ u ≠ t, ∀ b rest, s.pc u ≠ .give b rest) :
    Exclusive all s (List.replicate n t) := by
  induction n generalizing s with
  | zero => trivial
  | succ n ih =>
    refine ⟨fun hf u _ b rest => ?_, ih _ fun u hu b rest => ?_⟩
    · by_cases hu : u = t
      · rw [hu, hf]; exact fun e => by cases e
      · exact h u hu b rest
    · have : (s.step all t).pc u = s.pc u := by
        unfold SplitThreads.step
        split <;> try split
        all_goals first | rfl | simp [SplitThreads.goto, hu]
      rw [this]
      exact h u hu b rest

private theorem begunEx_alone : Exclusive [10, 20, 30] begunEx (List.replicate 45 1) := alone_exclusive 1 45 _ fun u hu b rest => by
  by_cases h : u = 0
  · subst h; exact fun e => by cases e
  · have : begunEx.pc u = .start := by simp [begunEx, SplitThreads.run, SplitThreads.init, SplitThreads.step, SplitThreads.goto, h, hu]
    rw [this]; exact fun e => by cases e

/-- The hypotheses of `C137_order_partial` are met: -/
example := C137_order_partial begunEx_begun (List.replicate 45 1) (by decide) begunEx_alone 0 (by decide)

/-- The hypotheses of `C137_complete_partial` are met: -/
example := C137_complete_partial begunEx_begun (List.replicate 45 1) (by decide) begunEx_alone 1 (by decide) (by decide) 0 (by decide) (by decide)

/-- The hypotheses of `C137_overflow` are met by two threads in front of the test after an overflow. -/
example := C137_overflow [10, 20, 30] { begunEx with overflow := true } rfl [0, 1, 0, 1] (by decide) 0

end Acoular
