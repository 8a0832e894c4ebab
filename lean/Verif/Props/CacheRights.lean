import Verif.Model.CacheRights
import Mathlib.Tactic.Common

/-!
# C150: changes of the caching mode during a session
-/

namespace Acoular

variable {O N V : Type} [DecidableEq O] [DecidableEq N]

/-- The modes in which results may be written. -/
def Spec.writing (m : CacheMode) : Prop := m = .all ∨ m = .individual ∨ m = .overwrite

/-- A history in which, in every process, no result is requested in a writing mode after one was requested in the mode
`readonly`. -/
def Spec.Separated : CacheMode → Bool → List (RightsAct O N) → Prop
  | _, _, [] => True
  | _, seen, .setMode m :: l => Spec.Separated m seen l
  | m, seen, .request _ _ :: l => (Spec.writing m → seen = false) ∧ Spec.Separated m (seen || decide (m = .readonly)) l
  | m, _, .restart :: l => Spec.Separated m false l
  | m, seen, .setCached _ _ :: l => Spec.Separated m seen l
  | m, seen, .drop _ :: l => Spec.Separated m seen l
  | m, seen, .other :: l => Spec.Separated m seen l

/-- A file with right values only, which is not open. -/
def Spec.Fresh (value : N → V) (w : RightsWorld O N V) : Prop :=
  w.handle = none ∧ w.users = [] ∧ ∀ n v, w.nodes n = some v → v = value n

open Spec

/-- Only right values in the file. -/
private def Good (value : N → V) (w : RightsWorld O N V) : Prop := ∀ n v, w.nodes n = some v → v = value n

omit [DecidableEq N] in
private theorem getFile_nodes (w : RightsWorld O N V) (o : O) : (w.getFile o).1.nodes = w.nodes ∧ (w.getFile o).1.mode = w.mode := by
  unfold RightsWorld.getFile
  split
  · exact ⟨rfl, rfl⟩
  · split <;> exact ⟨rfl, rfl⟩

private theorem request_good (value : N → V) (w : RightsWorld O N V) (o : O) (n : N) (h : Good value w) :
    Good value (w.request value o n).1 ∧
    ((w.request value o n).2 = .ok (value n) ∨
      (w.request value o n).2 = .error .valueError ∧ writing w.mode ∧ (w.getFile o).1.handle ≠ some true ∧ (w.getFile o).2 = true) := by
  unfold RightsWorld.request
  split
  · exact ⟨h, Or.inl rfl⟩
  rename_i hm
  unfold RightsWorld.fileCache
  obtain ⟨e1, e2⟩ := getFile_nodes w o
  cases hg : w.getFile o with
  | mk w1 b =>
    rw [hg] at e1 e2
    simp only at e1 e2
    have h1 : Good value w1 := by
      intro k v hk
      rw [e1] at hk
      exact h k v hk
    cases b with
    | false => exact ⟨h1, Or.inl rfl⟩
    | true =>
      simp only
      split
      · rename_i hc
        refine ⟨h1, Or.inr ⟨rfl, Or.inr (Or.inr (e2 ▸ hc.1)), hc.2.2, trivial⟩⟩
      · set w2 := if w1.mode = .overwrite then { w1 with nodes := fun k => if k = n then none else w1.nodes k } else w1 with hw2
        have h2 : Good value w2 := by
          rw [hw2]
          split
          · intro k v hk
            simp only at hk
            split at hk
            · cases hk
            · exact h1 k v hk
          · exact h1
        have hm2 : w2.mode = w.mode := by
          rw [hw2]
          split <;> exact e2
        split
        · rename_i v hv
          exact ⟨h2, Or.inl (by rw [h2 n v hv])⟩
        · split
          · exact ⟨h2, Or.inl rfl⟩
          · rename_i hro
            split
            · refine ⟨?_, Or.inl rfl⟩
              intro k v hk
              simp only at hk
              split at hk
              · rename_i hkn
                rw [hkn]
                exact (Option.some.inj hk).symm
              · exact h2 k v hk
            · rename_i hnw
              refine ⟨h2, Or.inr ⟨rfl, ?_, hnw, trivial⟩⟩
              rw [hm2] at hro
              unfold writing
              cases hmode : w.mode <;> simp_all

/-- **C150** (part): whatever the history of modes, requests and deletions is, a request never returns a wrong value: it
returns the value calculated, or fails. -/
theorem C150_values (value : N → V) (w : RightsWorld O N V) (h : Fresh value w) (acts : List (RightsAct O N)) :
    ∀ r ∈ (w.run value acts).2, r.2 = .ok (value r.1) ∨ r.2 = .error .valueError := by
  have hg : Good value w := h.2.2
  clear h
  induction acts generalizing w with
  | nil => intro r hr; simp [RightsWorld.run] at hr
  | cons a as ih =>
    intro r hr
    simp only [RightsWorld.run, List.mem_append] at hr
    rcases hr with hr | hr
    · cases a with
      | request o n =>
        simp only [RightsWorld.step, List.mem_singleton] at hr
        subst hr
        rcases (request_good value w o n hg).2 with h | h
        · exact Or.inl h
        · exact Or.inr h.1
      | _ => simp at hr
    · refine ih _ ?_ r hr
      cases a with
      | request o n => exact (request_good value w o n hg).1
      | other => simp only [RightsWorld.step]; split <;> exact hg
      | _ => exact hg

/-- The file is open for writing if it is open, unless the mode `readonly` was used. -/
private def Inv (value : N → V) (seen : Bool) (w : RightsWorld O N V) : Prop :=
  Good value w ∧ (seen = false → w.handle ≠ some false) ∧ (w.users ≠ [] → w.handle.isSome)

private theorem request_frame (value : N → V) (w : RightsWorld O N V) (o : O) (n : N) :
    (w.request value o n).1.mode = w.mode ∧
    ((w.request value o n).1 = w ∨ (w.request value o n).1.handle = (w.getFile o).1.handle ∧
      (w.request value o n).1.users = (w.getFile o).1.users) := by
  unfold RightsWorld.request
  split
  · exact ⟨rfl, Or.inl rfl⟩
  unfold RightsWorld.fileCache
  obtain ⟨e1, e2⟩ := getFile_nodes w o
  cases hg : w.getFile o with
  | mk w1 b =>
    rw [hg] at e2
    simp only at e2
    cases b with
    | false => exact ⟨e2, Or.inr ⟨rfl, rfl⟩⟩
    | true =>
      simp only
      split
      · exact ⟨e2, Or.inr ⟨rfl, rfl⟩⟩
      · set w2 := if w1.mode = .overwrite then { w1 with nodes := fun k => if k = n then none else w1.nodes k } else w1 with hw2
        have hh : w2.mode = w1.mode ∧ w2.handle = w1.handle ∧ w2.users = w1.users := by
          rw [hw2]
          split <;> exact ⟨rfl, rfl, rfl⟩
        split
        · exact ⟨hh.1.trans e2, Or.inr hh.2⟩
        · split
          · exact ⟨hh.1.trans e2, Or.inr hh.2⟩
          · split
            · exact ⟨hh.1.trans e2, Or.inr hh.2⟩
            · exact ⟨hh.1.trans e2, Or.inr hh.2⟩

omit [DecidableEq N] in
private theorem getFile_inv (w : RightsWorld O N V) (o : O) (seen : Bool) (h1 : seen = false → w.handle ≠ some false)
    (h2 : w.users ≠ [] → w.handle.isSome) :
    ((seen || decide (w.mode = .readonly)) = false → (w.getFile o).1.handle ≠ some false) ∧
    ((w.getFile o).1.users ≠ [] → (w.getFile o).1.handle.isSome) ∧
    ((w.getFile o).2 = true → (w.getFile o).1.handle.isSome) := by
  unfold RightsWorld.getFile
  split
  · rename_i hc
    refine ⟨fun h => ?_, fun h => ?_, fun h => by simp at h⟩
    · simp [hc.1] at h
    · refine h2 fun he => h ?_
      simp [he]
  · split
    · rename_i hmem
      refine ⟨fun h => h1 (by simp at h; exact h.1), h2, fun _ => h2 ?_⟩
      intro he
      rw [he] at hmem
      simp at hmem
    · refine ⟨fun h => ?_, fun _ => rfl, fun _ => rfl⟩
      simp only [Bool.or_eq_false_iff, decide_eq_false_iff_not] at h
      have := h1 h.1
      simp only [h.2, not_false_eq_true, decide_true, ne_eq]
      cases hw : w.handle with
      | none => simp
      | some b => rw [hw] at this; simpa using this

private theorem run_partial (value : N → V) (acts : List (RightsAct O N)) : ∀ (w : RightsWorld O N V) (seen : Bool), Inv value seen w →
    Separated w.mode seen acts → ∀ r ∈ (w.run value acts).2, r.2 = .ok (value r.1) := by
  induction acts with
  | nil => intro w seen _ _ r hr; simp [RightsWorld.run] at hr
  | cons a as ih =>
    intro w seen hi hs r hr
    simp only [RightsWorld.run, List.mem_append] at hr
    cases a with
    | request o n =>
      obtain ⟨hs1, hs2⟩ := hs
      obtain ⟨i1, i2, i3⟩ := getFile_inv w o seen hi.2.1 hi.2.2
      rcases hr with hr | hr
      · simp only [RightsWorld.step, List.mem_singleton] at hr
        subst hr
        rcases (request_good value w o n hi.1).2 with h | ⟨_, hw, hh, hb⟩
        · exact h
        · exfalso
          have hne : w.mode ≠ .readonly := by rintro he; rw [he] at hw; rcases hw with h | h | h <;> cases h
          have := i1 (by rw [hs1 hw]; simp [hne])
          have hsome := i3 hb
          cases hv : (w.getFile o).1.handle with
          | none => rw [hv] at hsome; simp at hsome
          | some b => cases b <;> simp_all
      · obtain ⟨f1, f2⟩ := request_frame value w o n
        refine ih _ (seen || decide (w.mode = .readonly)) ⟨(request_good value w o n hi.1).1, ?_, ?_⟩ ?_ r hr
        · rcases f2 with f2 | f2
          · simp only [RightsWorld.step, f2]
            intro h
            exact hi.2.1 (by simp at h; exact h.1)
          · simp only [RightsWorld.step, f2.1]
            exact i1
        · rcases f2 with f2 | f2
          · simp only [RightsWorld.step, f2]
            exact hi.2.2
          · simp only [RightsWorld.step, f2.1, f2.2]
            exact i2
        · simp only [RightsWorld.step, f1]
          exact hs2
    | setMode m =>
      rcases hr with hr | hr
      · simp [RightsWorld.step] at hr
      · exact ih (w.step value (.setMode m)).1 seen ⟨hi.1, hi.2.1, hi.2.2⟩ hs r hr
    | setCached o b =>
      rcases hr with hr | hr
      · simp [RightsWorld.step] at hr
      · exact ih (w.step value (.setCached o b)).1 seen ⟨hi.1, hi.2.1, hi.2.2⟩ hs r hr
    | drop o =>
      rcases hr with hr | hr
      · simp [RightsWorld.step] at hr
      · refine ih (w.step value (.drop o)).1 seen ⟨hi.1, hi.2.1, fun h => hi.2.2 fun he => h ?_⟩ hs r hr
        simp [RightsWorld.step, he]
    | other =>
      rcases hr with hr | hr
      · simp [RightsWorld.step] at hr
      · by_cases hu : w.users = []
        · refine ih (w.step value .other).1 seen ⟨?_, ?_, ?_⟩ ?_ r hr <;> simp only [RightsWorld.step, if_pos hu]
          · exact hi.1
          · simp
          · exact fun h => absurd hu h
          · exact hs
        · refine ih (w.step value .other).1 seen ?_ ?_ r hr <;> simp only [RightsWorld.step, if_neg hu]
          · exact hi
          · exact hs
    | restart =>
      rcases hr with hr | hr
      · simp [RightsWorld.step] at hr
      · exact ih (w.step value .restart).1 false
          ⟨hi.1, fun _ => by simp [RightsWorld.step], fun h => by simp [RightsWorld.step] at h⟩ hs r hr

/-- **C150** (part): every request succeeds if, in every process, results are requested in writing modes only before the mode
`readonly` is used for a request. -/
theorem C150_switch_partial (value : N → V) (w : RightsWorld O N V) (h : Fresh value w) (acts : List (RightsAct O N))
    (hs : Separated w.mode false acts) : ∀ r ∈ (w.run value acts).2, r.2 = .ok (value r.1) :=
  run_partial value acts w false ⟨h.2.2, fun _ => by rw [h.1]; simp, fun hu => absurd h.2.1 hu⟩ hs

/-- **C150** (part): in the modes `readonly` and `none`, and in the mode `individual` for an object with `cached = False`, a request changes nothing in
the file and does not create it, whatever happened before. -/
theorem C150_readonly (value : N → V) (w : RightsWorld O N V) (acts : List (RightsAct O N)) (o : O) (n : N)
    (hm : (w.run value acts).1.mode = .readonly ∨ (w.run value acts).1.mode = .none ∨
      (w.run value acts).1.mode = .individual ∧ (w.run value acts).1.cached o = false) :
    ((w.run value acts).1.request value o n).1.nodes = (w.run value acts).1.nodes ∧
    ((w.run value acts).1.onDisk = false → ((w.run value acts).1.request value o n).1.onDisk = false) := by
  generalize (w.run value acts).1 = u at hm
  unfold RightsWorld.request
  split
  · exact ⟨rfl, fun h => h⟩
  rename_i hno
  have hr : u.mode = .readonly := by
    rcases hm with h | h | h
    · exact h
    · exact absurd (Or.inl h) hno
    · exact absurd (Or.inr h) hno
  unfold RightsWorld.fileCache
  obtain ⟨e1, e2⟩ := getFile_nodes u o
  have e3 : u.onDisk = false → (u.getFile o).2 = false ∧ (u.getFile o).1.onDisk = false := by
    intro h
    unfold RightsWorld.getFile
    rw [if_pos ⟨hr, h⟩]
    exact ⟨rfl, h⟩
  cases hg : u.getFile o with
  | mk w1 b =>
    rw [hg] at e1 e2 e3
    simp only at e1 e2 e3
    cases b with
    | false => exact ⟨e1, fun h => (e3 h).2⟩
    | true =>
      have hne : w1.mode ≠ .overwrite := by rw [e2, hr]; decide
      simp only [hne, false_and, if_false]
      split
      · exact ⟨e1, fun h => absurd (e3 h).1 (by simp)⟩
      · rw [if_pos (e2.trans hr)]
        exact ⟨e1, fun h => absurd (e3 h).1 (by simp)⟩

/-- **C150** (part): in the modes `all` and `overwrite`, and in the mode `individual` for an object with `cached = True`, a result that was returned is
in the file afterwards, and a new process that requests it does not have to calculate it. In the mode `overwrite` it was calculated. -/
theorem C150_stored (value : N → V) (w : RightsWorld O N V) (o : O) (n : N) (x : V)
    (hm : w.mode = .all ∨ w.mode = .overwrite ∨ w.mode = .individual ∧ w.cached o = true) (h : (w.request value o n).2 = .ok x) :
    (w.request value o n).1.nodes n = some x ∧ (w.mode = .overwrite → x = value n) ∧
      ∀ k, k ≠ n → (w.request value o n).1.nodes k = w.nodes k := by
  unfold RightsWorld.request at h ⊢
  have hno : ¬ (w.mode = .none ∨ (w.mode = .individual ∧ w.cached o = false)) := by
    rcases hm with h | h | h <;> simp [h]
  have hwr : w.mode ≠ .readonly := by
    rcases hm with h | h | h <;> simp [h]
  rw [if_neg hno] at h ⊢
  unfold RightsWorld.fileCache at h ⊢
  obtain ⟨e1, e2⟩ := getFile_nodes w o
  cases hg : w.getFile o with
  | mk w1 b =>
    rw [hg] at e1 e2
    simp only at e1 e2
    cases b with
    | false =>
      exfalso
      unfold RightsWorld.getFile at hg
      rw [if_neg (by simp [hwr])] at hg
      split at hg <;> cases hg
    | true =>
      rw [hg] at h
      by_cases ho : w.mode = .overwrite
      · have ho1 : w1.mode = .overwrite := e2.trans ho
        by_cases hh : w1.handle = some true
        · simp [ho1, hh] at h ⊢
          subst h
          refine ⟨rfl, fun _ => rfl, fun k hk => ?_⟩
          simp [hk, e1]
        · by_cases hn : (w1.nodes n).isSome
          · simp [ho1, hh, hn] at h
          · simp [ho1, hh, hn] at h
      · have hne : w1.mode ≠ .overwrite := by rw [e2]; exact ho
        have hnr : w1.mode ≠ .readonly := by rw [e2]; exact hwr
        simp only [hne, hnr, false_and, if_false] at h ⊢
        refine ⟨?_, fun h => absurd h ho, ?_⟩
        · split at h
          · rename_i v hv
            simp only [Except.ok.injEq] at h
            simp only [hv, h]
          · rename_i hv
            split at h
            · rename_i hw
              simp only [Except.ok.injEq] at h
              simp [hw, h]
            · cases h
        · intro k hk
          split
          · rw [e1]
          · split <;> simp [hk, e1]

/-- The program at start: file with node 0, mode `readonly`. -/
def rightsStart : RightsWorld ℕ ℕ ℕ := ⟨.readonly, fun _ => true, true, fun n => if n = 0 then some 10 else none, none, []⟩

/-- A value for each node. -/
def rightsValue (n : ℕ) : ℕ := n + 10

private theorem start_fresh : Fresh rightsValue rightsStart :=
  ⟨rfl, rfl, fun n v h => by
    simp only [rightsStart] at h
    split at h
    · rename_i hn
      rw [hn, ← Option.some.inj h]
      rfl
    · cases h⟩

/-- **C150 is violated**: a stored result is read in the mode `readonly`, then the mode is changed to `all` (or `overwrite`) and
another object requests a result: it fails, although nothing stands in the way of its calculation. It also fails after the
first object was deleted; not in a new process. -/
theorem C150_switch_violated :
    (rightsStart.run rightsValue [.request 1 0, .setMode .all, .request 2 5]).2 = [(0, .ok 10), (5, .error .valueError)] ∧
    (rightsStart.run rightsValue [.request 1 0, .setMode .overwrite, .request 2 0]).2 = [(0, .ok 10), (0, .error .valueError)] ∧
    (rightsStart.run rightsValue [.request 1 0, .drop 1, .setMode .all, .request 2 5]).2 = [(0, .ok 10), (5, .error .valueError)] ∧
    (rightsStart.run rightsValue [.request 1 0, .restart, .setMode .all, .request 2 5]).2 = [(0, .ok 10), (5, .ok 15)] := by
  refine ⟨?_, ?_, ?_, ?_⟩ <;> rfl

/-- The hypotheses of `C150_switch_partial` and `C150_values` are met: several modes and two processes. -/
example : ∀ r ∈ (rightsStart.run rightsValue [.setMode .all, .request 1 3, .setMode .overwrite, .request 2 0, .setMode .readonly,
    .request 1 0, .drop 2, .restart, .setMode .all, .request 2 5]).2, r.2 = .ok (rightsValue r.1) :=
  C150_switch_partial rightsValue rightsStart start_fresh _ (by simp [Separated, writing])

/-- The hypotheses of `C150_readonly` and `C150_stored` are met. -/
example := C150_readonly rightsValue rightsStart [.setMode .all, .request 1 3, .setMode .readonly] 2 7 (Or.inl rfl)

example := C150_readonly rightsValue rightsStart [.setMode .individual, .setCached 2 false] 2 7 (Or.inr (Or.inr ⟨rfl, rfl⟩))

example := C150_stored rightsValue { rightsStart with mode := .all } 2 5 15 (Or.inl rfl) rfl

example := C150_stored rightsValue { rightsStart with mode := .individual } 2 5 15 (Or.inr (Or.inr ⟨rfl, rfl⟩)) rfl

end Acoular
