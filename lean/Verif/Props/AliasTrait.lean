import Verif.Model.AliasTrait

/-!
# Property theorems: renamed traits (C39)
-/

namespace Acoular

variable {N S V : Type*} [DecidableEq N]

/-- The argument `read_only` forbids to set the alias `n`: it is True, or a list in which `n` occurs. -/
def NotSettable (r : ReadOnly N) (n : N) : Prop := r = .all true ∨ ∃ l, r = .these l ∧ n ∈ l

private theorem current_iff (r : ReadOnly N) (n : N) : r.current n = true ↔ NotSettable r n := by
  unfold NotSettable ReadOnly.current
  cases r with
  | all b => simp
  | these l => simp

open Classical in
/-- The same history with the new names instead of the old ones; `none` where a read-only alias is set. -/
noncomputable def withNewNames (tab : List (N × N)) (r : ReadOnly N) : AttrOp N V → Option (AttrOp N V)
  | .get n =>
    match tab.find? (fun e => e.1 = n) with
    | some e => some (.get e.2)
    | none => some (.get n)
  | .set n v =>
    match tab.find? (fun e => e.1 = n) with
    | some e => if NotSettable r n then none else some (.set e.2 v)
    | none => some (.set n v)

/-- What a history does to the undecorated class, a `none` being a refused assignment. -/
def plainRun (b : BaseCls N S V) : S → List (Option (AttrOp N V)) → S × List (AttrOut V)
  | s, [] => (s, [])
  | s, none :: l =>
    let t := plainRun b s l
    (t.1, .raised .traitError :: t.2)
  | s, some (.get n) :: l =>
    let t := plainRun b s l
    (t.1, (match b.get s n with | .ok v => .value v | .error e => .raised e) :: t.2)
  | s, some (.set n v) :: l =>
    match b.set s n v with
    | .ok s' => let t := plainRun b s' l; (t.1, .done :: t.2)
    | .error e => let t := plainRun b s l; (t.1, .raised e :: t.2)

private theorem decorate_alias (r : ReadOnly N) (tab : List (N × N)) (hnd : (tab.map Prod.fst).Nodup)
    (c c' : Cls N S V) (h : deprecatedAlias r tab c = .ok c') :
    c'.base = c.base ∧ ∀ n, c'.alias n = match tab.find? (fun e => e.1 = n) with
      | some e => some (e.2, r.current n)
      | none => c.alias n := by
  induction tab generalizing c with
  | nil =>
    unfold deprecatedAlias at h
    cases h
    exact ⟨rfl, fun n => rfl⟩
  | cons e l ih =>
    unfold deprecatedAlias aliasStep at h
    rw [List.map_cons, List.nodup_cons] at hnd
    by_cases hh : c.has e.2 = true
    · rw [if_pos hh] at h
      obtain ⟨h1, h2⟩ := ih hnd.2 _ h
      refine ⟨h1, fun n => ?_⟩
      rw [h2 n]
      by_cases hn : e.1 = n
      · rw [List.find?_cons_of_pos (by simpa using hn)]
        have : l.find? (fun e => e.1 = n) = none := by
          rw [List.find?_eq_none]
          intro x hx hc
          apply hnd.1
          rw [hn, ← (by simpa using hc : x.1 = n)]
          exact List.mem_map_of_mem hx
        rw [this]
        simp [hn]
      · rw [List.find?_cons_of_neg (by simpa using hn)]
        have hn' : n ≠ e.1 := fun h => hn h.symm
        cases l.find? (fun e => e.1 = n) <;> simp [hn']
    · rw [if_neg hh] at h
      cases h

/-- Decorating fails with ValueError exactly if a new name is not a trait (old names being new names is excluded). -/
theorem C39_decorator_error (b : BaseCls N S V) (r : ReadOnly N) (tab : List (N × N))
    (hdis : ∀ e ∈ tab, ∀ f ∈ tab, e.2 ≠ f.1) :
    deprecatedAlias r tab ⟨b, fun _ => none⟩ = .error .valueError ↔ ∃ e ∈ tab, b.has e.2 = false := by
  have gen : ∀ (l done : List (N × N)) (c : Cls N S V), c.base = b → (∀ n, (c.alias n).isSome → ∃ e ∈ done, e.1 = n) →
      (∀ e ∈ done ++ l, ∀ f ∈ done ++ l, e.2 ≠ f.1) →
      (deprecatedAlias r l c = .error .valueError ↔ ∃ e ∈ l, b.has e.2 = false) := by
    intro l
    induction l with
    | nil => intro done c _ _ _; simp [deprecatedAlias]
    | cons e l ih =>
      intro done c hb ha hd
      have hhas : c.has e.2 = b.has e.2 := by
        unfold Cls.has
        rw [hb]
        cases hs : (c.alias e.2).isSome with
        | false => simp
        | true =>
          obtain ⟨f, hf, hfe⟩ := ha _ hs
          exact absurd hfe.symm (hd e (by simp) f (List.mem_append_left _ hf))
      unfold deprecatedAlias aliasStep
      rw [hhas]
      cases hbe : b.has e.2 with
      | false => simp [hbe]
      | true =>
        simp only [if_true]
        rw [ih (done ++ [e])]
        · simp [hbe]
        · exact hb
        · intro n hn
          simp only at hn
          split at hn
          · rename_i h; exact ⟨e, by simp, h.symm⟩
          · obtain ⟨f, hf, hfn⟩ := ha n hn
            exact ⟨f, List.mem_append_left _ hf, hfn⟩
        · simpa using hd
  exact gen tab [] ⟨b, fun _ => none⟩ rfl (by simp) (by simpa using hdis)

/-- The hypotheses of `C39_decorator_error` are met: -/
example (b : BaseCls String ℕ ℕ) (r : ReadOnly String) :=
  C39_decorator_error b r [("mpos_tot", "pos_total"), ("mpos", "pos"), ("from_file", "file")] (by decide)

/-- Every history of reads and assignments on a class with renamed traits has the same effects and shows the same
values as the history in which each old name is replaced by its new name; setting a read-only alias raises TraitError
and changes nothing. -/
theorem C39_alias_history (b : BaseCls N S V) (r : ReadOnly N) (tab : List (N × N))
    (hnd : (tab.map Prod.fst).Nodup) (hdis : ∀ e ∈ tab, ∀ f ∈ tab, e.2 ≠ f.1)
    (c : Cls N S V) (hc : deprecatedAlias r tab ⟨b, fun _ => none⟩ = .ok c) (fuel : ℕ) (hf : 2 ≤ fuel)
    (s : S) (ops : List (AttrOp N V)) :
    attrRun c fuel s ops = plainRun b s (ops.map (withNewNames tab r)) := by
  obtain ⟨hb, ha⟩ := decorate_alias r tab hnd _ _ hc
  simp only at hb ha
  obtain ⟨k, rfl⟩ : ∃ k, fuel = k + 2 := ⟨fuel - 2, by omega⟩
  have hnew : ∀ e ∈ tab, c.alias e.2 = none := by
    intro e he
    rw [ha]
    have : tab.find? (fun f => f.1 = e.2) = none := by
      rw [List.find?_eq_none]
      intro f hf' h
      exact hdis e he f hf' (by simpa using h : f.1 = e.2).symm
    rw [this]
  induction ops generalizing s with
  | nil => rfl
  | cons o l ih =>
    rw [List.map_cons]
    generalize l.map (withNewNames tab r) = L at *
    cases o with
    | get n =>
      have hg : getAttr c (k + 2) s n = b.get s (match tab.find? (fun e => e.1 = n) with | some e => e.2 | none => n) := by
        rw [getAttr, ha n]
        cases hfi : tab.find? (fun e => e.1 = n) with
        | none => simp only [hb]
        | some e =>
          simp only
          rw [getAttr, hnew e (List.mem_of_find?_eq_some hfi)]
          simp only [hb]
      unfold attrRun attrOp withNewNames
      simp only
      rw [hg]
      cases hfi : tab.find? (fun e => e.1 = n) with
      | none =>
        simp only [plainRun]
        cases b.get s n <;> simp only [ih]
      | some e =>
        simp only [plainRun]
        cases b.get s e.2 <;> simp only [ih]
    | set n v =>
      unfold attrRun attrOp withNewNames
      simp only
      rw [setAttr, ha n]
      cases hfi : tab.find? (fun e => e.1 = n) with
      | none =>
        simp only [plainRun, hb]
        cases b.set s n v <;> simp only [ih]
      | some e =>
        cases hr : r.current n with
        | true =>
          have : NotSettable r n := (current_iff r n).1 hr
          simp only [plainRun, ih, if_pos this]
        | false =>
          have hns : ¬ NotSettable r n := fun h => by rw [(current_iff r n).2 h] at hr; cases hr
          simp only [if_neg hns]
          rw [setAttr, hnew e (List.mem_of_find?_eq_some hfi)]
          simp only [hb, plainRun]
          cases b.set s e.2 v <;> simp only [ih]

/-- The table of `MicGeom` meets the hypotheses. -/
example : let tab := [("mpos_tot", "pos_total"), ("mpos", "pos"), ("from_file", "file")]
    (tab.map Prod.fst).Nodup ∧ ∀ e ∈ tab, ∀ f ∈ tab, e.2 ≠ f.1 := by decide

end Acoular
