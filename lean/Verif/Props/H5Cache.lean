import Verif.Model.H5Cache
import Mathlib.Data.List.Basic
import Mathlib.Data.List.Count

/-!
# Property theorems: registry of open cache files (C40)
-/

set_option linter.unusedSectionVars false

namespace Acoular.H5

variable {O P : Type*} [DecidableEq O] [DecidableEq P]

/-- Number of live objects using file `p`. -/
def numUsers (r : Reg O P) (p : P) : ℕ := r.users.countP fun e => e.2 = p

/-- The invariant of histories in which every object asks for one file only. -/
private structure Inv (own : O → P) (exact : Bool) (r : Reg O P) : Prop where
  idle : r.busy = false
  nodup : (r.users.map Prod.fst).Nodup
  own_file : ∀ e ∈ r.users, e.2 = own e.1
  disk : ∀ e ∈ r.users, e.2 ∈ r.onDisk
  opened : ∀ e ∈ r.users, e.2 ∈ r.openFiles
  counted : ∀ p, p ∈ r.openFiles → numUsers r p ≤ (r.refs (.path p)).getD 0
  counted_eq : exact = true → ∀ p, (r.refs (.path p)).getD 0 = numUsers r p

private theorem fileOf_mem {users : List (O × P)} {o : O} {q : P} (h : fileOf users o = some q) : (o, q) ∈ users := by
  unfold fileOf at h
  cases hf : users.find? (fun e => e.1 = o) with
  | none => rw [hf] at h; cases h
  | some e =>
    rw [hf] at h
    have h1 := List.mem_of_find?_eq_some hf
    have h2 := List.find?_some hf
    simp only [Option.map_some, Option.some.injEq] at h
    simp only [decide_eq_true_eq] at h2
    rw [← h, ← h2]
    exact h1

private theorem fileOf_none {users : List (O × P)} {o : O} (h : fileOf users o = none) : ∀ e ∈ users, e.1 ≠ o := by
  unfold fileOf at h
  simp only [Option.map_eq_none_iff, List.find?_eq_none, decide_eq_true_eq] at h
  exact h

private theorem filter_ne {users : List (O × P)} {o : O} (h : ∀ e ∈ users, e.1 ≠ o) :
    users.filter (fun e => e.1 ≠ o) = users := by
  rw [List.filter_eq_self]
  intro e he
  simpa using h e he

private theorem inv_call (own : O → P) (x : Bool) (r : Reg O P) (hi : Inv own x r) (ro : Bool) (o : O) :
    Inv own x (getCacheFile r ro o (own o)).1 ∧ (getCacheFile r ro o (own o)).2 = .returned := by
  unfold getCacheFile
  rw [if_neg (by simp [hi.idle])]
  by_cases hro : (ro && !(decide (own o ∈ r.onDisk))) = true
  · rw [if_pos hro]
    have hno : ∀ e ∈ r.users, e.1 ≠ o := by
      intro e he hc
      have h1 := hi.disk e he
      rw [hi.own_file e he, hc] at h1
      simp [h1] at hro
    simp only [filter_ne hno]
    exact ⟨⟨rfl, hi.nodup, hi.own_file, hi.disk, hi.opened, hi.counted, hi.counted_eq⟩, trivial⟩
  · rw [if_neg hro]
    cases hf : fileOf r.users o with
    | some q =>
      have hq := hi.own_file _ (fileOf_mem hf)
      simp only at hq
      simp only [hq, if_true]
      exact ⟨hi, trivial⟩
    | none =>
      refine ⟨?_, rfl⟩
      have hno := fileOf_none hf
      simp only [getCacheFile.attach]
      rw [filter_ne hno]
      unfold closeUnreferenced
      simp only
      set p := own o with hp
      have hnum : ∀ p', (((o, p) :: r.users).countP fun e => decide (e.2 = p')) =
          numUsers r p' + if p = p' then 1 else 0 := by
        intro p'
        rw [List.countP_cons]
        simp only [decide_eq_true_eq]
        rfl
      have hzero : ∀ p', ((o, p) :: r.users).any (fun e => decide (e.2 = p')) = false → numUsers r p' = 0 ∧ p ≠ p' := by
        intro p' h
        rw [List.any_eq_false] at h
        refine ⟨?_, by simpa using h (o, p) (by simp)⟩
        unfold numUsers
        rw [List.countP_eq_zero]
        intro e he
        exact h e (List.mem_cons_of_mem _ he)
      have hopen : ∀ p', p' ∈ (if p ∈ r.openFiles then r.openFiles else p :: r.openFiles) ↔ p' = p ∨ p' ∈ r.openFiles := by
        intro p'
        split
        · rename_i h
          constructor
          · exact .inr
          · rintro (rfl | h')
            · exact h
            · exact h'
        · simp
      have hinc : ∀ p', (incr r.refs (.path p) (.path p')).getD 0 = (r.refs (.path p')).getD 0 + if p = p' then 1 else 0 := by
        intro p'
        unfold incr
        by_cases h : p = p'
        · subst h; simp
        · have : p' ≠ p := fun hc => h hc.symm
          simp [h, this]
      refine ⟨rfl, ?_, ?_, ?_, ?_, ?_, ?_⟩
      · rw [List.map_cons, List.nodup_cons]
        refine ⟨?_, hi.nodup⟩
        intro hc
        obtain ⟨e, he, h⟩ := List.mem_map.1 hc
        exact hno e he h
      · intro e he
        rcases List.mem_cons.1 he with rfl | he
        · rfl
        · exact hi.own_file e he
      · intro e he
        show e.2 ∈ (if p ∈ r.onDisk then r.onDisk else p :: r.onDisk)
        rcases List.mem_cons.1 he with rfl | he
        · by_cases hd : p ∈ r.onDisk
          · rw [if_pos hd]; exact hd
          · rw [if_neg hd]; simp
        · have := hi.disk e he
          by_cases hd : p ∈ r.onDisk
          · rw [if_pos hd]; exact this
          · rw [if_neg hd]; exact List.mem_cons_of_mem _ this
      · intro e he
        simp only at he
        rw [List.mem_filter, hopen]
        refine ⟨?_, by rw [List.any_eq_true]; exact ⟨e, he, by simp⟩⟩
        rcases List.mem_cons.1 he with rfl | he
        · exact .inl rfl
        · exact .inr (hi.opened e he)
      · intro p' hp'
        unfold numUsers
        simp only
        rw [hnum]
        rw [List.mem_filter, hopen] at hp'
        have hk : ¬((p' ∈ if p ∈ r.openFiles then r.openFiles else p :: r.openFiles) ∧
            ((o, p) :: r.users).any (fun e => decide (e.2 = p')) = false) := by
          rintro ⟨-, h⟩
          rw [h] at hp'
          exact absurd hp'.2 (by simp)
        rw [if_neg hk, hinc]
        rcases hp'.1 with heq | h
        · rw [heq]
          by_cases hop : p ∈ r.openFiles
          · have := hi.counted p hop
            simp only [if_true]
            omega
          · have : numUsers r p = 0 := by
              unfold numUsers
              rw [List.countP_eq_zero]
              intro e he hc
              simp only [decide_eq_true_eq] at hc
              exact hop (hc ▸ hi.opened e he)
            simp only [if_true]
            omega
        · have := hi.counted p' h
          omega
      · intro hx p'
        unfold numUsers
        simp only
        rw [hnum]
        generalize hL : (if p ∈ r.openFiles then r.openFiles else p :: r.openFiles) = L
        split
        · rename_i h
          have := hzero p' h.2
          simp [this.1, this.2]
        · rw [hinc, hi.counted_eq hx p']

/-- A history in which every object asks for its own file only. -/
def OneFileEach (own : O → P) (h : List (Act O P)) : Prop := ∀ ro o p, Act.call ro o p ∈ h → p = own o

/-- No object is dropped. -/
def NoDrops (h : List (Act O P)) : Prop := ∀ o, Act.drop o ∉ h

private theorem inv_all (own : O → P) (x : Bool) (h : List (Act O P)) (hone : OneFileEach own h)
    (hx : x = true → NoDrops h) (r : Reg O P) (hi : Inv own x r) : Inv own x (h.foldl step r) := by
  induction h generalizing r with
  | nil => exact hi
  | cons a h ih =>
    rw [List.foldl_cons]
    refine ih (fun ro o p hm => hone ro o p (List.mem_cons_of_mem _ hm))
      (fun hx' o hm => hx hx' o (List.mem_cons_of_mem _ hm)) _ ?_
    cases a with
    | call ro o p =>
      have := hone ro o p (by simp)
      subst this
      exact (inv_call own x r hi ro o).1
    | drop o =>
      have hxf : x = false := by
        cases x with
        | false => rfl
        | true => exact absurd (by simp) (hx rfl o)
      unfold step
      have hsub : (r.users.filter (fun e => e.1 ≠ o)).Sublist r.users := List.filter_sublist
      refine ⟨hi.idle, (hsub.map _).nodup hi.nodup, fun e he => hi.own_file e (hsub.subset he),
        fun e he => hi.disk e (hsub.subset he), fun e he => hi.opened e (hsub.subset he), ?_, ?_⟩
      · intro p hp
        exact Nat.le_trans hsub.countP_le (hi.counted p hp)
      · intro hc
        rw [hxf] at hc
        cases hc

private theorem inv_empty (own : O → P) (x : Bool) (disk : List P) : Inv own x (Reg.empty disk : Reg O P) := by
  refine ⟨rfl, ?_, ?_, ?_, ?_, ?_, ?_⟩ <;> simp [Reg.empty, numUsers]

/-- If no object ever changes its file and none is dropped, the counter of every file is the number of objects using
it, and no call blocks or raises, in any order of calls and any caching mode. -/
theorem C40_counts_partial (own : O → P) (disk : List P) (h : List (Act O P)) (hone : OneFileEach own h)
    (hnd : NoDrops h) :
    let r := h.foldl step (Reg.empty disk)
    (∀ p, (r.refs (.path p)).getD 0 = numUsers r p) ∧
      ∀ ro o, (getCacheFile r ro o (own o)).2 = .returned := by
  have hi := inv_all own true h hone (fun _ => hnd) _ (inv_empty own true disk)
  exact ⟨hi.counted_eq rfl, fun ro o => (inv_call own true _ hi ro o).2⟩

/-- With objects being dropped, still no call blocks, every file in use is open, and its counter is at least the number of
objects using it. -/
theorem C40_no_blocking_partial (own : O → P) (disk : List P) (h : List (Act O P)) (hone : OneFileEach own h) :
    let r := h.foldl step (Reg.empty disk)
    (∀ e ∈ r.users, e.2 ∈ r.openFiles ∧ numUsers r e.2 ≤ (r.refs (.path e.2)).getD 0) ∧
      ∀ ro o, (getCacheFile r ro o (own o)).2 = .returned := by
  have hi := inv_all own false h hone (fun h => by cases h) _ (inv_empty own false disk)
  exact ⟨fun e he => ⟨hi.opened e he, hi.counted _ (hi.opened e he)⟩, fun ro o => (inv_call own false _ hi ro o).2⟩

/-- After a call that created the file (caching on), the object uses it. -/
theorem C40_attached (own : O → P) (disk : List P) (h : List (Act O P)) (hone : OneFileEach own h) (o : O) :
    let r := h.foldl step (Reg.empty disk)
    fileOf (getCacheFile r false o (own o)).1.users o = some (own o) := by
  intro r
  have hi := inv_all own false h hone (fun h => by cases h) _ (inv_empty own false disk)
  unfold getCacheFile
  rw [if_neg (by rw [show r.busy = false from hi.idle]; simp), if_neg (by simp)]
  cases hf : fileOf r.users o with
  | some q =>
    have : q = own o := hi.own_file _ (fileOf_mem hf)
    simp only [this, if_true]
    rw [hf, this]
  | none =>
    simp [getCacheFile.attach, closeUnreferenced, fileOf]

example : OneFileEach (fun o : ℕ => o % 2) [.call false 0 0, .call true 1 1, .call false 2 0, .drop 0, .call false 3 1] ∧
    NoDrops ([.call false 0 0, .call true 1 1, .call false 2 0] : List (Act ℕ ℕ)) := by
  constructor
  · intro ro o p h
    simp only [List.mem_cons, Act.call.injEq, reduceCtorEq, List.not_mem_nil, or_false, false_or] at h
    rcases h with ⟨-, rfl, rfl⟩ | ⟨-, rfl, rfl⟩ | ⟨-, rfl, rfl⟩ | ⟨-, rfl, rfl⟩ <;> rfl
  · intro o h
    simp at h

/-- No key of the dictionary is ever a string. -/
private theorem no_str (h : List (Act O P)) (r : Reg O P) (hr : ∀ p, r.refs (.str p) = none) :
    ∀ p, (h.foldl step r).refs (.str p) = none := by
  induction h generalizing r with
  | nil => exact hr
  | cons a h ih =>
    apply ih
    cases a with
    | drop o => exact hr
    | call ro o q =>
      intro p
      simp only [step]
      unfold getCacheFile
      split
      · exact hr p
      · split
        · exact hr p
        · split
          · split
            · exact hr p
            · split
              · exact hr p
              · rename_i _ _ h1
                unfold decr at h1
                rw [hr] at h1
                cases h1
          · simp [getCacheFile.attach, closeUnreferenced, incr, hr]

/-- If an object that uses a file asks for another one (after the input data or the cache directory has changed), the
call raises KeyError, and from then on every call by any object blocks for ever, whatever happens in between. -/
theorem C40_change_of_file_violated (disk : List P) (h : List (Act O P)) (o : O) (p q : P) (hpq : q ≠ p)
    (hidle : (h.foldl step (Reg.empty disk)).busy = false)
    (huse : fileOf (h.foldl step (Reg.empty disk)).users o = some q) :
    let r := h.foldl step (Reg.empty disk)
    (getCacheFile r false o p).2 = .raised .keyError ∧
      ∀ (h' : List (Act O P)) ro o' p', (getCacheFile (h'.foldl step (getCacheFile r false o p).1) ro o' p').2 = .blocked := by
  intro r
  have hstr := no_str h (Reg.empty disk) (fun _ => rfl) q
  have hres : getCacheFile r false o p = (⟨true, r.users, r.openFiles, r.refs, r.onDisk⟩, .raised .keyError) := by
    unfold getCacheFile
    rw [if_neg (by simpa using hidle), if_neg (by simp), huse]
    simp only
    rw [if_neg hpq]
    unfold decr
    rw [hstr]
  rw [hres]
  refine ⟨rfl, ?_⟩
  have stay : ∀ (h' : List (Act O P)) (r : Reg O P), r.busy = true → (h'.foldl step r).busy = true := by
    intro h'
    induction h' with
    | nil => intro r hr; exact hr
    | cons a h' ih =>
      intro r hr
      apply ih
      cases a with
      | drop o => exact hr
      | call ro o p => simp only [step]; unfold getCacheFile; rw [if_pos hr]; exact hr
  intro h' ro o' p'
  have := stay h' ⟨true, r.users, r.openFiles, r.refs, r.onDisk⟩ rfl
  unfold getCacheFile
  rw [if_pos this]

/-- The hypotheses are met by one call. -/
example : ([Act.call false 0 5].foldl step (Reg.empty [] : Reg ℕ ℕ)).busy = false ∧
    fileOf ([Act.call false 0 5].foldl step (Reg.empty [] : Reg ℕ ℕ)).users 0 = some 5 := by decide

/-- The counter of a file also counts objects that no longer exist, as long as another object uses the file. -/
theorem C40_dropped_counted_violated :
    let r := [Act.call false 0 5, .call false 1 5, .drop 0, .call false 2 5].foldl step (Reg.empty [] : Reg ℕ ℕ)
    r.refs (.path 5) = some 3 ∧ numUsers r 5 = 2 := by decide

/-- In read-only mode an object that moves to a file that does not exist gives up its file without uncounting it. -/
theorem C40_readonly_violated :
    let r := [Act.call false 0 5, .call false 1 5, .call true 0 6].foldl step (Reg.empty [] : Reg ℕ ℕ)
    r.refs (.path 5) = some 2 ∧ numUsers r 5 = 1 := by decide

end Acoular.H5
