import Verif.Model.Psf
import Mathlib.Tactic.NormNum
import Mathlib.Tactic.Linarith
import Mathlib.Tactic.Ring
import Mathlib.Algebra.Order.Ring.Rat
import Mathlib.Data.Rat.Floor

/-!
# Property theorems: point spread function (C48, C79, C80)
-/

set_option linter.unusedSectionVars false

namespace Acoular

variable {V : Type*}

/-- The stored arrays have the right size and every column flagged as calculated is right. -/
structure PsfValid (val : ℕ → V) (gs : ℕ) (s : PsfState V) : Prop where
  cols : s.ac.length = gs
  flags : s.gp.length = gs
  right : ∀ i, s.gp[i]? = some true → s.ac[i]? = some (val i)

private theorem valid_zeros (val : ℕ → V) (gs : ℕ) (zero : V) : PsfValid val gs (PsfState.zeros gs zero) := by
  refine ⟨by simp [PsfState.zeros], by simp [PsfState.zeros], ?_⟩
  intro i hi
  simp only [PsfState.zeros, List.getElem?_replicate] at hi
  split at hi <;> simp at hi

private theorem valid_col {val : ℕ → V} {gs : ℕ} {s : PsfState V} (h : PsfValid val gs s) (i : ℕ) :
    PsfValid val gs (PsfAct.apply s (.col i (val i))) := by
  refine ⟨by simp [PsfAct.apply, h.cols], h.flags, ?_⟩
  intro j hj
  have h1 := h.right j hj
  have h2 := (List.getElem?_eq_some_iff.1 h1).1
  simp only [PsfAct.apply]
  by_cases hij : i = j
  · subst hij; rw [List.getElem?_set_self h2]
  · rw [List.getElem?_set_ne hij]; exact h1

private theorem valid_col_flag {val : ℕ → V} {gs : ℕ} {s : PsfState V} (h : PsfValid val gs s) (i : ℕ) :
    PsfValid val gs (PsfAct.apply (PsfAct.apply s (.col i (val i))) (.flag i)) := by
  have hv := valid_col h i
  refine ⟨hv.cols, by simp [PsfAct.apply, h.flags], ?_⟩
  intro j hj
  simp only [PsfAct.apply] at hj ⊢
  by_cases hij : i = j
  · subst hij
    have : i < gs := by
      by_contra hc
      rw [List.getElem?_eq_none (by rw [List.length_set, h.flags]; omega)] at hj
      simp at hj
    rw [List.getElem?_set_self (by rw [h.cols]; exact this)]
  · rw [List.getElem?_set_ne hij] at hj
    rw [List.getElem?_set_ne hij]
    exact h.right j hj

private theorem flag_col_comm (s : PsfState V) (i : ℕ) (v : V) :
    PsfAct.apply (PsfAct.apply s (.flag i)) (.col i v) = PsfAct.apply (PsfAct.apply s (.col i v)) (.flag i) := rfl

private theorem applyPsf_append (a b : List (PsfAct V)) (s : PsfState V) : applyPsf (a ++ b) s = applyPsf b (applyPsf a s) := by
  unfold applyPsf; rw [List.foldl_append]

private theorem applyPsf_block (val : ℕ → V) (l : List ℕ) (s : PsfState V) :
    applyPsf (l.flatMap fun i => [PsfAct.flag i, PsfAct.col i (val i)]) s =
      applyPsf (l.flatMap fun i => [PsfAct.col i (val i), PsfAct.flag i]) s := by
  induction l generalizing s with
  | nil => rfl
  | cons i l ih =>
    rw [List.flatMap_cons, List.flatMap_cons, applyPsf_append, applyPsf_append, ih]
    rfl

private theorem valid_single (val : ℕ → V) (gs : ℕ) (l : List ℕ) (s : PsfState V) (h : PsfValid val gs s) :
    PsfValid val gs (applyPsf (l.flatMap fun i => [PsfAct.col i (val i), PsfAct.flag i]) s) := by
  induction l generalizing s with
  | nil => exact h
  | cons i l ih =>
    rw [List.flatMap_cons, applyPsf_append]
    exact ih _ (valid_col_flag h i)

private theorem valid_full (val : ℕ → V) (gs : ℕ) (s : PsfState V) (h : PsfValid val gs s) :
    PsfValid val gs (applyPsf [.flagAll, .cols ((List.range s.ac.length).map val)] s) := by
  refine ⟨by simp [applyPsf, PsfAct.apply, h.cols], by simp [applyPsf, PsfAct.apply, h.flags], ?_⟩
  intro i hi
  simp only [applyPsf, List.foldl_cons, List.foldl_nil, PsfAct.apply] at hi ⊢
  have hlt : i < gs := by
    have := (List.getElem?_eq_some_iff.1 hi).1
    rw [List.length_map, h.flags] at this
    exact this
  rw [List.getElem?_map, List.getElem?_range (by rw [h.cols]; exact hlt)]
  rfl

private theorem valid_acts (val : ℕ → V) (gs : ℕ) (mode : PsfMode) (gi : List ℕ) (s : PsfState V) (h : PsfValid val gs s) :
    PsfValid val gs (applyPsf (psfActs val mode gi s) s) := by
  cases mode with
  | single => exact valid_single val gs _ s h
  | full => exact valid_full val gs s h
  | block => unfold psfActs; rw [applyPsf_block]; exact valid_single val gs _ s h
  | readonly => unfold psfActs; rw [applyPsf_block]; exact valid_single val gs _ s h

private theorem columns_flagged (val : ℕ → V) (zero : V) (gs : ℕ) (gi : List ℕ) (s : PsfState V) (h : PsfValid val gs s)
    (hf : ∀ i ∈ gi, s.gp[i]? = some true) : psfColumns zero gi s = gi.map val := by
  unfold psfColumns
  apply List.map_congr_left
  intro i hi
  rw [List.getD_eq_getElem?_getD, h.right i (hf i hi)]
  rfl

private theorem acts_flag (val : ℕ → V) (gs : ℕ) (mode : PsfMode) (gi : List ℕ) (s : PsfState V) (h : PsfValid val gs s)
    (hin : ∀ i ∈ gi, i < gs) (hs : mode = .full ∨ gi.length = 1) :
    ∀ i ∈ gi, (applyPsf (psfActs val mode gi s) s).gp[i]? = some true := by
  intro i hi
  have hlt := hin i hi
  by_cases hm : mode = .full
  · subst hm
    simp only [psfActs, applyPsf, List.foldl_cons, List.foldl_nil, PsfAct.apply]
    rw [List.getElem?_map, List.getElem?_eq_getElem (by rw [h.flags]; exact hlt)]
    rfl
  · have hlen : gi.length = 1 := hs.resolve_left hm
    obtain ⟨j, rfl⟩ := List.length_eq_one_iff.1 hlen
    rw [List.mem_singleton] at hi
    subst hi
    have hl : i < s.gp.length := by rw [h.flags]; exact hlt
    cases mode with
    | full => exact absurd rfl hm
    | single => simp [psfActs, psfCalcInd, applyPsf, PsfAct.apply, hl]
    | block => simp [psfActs, psfCalcInd, applyPsf, PsfAct.apply, hl]
    | readonly => simp [psfActs, psfCalcInd, applyPsf, PsfAct.apply, hl]

/-- Node of the cache file: absent, or valid. -/
def PsfNodeValid (val : ℕ → V) (gs : ℕ) (node : Option (PsfState V)) : Prop := ∀ s, node = some s → PsfValid val gs s

/-- Every request, whatever mode and indices, leaves the cache file valid: a column flagged as calculated is right. -/
theorem C48_cache_valid (val : ℕ → V) (zero : V) (gs : ℕ) (caching : CacheMode) (mode : PsfMode) (indices : List ℕ)
    (node : Option (PsfState V)) (h : PsfNodeValid val gs node) :
    PsfNodeValid val gs (psfGet val zero gs caching mode indices node).2 := by
  unfold psfGet
  simp only
  generalize (if indices = [] then List.range gs else indices) = gi
  have hfresh := valid_zeros val gs zero
  have hD : PsfValid val gs (node.getD (PsfState.zeros gs zero)) := by
    cases node with
    | none => exact hfresh
    | some s => exact h s rfl
  have hS : ∀ c : CacheMode, PsfValid val gs (if c = .overwrite then PsfState.zeros gs zero else node.getD (PsfState.zeros gs zero)) := by
    intro c; split
    · exact hfresh
    · exact hD
  have hmain : ∀ s, PsfValid val gs s → PsfNodeValid val gs
      (if (gi.all fun i => s.gp.getD i false) = true then ((Except.ok (psfColumns zero gi s) : Except PyErr (List V)), some s)
        else if mode = .readonly then (.error .valueError, some s)
        else (.ok (psfColumns zero gi (applyPsf (psfActs val mode gi s) s)), some (applyPsf (psfActs val mode gi s) s))).2 := by
    intro s hv
    by_cases hall : (gi.all fun i => s.gp.getD i false) = true
    · rw [if_pos hall]; intro t ht; obtain rfl := Option.some.inj ht; exact hv
    · by_cases hr : mode = .readonly
      · rw [if_neg hall, if_pos hr]; intro t ht; obtain rfl := Option.some.inj ht; exact hv
      · rw [if_neg hall, if_neg hr]; intro t ht; obtain rfl := Option.some.inj ht; exact valid_acts val gs mode gi s hv
  by_cases hany : (gi.any fun i => decide (gs ≤ i)) = true
  · rw [if_pos hany]; exact h
  · rw [if_neg hany]
    cases caching with
    | none => exact h
    | readonly =>
      cases node with
      | none => exact h
      | some s => simp only; split <;> [exact h; (split <;> exact h)]
    | individual => exact hmain _ (hS .individual)
    | all => exact hmain _ (hS .all)
    | overwrite => exact hmain _ (hS .overwrite)

/-- The hypotheses of `C48_cache_valid` are met: -/
example := C48_cache_valid (fun i => i + 10) 0 4 .all .block [2, 0, 3] none (by simp [PsfNodeValid])

private theorem all_flags (gi : List ℕ) (s : PsfState V) (h : (gi.all fun i => s.gp.getD i false) = true) :
    ∀ i ∈ gi, s.gp[i]? = some true := by
  intro i hi
  have := List.all_eq_true.1 h i hi
  rw [List.getD_eq_getElem?_getD] at this
  cases hg : s.gp[i]? with
  | none => rw [hg] at this; simp at this
  | some b => rw [hg] at this; simp at this; rw [this]

/-- The columns delivered are those of the points asked for, in every caching mode and after every history that left the
cache file valid, if the mode is `full` or a single point is asked for.  Mode `readonly` answers with these columns or
raises ValueError. -/
theorem C48_requested_partial (val : ℕ → V) (zero : V) (gs : ℕ) (caching : CacheMode) (mode : PsfMode) (indices : List ℕ)
    (node : Option (PsfState V)) (h : PsfNodeValid val gs node) (hin : ∀ i ∈ indices, i < gs)
    (hs : mode = .full ∨ indices.length = 1) :
    let gi := if indices = [] then List.range gs else indices
    (psfGet val zero gs caching mode indices node).1 = .ok (gi.map val) ∨
      (mode = .readonly ∧ (psfGet val zero gs caching mode indices node).1 = .error .valueError) := by
  intro gi
  have hgi : ∀ i ∈ gi, i < gs := by
    intro i hi
    by_cases he : indices = []
    · simp only [gi, if_pos he, List.mem_range] at hi; exact hi
    · simp only [gi, if_neg he] at hi; exact hin i hi
  have hs' : mode = .full ∨ gi.length = 1 := by
    rcases hs with hs | hs
    · exact Or.inl hs
    · right
      have : indices ≠ [] := by intro h0; rw [h0] at hs; simp at hs
      simp only [gi, if_neg this, hs]
  have hany : (gi.any fun i => decide (gs ≤ i)) = false := by
    rw [List.any_eq_false]
    intro i hi
    have := hgi i hi
    simp only [decide_eq_true_eq]; omega
  have hfresh := valid_zeros val gs zero
  have hcalc : ∀ s, PsfValid val gs s → psfColumns zero gi (applyPsf (psfActs val mode gi s) s) = gi.map val := fun s hv =>
    columns_flagged val zero gs gi _ (valid_acts val gs mode gi s hv) (acts_flag val gs mode gi s hv hgi hs')
  have hmain : ∀ s, PsfValid val gs s → ∀ (x y : Option (PsfState V)),
      (if (gi.all fun i => s.gp.getD i false) = true then ((Except.ok (psfColumns zero gi s) : Except PyErr (List V)), x)
        else if mode = .readonly then (.error .valueError, x)
        else (.ok (psfColumns zero gi (applyPsf (psfActs val mode gi s) s)), y)).1 = .ok (gi.map val) ∨
      (mode = .readonly ∧ (if (gi.all fun i => s.gp.getD i false) = true then ((Except.ok (psfColumns zero gi s) : Except PyErr (List V)), x)
        else if mode = .readonly then (.error .valueError, x)
        else (.ok (psfColumns zero gi (applyPsf (psfActs val mode gi s) s)), y)).1 = .error .valueError) := by
    intro s hv x y
    by_cases hall : (gi.all fun i => s.gp.getD i false) = true
    · left; rw [if_pos hall, columns_flagged val zero gs gi s hv (all_flags gi s hall)]
    · by_cases hr : mode = .readonly
      · right; rw [if_neg hall, if_pos hr]; exact ⟨hr, rfl⟩
      · left; rw [if_neg hall, if_neg hr, hcalc s hv]
  unfold psfGet
  simp only [hany, Bool.false_eq_true, if_false, show (if indices = [] then List.range gs else indices) = gi from rfl]
  cases caching with
  | none => left; simp only; rw [hcalc _ hfresh]
  | readonly =>
    cases node with
    | none => left; simp only; rw [hcalc _ hfresh]
    | some s => exact hmain s (h s rfl) _ _
  | individual =>
    refine hmain _ ?_ _ _
    rw [if_neg (by simp)]
    cases node with
    | none => exact hfresh
    | some s => exact h s rfl
  | all =>
    refine hmain _ ?_ _ _
    rw [if_neg (by simp)]
    cases node with
    | none => exact hfresh
    | some s => exact h s rfl
  | overwrite => exact hmain _ (by rw [if_pos rfl]; exact hfresh) _ _

/-- The hypotheses of `C48_requested_partial` are met: -/
example := C48_requested_partial (fun i => i + 10) 0 4 .all .full [2, 0, 3] none (by simp [PsfNodeValid]) (by decide) (.inl rfl)

/-- Points that are all flagged in the cache file: the columns delivered are right, in every mode. -/
theorem C48_cached (val : ℕ → V) (zero : V) (gs : ℕ) (caching : CacheMode) (hc : caching ≠ .none ∧ caching ≠ .overwrite)
    (mode : PsfMode) (indices : List ℕ) (hne : indices ≠ []) (s : PsfState V) (h : PsfValid val gs s)
    (hf : ∀ i ∈ indices, s.gp[i]? = some true) :
    psfGet val zero gs caching mode indices (some s) = (.ok (indices.map val), some s) := by
  have hany : (indices.any fun i => decide (gs ≤ i)) = false := by
    rw [List.any_eq_false]
    intro i hi
    have := (List.getElem?_eq_some_iff.1 (hf i hi)).1
    rw [h.flags] at this
    simp only [decide_eq_true_eq]; omega
  have hall : (indices.all fun i => s.gp.getD i false) = true := by
    rw [List.all_eq_true]
    intro i hi
    rw [List.getD_eq_getElem?_getD, hf i hi]; rfl
  have hcol := columns_flagged val zero gs indices s h hf
  unfold psfGet
  simp only [if_neg hne, hany, Bool.false_eq_true, if_false]
  cases caching with
  | none => exact absurd rfl hc.1
  | overwrite => exact absurd rfl hc.2
  | readonly => simp only [hall, if_true, hcol]
  | individual => simp only [reduceCtorEq, if_false, Option.getD_some, hall, if_true, hcol]
  | all => simp only [reduceCtorEq, if_false, Option.getD_some, hall, if_true, hcol]

/-- The hypotheses of `C48_cached` are met: -/
example := C48_cached (fun i => i + 10) 0 2 .all (by decide) .block [1] (by decide) ⟨[0, 11], [false, true]⟩ ⟨rfl, rfl, fun i => by rcases i with _ | _ | i <;> simp⟩ (by decide)

/-- Histories: starting without cache file, after every sequence of requests in any modes, every request in mode `full`
and every request for a single point (not `readonly`) is answered with the columns asked for. -/
theorem C48_history_partial (val : ℕ → V) (zero : V) (gs : ℕ) (reqs : List (CacheMode × PsfMode × List ℕ)) (k : ℕ)
    (c : CacheMode) (m : PsfMode) (indices : List ℕ) (hk : reqs[k]? = some (c, m, indices)) (hin : ∀ i ∈ indices, i < gs)
    (hs : m = .full ∨ indices.length = 1) (hm : m ≠ .readonly) :
    (psfHistory val zero gs reqs none).1[k]? =
      some (.ok ((if indices = [] then List.range gs else indices).map val)) := by
  have hgen : ∀ node, PsfNodeValid val gs node → (psfHistory val zero gs reqs node).1[k]? =
      some (.ok ((if indices = [] then List.range gs else indices).map val)) := by
    induction reqs generalizing k with
    | nil => simp at hk
    | cons r l ih =>
      intro node hnode
      obtain ⟨c', m', gi'⟩ := r
      cases k with
      | zero =>
        simp only [List.getElem?_cons_zero, Option.some.injEq, Prod.mk.injEq] at hk
        obtain ⟨rfl, rfl, rfl⟩ := hk
        rcases C48_requested_partial val zero gs c' m' gi' node hnode hin hs with h | ⟨h, -⟩
        · simp only [psfHistory, List.getElem?_cons_zero]
          exact congrArg some h
        · exact absurd h hm
      | succ k =>
        exact ih k (by simpa using hk) _ (C48_cache_valid val zero gs c' m' gi' node hnode)
  exact hgen none fun s hs => by simp at hs

/-- The hypotheses of `C48_history_partial` are met: -/
example := C48_history_partial (fun i => i + 10) 0 4 [(.all, .block, [2]), (.all, .single, [0, 3]), (.all, .full, [0, 3])] 2 .all .full [0, 3] rfl
  (by decide) (.inl rfl) (by decide)

private theorem applyPsf_same (val : ℕ → V) (j : ℕ) (l : List ℕ) (s : PsfState V) (hne : l ≠ []) (hl : ∀ i ∈ l, i = j) :
    (applyPsf (l.flatMap fun i => [PsfAct.col i (val i), PsfAct.flag i]) s).ac = s.ac.set j (val j) := by
  induction l generalizing s with
  | nil => exact absurd rfl hne
  | cons i l ih =>
    have hi : i = j := hl i (by simp)
    subst hi
    rw [List.flatMap_cons, applyPsf_append]
    by_cases hl0 : l = []
    · subst hl0; rfl
    · rw [ih _ hl0 fun x hx => hl x (by simp [hx])]
      simp [applyPsf, PsfAct.apply]

/-- Two or more points asked for, in mode `single` or `block`, without stored values: only the column of the *last* point
asked for is calculated; every other column delivered is zero. -/
theorem C48_several_points_violated (val : ℕ → V) (zero : V) (gs : ℕ) (mode : PsfMode) (hm : mode = .single ∨ mode = .block)
    (indices : List ℕ) (last : ℕ) (hin : ∀ i ∈ indices ++ [last], i < gs) (hne : indices ≠ []) :
    (psfGet val zero gs .none mode (indices ++ [last]) none).1 =
      .ok ((indices ++ [last]).map fun i => if i = last then val i else zero) := by
  set gi := indices ++ [last] with hgi
  have hlen : gi.length = indices.length + 1 := by simp [hgi]
  have hpos := List.length_pos_iff.2 hne
  have hany : (gi.any fun i => decide (gs ≤ i)) = false := by
    rw [List.any_eq_false]
    intro i hi
    have := hin i hi
    simp only [decide_eq_true_eq]; omega
  have hg0 : gi ≠ [] := by intro h; rw [h] at hlen; simp at hlen
  have hcalc : psfCalcInd gi (PsfState.zeros gs zero).gp = gi.map fun _ => last := by
    unfold psfCalcInd
    rw [if_neg (by omega)]
    apply List.map_congr_left
    intro i hi
    have : (PsfState.zeros gs zero).gp.getD i false = false := by
      simp [PsfState.zeros, List.getD_eq_getElem?_getD, List.getElem?_replicate]
      split <;> rfl
    rw [this, if_neg (by simp), hlen, Nat.add_sub_cancel, hgi, List.getD_eq_getElem?_getD, List.getElem?_append_right (le_refl _)]
    simp
  have hac : (applyPsf (psfActs val mode gi (PsfState.zeros gs zero)) (PsfState.zeros gs zero)).ac =
      (List.replicate gs zero).set last (val last) := by
    have key := applyPsf_same val last (gi.map fun _ => last) (PsfState.zeros gs zero) (by simpa using hg0) (by simp)
    rcases hm with rfl | rfl
    · unfold psfActs; simp only [hcalc]; exact key
    · unfold psfActs; simp only [hcalc]; rw [applyPsf_block]; exact key
  unfold psfGet
  simp only [if_neg hg0, hany, Bool.false_eq_true, if_false]
  unfold psfColumns
  rw [hac]
  congr 1
  apply List.map_congr_left
  intro i hi
  have hlt := hin i hi
  rw [List.getD_eq_getElem?_getD]
  by_cases hil : i = last
  · subst hil
    rw [List.getElem?_set_self (by simpa using hlt), if_pos rfl]; rfl
  · rw [List.getElem?_set_ne (Ne.symm hil), if_neg hil, List.getElem?_replicate, if_pos hlt]; rfl

/-- In particular with no indices given (all points; so DAMAS with `calcmode` 'single' or 'block'): all columns but that
of the last grid point are zero. -/
theorem C48_all_points_violated (val : ℕ → V) (zero : V) (n : ℕ) (hn : 0 < n) (mode : PsfMode)
    (hm : mode = .single ∨ mode = .block) :
    (psfGet val zero (n + 1) .none mode [] none).1 =
      .ok ((List.range (n + 1)).map fun i => if i = n then val i else zero) := by
  have h := C48_several_points_violated val zero (n + 1) mode hm (List.range n) n (by
    intro i hi
    rw [← List.range_succ] at hi
    exact List.mem_range.1 hi) (by intro h; have := congrArg List.length h; simp at this; omega)
  rw [← List.range_succ] at h
  rw [← h]
  simp [psfGet]

example : (psfGet (fun i => i + 10) 0 4 .none .block [2, 0, 3] none).1 = .ok [0, 0, 13] := by decide

example : (psfHistory (fun i => i + 10) 0 4 [(.all, .block, [2]), (.all, .single, [0, 3]), (.all, .full, [0, 3])] none).1 =
    [.ok [12], .ok [0, 13], .ok [10, 13]] := by decide

/-! ### Interruptions -/

/-- Mode `single`: an interruption at any point between two writes leaves the stored arrays valid. -/
theorem C79_single (val : ℕ → V) (gs : ℕ) (gi : List ℕ) (s : PsfState V) (h : PsfValid val gs s) (done : List (PsfAct V))
    (hp : done <+: psfActs val .single gi s) : PsfValid val gs (applyPsf done s) := by
  unfold psfActs at hp
  simp only at hp
  generalize psfCalcInd gi s.gp = l at hp
  induction l generalizing s done with
  | nil =>
    rw [List.flatMap_nil, List.prefix_nil] at hp
    subst hp; exact h
  | cons i l ih =>
    rw [List.flatMap_cons] at hp
    match done, hp with
    | [], _ => exact h
    | [a], hp =>
      obtain ⟨t, ht⟩ := hp
      simp at ht
      rw [ht.1]
      exact valid_col h i
    | a :: b :: done, hp =>
      obtain ⟨t, ht⟩ := hp
      simp at ht
      obtain ⟨rfl, rfl, ht⟩ := ht
      exact ih _ (valid_col_flag h i) done ⟨t, ht⟩

/-- The hypotheses of `C79_single` are met: -/
example := C79_single (fun i => i + 10) 2 [1] _ (valid_zeros _ _ 0) [.col 1 11] ⟨[.flag 1], rfl⟩

/-- Mode `full`: an interruption during the calculation (which comes after the flags have been written) leaves a node in
which everything is flagged and zero; all later requests to this node are answered with zeros. -/
theorem C79_full_violated (val : ℕ → V) (zero : V) (gs : ℕ) (gi : List ℕ) :
    ∃ done, done <+: psfActs val .full gi (PsfState.zeros gs zero) ∧
      ∀ (mode : PsfMode) (indices : List ℕ), indices ≠ [] → (∀ i ∈ indices, i < gs) →
        (psfGet val zero gs .all mode indices (some (applyPsf done (PsfState.zeros gs zero)))).1 = .ok (indices.map fun _ => zero) := by
  refine ⟨[.flagAll], ⟨[.cols ((List.range (PsfState.zeros gs zero).ac.length).map val)], rfl⟩, ?_⟩
  intro mode indices hne hin
  have hany : (indices.any fun i => decide (gs ≤ i)) = false := by
    rw [List.any_eq_false]
    intro i hi
    have := hin i hi
    simp only [decide_eq_true_eq]; omega
  have hall : (indices.all fun i => (applyPsf [.flagAll] (PsfState.zeros gs zero)).gp.getD i false) = true := by
    rw [List.all_eq_true]
    intro i hi
    simp [applyPsf, PsfAct.apply, PsfState.zeros, List.getD_eq_getElem?_getD, List.getElem?_replicate, hin i hi]
  unfold psfGet
  simp only [if_neg hne, hany, Bool.false_eq_true, if_false, reduceCtorEq, Option.getD_some, hall, if_true]
  congr 1
  apply List.map_congr_left
  intro i hi
  simp [applyPsf, PsfAct.apply, PsfState.zeros, List.getD_eq_getElem?_getD, List.getElem?_replicate, hin i hi]

/-- Mode `block`: the flag of a column is written before the column; an interruption between the two leaves a flagged
zero column, which is delivered later. -/
theorem C79_block_violated (val : ℕ → V) (zero : V) (gs i : ℕ) (hi : i < gs) :
    ∃ done, done <+: psfActs val .block [i] (PsfState.zeros gs zero) ∧
      (psfGet val zero gs .all .block [i] (some (applyPsf done (PsfState.zeros gs zero)))).1 = .ok [zero] := by
  refine ⟨[.flag i], ⟨[.col i (val i)], rfl⟩, ?_⟩
  have hany : ([i].any fun i => decide (gs ≤ i)) = false := by simpa using hi
  have hall : ([i].all fun i => (applyPsf [.flag i] (PsfState.zeros gs zero)).gp.getD i false) = true := by
    simp [applyPsf, PsfAct.apply, PsfState.zeros, hi]
  unfold psfGet
  simp only [List.cons_ne_nil, if_false, hany, Bool.false_eq_true, reduceCtorEq, Option.getD_some, hall, if_true]
  simp [psfColumns, applyPsf, PsfAct.apply, PsfState.zeros, List.getD_eq_getElem?_getD, List.getElem?_replicate, hi]

/-! ### Frequencies -/

section
variable {K : Type*} [Field K] [LinearOrder K] [IsStrictOrderedRing K] [FloorRing K]

/-- Every node of the file holds columns of the frequencies of a set `F` with this node name. -/
def PsfFileValid (val : K → ℕ → V) (gs : ℕ) (F : K → Prop) (file : ℤ → Option (PsfState V)) : Prop :=
  ∀ f, F f → PsfNodeValid (val f) gs (file (psfNodeName f))

/-- If the frequencies used with a cache file differ in their first two decimals (`psfNodeName` is injective on them), a
request at one of them (mode `full` or a single point) is answered with the columns of that frequency, and the file stays
valid for all of them. -/
theorem C80_frequencies_partial (val : K → ℕ → V) (zero : V) (gs : ℕ) (F : K → Prop)
    (hF : ∀ f g, F f → F g → psfNodeName f = psfNodeName g → f = g) (file : ℤ → Option (PsfState V))
    (h : PsfFileValid val gs F file) (caching : CacheMode) (mode : PsfMode) (indices : List ℕ) (f : K) (hf : F f) :
    PsfFileValid val gs F (psfGetFreq val zero gs caching mode indices f file).2 ∧
    ((∀ i ∈ indices, i < gs) → (mode = .full ∨ indices.length = 1) → mode ≠ .readonly →
      (psfGetFreq val zero gs caching mode indices f file).1 =
        .ok ((if indices = [] then List.range gs else indices).map (val f))) := by
  constructor
  · intro g hg
    unfold psfGetFreq
    simp only
    split
    · rename_i he
      have := hF g f hg hf he
      subst this
      exact C48_cache_valid (val g) zero gs caching mode indices _ (h g hg)
    · exact h g hg
  · intro hin hs hm
    rcases C48_requested_partial (val f) zero gs caching mode indices _ (h f hf) hin hs with h' | ⟨h', -⟩
    · exact h'
    · exact absurd h' hm

/-- The hypotheses of `C80_frequencies_partial` are met: -/
example := C80_frequencies_partial (K := ℚ) (fun f i => f + i) 0 4 (fun f => f = 250 ∨ f = 500)
  (by rintro _ _ (rfl | rfl) (rfl | rfl) <;> first | exact fun _ => rfl | (intro h; revert h; decide +kernel)) (fun _ => none)

/-- Whole hundredths of a hertz are told apart. -/
theorem C80_hundredths (a b : ℤ) (h : psfNodeName ((a : K) / 100) = psfNodeName ((b : K) / 100)) : a = b := by
  unfold psfNodeName at h
  have e : ∀ z : ℤ, (100 : K) * ((z : K) / 100) = (z : K) := by intro z; field_simp
  rw [e, e, round_intCast, round_intCast] at h
  exact h

/-- The hypotheses of `C80_hundredths` are met: -/
example := C80_hundredths (K := ℚ) 25001 25001 rfl

/-- Frequencies that agree to two decimals share a node: a request for the second one is answered with the columns of
the first. -/
theorem C80_frequencies_violated (val : K → ℕ → V) (zero : V) (gs : ℕ) (f g : K) (hfg : psfNodeName f = psfNodeName g)
    (mode : PsfMode) (indices : List ℕ) (hne : indices ≠ []) (hin : ∀ i ∈ indices, i < gs) :
    let file := (psfGetFreq val zero gs .all .full [] f fun _ => none).2
    (psfGetFreq val zero gs .all mode indices g file).1 = .ok (indices.map (val f)) := by
  intro file
  have hnode : ∃ s, file (psfNodeName g) = some s ∧ PsfValid (val f) gs s ∧ ∀ i, i < gs → s.gp[i]? = some true := by
    simp only [file, psfGetFreq, hfg, if_true]
    have hany : ((List.range gs).any fun i => decide (gs ≤ i)) = false := by
      rw [List.any_eq_false]; intro i hi; have := List.mem_range.1 hi; simp only [decide_eq_true_eq]; omega
    unfold psfGet
    simp only [if_true, hany, Bool.false_eq_true, if_false, reduceCtorEq, Option.getD_none]
    split
    · rename_i hall
      refine ⟨_, rfl, valid_zeros _ _ _, ?_⟩
      intro i hi
      exact all_flags _ _ hall i (List.mem_range.2 hi)
    · refine ⟨_, rfl, valid_acts _ _ _ _ _ (valid_zeros _ _ _), ?_⟩
      intro i hi
      exact acts_flag (val f) gs .full (List.range gs) _ (valid_zeros _ _ _) (fun i hi => List.mem_range.1 hi) (Or.inl rfl) i
        (List.mem_range.2 hi)
  obtain ⟨s, hs, hv, hfl⟩ := hnode
  unfold psfGetFreq
  rw [hs]
  simp only
  -- the values of the frequency g do not matter
  have hany : (indices.any fun i => decide (gs ≤ i)) = false := by
    rw [List.any_eq_false]; intro i hi; have := hin i hi; simp only [decide_eq_true_eq]; omega
  have hall : (indices.all fun i => s.gp.getD i false) = true := by
    rw [List.all_eq_true]; intro i hi
    rw [List.getD_eq_getElem?_getD, hfl i (hin i hi)]; rfl
  unfold psfGet
  simp only [if_neg hne, hany, Bool.false_eq_true, if_false, reduceCtorEq, Option.getD_some, hall, if_true]
  rw [columns_flagged (val f) zero gs indices s hv fun i hi => hfl i (hin i hi)]

end

example : psfNodeName (1 : ℚ) = psfNodeName (1004 / 1000 : ℚ) ∧ (1 : ℚ) ≠ 1004 / 1000 := by
  refine ⟨by decide +kernel, by norm_num⟩

end Acoular
