import Verif.Model.Digest
import Verif.Props.Cache
import Verif.Props.Stream
import Mathlib.Data.Rat.Defs
import Mathlib.Algebra.Order.Ring.Rat
import Mathlib.Algebra.BigOperators.Group.List.Lemmas

/-!
# Property theorems: imported spectra (C18), digests (C19), spectra file cache (C20)
-/

namespace Acoular

open Spec

/-! ## C18 -/

section C18

variable {C S E : Type*} [DecidableEq S]

/-- The matrix assigned last in a history (or the initial one). -/
def lastAssigned (c0 : C) : List (ImportOp C) → C
  | [] => c0
  | .assign c :: rest => lastAssigned c rest
  | .readEva :: rest => lastAssigned c0 rest

/-- The assigned matrices, in order. -/
def assigned : List (ImportOp C) → List C
  | [] => []
  | .assign c :: rest => c :: assigned rest
  | .readEva :: rest => assigned rest

private theorem csm_eq (sum : C → S) (eva : C → E) (ops : List (ImportOp C)) :
    ∀ s : ImportState C S E, (ops.foldl (ImportState.step sum eva) s).csm = lastAssigned s.csm ops := by
  induction ops with
  | nil => intro s; rfl
  | cons op ops ih =>
    intro s
    rw [List.foldl_cons, ih]
    cases op <;> rfl

/-- **C18, partial.** If any two matrices assigned one after the other (the first one: after the initial empty
matrix `c0`) have different checksums, and nothing was read before the first assignment, then reading
`eva` gives the eigenvalues of the matrix assigned last.  (The claim is for all histories; false, see below.) -/
theorem C18_import_partial (sum : C → S) (eva : C → E) (c0 c1 : C) (ops : List (ImportOp C))
    (hdiff : (c0 :: c1 :: assigned ops).IsChain fun a b => sum a ≠ sum b) :
    let s := (ImportOp.assign c1 :: ops).foldl (ImportState.step sum eva) ⟨c0, sum c0, none⟩
    (s.read eva).1 = eva (lastAssigned c1 ops) := by
  intro s
  have hs : s = ops.foldl (ImportState.step sum eva) ⟨c1, sum c0, none⟩ := by
    show List.foldl _ _ _ = _
    rw [List.foldl_cons]
    simp [ImportState.step, ImportState.assign]
  suffices h : ∀ (ops : List (ImportOp C)) (a b : C) (cache : Option E),
      (a :: b :: assigned ops).IsChain (fun a b => sum a ≠ sum b) → (∀ e, cache = some e → e = eva b) →
      ((ops.foldl (ImportState.step sum eva) ⟨b, sum a, cache⟩).read eva).1 = eva (lastAssigned b ops) by
    rw [hs]; exact h ops c0 c1 none hdiff (by simp)
  intro ops
  induction ops with
  | nil =>
    intro a b cache _ hc
    cases cache with
    | none => rfl
    | some e => exact hc e rfl
  | cons op ops ih =>
    intro a b cache hch hc
    rw [List.foldl_cons]
    cases op with
    | readEva =>
      have e1 : (ImportState.step sum eva ⟨b, sum a, cache⟩ .readEva) = ⟨b, sum a, some (eva b)⟩ := by
        cases cache with
        | none => rfl
        | some e => rw [hc e rfl]; rfl
      rw [e1]
      exact ih a b _ hch (by simp)
    | assign c =>
      have hab : sum b ≠ sum a := fun h => (List.isChain_cons_cons.1 hch).1 h.symm
      have e1 : (ImportState.step sum eva ⟨b, sum a, cache⟩ (.assign c)) = ⟨c, sum b, none⟩ := by
        simp [ImportState.step, ImportState.assign, hab]
      rw [e1]
      exact ih b c none (List.isChain_cons_cons.1 hch).2 (by simp)

/-- The hypotheses of `C18_import_partial` are met: -/
example := C18_import_partial (C := ℤ) (S := ℤ) (E := ℤ) id (· + 1) 0 1 [.readEva, .assign 2, .readEva, .assign 3] (by decide)

/-- **C18, violated.** Assign a matrix twice, read its eigenvalues, assign any other matrix: the eigenvalues of
the old one are returned, whatever the matrices, the checksum and the eigenvalue routine. -/
theorem C18_import_violated (sum : C → S) (eva : C → E) (c0 a b : C) :
    let s := ([.assign a, .assign a, .readEva, .assign b] : List (ImportOp C)).foldl (ImportState.step sum eva)
      ⟨c0, sum c0, none⟩
    s.csm = b ∧ (s.read eva).1 = eva a := by
  simp only [List.foldl_cons, List.foldl_nil, ImportState.step, ImportState.assign, ImportState.read]
  by_cases h : sum a = sum c0 <;> simp [h]

/-- **C18, violated.** The digest after an assignment does not depend on the assigned matrix, so objects
that use it (beamformers, file caches) cannot notice the difference between two imported matrices. -/
theorem C18_digest_violated (sum : C → S) (eva : C → E) (md5 : List Char → String) (show_ : S → String)
    (s : ImportState C S E) (a b : C) :
    (s.step sum eva (.assign a)).digest md5 show_ = (s.step sum eva (.assign b)).digest md5 show_ := rfl

/-- **C18, partial.** The digest tells the checksums apart that the object keeps (if neither the hash nor the printing makes different ones equal): it
changes with an assignment whenever the matrix *replaced* has another checksum than the one replaced before.  Missing: the matrix assigned, see above. -/
theorem C18_digest_partial (sum : C → S) (eva : C → E) (md5 : List Char → String) (show_ : S → String) (hm : Function.Injective md5)
    (hs : Function.Injective show_) (s t : ImportState C S E) (a b : C) :
    ((s.step sum eva (.assign a)).digest md5 show_ = (t.step sum eva (.assign b)).digest md5 show_ ↔ sum s.csm = sum t.csm) ∧
    ((s.step sum eva (.assign a)).digest md5 show_ = s.digest md5 show_ ↔ sum s.csm = s.csmsum) := by
  have key : ∀ u v : ImportState C S E, u.digest md5 show_ = v.digest md5 show_ ↔ u.csmsum = v.csmsum := by
    intro u v
    refine ⟨fun h => ?_, fun h => by simp [ImportState.digest, h]⟩
    simp only [ImportState.digest, digestOf, digestPreimage] at h
    have h' := hm (String.append_right_inj _ |>.1 h)
    simp only [List.filterMap_cons, id, List.filterMap_nil, List.flatMap_cons, List.flatMap_nil, List.append_nil, List.append_cancel_left_eq] at h'
    exact hs (String.toList_inj.1 h')
  exact ⟨key _ _, key _ _⟩

/-- The hypotheses of `C18_digest_partial` are met: -/
example := C18_digest_partial (C := ℤ) (S := String) (E := ℤ) (fun z => toString z) id (fun l => String.ofList l) id (fun _ _ h => String.ofList_injective h)
  Function.injective_id

example : ((0 : ℤ) :: 1 :: assigned [.readEva, .assign (2 : ℤ), .readEva, .assign 3]).IsChain
    (fun a b => (id a : ℤ) ≠ id b) := by decide

end C18

/-! ## C19 -/

section C19

private theorem flatMap_inj_aux {a b : List String} (hl : a.length = b.length)
    (hw : a.dropLast.map String.length = b.dropLast.map String.length)
    (h : a.flatMap String.toList = b.flatMap String.toList) : a = b := by
  induction a generalizing b with
  | nil => cases b with
    | nil => rfl
    | cons => simp at hl
  | cons x a ih =>
    cases b with
    | nil => simp at hl
    | cons y b =>
      rw [List.flatMap_cons, List.flatMap_cons] at h
      cases a with
      | nil =>
        have hb : b = [] := by simpa using hl.symm
        subst hb
        simp only [List.flatMap_nil, List.append_nil] at h
        rw [String.toList_inj.1 h]
      | cons x' a =>
        cases b with
        | nil => simp at hl
        | cons y' b =>
          rw [List.dropLast_cons_cons, List.dropLast_cons_cons, List.map_cons, List.map_cons, List.cons.injEq] at hw
          have h2 := List.append_inj h (by rw [String.length_toList, String.length_toList]; exact hw.1)
          rw [String.toList_inj.1 h2.1, ih (by simpa using hl) hw.2 h2.2]

/-- **C19, partial.** For two objects of one class with the same available dependencies, equal preimages imply
equal dependencies provided that all dependencies but the last are printed with the same width.  (The claim
is for all values; false, see below.) -/
theorem C19_fixed_width_partial (cls : String) (a b : List String) (hl : a.length = b.length)
    (hw : a.dropLast.map String.length = b.dropLast.map String.length)
    (h : digestPreimage cls (a.map some) = digestPreimage cls (b.map some)) : a = b := by
  unfold digestPreimage at h
  rw [List.filterMap_map, List.filterMap_map, List.flatMap_cons, List.flatMap_cons] at h
  have e : ∀ l : List String, List.filterMap (id ∘ some) l = l := by
    intro l; induction l with
    | nil => rfl
    | cons x l ih => simp
  rw [e, e] at h
  exact flatMap_inj_aux hl hw (List.append_cancel_left h)

/-- The hypotheses of `C19_fixed_width_partial` are met: -/
example := C19_fixed_width_partial "Average" ["abc", "x"] ["abc", "x"] rfl rfl rfl

/-- **C19, partial.** In particular an object with one parameter behind a source (whose digest always has the
same width): the preimage determines the digest of the source and the parameter. -/
theorem C19_one_parameter_partial (cls src src' v v' : String) (hs : src.length = src'.length)
    (h : digestPreimage cls [some src, some v] = digestPreimage cls [some src', some v']) : src = src' ∧ v = v' := by
  have := C19_fixed_width_partial cls [src, v] [src', v'] rfl (by simp [hs]) h
  simpa using this

/-- The hypotheses of `C19_one_parameter_partial` are met: -/
example := C19_one_parameter_partial "Average" "abc" "abc" "64" "64" rfl rfl

/-- **C19, violated.** Two settings of `MaskedTimeOut` that select different samples have the same digest, for
every hash function, source and list of invalid channels. -/
theorem C19_masked_violated (md5 : List Char → String) (src inv : String) :
    MaskedTimeOut.digest md5 src 1 (some 123) inv = MaskedTimeOut.digest md5 src 11 (some 23) inv := by
  have e1 : (toString (1 : Int)).toList = ['1'] := by decide +kernel
  have e2 : (toString (123 : Int)).toList = ['1', '2', '3'] := by decide +kernel
  have e3 : (toString (11 : Int)).toList = ['1', '1'] := by decide +kernel
  have e4 : (toString (23 : Int)).toList = ['2', '3'] := by decide +kernel
  unfold MaskedTimeOut.digest digestOf digestPreimage
  simp only [List.filterMap_cons, id, List.filterMap_nil, List.flatMap_cons, List.flatMap_nil, e1, e2, e3, e4]
  simp

/-- **C19, violated.** The same for `RectGrid`: x from 1.01 to 20.5, and x from 1.0 to 120.5. -/
theorem C19_rect_grid_violated (md5 : List Char → String) (ymin ymax z inc : String) :
    RectGrid.digest md5 "1.01" "20.5" ymin ymax z inc = RectGrid.digest md5 "1.0" "120.5" ymin ymax z inc := by
  have e1 : ("1.01" : String).toList = ['1', '.', '0', '1'] := by decide +kernel
  have e2 : ("20.5" : String).toList = ['2', '0', '.', '5'] := by decide +kernel
  have e3 : ("1.0" : String).toList = ['1', '.', '0'] := by decide +kernel
  have e4 : ("120.5" : String).toList = ['1', '2', '0', '.', '5'] := by decide +kernel
  unfold RectGrid.digest digestOf digestPreimage
  simp only [List.filterMap_cons, id, List.filterMap_nil, List.flatMap_cons, List.flatMap_nil, e1, e2, e3, e4]
  simp

/-- **C19, violated.** Data arrays of the same shape whose first rows have the same sum are not distinguished. -/
theorem C19_time_samples_violated {K : Type*} [AddCommMonoid K] (md5 : List Char → String) (show_ : K → String)
    (basename fs : String) (cd : Option String) (nch : Nat) (r r' : List K) (d d' : List (List K))
    (hr : r.sum = r'.sum) (hd : d.length = d'.length) :
    TimeSamples.digest md5 show_ basename fs cd (r :: d) nch = TimeSamples.digest md5 show_ basename fs cd (r' :: d') nch := by
  unfold TimeSamples.digest
  simp only [List.head?_cons, Option.map_some, hr, List.length_cons, hd]

/-- What equal digests lead to: the cache node is chosen by the digest only, so after a complete run over source
`A`, a run over another source `B` with the same digest delivers the data of `A`. -/
theorem C19_cache_exchange_violated {α : Type*} (dataA : List α) (hA : dataA ≠ []) (srcA : Nat → List (List α))
    (hsrcA : ∀ num, 0 < num → IsBlocking num dataA (srcA num)) (blocksB : List (List α)) (num : Nat) (hn : 0 < num) :
    let f := applyActs (Cache.result .individual num (srcA num) none) none
    IsBlocking num dataA (yields (Cache.result .individual num blocksB f)) := by
  intro f
  have hf : f = some (some ⟨dataA, some true⟩) :=
    C05_full_run_completes dataA hA srcA hsrcA [] (by simp) .individual (Or.inl rfl) num hn
  rw [hf]
  have e : Cache.result .individual num blocksB (some (some ⟨dataA, some true⟩)) = readActs ⟨dataA, some true⟩ num := by
    simp [Cache.result]
  have e2 : yields (readActs (⟨dataA, some true⟩ : CacheNode α) num) = chunks num dataA := by
    unfold readActs yields
    simp only
    rw [blockLoop_eq dataA hn _ _ (by omega), List.drop_zero, List.filterMap_map]
    have : ∀ l : List (List α), List.filterMap ((fun a => match a with | .yld b => some b | _ => none) ∘ CacheAct.yld) l = l := by
      intro l; induction l with
      | nil => rfl
      | cons x l ih => simp
    exact this _
  rw [e, e2]
  exact isBlocking_chunks hn dataA

/-- The two settings of `C19_masked_violated` do select different rows: 122 of 200 against 12 of 200. -/
example : (selectIdx (inPySlice 1 (some 123) 200) (List.range 200)).length = 122 ∧
    (selectIdx (inPySlice 11 (some 23) 200) (List.range 200)).length = 12 := by decide +kernel

end C19

/-! ## C20 -/

section C20

variable {K : Type*} [AddCommMonoid K] [DecidableEq K]

/-- What the file may contain. -/
private def SpecInv (value : List K) (f : SpecFile K) : Prop :=
  f = none ∨ f = some none ∨ f = some (some (List.replicate value.length 0)) ∨ f = some (some value)

private theorem sum_replicate_zero (n : Nat) : (List.replicate n (0 : K)).sum = 0 := by
  induction n with
  | zero => rfl
  | succ n ih => rw [List.replicate_succ, List.sum_cons, ih, add_zero]

private theorem spec_step (value : List K) (f : SpecFile K) (hf : SpecInv value f) (m : CacheMode) (k : Nat) :
    SpecInv value (applySpec ((specAccess m value f).1.take k) f) := by
  unfold SpecInv at hf
  have hz : (List.replicate value.length (0 : K)).sum = 0 := sum_replicate_zero _
  rcases k with _ | _ | _ | k <;> rcases hf with rfl | rfl | rfl | rfl <;> cases m <;>
    (try by_cases hv : value.sum = 0) <;>
    simp [specAccess, applySpec, SpecAct.apply, SpecInv, hz, *]

private theorem spec_history (value : List K) (h : List (CacheMode × Nat)) :
    ∀ f, SpecInv value f → SpecInv value (specHistory value h f) := by
  induction h with
  | nil => intro f hf; exact hf
  | cons x h ih => intro f hf; obtain ⟨m, k⟩ := x; exact ih _ (spec_step value f hf m k)

/-- **C20, partial.** In every mode but `readonly`, the spectra obtained are the computed ones, after every
history of accesses in any modes whose processes may have died between any two file operations. -/
theorem C20_spectra_cache_partial (value : List K) (history : List (CacheMode × Nat)) (mode : CacheMode)
    (hm : mode ≠ .readonly) : (specAccess mode value (specHistory value history none)).2 = .ok value := by
  have h := spec_history value history none (Or.inl rfl)
  generalize specHistory value history none = f at h
  have hz : (List.replicate value.length (0 : K)).sum = 0 := sum_replicate_zero _
  rcases h with rfl | rfl | rfl | rfl <;> cases mode <;> simp_all [specAccess]
  all_goals split <;> rfl

/-- **C20, partial.** In mode `readonly` they are the computed ones, or the access fails with `OSError`. -/
theorem C20_spectra_readonly_partial (value : List K) (history : List (CacheMode × Nat)) :
    (specAccess .readonly value (specHistory value history none)).2 = .ok value ∨
      (specAccess .readonly value (specHistory value history none)).2 = .error .osError := by
  have h := spec_history value history none (Or.inl rfl)
  generalize specHistory value history none = f at h
  have hz : (List.replicate value.length (0 : K)).sum = 0 := sum_replicate_zero _
  rcases h with rfl | rfl | rfl | rfl
  · exact Or.inl rfl
  · exact Or.inl rfl
  · right; simp [specAccess, hz]
  · by_cases hv : value.sum = 0
    · right; simp [specAccess, hv]
    · left; simp [specAccess, hv]

/-- The hypotheses of `C20_spectra_readonly_partial` are met: -/
example := C20_spectra_readonly_partial [1, 2, (3 : ℚ)] [(.all, 2), (.readonly, 0), (.overwrite, 1)]

/-- **C20.** The modes `none` and `readonly` never write. -/
theorem C20_readonly_no_write (value : List K) (mode : CacheMode) (h : mode = .none ∨ mode = .readonly) (f : SpecFile K) :
    (specAccess mode value f).1 = [] := by
  rcases h with rfl | rfl
  · rfl
  · rcases f with _ | _ | ac
    · rfl
    · rfl
    · unfold specAccess
      by_cases h : ac.sum = 0 <;> simp [h]

/-- The hypotheses of `C20_readonly_no_write` are met: -/
example := C20_readonly_no_write [1, 2, (3 : ℚ)] .readonly (.inr rfl) none

/-- **C20, violated.** A process dies after the array was created and before it was filled; later accesses in mode
`readonly` fail. -/
theorem C20_readonly_violated (value : List K) :
    (specAccess .readonly value (specHistory value [(.individual, 2)] none)).2 = .error .osError := by
  have hz : (List.replicate value.length (0 : K)).sum = 0 := sum_replicate_zero _
  simp [specHistory, specAccess, applySpec, SpecAct.apply, hz]

/-- **C20, violated.** Spectra whose entries add up to zero (for instance all zero) can never be read in mode
`readonly`, even after a complete run. -/
theorem C20_zero_sum_violated (value : List K) (hv : value.sum = 0) :
    (specAccess .readonly value (specHistory value [(.individual, 3)] none)).2 = .error .osError := by
  simp [specHistory, specAccess, applySpec, SpecAct.apply, hv]

/-- Outside the claim (a process that dies *inside* the filling of the array): a partly filled array whose
entries do not add up to zero is taken for complete and served. -/
theorem C20_torn_write (value torn : List K) (h : torn.sum ≠ 0) :
    (specAccess .individual value (some (some torn))).2 = .ok torn := by
  simp [specAccess, h]

example : (specAccess .all [1, 2, (3 : ℚ)] (specHistory [1, 2, (3 : ℚ)] [(.all, 2), (.readonly, 0), (.overwrite, 1)] none)).2
    = .ok [1, 2, 3] := C20_spectra_cache_partial _ _ _ (by decide)

end C20

end Acoular
