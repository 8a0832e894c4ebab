import Verif.Model.SharedCache
import Verif.Props.Chain
import Verif.Props.Digest

/-!
# C135: many objects, one cache file
-/

namespace Acoular
open Spec

variable {K : Type} [Field K]

/-- The settings of two objects agree. -/
def Spec.SameSettings : {n m : ℕ} → Chain K n → Chain K m → Prop
  | _, _, .samples a, .samples b => a.map List.ofFn = b.map List.ofFn
  | _, _, .mask s e i _, .mask s' e' i' _ => s = s' ∧ e = e' ∧ i = i'
  | _, _, .calib f _, .calib g _ => f = g
  | _, _, .channels f _, .channels g _ => f = g
  | _, _, .average k _, .average l _ => k = l
  | _, _, .filter s _, .filter t _ => s = t
  | _, _, .zeroPhase f _ _, .zeroPhase g _ _ => ∀ a b, a ≠ [] → a.map List.ofFn = b.map List.ofFn → (f a).map List.ofFn = (g b).map List.ofFn
  | _, _, .power _, .power _ | _, _, .cumAverage _, .cumAverage _ | _, _, .reverse .., .reverse .. | _, _, .cache .., .cache ..
  | _, _, .write _, .write _ | _, _, .mixer .., .mixer .. => True
  | _, _, _, _ => False

/-- Hashing and printing lose nothing among the objects considered: no two texts hashed for them collide, and objects of one
class whose settings, printed one after the other without separation, read the same have the same settings. -/
structure Spec.Distinct (md5 : List Char → String) (pr : ChainPrint K) (U : {n : ℕ} → Chain K n → Prop) : Prop where
  width : ∀ x, (md5 x).length = 32
  hash : ∀ {n m : ℕ} (c : Chain K n) (d : Chain K m), U c → U d → md5 (c.preimage md5 pr) = md5 (d.preimage md5 pr) →
    c.preimage md5 pr = d.preimage md5 pr
  list : ∀ {n m : ℕ} (c : Chain K n) (d : Chain K m), U c → U d → md5 (c.digest md5 pr).toList = md5 (d.digest md5 pr).toList →
    c.digest md5 pr = d.digest md5 pr
  print : ∀ {n m : ℕ} (c : Chain K n) (d : Chain K m), U c → U d → c.className = d.className →
    (c.settings pr).flatMap String.toList = (d.settings pr).flatMap String.toList → SameSettings c d

omit [Field K] in
private theorem digest_eq (md5 : List Char → String) (pr : ChainPrint K) {n : ℕ} (c : Chain K n) :
    c.digest md5 pr = "_" ++ md5 (c.preimage md5 pr) := by
  cases c <;> rfl

omit [Field K] in
private theorem preimage_eq (md5 : List Char → String) (pr : ChainPrint K) {n : ℕ} (c : Chain K n) :
    c.preimage md5 pr = c.className.toList ++ ((c.sourceIds md5 pr).flatMap String.toList ++ (c.settings pr).flatMap String.toList) := by
  unfold Chain.preimage Chain.preimageOf digestPreimage
  rw [List.filterMap_map]
  have e : ∀ l : List String, List.filterMap (id ∘ some) l = l := by
    intro l; induction l with
    | nil => rfl
    | cons x l ih => simp
  rw [e, List.flatMap_cons, List.flatMap_append]

omit [Field K] in
private theorem class_take {n : ℕ} (c : Chain K n) (x : List Char) :
    (c.className.toList ++ x).takeWhile (· ≠ '>') = c.className.toList.dropLast ∧ c.className.toList.getLast? = some '>' := by
  cases c <;> exact ⟨by simp [Chain.className], by simp [Chain.className]⟩

omit [Field K] in
private theorem class_eq {n m : ℕ} (c : Chain K n) (d : Chain K m) (x y : List Char)
    (h : c.className.toList ++ x = d.className.toList ++ y) : c.className = d.className ∧ x = y := by
  have h1 := (class_take c x).1
  rw [h, (class_take d y).1] at h1
  have e : c.className.toList = d.className.toList := by
    have hc := List.dropLast_append_getLast? '>' (class_take c x).2
    have hd := List.dropLast_append_getLast? '>' (class_take d y).2
    rw [← hc, ← hd, h1]
  refine ⟨String.toList_inj.1 e, ?_⟩
  rw [e] at h
  exact List.append_cancel_left h

omit [Field K] in
private theorem ids_width {md5 : List Char → String} (hw : ∀ x, (md5 x).length = 32) (pr : ChainPrint K) {n : ℕ} (c : Chain K n) :
    ∀ s ∈ c.sourceIds md5 pr, s.length = 33 := by
  have h : ∀ x, ("_" ++ md5 x).length = 33 := fun x => by
    rw [String.length_append, hw]; rfl
  cases c <;> simp only [Chain.sourceIds, List.mem_cons, List.not_mem_nil, or_false, ldigestOne] <;> try (rintro s rfl; rw [digest_eq]; exact h _)
  · intro s hs; exact hs.elim
  · rintro s (rfl | rfl)
    · rw [digest_eq]; exact h _
    · exact h _

private theorem flat_eq {k : ℕ} : ∀ {a b : List String} {x y : List Char}, a.length = b.length → (∀ s ∈ a, s.length = k) →
    (∀ s ∈ b, s.length = k) → a.flatMap String.toList ++ x = b.flatMap String.toList ++ y → a = b ∧ x = y := by
  intro a
  induction a with
  | nil =>
    intro b x y hl _ _ h
    have : b = [] := List.length_eq_zero_iff.1 hl.symm
    subst this
    exact ⟨rfl, by simpa using h⟩
  | cons s a ih =>
    intro b x y hl ha hb h
    cases b with
    | nil => simp at hl
    | cons t b =>
      rw [List.flatMap_cons, List.flatMap_cons, List.append_assoc, List.append_assoc] at h
      obtain ⟨h1, h2⟩ := List.append_inj h (by
        rw [String.length_toList, String.length_toList, ha s (by simp), hb t (by simp)])
      obtain ⟨i1, i2⟩ := ih (by simpa using hl) (fun s hs => ha s (by simp [hs])) (fun s hs => hb s (by simp [hs])) h2
      exact ⟨by rw [String.toList_inj.1 h1, i1], i2⟩

omit [Field K] in
private theorem ids_length {md5 : List Char → String} (pr : ChainPrint K) {n m : ℕ} (c : Chain K n) (d : Chain K m)
    (h : c.className = d.className) : (c.sourceIds md5 pr).length = (d.sourceIds md5 pr).length := by
  cases c <;> cases d <;> first | rfl | (simp [Chain.className] at h)

omit [Field K] in
/-- Equal identifiers: the same class, settings and identifiers of the sources. -/
private theorem digest_inj {md5 : List Char → String} {pr : ChainPrint K} {U : {n : ℕ} → Chain K n → Prop} (hU : Distinct md5 pr U)
    {n m : ℕ} {c : Chain K n} {d : Chain K m} (hc : U c) (hd : U d) (h : c.digest md5 pr = d.digest md5 pr) :
    SameSettings c d ∧ c.sourceIds md5 pr = d.sourceIds md5 pr := by
  rw [digest_eq, digest_eq] at h
  have h1 : md5 (c.preimage md5 pr) = md5 (d.preimage md5 pr) := by
    have := congrArg String.toList h
    rw [String.toList_append, String.toList_append] at this
    exact String.toList_inj.1 (List.append_cancel_left this)
  have h2 := hU.hash c d hc hd h1
  rw [preimage_eq, preimage_eq] at h2
  obtain ⟨h3, h4⟩ := class_eq c d _ _ h2
  obtain ⟨h5, h6⟩ := flat_eq (ids_length pr c d h3) (ids_width hU.width pr c) (ids_width hU.width pr d) h4
  exact ⟨hU.print c d hc hd h3 h6, h5⟩

omit [Field K] in
private theorem same_rows {n m : ℕ} {a : List (Fin n → K)} {b : List (Fin m → K)} (h : a.map List.ofFn = b.map List.ofFn) :
    (a = [] ∧ b = []) ∨ (a ≠ [] ∧ ∃ e : n = m, b = e ▸ a) := by
  cases a with
  | nil =>
    left
    exact ⟨rfl, by simpa using h.symm⟩
  | cons r a =>
    right
    refine ⟨by simp, ?_⟩
    cases b with
    | nil => simp at h
    | cons s b =>
      have e : n = m := by
        have := congrArg (fun l => (l.headD []).length) h
        simpa using this
      subst e
      refine ⟨rfl, ?_⟩
      exact (List.map_injective_iff.2 List.ofFn_injective h).symm

private theorem response_unique {n : ℕ} (sos : List (Sos K)) (data : List (Fin n → K)) (y y' : ℕ → Fin n → K)
    (h : IsSosResponse sos (signal data) y) (h' : IsSosResponse sos (signal data) y') :
    (List.range data.length).map y = (List.range data.length).map y' := by
  obtain ⟨o, o1, o2⟩ := C10_filter sos data 1 one_pos _ (isBlocking_chunks one_pos data) y h
  obtain ⟨p, p1, p2⟩ := C10_filter sos data 1 one_pos _ (isBlocking_chunks one_pos data) y' h'
  rw [o1] at p1
  cases p1
  rw [← o2.cover, ← p2.cover]

/-- **C135** (identifiers) Among objects whose texts and settings are told apart, equal identifiers mean equal signals. -/
theorem C135_identifier_partial {md5 : List Char → String} {pr : ChainPrint K} {U : {n : ℕ} → Chain K n → Prop} (hU : Distinct md5 pr U)
    (hcl : Closed U) {n m : ℕ} {c : Chain K n} {d : Chain K m} {a : List (Fin n → K)} {b : List (Fin m → K)} (ha : Means c a)
    (hb : Means d b) (hc : U c) (hd : U d) (h : c.digest md5 pr = d.digest md5 pr) : a.map List.ofFn = b.map List.ofFn := by
  induction ha generalizing m with
  | samples data hne =>
    obtain ⟨h1, h2⟩ := digest_inj hU hc hd h
    cases hb <;> simp only [SameSettings] at h1
    exact h1
  | @mask n start stop invalid c data ha hw hs hv ih =>
    obtain ⟨h1, h2⟩ := digest_inj hU hc hd h
    cases hb <;> simp only [SameSettings] at h1
    rename_i m' c' b' hb hw' hs' hv'
    obtain ⟨rfl, rfl, rfl⟩ := h1
    have h3 := ih hb (hcl _ hc ⟨_, c⟩ (by simp [Chain.sources])) (hcl _ hd ⟨_, c'⟩ (by simp [Chain.sources])) (by simpa [Chain.sourceIds] using h2)
    rcases same_rows h3 with ⟨rfl, -⟩ | ⟨-, rfl, rfl⟩
    · exact absurd rfl hs
    · rfl
  | @calib n factors c data ha hn ih =>
    obtain ⟨h1, h2⟩ := digest_inj hU hc hd h
    cases hb with
    | @calib m' f' c' b' hb hn' =>
      simp only [SameSettings] at h1
      have h3 := ih hb (hcl _ hc ⟨_, c⟩ (by simp [Chain.sources])) (hcl _ hd ⟨_, c'⟩ (by simp [Chain.sources])) (by simpa [Chain.sourceIds] using h2)
      rcases same_rows h3 with ⟨rfl, rfl⟩ | ⟨hne, rfl, rfl⟩
      · rfl
      · obtain rfl := List.ofFn_injective h1
        rfl
    | _ => simp only [SameSettings] at h1
  | @power n c data ha ih =>
    obtain ⟨h1, h2⟩ := digest_inj hU hc hd h
    cases hb with
    | @power m' c' b' hb =>
      simp only [SameSettings] at h1
      have h3 := ih hb (hcl _ hc ⟨_, c⟩ (by simp [Chain.sources])) (hcl _ hd ⟨_, c'⟩ (by simp [Chain.sources])) (by simpa [Chain.sourceIds] using h2)
      rcases same_rows h3 with ⟨rfl, rfl⟩ | ⟨hne, rfl, rfl⟩
      · rfl
      · rfl
    | _ => simp only [SameSettings] at h1
  | @channels n weights c data ha hn ih =>
    obtain ⟨h1, h2⟩ := digest_inj hU hc hd h
    cases hb with
    | @channels m' w' c' b' hb hn' =>
      simp only [SameSettings] at h1
      have h3 := ih hb (hcl _ hc ⟨_, c⟩ (by simp [Chain.sources])) (hcl _ hd ⟨_, c'⟩ (by simp [Chain.sources])) (by simpa [Chain.sourceIds] using h2)
      rcases same_rows h3 with ⟨rfl, rfl⟩ | ⟨hne, rfl, rfl⟩
      · rfl
      · obtain rfl := List.ofFn_injective h1
        rfl
    | total => exact absurd (congrArg List.length h1) (by simp; omega)
    | _ => simp only [SameSettings] at h1
  | @total n c data ha ih =>
    obtain ⟨h1, h2⟩ := digest_inj hU hc hd h
    cases hb with
    | @total m' c' b' hb =>
      simp only [SameSettings] at h1
      have h3 := ih hb (hcl _ hc ⟨_, c⟩ (by simp [Chain.sources])) (hcl _ hd ⟨_, c'⟩ (by simp [Chain.sources])) (by simpa [Chain.sourceIds] using h2)
      rcases same_rows h3 with ⟨rfl, rfl⟩ | ⟨hne, rfl, rfl⟩
      · rfl
      · rfl
    | channels => exact absurd (congrArg List.length h1) (by simp; omega)
    | _ => simp only [SameSettings] at h1
  | @average n nav c data ha hn ih =>
    obtain ⟨h1, h2⟩ := digest_inj hU hc hd h
    cases hb with
    | @average m' nav' c' b' hb hn' =>
      simp only [SameSettings] at h1
      subst h1
      have h3 := ih hb (hcl _ hc ⟨_, c⟩ (by simp [Chain.sources])) (hcl _ hd ⟨_, c'⟩ (by simp [Chain.sources])) (by simpa [Chain.sourceIds] using h2)
      rcases same_rows h3 with ⟨rfl, rfl⟩ | ⟨hne, rfl, rfl⟩
      · simp [groupAverages]
      · rfl
    | _ => simp only [SameSettings] at h1
  | @cumAverage n c data ha ih =>
    obtain ⟨h1, h2⟩ := digest_inj hU hc hd h
    cases hb with
    | @cumAverage m' c' b' hb =>
      simp only [SameSettings] at h1
      have h3 := ih hb (hcl _ hc ⟨_, c⟩ (by simp [Chain.sources])) (hcl _ hd ⟨_, c'⟩ (by simp [Chain.sources])) (by simpa [Chain.sourceIds] using h2)
      rcases same_rows h3 with ⟨rfl, rfl⟩ | ⟨hne, rfl, rfl⟩
      · rfl
      · rfl
    | _ => simp only [SameSettings] at h1
  | @filter n sos c data y ha hy ih =>
    obtain ⟨h1, h2⟩ := digest_inj hU hc hd h
    cases hb with
    | @filter m' sos' c' b' y' hb hy' =>
      simp only [SameSettings] at h1
      subst h1
      have h3 := ih hb (hcl _ hc ⟨_, c⟩ (by simp [Chain.sources])) (hcl _ hd ⟨_, c'⟩ (by simp [Chain.sources])) (by simpa [Chain.sourceIds] using h2)
      rcases same_rows h3 with ⟨rfl, rfl⟩ | ⟨hne, rfl, rfl⟩
      · rfl
      · rw [response_unique _ _ _ _ hy hy']
    | _ => simp only [SameSettings] at h1
  | @zeroPhase n ff junk c data ha hw hl ih =>
    obtain ⟨h1, h2⟩ := digest_inj hU hc hd h
    cases hb with
    | @zeroPhase m' ff' junk' c' b' hb hw' hl' =>
      simp only [SameSettings] at h1
      have h3 := ih hb (hcl _ hc ⟨_, c⟩ (by simp [Chain.sources])) (hcl _ hd ⟨_, c'⟩ (by simp [Chain.sources])) (by simpa [Chain.sourceIds] using h2)
      rcases same_rows h3 with ⟨rfl, rfl⟩ | ⟨hne, rfl, rfl⟩
      · rw [List.length_eq_zero_iff.1 hl, List.length_eq_zero_iff.1 hl']; rfl
      · exact h1 _ _ hne rfl
    | _ => simp only [SameSettings] at h1
  | @reverse n junk c data ha hd0 ih =>
    obtain ⟨h1, h2⟩ := digest_inj hU hc hd h
    cases hb with
    | @reverse m' junk' c' b' hb hd0' =>
      simp only [SameSettings] at h1
      have h3 := ih hb (hcl _ hc ⟨_, c⟩ (by simp [Chain.sources])) (hcl _ hd ⟨_, c'⟩ (by simp [Chain.sources])) (by simpa [Chain.sourceIds] using h2)
      rcases same_rows h3 with ⟨rfl, rfl⟩ | ⟨hne, rfl, rfl⟩
      · rfl
      · rfl
    | _ => simp only [SameSettings] at h1
  | @cache n mode history c data ha hd0 h0 ih =>
    obtain ⟨h1, h2⟩ := digest_inj hU hc hd h
    cases hb with
    | @cache m' mode' history' c' b' hb hd0' h0' => exact ih hb (hcl _ hc ⟨_, c⟩ (by simp [Chain.sources])) (hcl _ hd ⟨_, c'⟩ (by simp [Chain.sources])) (by simpa [Chain.sourceIds] using h2)
    | _ => simp only [SameSettings] at h1
  | @write n c data ha ih =>
    obtain ⟨h1, h2⟩ := digest_inj hU hc hd h
    cases hb with
    | @write m' c' b' hb => exact ih hb (hcl _ hc ⟨_, c⟩ (by simp [Chain.sources])) (hcl _ hd ⟨_, c'⟩ (by simp [Chain.sources])) (by simpa [Chain.sourceIds] using h2)
    | _ => simp only [SameSettings] at h1
  | @mixer n c e data other ha ha' hl ih ih' =>
    obtain ⟨h1, h2⟩ := digest_inj hU hc hd h
    cases hb with
    | @mixer m' c' e' b' o' hb hb' hl' =>
      simp only [Chain.sourceIds, List.cons.injEq, and_true, ldigestOne] at h2
      have h3 := ih hb (hcl _ hc ⟨_, c⟩ (by simp [Chain.sources])) (hcl _ hd ⟨_, c'⟩ (by simp [Chain.sources])) h2.1
      have h4 := ih' hb' (hcl _ hc ⟨_, e⟩ (by simp [Chain.sources])) (hcl _ hd ⟨_, e'⟩ (by simp [Chain.sources]))
        (hU.list _ _ (hcl _ hc ⟨_, e⟩ (by simp [Chain.sources])) (hcl _ hd ⟨_, e'⟩ (by simp [Chain.sources])) (by
          have := congrArg String.toList h2.2
          rw [String.toList_append, String.toList_append] at this
          exact String.toList_inj.1 (List.append_cancel_left this)))
      rcases same_rows h3 with ⟨rfl, rfl⟩ | ⟨hne, rfl, rfl⟩
      · rfl
      · obtain rfl := List.map_injective_iff.2 List.ofFn_injective h4
        rfl
    | _ => simp only [SameSettings] at h1

/-- A run of a cache among the objects considered: its source has a signal. -/
def Spec.Sensible (U : {n : ℕ} → Chain K n → Prop) (r : SharedRun K) : Prop :=
  U (.cache r.mode [] r.source) ∧ 0 < r.num ∧ ∃ data, data ≠ [] ∧ Means r.source data

/-- What may stand in the file: under the name of every object considered, its own rows. -/
private def StoreInv (md5 : List Char → String) (pr : ChainPrint K) (U : {n : ℕ} → Chain K n → Prop) (s : CacheStore (List K)) : Prop :=
  ∀ {n : ℕ} (mode : CacheMode) (history : List CacheRun) (c : Chain K n) (data : List (Fin n → K)), U (.cache mode history c) → Means c data →
    data ≠ [] → (∀ r ∈ history, 0 < r.num) → CacheInv (data.map List.ofFn) (some (s.node (cacheKey md5 pr c)))

omit [Field K] in
private theorem through_fine {α β : Type} (src : Trace α) (f : List α → Trace β) (h : src.exit = .returned) :
    src.through f = f src.blocks := by
  simp [Trace.through, h]

omit [Field K] in
private theorem view_inv {rows : List (List K)} {s : CacheStore (List K)} {d : String} (h : CacheInv rows (some (s.node d))) :
    CacheInv rows (s.view d) := by
  unfold CacheStore.view
  split
  · exact h
  · intro n hn; cases hn

private theorem back {n : ℕ} (row : Fin n → K) : (fun j : Fin n => (List.ofFn row).getD j 0) = row := by
  funext j
  simp

private theorem shared_transparent {md5 : List Char → String} {pr : ChainPrint K} {U : {n : ℕ} → Chain K n → Prop}
    {s : CacheStore (List K)} (hs : StoreInv md5 pr U s) {n : ℕ} (mode : CacheMode) (history : List CacheRun) (c : Chain K n)
    (data : List (Fin n → K)) (src : ℕ → Trace (List (Fin n → K))) (hU : U (.cache mode history c)) (hm : Means c data) (hd : data ≠ [])
    (h0 : ∀ r ∈ history, 0 < r.num)
    (hsrc : ∀ num, 0 < num → (src num).exit = .returned ∧ IsBlocking num data (src num).blocks) (num : ℕ) (hn : 0 < num) :
    (sharedCache md5 pr s mode history c src num).exit = .returned ∧
      IsBlocking num data (sharedCache md5 pr s mode history c src num).blocks := by
  have h := C04_one_run (data.map List.ofFn) (by simpa using hd) mode num hn (rowsOut (src num).blocks)
    (IsBlocking.map hn _ (hsrc num hn).2) _ (view_inv (hs mode history c data hU hm hd h0))
  unfold sharedCache
  rw [through_fine _ _ (hsrc num hn).1]
  refine ⟨by simp only [rowsIn, h.1], ?_⟩
  have := IsBlocking.map hn (fun row (j : Fin n) => row.getD j 0) h.2.1
  rw [List.map_map] at this
  have e : (fun (row : List K) (j : Fin n) => row.getD j 0) ∘ List.ofFn = (id : (Fin n → K) → _) := by
    funext row
    exact back row
  rw [e, List.map_id] at this
  exact this

private theorem after_inv [CharZero K] {md5 : List Char → String} {pr : ChainPrint K} {U : {n : ℕ} → Chain K n → Prop}
    (hD : Distinct md5 pr U) (hcl : Closed U) {s : CacheStore (List K)} (hs : StoreInv md5 pr U s) (r : SharedRun K) (hr : Sensible U r) :
    StoreInv md5 pr U (r.after md5 pr s) := by
  obtain ⟨h1, h2, data, h3, h4⟩ := hr
  have hsrc := chain_with U hcl (sharedCache md5 pr s)
    (fun mode history c data src a b e f g num hn => shared_transparent hs mode history c data src a b e f g num hn) h4
    (hcl _ h1 ⟨_, r.source⟩ (by simp [Chain.sources])) r.num h2
  have hrun := C04_one_run (data.map List.ofFn) (by simpa using h3) r.mode r.num h2 _ (IsBlocking.map h2 _ hsrc.2) _
    (view_inv (hs r.mode [] r.source data h1 h4 h3 (by simp)))
  intro n mode history c rows hU hm hd h0
  have e : r.after md5 pr s = s.put (cacheKey md5 pr r.source) (applyActs ((Cache.result r.mode r.num
      (List.map (List.map List.ofFn) (r.source.resultWith (sharedCache md5 pr s) r.num).blocks)
      (s.view (cacheKey md5 pr r.source))).take r.steps) (s.view (cacheKey md5 pr r.source))) := rfl
  have hthis := hrun.2.2 r.steps
  rw [e]
  generalize applyActs ((Cache.result r.mode r.num
      (List.map (List.map List.ofFn) (r.source.resultWith (sharedCache md5 pr s) r.num).blocks)
      (s.view (cacheKey md5 pr r.source))).take r.steps) (s.view (cacheKey md5 pr r.source)) = f at hthis ⊢
  unfold CacheStore.put
  cases f with
  | none => exact hs mode history c rows hU hm hd h0
  | some f =>
    by_cases hk : cacheKey md5 pr c = cacheKey md5 pr r.source
    · simp only [hk, if_true]
      have hsame := C135_identifier_partial hD hcl (Means.cache (mode := mode) (history := history) hm hd h0)
        (Means.cache (mode := r.mode) (history := []) h4 h3 (by simp)) hU h1 hk
      rw [hsame]
      exact hthis
    · simp only [if_neg hk]
      exact hs mode history c rows hU hm hd h0

/-- **C135** Let any number of objects use one cache file, in a history of runs each of which has any mode and block size and is
stopped anywhere.  If hashing and printing lose nothing among these objects, every one of them delivers its own signal, wherever in
it there are caches. -/
theorem C135_shared_partial [CharZero K] {md5 : List Char → String} {pr : ChainPrint K} {U : {n : ℕ} → Chain K n → Prop}
    (hD : Distinct md5 pr U) (hcl : Closed U) (history : List (SharedRun K)) (hh : ∀ r ∈ history, Sensible U r) {n : ℕ} {c : Chain K n}
    {data : List (Fin n → K)} (hm : Means c data) (hc : U c) (num : ℕ) (hn : 0 < num) :
    (c.resultWith (sharedCache md5 pr (sharedHistory md5 pr history)) num).exit = .returned ∧
      IsBlocking num data (c.resultWith (sharedCache md5 pr (sharedHistory md5 pr history)) num).blocks := by
  have key : ∀ (history : List (SharedRun K)) (s : CacheStore (List K)), (∀ r ∈ history, Sensible U r) → StoreInv md5 pr U s →
      StoreInv md5 pr U (history.foldl (fun s r => r.after md5 pr s) s) := by
    intro history
    induction history with
    | nil => intro s _ hs; exact hs
    | cons r rs ih =>
      intro s hr hs
      exact ih _ (fun r' hr' => hr r' (by simp [hr'])) (after_inv hD hcl hs r (hr r (by simp)))
  have hinv : StoreInv md5 pr U (sharedHistory md5 pr history) :=
    key history _ hh fun _ _ _ _ _ _ _ _ n hn => by cases hn
  exact chain_with U hcl _ (fun mode history c data src a b e f g num hn => shared_transparent hinv mode history c data src a b e f g num hn)
    hm hc num hn

omit [Field K] in
private theorem through_blocks {α β : Type} (src : Trace α) (f : List α → Trace β) : (src.through f).blocks = (f src.blocks).blocks := by
  unfold Trace.through
  simp only
  split <;> rfl

/-- **C135 is violated** whenever two objects have equal identifiers: after a cache behind the first one has been read to the end, a
cache behind the second one delivers the signal of the first. -/
theorem C135_exchange_violated [CharZero K] {md5 : List Char → String} {pr : ChainPrint K} {n : ℕ} {c d : Chain K n}
    {a : List (Fin n → K)} (hc : Means c a) (ha : a ≠ []) (hk : c.digest md5 pr = d.digest md5 pr)
    (num : ℕ) (hn : 0 < num) : ∃ k, ∀ steps, k ≤ steps → ∀ num', 0 < num' →
      ((Chain.cache .individual [] d).resultWith
        (sharedCache md5 pr (sharedHistory md5 pr [⟨n, c, .individual, num, steps⟩])) num').blocks.flatten = a := by
  have hempty : StoreInv md5 pr (fun _ => True) (⟨false, fun _ => none⟩ : CacheStore (List K)) :=
    fun _ _ _ _ _ _ _ _ n hn => by cases hn
  have hkey : cacheKey md5 pr c = cacheKey md5 pr d := by
    unfold cacheKey Chain.digest Chain.preimageOf
    rw [hk]
    rfl
  have hsrc := fun num hn => chain_with (fun _ => True) (fun _ _ _ _ => trivial) (sharedCache md5 pr ⟨false, fun _ => none⟩)
    (fun mode history c data src a b e f g num hn => shared_transparent (U := fun _ => True) hempty mode history c data src a b e f g num hn) hc trivial num hn
  have hfull := C05_full_run_completes (a.map List.ofFn) (by simpa using ha)
    (fun num => rowsOut (c.resultWith (sharedCache md5 pr ⟨false, fun _ => none⟩) num).blocks)
    (fun num hn => IsBlocking.map hn _ (hsrc num hn).2) [] (by simp) .individual (Or.inl rfl) num hn
  simp only [cacheHistory] at hfull
  refine ⟨(Cache.result .individual num (rowsOut (c.resultWith (sharedCache md5 pr ⟨false, fun _ => none⟩) num).blocks) none).length,
    fun steps hsteps num' hn' => ?_⟩
  have hstore : (sharedHistory md5 pr [⟨n, c, .individual, num, steps⟩]).view (cacheKey md5 pr d) =
      some (some ⟨a.map List.ofFn, some true⟩) := by
    have e : sharedHistory md5 pr [⟨n, c, .individual, num, steps⟩] = CacheStore.put ⟨false, fun _ => none⟩ (cacheKey md5 pr c)
        (applyActs ((Cache.result .individual num
          (rowsOut (c.resultWith (sharedCache md5 pr ⟨false, fun _ => none⟩) num).blocks) none).take steps) none) := rfl
    rw [e, List.take_of_length_le hsteps, hfull, hkey]
    simp [CacheStore.put, CacheStore.view]
  generalize sharedHistory md5 pr [⟨n, c, .individual, num, steps⟩] = s at hstore
  rw [Chain.resultWith]
  have hblocks : ∀ src : ℕ → Trace (List (Fin n → K)), (sharedCache md5 pr s .individual [] d src num').blocks =
      (chunks num' (a.map List.ofFn)).map (List.map fun row (j : Fin n) => row.getD j 0) := by
    intro src
    have e : ∀ blocks, yields (Cache.result .individual num' blocks (s.view (cacheKey md5 pr d))) = chunks num' (a.map List.ofFn) := by
      intro blocks
      rw [hstore]
      have e1 : Cache.result .individual num' blocks (some (some ⟨a.map List.ofFn, some true⟩)) = readActs ⟨a.map List.ofFn, some true⟩ num' := by
        simp [Cache.result]
      have e2 := C04_one_run (a.map List.ofFn) (by simpa using ha) .individual num' hn' _ (isBlocking_chunks hn' _)
        (some (some ⟨a.map List.ofFn, some true⟩)) (by intro x hx; cases hx; exact ⟨List.prefix_refl _, fun _ => rfl⟩)
      have e3 : Cache.result .individual num' (chunks num' (a.map List.ofFn)) (some (some ⟨a.map List.ofFn, some true⟩)) =
          readActs ⟨a.map List.ofFn, some true⟩ num' := by
        simp [Cache.result]
      rw [e3] at e2
      rw [e1]
      exact (isBlocking_iff hn').1 e2.2.1
    unfold sharedCache
    rw [through_blocks]
    simp only [rowsIn, e]
  rw [hblocks, ← List.map_flatten, flatten_chunks hn', List.map_map]
  have e : (fun (row : List K) (j : Fin n) => row.getD j 0) ∘ List.ofFn = (id : (Fin n → K) → _) := by
    funext row
    exact back row
  rw [e, List.map_id]

/-- **C135 is violated** by selecting samples 1 to 122, and 11 to 22, of any signal: the cache behind the second selection delivers
what the first one selects (122 samples instead of 12), for every hash function, once the cache behind the first one has been read. -/
theorem C135_masked_violated [CharZero K] (md5 : List Char → String) (pr : ChainPrint K) (hi : ∀ i, pr.int i = toString i)
    (hs : ∀ i, pr.stop (some i) = toString i) {n : ℕ} (h0 : 0 < n) {c : Chain K n} {data : List (Fin n → K)} (h : Means c data) (hw : Whole c)
    (hl : 124 ≤ data.length) (num : ℕ) (hn : 0 < num) :
    (∃ rows, Means (.mask 11 (some 23) [] c) rows ∧ rows.length = 12) ∧
    ∃ k, ∀ steps, k ≤ steps → ∀ num', 0 < num' →
      ((Chain.cache .individual [] (.mask 11 (some 23) [] c)).resultWith (sharedCache md5 pr
        (sharedHistory md5 pr [⟨_, .mask 1 (some 123) [] c, .individual, num, steps⟩])) num').blocks.flatten.length = 122 := by
  have hkept : keptChannels [] n ≠ [] := by
    intro e
    have := congrArg List.length e
    simp [keptChannels] at this
    omega
  have hlen : ∀ a b : ℕ, a ≤ b → b ≤ data.length → (selectIdx (inPySlice a (some b) data.length) data).length = b - a := by
    intro a b hab hb
    rw [selectIdx_inPySlice, List.length_drop, List.length_take]
    simp [sliceIndices]
    rw [if_neg (by omega), if_neg (by omega)]
    omega
  have h1 := hlen 1 123 (by omega) (by omega)
  have h2 := hlen 11 23 (by omega) (by omega)
  refine ⟨⟨_, .mask h hw (fun e => by rw [show (11 : ℤ) = ((11 : ℕ) : ℤ) by rfl, show (23 : ℤ) = ((23 : ℕ) : ℤ) by rfl] at e; rw [e] at h2; simp at h2) hkept, by simpa using h2⟩, ?_⟩
  have hm : Means (.mask 1 (some 123) [] c) _ := .mask h hw (fun e => by rw [show (1 : ℤ) = ((1 : ℕ) : ℤ) by rfl, show (123 : ℤ) = ((123 : ℕ) : ℤ) by rfl] at e; rw [e] at h1; simp at h1) hkept
  obtain ⟨k, hk⟩ := C135_exchange_violated (md5 := md5) (pr := pr) (d := .mask 11 (some 23) [] c) hm (by
      intro e
      have := congrArg List.length e
      simp at this
      simp [this] at h1) (by
      have := C19_masked_violated md5 (c.digest md5 pr) (pr.ints [])
      unfold MaskedTimeOut.digest digestOf at this
      simpa [Chain.digest, Chain.preimageOf, Chain.settings, Chain.className, hi, hs] using this) num hn
  refine ⟨k, fun steps hsteps num' hn' => ?_⟩
  rw [hk steps hsteps num' hn']
  simpa using h1

/-! ### The hypotheses are met -/

/-- Two recordings, and a cache behind each. -/
private def family : List (Σ n, Chain ℚ n) :=
  [⟨1, .samples [fun _ => 7]⟩, ⟨1, .samples [fun _ => 8, fun _ => 9]⟩, ⟨1, .cache .individual [] (.samples [fun _ => 7])⟩,
    ⟨1, .cache .individual [] (.samples [fun _ => 8, fun _ => 9])⟩]

private def demoPrint : ChainPrint ℚ where
  samples data := if data.length = 1 then "A" else "B"
  int := toString
  stop _ := ""
  ints _ := ""
  nums _ := ""
  nat := toString
  sos _ := ""
  zero _ := ""

/-- A hash of 32 characters that tells the texts of this family apart. -/
private def demoHash (x : List Char) : String := String.ofList ((if x.length = 38 then '0' else if x.length = 64 then '1' else x.getD 1 '?') ::
  (if x.length = 33 then '3' else '4') :: List.replicate 30 (x.getLastD '?'))

private theorem demo_distinct : Distinct demoHash demoPrint fun {n} c => (⟨n, c⟩ : Σ n, Chain ℚ n) ∈ family where
  width x := by simp [demoHash]
  hash := by
    intro n m c d hc hd
    simp only [family, List.mem_cons, List.not_mem_nil, or_false] at hc hd
    rcases hc with hc | hc | hc | hc <;> cases hc <;> rcases hd with hd | hd | hd | hd <;> cases hd <;> decide +kernel
  list := by
    intro n m c d hc hd
    simp only [family, List.mem_cons, List.not_mem_nil, or_false] at hc hd
    rcases hc with hc | hc | hc | hc <;> cases hc <;> rcases hd with hd | hd | hd | hd <;> cases hd <;> decide +kernel
  print := by
    intro n m c d hc hd
    simp only [family, List.mem_cons, List.not_mem_nil, or_false] at hc hd
    rcases hc with hc | hc | hc | hc <;> cases hc <;> rcases hd with hd | hd | hd | hd <;> cases hd <;>
      simp [SameSettings, Chain.className, Chain.settings, demoPrint]

example (steps : ℕ) : ((Chain.cache .individual [] (.samples [fun _ => (7 : ℚ)] : Chain ℚ 1)).resultWith (sharedCache demoHash demoPrint
    (sharedHistory demoHash demoPrint [⟨1, .samples [fun _ => 8, fun _ => 9], .individual, 1, steps⟩,
      ⟨1, .samples [fun _ => 7], .individual, 4, 2⟩])) 3).exit = .returned := by
  refine (C135_shared_partial demo_distinct ?_ _ ?_ (.cache (.samples _ (by simp)) (by simp) (by simp)) (by simp [family]) 3 (by norm_num)).1
  · intro n c hc s hs
    simp only [family, List.mem_cons, List.not_mem_nil, or_false] at hc
    rcases hc with hc | hc | hc | hc <;> cases hc <;> simp [Chain.sources] at hs <;> subst hs <;> simp [family]
  · intro r hr
    simp only [List.mem_cons, List.not_mem_nil, or_false] at hr
    rcases hr with rfl | rfl
    · exact ⟨by simp [family], by simp, _, by simp, .samples _ (by simp)⟩
    · exact ⟨by simp [family], by simp, _, by simp, .samples _ (by simp)⟩

end Acoular
