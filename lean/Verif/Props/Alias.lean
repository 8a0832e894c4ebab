import Verif.Model.Alias
import Verif.Spec.Mixer
import Verif.Lemmas.StreamModel

/-!
# Property theorems: mixing (C13) and content of delivered blocks (C59)
-/

namespace Acoular

open Spec

variable {V : Type*}

/-! ## Reading and writing views -/

/-- Two views have no row in common. -/
def Ref.Disjoint (r s : Ref) : Prop := r.arr ≠ s.arr ∨ r.off + r.len ≤ s.off ∨ s.off + s.len ≤ r.off

/-- The view lies inside its array. -/
def Ref.Inside (h : Heap V) (r : Ref) : Prop := r.off + r.len ≤ (h r.arr).length

theorem Heap.length_read {h : Heap V} {r : Ref} (hi : r.Inside h) : (h.read r).length = r.len := by
  unfold Ref.Inside at hi
  rw [Heap.read, List.length_take, List.length_drop]; omega

theorem Heap.length_write {h : Heap V} {r : Ref} (hi : r.Inside h) {rows : List V} (hr : rows.length = r.len) (a : Nat) :
    (h.write r rows a).length = (h a).length := by
  unfold Ref.Inside at hi
  unfold Heap.write
  split
  · next e => subst e; simp only [List.length_append, List.length_take, List.length_drop]; omega
  · rfl

theorem Heap.read_write_self {h : Heap V} {r : Ref} (hi : r.Inside h) {rows : List V} (hr : rows.length = r.len) :
    (h.write r rows).read r = rows := by
  unfold Ref.Inside at hi
  unfold Heap.write Heap.read
  simp only [if_true]
  have h1 : ((h r.arr).take r.off).length = r.off := by rw [List.length_take]; omega
  rw [List.append_assoc, List.drop_append, h1, Nat.sub_self, List.drop_zero,
    List.drop_eq_nil_of_le (by omega), List.nil_append, ← hr, List.take_left']
  rfl

theorem Heap.read_write_disjoint {h : Heap V} {r s : Ref} (hi : r.Inside h) {rows : List V} (hr : rows.length = r.len)
    (hd : r.Disjoint s) : (h.write r rows).read s = h.read s := by
  unfold Ref.Inside at hi
  unfold Heap.read Heap.write
  by_cases e : s.arr = r.arr
  · rw [if_pos e, e]
    have h1 : ((h r.arr).take r.off).length = r.off := by rw [List.length_take]; omega
    apply List.ext_getElem?
    intro i
    rw [List.getElem?_take, List.getElem?_take]
    split
    · next hlt =>
      rw [List.getElem?_drop, List.getElem?_drop]
      rcases hd with hd | hd | hd
      · exact absurd e.symm hd
      · rw [List.getElem?_append_right (by rw [List.length_append, h1]; omega), List.getElem?_drop,
          List.length_append, h1, hr]
        congr 1; omega
      · rw [List.append_assoc, List.getElem?_append_left (by rw [h1]; omega), List.getElem?_take, if_pos (by omega)]
    · rfl
  · rw [if_neg e]

private theorem Ref.Disjoint.symm {r s : Ref} (h : r.Disjoint s) : s.Disjoint r := by
  unfold Ref.Disjoint at *
  rcases h with h | h | h
  · exact Or.inl (Ne.symm h)
  · exact Or.inr (Or.inr h)
  · exact Or.inr (Or.inl h)

/-! ## Mixing blocks of values -/

/-- One round of mixing on values. -/
private def valInner [Add V] : List V → List ((V → V) × List (List V)) → Option (List V × List ((V → V) × List (List V)))
  | t, [] => some (t, [])
  | _, (_, []) :: _ => none
  | t, (f, b :: g) :: gens => (valInner (List.zipWith (· + ·) t (b.map f)) gens).map fun p => (p.1, (f, g) :: p.2)

private def valMix [Add V] (pre : V → V) (onStop : Exit) : List (List V) → List ((V → V) × List (List V)) → Trace (List V)
  | [], _ => .stop
  | t :: ts, gens =>
    match valInner (t.map pre) gens with
    | none => ⟨[], onStop⟩
    | some (u, gens') =>
      if t.length > u.length then ⟨[u], .returned⟩ else (valMix pre onStop ts gens').cons u

private def mixFold [Add V] (data : List V) (others : List ((V → V) × List V)) : List V :=
  others.foldl (fun t o => List.zipWith (· + ·) t (o.2.map o.1)) data

variable [AddCommMonoid V]
set_option linter.unusedSectionVars false

private theorem length_mixFold (others : List ((V → V) × List V)) : ∀ data : List V,
    (mixFold data others).length = others.foldl (fun m o => min m o.2.length) data.length := by
  induction others with
  | nil => intro _; rfl
  | cons o os ih =>
    intro data
    show (mixFold (List.zipWith (· + ·) data (o.2.map o.1)) os).length = _
    rw [ih, List.length_zipWith, List.length_map, List.foldl_cons]

private theorem foldl_min_le (others : List ((V → V) × List V)) : ∀ m : Nat,
    others.foldl (fun m o => min m o.2.length) m ≤ m := by
  induction others with
  | nil => intro m; exact Nat.le_refl _
  | cons o os ih => intro m; exact Nat.le_trans (ih _) (Nat.min_le_left _ _)

private theorem mixFold_eq (others : List ((V → V) × List V)) : ∀ data : List V,
    mixFold data others = mixed data (others.map fun o => o.2.map o.1) := by
  induction others with
  | nil =>
    intro data
    apply List.ext_getElem
    · simp [mixFold, mixed]
    · intro i h1 h2
      simp only [mixFold, List.foldl_nil] at h1
      simp [mixFold, mixed, h1]
  | cons o os ih =>
    intro data
    show mixFold (List.zipWith (· + ·) data (o.2.map o.1)) os = _
    rw [ih]
    unfold mixed
    rw [List.map_cons, List.foldl_cons, List.length_zipWith]
    apply List.map_congr_left
    intro n hn
    rw [List.mem_range] at hn
    have hlt : n < min data.length (o.2.map o.1).length := by
      refine Nat.lt_of_lt_of_le hn ?_
      have := foldl_min_le os (min data.length (o.2.map o.1).length)
      rw [List.foldl_map] 
      simp only [List.length_map] at this ⊢
      exact this
    rw [List.map_cons, List.sum_cons, ← add_assoc]
    congr 1
    have ha : n < data.length := by omega
    have hb : n < (o.2.map o.1).length := by omega
    have hb' : n < o.2.length := by simpa using hb
    simp [List.getD_eq_getElem?_getD, List.getElem?_zipWith, ha, hb']

private theorem mixFold_take (n : Nat) (others : List ((V → V) × List V)) : ∀ data : List V,
    (mixFold data others).take n = mixFold (data.take n) (others.map fun o => (o.1, o.2.take n)) := by
  induction others with
  | nil => intro _; rfl
  | cons o os ih =>
    intro data
    show (mixFold (List.zipWith (· + ·) data (o.2.map o.1)) os).take n = _
    rw [ih, List.take_zipWith]
    simp only [List.map_cons, mixFold, List.foldl_cons, List.map_take]

private theorem mixFold_drop (n : Nat) (others : List ((V → V) × List V)) : ∀ data : List V,
    (mixFold data others).drop n = mixFold (data.drop n) (others.map fun o => (o.1, o.2.drop n)) := by
  induction others with
  | nil => intro _; rfl
  | cons o os ih =>
    intro data
    show (mixFold (List.zipWith (· + ·) data (o.2.map o.1)) os).drop n = _
    rw [ih, List.drop_zipWith]
    simp only [List.map_cons, mixFold, List.foldl_cons, List.map_drop]

private theorem valInner_chunks {num : Nat} (hn : 0 < num) (others : List ((V → V) × List V)) : ∀ t : List V,
    valInner t (others.map fun o => (o.1, chunks num o.2)) =
      if ∀ o ∈ others, o.2 ≠ [] then
        some (mixFold t (others.map fun o => (o.1, o.2.take num)), others.map fun o => (o.1, chunks num (o.2.drop num)))
      else none := by
  classical
  induction others with
  | nil => intro t; simp [valInner, mixFold]
  | cons o os ih =>
    intro t
    obtain ⟨f, l⟩ := o
    by_cases hl : l = []
    · subst hl
      rw [if_neg (by simp)]
      simp [chunks_nil, valInner]
    · simp only [List.map_cons, chunks_step hn hl, valInner, ih]
      by_cases hall : ∀ o ∈ os, o.2 ≠ []
      · rw [if_pos hall, if_pos (by simpa [hl] using hall)]
        rfl
      · rw [if_neg hall, if_neg (by simpa [hl] using hall)]
        rfl

private theorem foldl_min_zero {m : Nat} (others : List ((V → V) × List V)) :
    others.foldl (fun m o => min m o.2.length) m = 0 ↔ m = 0 ∨ ∃ o ∈ others, o.2 = [] := by
  induction others generalizing m with
  | nil => simp
  | cons o os ih =>
    rw [List.foldl_cons, ih]
    simp only [List.mem_cons, exists_eq_or_imp, ← List.length_eq_zero_iff (l := o.2)]
    constructor
    · rintro (h | h)
      · by_cases hm : m = 0
        · exact Or.inl hm
        · exact Or.inr (Or.inl (by omega))
      · exact Or.inr (Or.inr h)
    · rintro (h | h | h)
      · exact Or.inl (by omega)
      · exact Or.inl (by omega)
      · exact Or.inr h

private theorem valMix_eq {num : Nat} (hn : 0 < num) (pre : V → V) (onStop : Exit) (data : List V) :
    ∀ others : List ((V → V) × List V), (onStop = .returned ∨ ∀ o ∈ others, data.length ≤ o.2.length) →
      valMix pre onStop (chunks num data) (others.map fun o => (o.1, chunks num o.2))
        = ⟨chunks num (mixFold (data.map pre) others), .returned⟩ := by
  induction data using chunk_induction hn with
  | nil =>
    intro others _
    have : mixFold ([].map pre) others = [] := by
      apply List.eq_nil_of_length_eq_zero
      rw [length_mixFold, foldl_min_zero]; exact Or.inl rfl
    rw [this, chunks_nil]; rfl
  | step data hne ih =>
    intro others hstop
    have hpos := List.length_pos_iff.mpr hne
    rw [chunks_step hn hne]
    simp only [valMix, valInner_chunks hn]
    by_cases hall : ∀ o ∈ others, o.2 ≠ []
    · rw [if_pos hall]
      have htot : mixFold (data.map pre) others ≠ [] := by
        intro h
        have := congrArg List.length h
        rw [length_mixFold, List.length_nil, foldl_min_zero, List.length_map] at this
        rcases this with h | ⟨o, ho, h⟩
        · omega
        · exact hall o ho h
      rw [chunks_step hn htot, mixFold_take, mixFold_drop, List.map_take]
      simp only
      have hlen : (mixFold ((data.map pre).take num) (others.map fun o => (o.1, o.2.take num))).length
          = min num (mixFold (data.map pre) others).length := by
        rw [← mixFold_take, List.length_take]
      have hle : (mixFold (data.map pre) others).length ≤ data.length := by
        have := foldl_min_le others (data.map pre).length
        rw [length_mixFold]
        simpa using this
      by_cases hbr : (data.take num).length > (mixFold ((data.map pre).take num) (others.map fun o => (o.1, o.2.take num))).length
      · rw [if_pos hbr]
        have hdrop : mixFold ((data.map pre).drop num) (others.map fun o => (o.1, o.2.drop num)) = [] := by
          rw [← mixFold_drop]
          apply List.drop_eq_nil_of_le
          rw [hlen, List.length_take] at hbr
          omega
        rw [hdrop, chunks_nil]
      · rw [if_neg hbr]
        have := ih (others.map fun o => (o.1, o.2.drop num)) (by
          rcases hstop with h | h
          · exact Or.inl h
          · refine Or.inr ?_
            intro o ho
            obtain ⟨o', ho', rfl⟩ := List.mem_map.1 ho
            have := h o' ho'
            simp only [List.length_drop]; omega)
        simp only [List.map_map] at this
        rw [show (fun o : (V → V) × List V => (o.1, chunks num (o.2.drop num)))
          = (fun o => (o.1, chunks num o.2)) ∘ fun o => (o.1, o.2.drop num) from rfl, this, List.map_drop]
        rfl
    · rw [if_neg hall]
      have hex : ∃ o ∈ others, o.2 = [] := by
        by_contra h
        exact hall fun o ho e => h ⟨o, ho, e⟩
      have : mixFold (data.map pre) others = [] := by
        apply List.eq_nil_of_length_eq_zero
        rw [length_mixFold, foldl_min_zero]
        exact Or.inr hex
      rw [this, chunks_nil]
      rcases hstop with h | h
      · rw [h]
      · obtain ⟨o, ho, e⟩ := hex
        have := h o ho
        rw [e, List.length_nil] at this
        omega

/-! ## From views to values -/

private def vals (h : Heap V) (gens : List ((V → V) × List Ref)) : List ((V → V) × List (List V)) :=
  gens.map fun g => (g.1, g.2.map h.read)

private theorem seenNow_append (as bs : List (Act V)) : ∀ h : Heap V,
    seenNow h (as ++ bs) = seenNow h as ++ seenNow (runHeap h as) bs := by
  induction as with
  | nil => intro h; rfl
  | cons a as ih =>
    intro h
    cases a <;> simp [seenNow, runHeap, ih, Act.exec]

private theorem runHeap_append (as bs : List (Act V)) (h : Heap V) :
    runHeap h (as ++ bs) = runHeap (runHeap h as) bs := by
  simp [runHeap]

private theorem yielded_append (as bs : List (Act V)) : yielded (as ++ bs) = yielded as ++ yielded bs := by
  simp [yielded]

private theorem vals_congr {h h' : Heap V} {gens : List ((V → V) × List Ref)}
    (hr : ∀ g ∈ gens, ∀ r ∈ g.2, h'.read r = h.read r) : vals h' gens = vals h gens := by
  apply List.map_congr_left
  intro g hg
  congr 1
  apply List.map_congr_left
  exact hr g hg

/-- Changes memory only inside the view `t`. -/
private structure Within (t : Ref) (h h' : Heap V) : Prop where
  len : ∀ a, (h' a).length = (h a).length
  arr : ∀ a, a ≠ t.arr → h' a = h a
  read : ∀ r, t.Disjoint r → h'.read r = h.read r

private theorem Within.trans {t : Ref} {h h' h'' : Heap V} (a : Within t h h') (b : Within t h' h'') : Within t h h'' :=
  ⟨fun x => (b.len x).trans (a.len x), fun x hx => (b.arr x hx).trans (a.arr x hx),
   fun r hr => (b.read r hr).trans (a.read r hr)⟩

private theorem Within.write {t : Ref} {h : Heap V} (hi : t.Inside h) {rows : List V} (hr : rows.length = t.len) :
    Within t h (h.write t rows) :=
  ⟨fun a => Heap.length_write hi hr a, fun a ha => by simp [Heap.write, ha], fun _ hd => Heap.read_write_disjoint hi hr hd⟩

private theorem Within.shrink {t t' : Ref} {h h' : Heap V} (ha : t'.arr = t.arr) (ho : t'.off = t.off)
    (hl : t'.len ≤ t.len) (w : Within t' h h') : Within t h h' := by
  refine ⟨w.len, fun a h => w.arr a (by rwa [ha]), fun r hd => w.read r ?_⟩
  unfold Ref.Disjoint at hd ⊢
  rw [ha, ho]
  rcases hd with h | h | h
  · exact Or.inl h
  · exact Or.inr (Or.inl (by omega))
  · exact Or.inr (Or.inr h)

private theorem mixInner_spec (gens : List ((V → V) × List Ref)) : ∀ (h : Heap V) (t : Ref), t.Inside h →
    (∀ g ∈ gens, ∀ r ∈ g.2, t.Disjoint r ∧ r.Inside h) →
    seenNow h (mixInner t gens).1 = [] ∧ yielded (mixInner t gens).1 = [] ∧
    Within t h (runHeap h (mixInner t gens).1) ∧
    ((mixInner t gens).2 = none ∧ valInner (h.read t) (vals h gens) = none ∨
      ∃ u gens', (mixInner t gens).2 = some (u, gens') ∧
        valInner (h.read t) (vals h gens) = some ((runHeap h (mixInner t gens).1).read u, vals h gens') ∧
        u.arr = t.arr ∧ u.off = t.off ∧ u.len ≤ t.len ∧
        ∀ g ∈ gens', ∃ g₀ ∈ gens, ∀ r ∈ g.2, r ∈ g₀.2) := by
  induction gens with
  | nil =>
    intro h t hi _
    exact ⟨rfl, rfl, ⟨fun _ => rfl, fun _ _ => rfl, fun _ _ => rfl⟩,
      Or.inr ⟨t, [], rfl, rfl, rfl, rfl, Nat.le_refl _, by simp⟩⟩
  | cons g gens ih =>
    obtain ⟨f, g⟩ := g
    intro h t hi hd
    cases g with
    | nil => exact ⟨rfl, rfl, ⟨fun _ => rfl, fun _ _ => rfl, fun _ _ => rfl⟩, Or.inl ⟨rfl, rfl⟩⟩
    | cons r g =>
      obtain ⟨hdr, hir⟩ := hd (f, r :: g) (by simp) r (by simp)
      let t' : Ref := if t.len > r.len then ⟨t.arr, t.off, r.len⟩ else t
      have ht'a : t'.arr = t.arr := by simp only [t']; split <;> rfl
      have ht'o : t'.off = t.off := by simp only [t']; split <;> rfl
      have ht'l : t'.len = min t.len r.len := by
        simp only [t']
        split
        · next hh => show r.len = _; omega
        · omega
      have hi' : t'.Inside h := by unfold Ref.Inside at hi ⊢; rw [ht'a, ht'o]; omega
      have hlen : (List.zipWith (· + ·) (h.read t') ((h.read ⟨r.arr, r.off, t'.len⟩).map f)).length = t'.len := by
        rw [List.length_zipWith, List.length_map, Heap.length_read hi', Heap.length_read]
        · exact Nat.min_self _
        · unfold Ref.Inside at hir ⊢; simp only; omega
      let h1 := h.write t' (List.zipWith (· + ·) (h.read t') ((h.read ⟨r.arr, r.off, t'.len⟩).map f))
      have w1 : Within t' h h1 := Within.write hi' hlen
      have w1' : Within t h h1 := w1.shrink ht'a ht'o (by omega)
      have hi1 : t'.Inside h1 := by unfold Ref.Inside at hi' ⊢; rw [w1.len]; exact hi'
      have hdisj : ∀ g ∈ gens, ∀ r ∈ g.2, t'.Disjoint r ∧ r.Inside h1 := by
        intro g hg r hr
        obtain ⟨a, b⟩ := hd g (by simp [hg]) r hr
        constructor
        · unfold Ref.Disjoint at a ⊢
          rw [ht'a, ht'o]
          rcases a with a | a | a
          · exact Or.inl a
          · exact Or.inr (Or.inl (by omega))
          · exact Or.inr (Or.inr a)
        · unfold Ref.Inside at b ⊢; rw [w1.len]; exact b
      obtain ⟨i1, i2, i3, i4⟩ := ih h1 t' hi1 hdisj
      have hmi : mixInner t ((f, r :: g) :: gens) = (.add t' ⟨r.arr, r.off, t'.len⟩ f :: (mixInner t' gens).1,
          (mixInner t' gens).2.map fun p => (p.1, (f, g) :: p.2)) := rfl
      rw [hmi]
      have hread1 : h1.read t' = List.zipWith (· + ·) (h.read t) ((h.read r).map f) := by
        rw [Heap.read_write_self hi' hlen]
        have e1 : h.read t' = (h.read t).take t'.len := by
          unfold Heap.read; rw [ht'a, ht'o, List.take_take]; congr 1; omega
        have e2 : h.read ⟨r.arr, r.off, t'.len⟩ = (h.read r).take t'.len := by
          unfold Heap.read; rw [List.take_take]; congr 1
          show t'.len = min t'.len r.len
          omega
        rw [e1, e2, List.map_take, ← List.take_zipWith, List.take_of_length_le]
        rw [List.length_zipWith, List.length_map, Heap.length_read hi, Heap.length_read hir]
        omega
      have hvals : vals h1 gens = vals h gens := vals_congr fun g hg r hr => w1'.read r (hd g (by simp [hg]) r hr).1
      have hstep : valInner (h.read t) (vals h ((f, r :: g) :: gens))
          = (valInner (h1.read t') (vals h1 gens)).map fun p => (p.1, (f, g.map h.read) :: p.2) := by
        rw [hread1, hvals]; rfl
      refine ⟨i1, i2, w1'.trans (i3.shrink ht'a ht'o (by omega)), ?_⟩
      rw [hstep]
      rcases i4 with ⟨j1, j2⟩ | ⟨u, gens', j1, j2, j3, j4, j5, j6⟩
      · left; rw [j1, j2]; exact ⟨rfl, rfl⟩
      · right
        refine ⟨u, (f, g) :: gens', by rw [j1]; rfl, ?_, j3.trans ht'a, j4.trans ht'o, by omega, ?_⟩
        · rw [j2]
          have : vals h1 gens' = vals h gens' := vals_congr fun g' hg' r' hr' => by
            obtain ⟨g₀, hg₀, hs⟩ := j6 g' hg'
            exact w1'.read r' (hd g₀ (by simp [hg₀]) r' (hs r' hr')).1
          rw [this]; rfl
        · intro g' hg'
          rcases List.mem_cons.1 hg' with rfl | hg'
          · exact ⟨(f, r :: g), by simp, fun r' hr' => by simp [hr']⟩
          · obtain ⟨g₀, hg₀, hs⟩ := j6 g' hg'
            exact ⟨g₀, by simp [hg₀], hs⟩

/-- The whole run: values as in `valMix`, delivered blocks keep their content, memory outside the blocks of
the main source is untouched. -/
private theorem mixActs_spec (pre : Option (V → V)) (onStop : Exit) (ts : List Ref) :
    ∀ (h : Heap V) (gens : List ((V → V) × List Ref)),
    (∀ t ∈ ts, t.Inside h ∧ ∀ g ∈ gens, ∀ r ∈ g.2, t.Disjoint r) →
    (∀ g ∈ gens, ∀ r ∈ g.2, r.Inside h) → ts.Pairwise Ref.Disjoint →
    (⟨seenNow h (mixActs pre onStop ts gens).1, (mixActs pre onStop ts gens).2⟩ : Trace (List V))
        = valMix (pre.getD id) onStop (ts.map h.read) (vals h gens) ∧
      seenLate h (mixActs pre onStop ts gens).1 = seenNow h (mixActs pre onStop ts gens).1 ∧
      (∀ a, (runHeap h (mixActs pre onStop ts gens).1 a).length = (h a).length) ∧
      (∀ a, (∀ t ∈ ts, t.arr ≠ a) → runHeap h (mixActs pre onStop ts gens).1 a = h a) ∧
      (∀ r, (∀ t ∈ ts, t.Disjoint r) → (runHeap h (mixActs pre onStop ts gens).1).read r = h.read r) := by
  induction ts with
  | nil => intro h gens _ _ _; exact ⟨rfl, rfl, fun _ => rfl, fun _ _ => rfl, fun _ _ => rfl⟩
  | cons t ts ih =>
    intro h gens hts hg hpw
    obtain ⟨hi, hdg⟩ := hts t (by simp)
    rw [List.pairwise_cons] at hpw
    -- multiplication with the first weight
    let p : List (Act V) := mixPre pre t
    have hp : seenNow h p = [] ∧ yielded p = [] ∧ Within t h (runHeap h p) ∧
        (runHeap h p).read t = (h.read t).map (pre.getD id) := by
      cases pre with
      | none =>
        refine ⟨rfl, rfl, ⟨fun _ => rfl, fun _ _ => rfl, fun _ _ => rfl⟩, ?_⟩
        simp [p, runHeap, mixPre]
      | some f =>
        have hl : ((h.read t).map f).length = t.len := by rw [List.length_map, Heap.length_read hi]
        refine ⟨rfl, rfl, Within.write hi hl, ?_⟩
        exact Heap.read_write_self hi hl
    obtain ⟨p1, p2, p3, p4⟩ := hp
    let h0 := runHeap h p
    have hi0 : t.Inside h0 := by unfold Ref.Inside at hi ⊢; rw [p3.len]; exact hi
    have hg0 : ∀ g ∈ gens, ∀ r ∈ g.2, t.Disjoint r ∧ r.Inside h0 := fun g hgg r hr => by
      refine ⟨hdg g hgg r hr, ?_⟩
      have := hg g hgg r hr
      unfold Ref.Inside at this ⊢; rw [p3.len]; exact this
    obtain ⟨i1, i2, i3, i4⟩ := mixInner_spec gens h0 t hi0 hg0
    have hv0 : vals h0 gens = vals h gens := vals_congr fun g hgg r hr => p3.read r (hdg g hgg r hr)
    let h1 := runHeap h0 (mixInner t gens).1
    have w1 : Within t h h1 := p3.trans i3
    have hlenT : (h.read t).length = t.len := Heap.length_read hi
    rw [p4, hv0] at i4
    rcases i4 with ⟨j1, j2⟩ | ⟨u, gens', j1, j2, j3, j4, j5, j6⟩
    · have hacts : mixActs pre onStop (t :: ts) gens = (p ++ (mixInner t gens).1, onStop) := by
        simp only [mixActs]
        generalize hm : mixInner t gens = m at j1
        obtain ⟨as, o⟩ := m
        cases j1
        rfl
      rw [hacts]
      simp only
      rw [seenNow_append, p1, List.nil_append, show runHeap h p = h0 from rfl, i1]
      rw [seenLate, yielded_append, p2, i2]
      rw [runHeap_append]
      refine ⟨?_, rfl, w1.len, fun a ha => w1.arr a (fun e => ha t (by simp) e.symm), fun r hr => w1.read r (hr t (by simp))⟩
      simp only [List.map_cons, valMix, j2]
    · have hacts : mixActs pre onStop (t :: ts) gens =
          if t.len > u.len then (p ++ ((mixInner t gens).1 ++ [.yield u]), .returned)
          else (p ++ ((mixInner t gens).1 ++ .yield u :: (mixActs pre onStop ts gens').1), (mixActs pre onStop ts gens').2) := by
        conv_lhs => unfold mixActs
        generalize hm : mixInner t gens = m at j1
        obtain ⟨as, o⟩ := m
        cases j1
        rfl
      have hvu : valMix (pre.getD id) onStop ((t :: ts).map h.read) (vals h gens) =
          if t.len > u.len then ⟨[h1.read u], .returned⟩
          else (valMix (pre.getD id) onStop (ts.map h.read) (vals h gens')).cons (h1.read u) := by
        simp only [List.map_cons, valMix, j2, hlenT]
        have : (Heap.read (runHeap h0 (mixInner t gens).1) u).length = u.len := by
          apply Heap.length_read
          unfold Ref.Inside at hi0 ⊢
          rw [i3.len, j3, j4]; omega
        have hv' : vals h0 gens' = vals h gens' := vals_congr fun g' hg' r' hr' => by
          obtain ⟨g₀, hg₀, hs⟩ := j6 g' hg'
          exact p3.read r' (hdg g₀ hg₀ r' (hs r' hr'))
        rw [this, hv']
      rw [hacts, hvu]
      by_cases hbr : t.len > u.len
      · simp only [if_pos hbr]
        rw [seenNow_append, p1, List.nil_append, seenNow_append]
        rw [show runHeap h p = h0 from rfl, i1, List.nil_append]
        rw [seenLate, yielded_append, p2, List.nil_append, yielded_append, i2, List.nil_append]
        rw [runHeap_append, runHeap_append]
        exact ⟨rfl, rfl, w1.len, fun a ha => w1.arr a (fun e => ha t (by simp) e.symm), fun r hr => w1.read r (hr t (by simp))⟩
      · simp only [if_neg hbr]
        have hsub : ∀ g ∈ gens', ∀ r ∈ g.2, ∃ g₀ ∈ gens, r ∈ g₀.2 := fun g hg r hr => by
          obtain ⟨g₀, h₀, hs⟩ := j6 g hg
          exact ⟨g₀, h₀, hs r hr⟩
        obtain ⟨k1, k2, k3, k4, k5⟩ := ih h1 gens'
          (fun t' ht' => by
            obtain ⟨a, b⟩ := hts t' (by simp [ht'])
            refine ⟨by unfold Ref.Inside at a ⊢; rw [w1.len]; exact a, fun g hgg r hr => ?_⟩
            obtain ⟨g₀, h₀, hr₀⟩ := hsub g hgg r hr
            exact b g₀ h₀ r hr₀)
          (fun g hgg r hr => by
            obtain ⟨g₀, h₀, hr₀⟩ := hsub g hgg r hr
            have := hg g₀ h₀ r hr₀
            unfold Ref.Inside at this ⊢; rw [w1.len]; exact this)
          hpw.2
        have e1 : ts.map h1.read = ts.map h.read := List.map_congr_left fun t' ht' => w1.read t' (hpw.1 t' ht')
        have e2 : vals h1 gens' = vals h gens' := vals_congr fun g hgg r hr => by
          obtain ⟨g₀, h₀, hr₀⟩ := hsub g hgg r hr
          exact w1.read r (hdg g₀ h₀ r hr₀)
        rw [e1, e2] at k1
        rw [seenNow_append, p1, List.nil_append, seenNow_append, show runHeap h p = h0 from rfl, i1, List.nil_append]
        rw [seenLate, yielded_append, p2, List.nil_append, yielded_append, i2, List.nil_append]
        rw [runHeap_append, runHeap_append]
        have hrun : runHeap (runHeap (runHeap h p) (mixInner t gens).1) (.yield u :: (mixActs pre onStop ts gens').1)
            = runHeap h1 (mixActs pre onStop ts gens').1 := rfl
        rw [hrun]
        have hudis : ∀ t' ∈ ts, t'.Disjoint u := fun t' ht' => by
          have := hpw.1 t' ht'
          unfold Ref.Disjoint at this ⊢
          rw [j3, j4]
          rcases this with a | a | a
          · exact Or.inl (Ne.symm a)
          · exact Or.inr (Or.inr (by omega))
          · exact Or.inr (Or.inl a)
        refine ⟨?_, ?_, ?_, ?_, ?_⟩
        · rw [← k1]; rfl
        · show Heap.read (runHeap h1 (mixActs pre onStop ts gens').1) u ::
              List.map (runHeap h1 (mixActs pre onStop ts gens').1).read (yielded (mixActs pre onStop ts gens').1)
            = h1.read u :: seenNow h1 (mixActs pre onStop ts gens').1
          rw [k5 u hudis]
          congr 1
        · intro a; rw [k3, w1.len]
        · intro a ha
          rw [k4 a (fun t' ht' => ha t' (by simp [ht'])), w1.arr a (fun e => ha t (by simp) e.symm)]
        · intro r hr
          rw [k5 r (fun t' ht' => hr t' (by simp [ht'])), w1.read r (hr t (by simp))]

/-! ## The property -/

private theorem valMix_refs {num : Nat} (hn : 0 < num) (h : Heap V) (pre : V → V) (onStop : Exit) (data : List V)
    (ts : List Ref) (hts : IsBlocking num data (ts.map h.read))
    (others : List ((V → V) × List V)) (gens : List ((V → V) × List Ref))
    (hg : List.Forall₂ (fun o g => o.1 = g.1 ∧ IsBlocking num o.2 (g.2.map h.read)) others gens)
    (hstop : onStop = .returned ∨ ∀ o ∈ others, data.length ≤ o.2.length) :
    valMix pre onStop (ts.map h.read) (vals h gens)
      = ⟨chunks num (mixed (data.map pre) (others.map fun o => o.2.map o.1)), .returned⟩ := by
  rw [(isBlocking_iff hn).1 hts]
  have : vals h gens = others.map fun o => (o.1, chunks num o.2) := by
    clear hstop
    induction hg with
    | nil => rfl
    | cons hd _ ih =>
      unfold vals at ih ⊢
      rw [List.map_cons, List.map_cons, ih, ← hd.1, (isBlocking_iff hn).1 hd.2]
  rw [this, valMix_eq hn pre onStop data others hstop, mixFold_eq]

/-- `Mixer`: the blocks delivered are the sample-wise sum up to the shortest source, in blocks of `num`, and
delivered blocks keep their content.  All arrays other than those the main source hands out keep their
content: the data of the additional sources are unchanged, and if the main source hands out new arrays, so
are its own data.  Missing for the full statement: a main source that hands out views of its own data
(`C13_mixer_view_violated`). -/
theorem C13_mixer_partial (num : Nat) (hn : 0 < num) (h : Heap V) (data : List V) (others : List (List V))
    (ts : List Ref) (gens : List (List Ref))
    (hsrc : IsBlocking num data (ts.map h.read))
    (hoth : List.Forall₂ (fun o g => IsBlocking num o (g.map h.read)) others gens)
    (hin : ∀ t ∈ ts, t.Inside h) (hin' : ∀ g ∈ gens, ∀ r ∈ g, r.Inside h)
    (hsep : ts.Pairwise Ref.Disjoint) (hsep' : ∀ t ∈ ts, ∀ g ∈ gens, ∀ r ∈ g, t.Disjoint r) :
    (Mixer.acts (V := V) ts gens).2 = .returned ∧
    IsBlocking num (mixed data others) (seenNow h (Mixer.acts ts gens).1) ∧
    seenLate h (Mixer.acts ts gens).1 = seenNow h (Mixer.acts ts gens).1 ∧
    (∀ a, (∀ t ∈ ts, t.arr ≠ a) → runHeap h (Mixer.acts ts gens).1 a = h a) ∧
    (∀ g ∈ gens, ∀ r ∈ g, (runHeap h (Mixer.acts ts gens).1).read r = h.read r) := by
  have hmem : ∀ g ∈ gens.map (fun g => ((id : V → V), g)), g.2 ∈ gens := by
    intro g hg
    obtain ⟨g', hg', rfl⟩ := List.mem_map.1 hg
    exact hg'
  obtain ⟨k1, k2, k3, k4, k5⟩ := mixActs_spec none .returned ts h (gens.map fun g => (id, g))
    (fun t ht => ⟨hin t ht, fun g hg r hr => hsep' t ht _ (hmem g hg) r hr⟩)
    (fun g hg r hr => hin' _ (hmem g hg) r hr) hsep
  rw [valMix_refs hn h _ _ data ts hsrc (others.map fun o => (id, o)) (gens.map fun g => (id, g)) (by
    rw [List.forall₂_map_left_iff, List.forall₂_map_right_iff]
    exact hoth.imp fun _ _ h => ⟨rfl, h⟩) (Or.inl rfl)] at k1
  simp only [Option.getD_none, List.map_id_fun, id_eq, List.map_map, Function.comp_def, List.map_id_fun'] at k1
  refine ⟨congrArg Trace.exit k1, ?_, k2, k4, ?_⟩
  · rw [show seenNow h (Mixer.acts ts gens).1 = chunks num (mixed data others) from congrArg Trace.blocks k1]
    exact isBlocking_chunks hn _
  · intro g hg r hr
    exact k5 r fun t ht => hsep' t ht g hg r hr

/-- The hypotheses of `C13_mixer_partial` are met: -/
example := C13_mixer_partial (V := Nat) 2 (by decide) (fun a => if a = 5 then [1, 2] else if a = 6 then [3, 4] else if a = 1 then [10, 20, 30] else [])
  [1, 2, 3, 4] [[10, 20, 30]] [⟨5, 0, 2⟩, ⟨6, 0, 2⟩] [[⟨1, 0, 2⟩, ⟨1, 2, 1⟩]] ((isBlocking_iff (by decide)).2 (by decide))
  (.cons ((isBlocking_iff (by decide)).2 (by decide)) .nil) (by simp [Ref.Inside]) (by simp [Ref.Inside]) (by simp [Ref.Disjoint])
  (by simp [Ref.Disjoint])

/-- `SourceMixer` with sources of equal length (checked by the code) : the weighted sum, in blocks of `num`;
memory outside the arrays handed out by the first source is untouched. -/
theorem C13_source_mixer_partial (num : Nat) (hn : 0 < num) (h : Heap V) (w0 : V → V) (data : List V)
    (others : List ((V → V) × List V)) (ts : List Ref) (gens : List ((V → V) × List Ref))
    (hsrc : IsBlocking num data (ts.map h.read))
    (hoth : List.Forall₂ (fun o g => o.1 = g.1 ∧ IsBlocking num o.2 (g.2.map h.read)) others gens)
    (hlen : ∀ o ∈ others, o.2.length = data.length)
    (hin : ∀ t ∈ ts, t.Inside h) (hin' : ∀ g ∈ gens, ∀ r ∈ g.2, r.Inside h)
    (hsep : ts.Pairwise Ref.Disjoint) (hsep' : ∀ t ∈ ts, ∀ g ∈ gens, ∀ r ∈ g.2, t.Disjoint r) :
    (SourceMixer.acts w0 ts gens).2 = .returned ∧
    IsBlocking num (mixed (data.map w0) (others.map fun o => o.2.map o.1)) (seenNow h (SourceMixer.acts w0 ts gens).1) ∧
    seenLate h (SourceMixer.acts w0 ts gens).1 = seenNow h (SourceMixer.acts w0 ts gens).1 ∧
    (∀ a, (∀ t ∈ ts, t.arr ≠ a) → runHeap h (SourceMixer.acts w0 ts gens).1 a = h a) := by
  obtain ⟨k1, k2, k3, k4, k5⟩ := mixActs_spec (some w0) (.raised .runtimeError) ts h gens
    (fun t ht => ⟨hin t ht, fun g hg r hr => hsep' t ht g hg r hr⟩) hin' hsep
  rw [valMix_refs hn h _ _ data ts hsrc others gens hoth (Or.inr fun o ho => Nat.le_of_eq (hlen o ho).symm)] at k1
  refine ⟨congrArg Trace.exit k1, ?_, k2, k4⟩
  rw [show seenNow h (SourceMixer.acts w0 ts gens).1 = _ from congrArg Trace.blocks k1]
  exact isBlocking_chunks hn _

/-- The hypotheses of `C13_source_mixer_partial` are met: -/
example := C13_source_mixer_partial (V := Nat) 2 (by decide) (fun a => if a = 5 then [1, 2] else if a = 6 then [3, 4] else if a = 1 then [10, 20, 30, 40] else [])
  (3 * ·) [1, 2, 3, 4] [((5 * ·), [10, 20, 30, 40])] [⟨5, 0, 2⟩, ⟨6, 0, 2⟩] [((5 * ·), [⟨1, 0, 2⟩, ⟨1, 2, 2⟩])]
  ((isBlocking_iff (by decide)).2 (by decide))
  (.cons ⟨rfl, (isBlocking_iff (by decide)).2 (by decide)⟩ .nil) (by simp) (by simp [Ref.Inside]) (by simp [Ref.Inside]) (by simp [Ref.Disjoint])
  (by simp [Ref.Disjoint])

/-- The blocks of an uncalibrated `TimeSamples` are views of its data. -/
theorem timeSamples_views (h : Heap V) (arr num : Nat) (hn : 0 < num) :
    IsBlocking num (h arr) ((TimeSamples.views arr (h arr).length num).map h.read) ∧
    (∀ t ∈ TimeSamples.views arr (h arr).length num, t.Inside h ∧ t.arr = arr) ∧
    (TimeSamples.views arr (h arr).length num).Pairwise Ref.Disjoint := by
  refine ⟨?_, ?_, ?_⟩
  · have : (TimeSamples.views arr (h arr).length num).map h.read = chunks num (h arr) := by
      unfold TimeSamples.views chunks
      rw [List.map_map]
      apply List.map_congr_left
      intro k _
      simp only [Function.comp, Heap.read]
      apply List.ext_getElem?
      intro i
      rw [List.getElem?_take, List.getElem?_take]
      by_cases h1 : i < num
      · rw [if_pos h1]
        split
        · rfl
        · rw [eq_comm, List.getElem?_eq_none]
          rw [List.length_drop]; omega
      · rw [if_neg h1, if_neg (by omega)]
    rw [this]
    exact isBlocking_chunks hn _
  · intro t ht
    obtain ⟨k, hk, rfl⟩ := List.mem_map.1 ht
    refine ⟨?_, rfl⟩
    rw [List.mem_range] at hk
    have : k * num < (h arr).length := by
      have h1 := (Nat.lt_div_iff_mul_lt hn).1 hk
      have : num * k = k * num := Nat.mul_comm _ _
      omega
    show k * num + min num ((h arr).length - k * num) ≤ (h arr).length
    omega
  · unfold TimeSamples.views
    rw [List.pairwise_map]
    refine List.Pairwise.imp ?_ (List.pairwise_lt_range)
    intro a b hab
    have h1 : (a + 1) * num ≤ b * num := Nat.mul_le_mul_right num hab
    have h2 : (a + 1) * num = a * num + num := Nat.succ_mul a num
    refine Or.inr (Or.inl ?_)
    show a * num + min num _ ≤ b * num
    omega

/-- Two runs of a mixer on an uncalibrated `TimeSamples` with the data 1, 2, 3 and an additional source
10, 20, 30 (block size 2): the first run changes the stored data, the second run delivers different
samples. -/
theorem C13_mixer_view_violated :
    let h : Heap Nat := fun a => if a = 0 then [1, 2, 3] else if a = 1 then [10, 20, 30] else []
    let acts : List (Act Nat) := (Mixer.acts (TimeSamples.views 0 3 2) [TimeSamples.views 1 3 2]).1
    seenNow h acts = [[11, 22], [33]] ∧ runHeap h acts 0 = [11, 22, 33] ∧
      seenNow (runHeap h acts) acts = [[21, 42], [63]] := by
  decide

/-- The same for `SourceMixer`: the stored data of the first source are multiplied by the weight in every
run. -/
theorem C13_source_mixer_view_violated :
    let h : Heap Nat := fun a => if a = 0 then [1, 2, 3] else if a = 1 then [10, 20, 30] else []
    let acts : List (Act Nat) := (SourceMixer.acts (2 * ·) (TimeSamples.views 0 3 2) [(id, TimeSamples.views 1 3 2)]).1
    seenNow h acts = [[12, 24], [36]] ∧ seenNow (runHeap h acts) acts = [[34, 68], [102]] := by
  decide

-- The hypotheses of `C13_mixer_partial` are met: a main source with its own arrays 5 and 6, an additional
-- source with views of array 1; the result stops after the shorter of the two.
example :
    let h : Heap Nat := fun a => if a = 5 then [1, 2] else if a = 6 then [3, 4] else if a = 1 then [10, 20, 30] else []
    seenNow h (Mixer.acts [⟨5, 0, 2⟩, ⟨6, 0, 2⟩] [TimeSamples.views 1 3 2]).1 = [[11, 22], [33]] := by decide
example : (⟨5, 0, 2⟩ : Ref).Disjoint ⟨6, 0, 2⟩ ∧ ∀ r ∈ TimeSamples.views 1 3 2, (⟨5, 0, 2⟩ : Ref).Disjoint r :=
  ⟨Or.inl (by decide), fun r hr => Or.inl (by
    obtain ⟨k, _, rfl⟩ := List.mem_map.1 hr; show 5 ≠ 1; decide)⟩

/-! ## Content of delivered blocks -/

/-- `TimeReverse`: a consumer that uses each block before asking for the next one sees what the value model
(`C08_time_reverse`) says. -/
theorem C59_time_reverse_now (h : Heap V) (t : Nat) (blocks : List (List V)) (hne : blocks ≠ [])
    (hfull : ∀ b ∈ blocks.dropLast, b.length = (blocks.headD []).length)
    (hlast : ∀ b, blocks.getLast? = some b → b.length ≤ (blocks.headD []).length)
    (ht : (h t).length = (blocks.headD []).length) :
    (⟨seenNow h (TimeReverse.acts t blocks), .returned⟩ : Trace (List V)) = TimeReverse.result (h t) blocks := by
  obtain ⟨b0, rest, rfl⟩ := List.exists_cons_of_ne_nil hne
  obtain ⟨l, hs, hr⟩ : ∃ l hs, (b0 :: rest).reverse = l :: hs :=
    List.exists_cons_of_ne_nil (by simp)
  have hb : b0 :: rest = hs.reverse ++ [l] := by
    rw [← List.reverse_reverse (b0 :: rest), hr]; simp
  have hgl : (b0 :: rest).getLast? = some l := by rw [hb]; simp
  have hdl : (b0 :: rest).dropLast.reverse = hs := by rw [hb]; simp
  have hll := hlast l hgl
  simp only [List.headD_cons] at hfull hll ht
  have hhs : ∀ b ∈ hs, b.length = b0.length := fun b hbm => hfull b (by
    rw [← List.mem_reverse, hdl]; exact hbm)
  unfold TimeReverse.result TimeReverse.acts
  rw [hr]
  simp only [hgl, hdl, List.head?_cons]
  rw [if_pos ⟨hll, by simpa using hhs⟩]
  congr 1
  have key : ∀ (hs : List (List V)) (h' : Heap V), (∀ b ∈ hs, b.length = b0.length) → (h' t).length = b0.length →
      seenNow h' ((hs.flatMap fun h =>
        [.assign ⟨t, l.length, b0.length - l.length⟩ (h.drop l.length).reverse, .yield ⟨t, 0, b0.length⟩,
         .assign ⟨t, 0, l.length⟩ (h.take l.length).reverse]) ++ [.yield ⟨t, 0, l.length⟩])
        = TimeReverse.loop l.length (h' t) hs := by
    intro hs
    induction hs with
    | nil => intro h' _ _; simp [seenNow, Heap.read, TimeReverse.loop]
    | cons b bs ih =>
      intro h' hbl hlen
      have hb1 := hbl b (by simp)
      have e1 : (h'.write ⟨t, l.length, b0.length - l.length⟩ (b.drop l.length).reverse) t
          = (h' t).take l.length ++ (b.drop l.length).reverse := by
        simp only [Heap.write, if_true]
        rw [List.drop_eq_nil_of_le (as := h' t) (by omega), List.append_nil]
      have hlen1 : ((h' t).take l.length ++ (b.drop l.length).reverse).length = b0.length := by
        simp only [List.length_append, List.length_take, List.length_reverse, List.length_drop]; omega
      let h2 := (h'.write ⟨t, l.length, b0.length - l.length⟩ (b.drop l.length).reverse).write
        ⟨t, 0, l.length⟩ (b.take l.length).reverse
      have e2 : h2 t = (b.take l.length).reverse ++ ((h' t).take l.length ++ (b.drop l.length).reverse).drop l.length := by
        simp only [h2]
        rw [Heap.write]
        simp only [if_true, List.take_zero, List.nil_append, Nat.zero_add]
        rw [e1]
      have hlen2 : (h2 t).length = b0.length := by
        rw [e2]
        simp only [List.length_append, List.length_drop, hlen1, List.length_reverse, List.length_take]; omega
      have ih' := ih h2 (fun c hc => hbl c (by simp [hc])) hlen2
      show Heap.read (h'.write ⟨t, l.length, b0.length - l.length⟩ (b.drop l.length).reverse) ⟨t, 0, b0.length⟩ ::
        seenNow h2 ((bs.flatMap fun h =>
        [.assign ⟨t, l.length, b0.length - l.length⟩ (h.drop l.length).reverse, .yield ⟨t, 0, b0.length⟩,
         .assign ⟨t, 0, l.length⟩ (h.take l.length).reverse]) ++ [.yield ⟨t, 0, l.length⟩]) = _
      rw [ih', e2]
      simp only [TimeReverse.loop]
      congr 1
      simp only [Heap.read, e1, List.drop_zero]
      rw [List.take_of_length_le (by omega)]
  have e0 : (h.write ⟨t, 0, l.length⟩ l.reverse) t = l.reverse ++ (h t).drop l.length := by
    simp [Heap.write]
  have := key hs (h.write ⟨t, 0, l.length⟩ l.reverse) hhs (by
    rw [e0]; simp only [List.length_append, List.length_reverse, List.length_drop]; omega)
  rw [e0] at this
  exact this

/-- The hypotheses of `C59_time_reverse_now` are met: -/
example := C59_time_reverse_now (V := Nat) (fun _ => [0, 0, 0]) 0 [[1, 2, 3], [4, 5, 6], [7, 8]] (by decide) (by decide) (by simp) (by decide)

/-- `FilterBank`: a consumer that collects the blocks sees the last one over and over. -/
theorem C59_filter_bank_violated (h : Heap V) (t num : Nat) (results : List (List V))
    (hfull : ∀ b ∈ results, b.length = num) (ht : (h t).length = num) :
    seenNow h (FilterBank.acts t num results) = results ∧
      ∀ b, results.getLast? = some b →
        seenLate h (FilterBank.acts t num results) = List.replicate results.length b := by
  have key : ∀ (results : List (List V)) (h : Heap V), (∀ b ∈ results, b.length = num) → (h t).length = num →
      seenNow h (FilterBank.acts t num results) = results ∧
      runHeap h (FilterBank.acts t num results) t = results.getLast?.getD (h t) := by
    intro results
    induction results with
    | nil => intro h _ _; exact ⟨rfl, rfl⟩
    | cons b bs ih =>
      intro h hl ht
      have hb := hl b (by simp)
      have e : (h.write ⟨t, 0, num⟩ b) t = b := by
        simp only [Heap.write, if_true, List.take_zero, List.nil_append, Nat.zero_add]
        rw [List.drop_eq_nil_of_le (by omega), List.append_nil]
      obtain ⟨i1, i2⟩ := ih (h.write ⟨t, 0, num⟩ b) (fun c hc => hl c (by simp [hc])) (by rw [e]; exact hb)
      constructor
      · show Heap.read (h.write ⟨t, 0, num⟩ b) ⟨t, 0, num⟩ :: seenNow (h.write ⟨t, 0, num⟩ b) (FilterBank.acts t num bs) = _
        rw [i1, Heap.read]
        simp only [e, List.drop_zero]
        rw [List.take_of_length_le (by omega)]
      · show runHeap (h.write ⟨t, 0, num⟩ b) (FilterBank.acts t num bs) t = _
        rw [i2, e]
        cases hbs : bs.getLast? with
        | none => rw [List.getLast?_eq_none_iff.1 hbs]; rfl
        | some c => rw [List.getLast?_cons, hbs]; rfl
  obtain ⟨k1, k2⟩ := key results h hfull ht
  refine ⟨k1, fun b hb => ?_⟩
  have hy : yielded (FilterBank.acts t num results) = List.replicate results.length ⟨t, 0, num⟩ := by
    clear k1 k2 hb hfull
    induction results with
    | nil => rfl
    | cons c cs ih =>
      show ⟨t, 0, num⟩ :: yielded (FilterBank.acts t num cs) = _
      rw [ih]; rfl
  have hmem := List.mem_of_getLast? hb
  rw [seenLate, hy, List.map_replicate, Heap.read]
  simp only [k2, hb, Option.getD_some, List.drop_zero]
  rw [List.take_of_length_le (by have := hfull b hmem; omega)]

/-- `TimeReverse`: collected blocks are overwritten, and reversing twice does not give the signal back
(`TimeReverse.result` itself collects the blocks of its source without copying). -/
theorem C59_time_reverse_violated :
    let h : Heap Nat := fun _ => [0, 0]
    let late := seenLate h (TimeReverse.acts 0 [[1, 2], [3, 4]])
    seenNow h (TimeReverse.acts 0 [[1, 2], [3, 4]]) = [[4, 3], [2, 1]] ∧ late = [[2, 1], [2, 1]] ∧
      (TimeReverse.result [0, 0] late).blocks = [[1, 2], [1, 2]] := by
  decide

example : seenNow (fun _ => [0, 0, 0]) (TimeReverse.acts 0 [[1, 2, 3], [4, 5, 6], [7, 8]])
    = [[8, 7, 6], [5, 4, 3], [2, 1]] := by decide

end Acoular
