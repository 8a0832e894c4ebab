import Mathlib.Data.Set.Lattice
import Mathlib.Tactic.Tauto
import Verif.Model.HeapChain
import Verif.Lemmas.StreamModel

/-!
# A small program logic for generators on shared arrays
-/

namespace Acoular

/-- The first block of `num` samples that reaches `start` also reaches `stop`. -/
def Spec.oneBlock (start stop num : Nat) : Prop := stop ≤ num * max 1 ((start + num - 1) / num)

open Spec

variable {V : Type}

/-- A row of an array. -/
abbrev Cell := Loc × Nat

/-- The rows of a view. -/
def View.cells (r : View) : Set Cell := {c | c.1 = r.arr ∧ r.off ≤ c.2 ∧ c.2 < r.off + r.len}

/-- The rows of recorded data. -/
def dataCells : Set Cell := {c | ∃ a, c.1 = .data a}

/-- The rows of the arrays created by the generators at this place and before it. -/
def pathCells (p : List Nat) : Set Cell := {c | ∃ q k, c.1 = .own q k ∧ p <:+ q}

/-- The rows of the arrays created by the generator at this place. -/
def nodeCells (p : List Nat) : Set Cell := {c | ∃ k, c.1 = .own p k}

theorem nodeCells_sub (p : List Nat) : nodeCells p ⊆ pathCells p := fun _ ⟨k, h⟩ => ⟨p, k, h, List.suffix_refl p⟩

theorem pathCells_child (i : Nat) (p : List Nat) : pathCells (i :: p) ⊆ pathCells p :=
  fun _ ⟨q, k, h, hs⟩ => ⟨q, k, h, (List.suffix_cons i p).trans hs⟩

theorem node_disjoint (i : Nat) (p : List Nat) : Disjoint (nodeCells p) (pathCells (i :: p) ∪ dataCells) := by
  rw [Set.disjoint_left]
  rintro c ⟨k, h⟩ (⟨q, k', h', hs⟩ | ⟨a, h'⟩)
  · rw [h] at h'
    cases h'
    have := hs.length_le
    simp at this
  · rw [h] at h'
    cases h'

theorem branch_disjoint (p : List Nat) {i j : Nat} (hij : i ≠ j) : Disjoint (pathCells (i :: p)) (pathCells (j :: p) ∪ dataCells) := by
  rw [Set.disjoint_left]
  rintro c ⟨q, k, h, hs⟩ (⟨q', k', h', hs'⟩ | ⟨a, h'⟩)
  · rw [h] at h'
    cases h'
    have := List.suffix_of_suffix_length_le hs hs' (by simp)
    rw [List.suffix_cons_iff] at this
    rcases this with h1 | h1
    · cases h1; exact hij rfl
    · have := h1.length_le; simp at this
  · rw [h] at h'
    cases h'

theorem path_data (p : List Nat) : Disjoint (pathCells p) dataCells := by
  rw [Set.disjoint_left]
  rintro c ⟨q, k, h, hs⟩ ⟨a, h'⟩
  rw [h] at h'
  cases h'

theorem length_read (h : Memory V) (r : View) : (h.read r).length = r.len := by simp [Memory.read]

theorem read_congr {h h' : Memory V} {r : View} (e : ∀ c ∈ r.cells, h c.1 c.2 = h' c.1 c.2) : h.read r = h'.read r := by
  refine List.map_congr_left fun k hk => ?_
  rw [List.mem_range] at hk
  exact e (r.arr, r.off + k) ⟨rfl, by simp, by simp; omega⟩

theorem write_of_not_mem (h : Memory V) (d : View) (rows : List V) {c : Cell} (hc : c ∉ d.cells) : h.write d rows c.1 c.2 = h c.1 c.2 := by
  exact if_neg hc

theorem read_write (h : Memory V) (d : View) (rows : List V) (hl : rows.length = d.len) : (h.write d rows).read d = rows := by
  refine List.ext_getElem (by rw [length_read, hl]) fun k h1 h2 => ?_
  rw [length_read] at h1
  simp only [Memory.read, List.getElem_map, List.getElem_range, Memory.write]
  rw [if_pos ⟨trivial, by omega, by omega⟩, Nat.add_sub_cancel_left]
  simp [h2]

theorem read_split (h : Memory V) (a : Loc) (off m n : Nat) : h.read ⟨a, off, m + n⟩ = h.read ⟨a, off, m⟩ ++ h.read ⟨a, off + m, n⟩ := by
  simp only [Memory.read, List.range_add, List.map_append, List.map_map]
  congr 1
  refine List.map_congr_left fun k _ => ?_
  simp [Nat.add_assoc]

theorem read_take (h : Memory V) (a : Loc) (off n num : Nat) : h.read ⟨a, off, min num n⟩ = (h.read ⟨a, off, n⟩).take num := by
  rw [show n = min num n + (n - num) by omega, read_split]
  by_cases hl : num ≤ n
  · rw [show min num (min num n + (n - num)) = min num n by omega, List.take_append_of_le_length (by simp [length_read, hl]),
      List.take_of_length_le (by simp [length_read])]
  · rw [show n - num = 0 by omega, Nat.add_zero, show min num (min num n) = min num n by omega]
    rw [List.take_of_length_le (by simp [length_read])]
    simp [Memory.read]

theorem read_drop (h : Memory V) (a : Loc) (off n num : Nat) : h.read ⟨a, off + min num n, n - num⟩ = (h.read ⟨a, off, n⟩).drop num := by
  by_cases hl : num ≤ n
  · rw [Nat.min_eq_left hl]
    conv_rhs => rw [show n = num + (n - num) by omega, read_split, List.drop_left' (by simp [length_read])]
  · rw [List.drop_of_length_le (by simp [length_read]; omega), show n - num = 0 by omega]
    rfl

theorem read_sub (h : Memory V) (r : View) (a b : Nat) (hb : b ≤ r.len) : h.read (r.sub a b) = ((h.read r).take b).drop a := by
  refine List.ext_getElem (by simp [length_read, View.sub]; omega) fun k h1 h2 => ?_
  simp [Memory.read, View.sub, Nat.add_assoc]

theorem sub_cells (r : View) (a b : Nat) (hb : b ≤ r.len) : (r.sub a b).cells ⊆ r.cells := by
  rintro c ⟨h1, h2, h3⟩
  simp only [View.sub] at h1 h2 h3
  exact ⟨h1, by omega, by omega⟩

/-- The assertion is about these rows only. -/
def Supp (S : Set Cell) (P : Memory V → Prop) : Prop := ∀ h h' : Memory V, (∀ c ∈ S, h c.1 c.2 = h' c.1 c.2) → P h → P h'

theorem Supp.mono {S T : Set Cell} {P : Memory V → Prop} (h : Supp S P) (hs : S ⊆ T) : Supp T P := fun a b e => h a b fun c hc => e c (hs hc)

theorem Supp.and {S : Set Cell} {P Q : Memory V → Prop} (h : Supp S P) (h' : Supp S Q) : Supp S fun m => P m ∧ Q m :=
  fun a b e hp => ⟨h a b e hp.1, h' a b e hp.2⟩

theorem Supp.read {S : Set Cell} {r : View} (hr : r.cells ⊆ S) (b : List V) : Supp S fun m => m.read r = b :=
  fun a c e h => by rw [← h]; exact (read_congr fun x hx => e x (hr hx)).symm

theorem Supp.const {S : Set Cell} (p : Prop) : Supp (V := V) S fun _ => p := fun _ _ _ h => h

theorem Supp.write {S : Set Cell} {P : Memory V → Prop} (h : Supp S P) {d : View} (hd : Disjoint d.cells S) (rows : List V) {m : Memory V}
    (hm : P m) : P (m.write d rows) :=
  h m _ (fun _ hc => (write_of_not_mem m d rows fun hx => Set.disjoint_left.1 hd hx hc).symm) hm

/-- Started with `P`, the deeds hand out these blocks: stores go to the arrays in `W` but not to what is promised to be kept (`F`); after a
`yield` only assertions are used that survive whatever the consumer does with the block (`own`), and the block is kept (`keep`). -/
inductive OK (own keep : Prop) (W : Set Cell) : Set Cell → (Memory V → Prop) → List (Deed V) → List (List V) → Prop
  | nil {F P} : OK own keep W F P [] []
  | store {F P d f rest bs} (P' : Memory V → Prop) (hW : d.cells ⊆ W) (hF : Disjoint d.cells F) (hs : Supp (W ∪ dataCells) P')
      (h : ∀ m, P m → P' (m.write d (f m))) (h' : OK own keep W F P' rest bs) : OK own keep W F P (.store d f :: rest) bs
  | yield {F P r b rest bs} (Q : Memory V → Prop) (hin : r.cells ⊆ W ∪ dataCells) (hl : r.len = b.length) (hr : ∀ m, P m → m.read r = b)
      (hs : Supp ((W ∪ dataCells) \ {c | own ∧ c ∈ r.cells}) Q) (h : ∀ m, P m → Q m) (ho : own → r.cells ⊆ W)
      (hk : keep → Disjoint r.cells F) (h' : OK own keep W (F ∪ {c | keep ∧ c ∈ r.cells}) Q rest bs) :
      OK own keep W F P (.yield r :: rest) (b :: bs)

variable {own keep : Prop} {W F : Set Cell} {P : Memory V → Prop} {a : List (Deed V)} {bs : List (List V)}

theorem OK.pre (h : OK own keep W F P a bs) {P' : Memory V → Prop} (hp : ∀ m, P' m → P m) : OK own keep W F P' a bs := by
  cases h with
  | nil => exact .nil
  | store P1 hW hF hs h h' => exact .store P1 hW hF hs (fun m hm => h m (hp m hm)) h'
  | yield Q hin hl hr hs h ho hk h' => exact .yield Q hin hl (fun m hm => hr m (hp m hm)) hs (fun m hm => h m (hp m hm)) ho hk h'

theorem OK.weaken (h : OK own keep W F P a bs) : ∀ {own' keep' : Prop} {W' F' : Set Cell}, (own' → own) → (keep' → keep) → W ⊆ W' → F' ∩ (W ∪ dataCells) ⊆ F →
    OK own' keep' W' F' P a bs := by
  induction h with
  | nil => intros; exact .nil
  | @store F P d f rest bs P1 hW hF hs h h' ih =>
    intro own' keep' W' F' h1 h2 h3 h4
    refine .store P1 (hW.trans h3) ?_ (hs.mono (Set.union_subset_union_left _ h3)) h (ih h1 h2 h3 h4)
    rw [Set.disjoint_left] at hF ⊢
    exact fun c hc hc' => hF hc (h4 ⟨hc', .inl (hW hc)⟩)
  | @yield F P r b rest bs Q hin hl hr hs h ho hk h' ih =>
    intro own' keep' W' F' h1 h2 h3 h4
    refine .yield Q (hin.trans (Set.union_subset_union_left _ h3)) hl hr (hs.mono ?_) h (fun x => (ho (h1 x)).trans h3) (fun x => ?_) (ih h1 h2 h3 ?_)
    · rintro c ⟨hc, hc'⟩
      exact ⟨Set.union_subset_union_left _ h3 hc, fun hx => hc' ⟨h1 hx.1, hx.2⟩⟩
    · have := hk (h2 x)
      rw [Set.disjoint_left] at this ⊢
      exact fun c hc hc' => this hc (h4 ⟨hc', hin hc⟩)
    · rintro c ⟨hc | hc, hc'⟩
      · exact .inl (h4 ⟨hc, hc'⟩)
      · exact .inr ⟨h2 hc.1, hc.2⟩

/-- What a consumer sees. -/
theorem OK.seen (h : OK own keep W F P a bs) (env : Nat → View → Memory V → Memory V)
    (he : ∀ k r m c, c ∈ W ∪ dataCells → ¬ (own ∧ c ∈ r.cells) → env k r m c.1 c.2 = m c.1 c.2) :
    ∀ (k : Nat) (m : Memory V), P m → seenWith env k m a = bs := by
  induction h with
  | nil => intros; rfl
  | store P1 hW hF hs h h' ih => intro k m hm; exact ih k _ (h m hm)
  | yield Q hin hl hr hs h ho hk h' ih =>
    intro k m hm
    rw [seenWith, hr m hm, ih (k + 1) _ (hs m _ (fun c hc => (he k _ m c hc.1 hc.2).symm) (h m hm))]

/-- Stores do not touch what is promised to be kept, and no recorded data. -/
theorem OK.kept (h : OK own keep W F P a bs) : ∀ (m : Memory V) (c : Cell), c ∉ W ∨ c ∈ F → afterDeeds m a c.1 c.2 = m c.1 c.2 := by
  induction h with
  | nil => intros; rfl
  | store P1 hW hF hs h h' ih =>
    intro m c hc
    rw [afterDeeds, ih _ c hc]
    refine write_of_not_mem m _ _ fun hx => ?_
    rcases hc with hc | hc
    · exact hc (hW hx)
    · exact Set.disjoint_left.1 hF hx hc
  | yield Q hin hl hr hs h ho hk h' ih => intro m c hc; exact ih m c (hc.imp_right .inl)

/-- What a consumer sees that looks in the end. -/
theorem OK.late (h : OK own keep W F P a bs) (hkeep : keep) : ∀ m : Memory V, P m → seenInTheEnd m a = bs := by
  induction h with
  | nil => intros; rfl
  | store P1 hW hF hs h h' ih => intro m hm; exact ih _ (h m hm)
  | @yield F P r b rest bs Q hin hl hr hs h ho hk h' ih =>
    intro m hm
    have := ih m (h m hm)
    unfold seenInTheEnd at this ⊢
    rw [views, List.map_cons, afterDeeds, this, ← hr m hm]
    congr 1
    exact read_congr fun c hc => h'.kept m c (.inr (.inr ⟨hkeep, hc⟩))

/-- Generators that handle the blocks of their source one by one, with arrays of their own (`N`). -/
theorem OK.bind {σ γ : Type} {handler : σ → View → List (Deed V) × Option σ} {oc kc : Prop} {Wc Fc N : Set Cell} {acts tail : List (Deed V)}
    (hWc : Wc ⊆ W) (hN : N ⊆ W) (hd : Disjoint N (Wc ∪ dataCells))
    (Inv : σ → γ → List (List V) → Set Cell → Prop) (A : σ → γ → Memory V → Prop) (hA : ∀ s g, Supp N (A s g))
    (out : γ → List (List V) → List (List V)) (hF : ∀ {s g bs F}, Inv s g bs F → Disjoint Wc F)
    (hnil : ∀ s g F, Inv s g [] F → OK own keep W F (A s g) tail (out g []))
    (step : ∀ s g b bs F r C, Inv s g (b :: bs) F → r.len = b.length → r.cells ⊆ Wc ∪ dataCells → (oc → r.cells ⊆ Wc) →
      Supp (Wc ∪ dataCells) C → (∀ m, C m → m.read r = b) →
      ((handler s r).2 = none → OK own keep W F (fun m => A s g m ∧ C m) (handler s r).1 (out g (b :: bs))) ∧
      ∀ s', (handler s r).2 = some s' → ∃ g' F' outs, Inv s' g' bs F' ∧ out g (b :: bs) = outs ++ out g' bs ∧
        ∀ rest os, OK own keep W F' (fun m => A s' g' m ∧ C m) rest os → OK own keep W F (fun m => A s g m ∧ C m) ((handler s r).1 ++ rest) (outs ++ os))
    (htail : tail = [] ∨ ∀ s r, (handler s r).2 ≠ none)
    (h : OK oc kc Wc Fc P acts bs) : ∀ s g F, Inv s g bs F → OK own keep W F (fun m => A s g m ∧ P m) (bindDeeds handler s acts ++ tail) (out g bs) := by
  induction h with
  | nil => intro s g F hi; exact (hnil s g F hi).pre fun m hm => hm.1
  | @store Fc P d f rest bs P1 hW hF1 hs h h' ih =>
    intro s g F hi
    rw [bindDeeds, List.cons_append]
    refine .store (fun m => A s g m ∧ P1 m) (hW.trans hWc) ((hF hi).mono_left hW)
      (((hA s g).mono (hN.trans Set.subset_union_left)).and (hs.mono (Set.union_subset_union_left _ hWc))) (fun m hm => ⟨?_, h m hm.2⟩) (ih s g F hi)
    exact (hA s g).write (hd.symm.mono_left (hW.trans Set.subset_union_left)) _ hm.1
  | @yield Fc P r b rest bs Q hin hl hr hs h ho hk h' ih =>
    intro s g F hi
    have hC : Supp (Wc ∪ dataCells) fun m => Q m ∧ m.read r = b := (hs.mono Set.sdiff_subset).and (Supp.read hin b)
    obtain ⟨h1, h2⟩ := step s g b bs F r _ hi hl hin ho hC fun m hm => hm.2
    rw [bindDeeds]
    rcases hh : handler s r with ⟨as, s'⟩
    rw [hh] at h1 h2
    cases s' with
    | none =>
      simp only
      rcases htail with rfl | ht
      · rw [List.append_nil]
        exact (h1 rfl).pre fun m hm => ⟨hm.1, h m hm.2, hr m hm.2⟩
      · exact absurd (by rw [hh]) (ht s r)
    | some s' =>
      obtain ⟨g', F', outs, hi', ho', hc⟩ := h2 s' rfl
      simp only
      rw [ho', List.append_assoc]
      exact (hc _ _ ((ih s' g' F' hi').pre fun m hm => ⟨hm.1, hm.2.1⟩)).pre fun m hm => ⟨hm.1, h m hm.2, hr m hm.2⟩

theorem OK.put {C : Memory V → Prop} {d : View} {f : Memory V → List V} {rest : List (Deed V)} {rows : List V} (S : Set Cell)
    (hS : S ⊆ W ∪ dataCells) (hC : Supp S C) (hdS : Disjoint d.cells S) (hW : d.cells ⊆ W) (hF : Disjoint d.cells F) (hl : rows.length = d.len)
    (h : ∀ m, P m → C m ∧ f m = rows) (h' : OK own keep W F (fun m => C m ∧ m.read d = rows) rest bs) : OK own keep W F P (.store d f :: rest) bs := by
  refine .store _ hW hF ((hC.mono hS).and (Supp.read (hW.trans Set.subset_union_left) rows)) (fun m hm => ?_) h'
  obtain ⟨h1, h2⟩ := h m hm
  exact ⟨hC.write hdS _ h1, by rw [h2]; exact read_write m d rows hl⟩

theorem OK.give {Q : Memory V → Prop} {r : View} {rest : List (Deed V)} {b : List V} (S : Set Cell)
    (hS : S ⊆ W ∪ dataCells) (hQ : Supp S Q) (hrS : own → Disjoint r.cells S) (hW : r.cells ⊆ W) (hk : keep → Disjoint r.cells F) (hl : r.len = b.length)
    (h : ∀ m, P m → Q m ∧ m.read r = b) (h' : OK own keep W (F ∪ {c | keep ∧ c ∈ r.cells}) Q rest bs) :
    OK own keep W F P (.yield r :: rest) (b :: bs) := by
  refine .yield Q (hW.trans Set.subset_union_left) hl (fun m hm => (h m hm).2) (hQ.mono fun c hc => ⟨hS hc, fun hx => ?_⟩) (fun m hm => (h m hm).1)
    (fun _ => hW) hk h'
  exact Set.disjoint_left.1 (hrS hx.1) hx.2 hc

/-- The rows of the first `n` arrays of a generator. -/
def firstCells (p : List Nat) (n : Nat) : Set Cell := {c | ∃ j, j < n ∧ c.1 = .own p j}

theorem firstCells_sub (p : List Nat) (n : Nat) : firstCells p n ⊆ nodeCells p := fun _ ⟨j, _, h⟩ => ⟨j, h⟩

theorem firstCells_mono (p : List Nat) {n k : Nat} (h : n ≤ k) : firstCells p n ⊆ firstCells p k := fun _ ⟨j, hj, hc⟩ => ⟨j, by omega, hc⟩

theorem own_cells_node (p : List Nat) (k off len : Nat) : (View.mk (.own p k) off len).cells ⊆ nodeCells p := fun _ hc => ⟨k, hc.1⟩

theorem own_cells_first (p : List Nat) {k n : Nat} (off len : Nat) (h : k < n) : (View.mk (.own p k) off len).cells ⊆ firstCells p n :=
  fun _ hc => ⟨k, h, hc.1⟩

theorem own_cells_disjoint (p : List Nat) {k n : Nat} (off len : Nat) (h : n ≤ k) : Disjoint (View.mk (.own p k) off len).cells (firstCells p n) := by
  rw [Set.disjoint_left]
  rintro c ⟨h1, -⟩ ⟨j, hj, h2⟩
  rw [h1] at h2
  cases h2
  omega

theorem own_cells_disjoint' (p : List Nat) (i : Nat) {k n : Nat} (off len : Nat) (h : n ≤ k) :
    Disjoint (View.mk (.own p k) off len).cells (firstCells p n ∪ (pathCells (i :: p) ∪ dataCells)) := by
  rw [Set.disjoint_union_right]
  exact ⟨own_cells_disjoint p off len h, (node_disjoint i p).mono_left (own_cells_node p k off len)⟩

theorem first_child_sub (p : List Nat) (n : Nat) : firstCells p n ∪ (pathCells (0 :: p) ∪ dataCells) ⊆ pathCells p ∪ dataCells := by
  refine Set.union_subset (((firstCells_sub p n).trans (nodeCells_sub p)).trans Set.subset_union_left) (Set.union_subset_union_left _ (pathCells_child 0 p))

/-! ### Objects that calculate new arrays -/

/-- The private copies of the blocks seen. -/
private def copies (p : List Nat) (hist : List (List V)) : List View := hist.zipIdx.map fun b => ⟨.own p (2 * b.2), 0, b.1.length⟩

private theorem copies_append (p : List Nat) (hist : List (List V)) (b : List V) :
    copies p (hist ++ [b]) = copies p hist ++ [⟨.own p (2 * hist.length), 0, b.length⟩] := by
  simp [copies, List.zipIdx_append]

private theorem copies_length (p : List Nat) (hist : List (List V)) : (copies p hist).length = hist.length := by simp [copies]

private theorem copies_cells (p : List Nat) (hist : List (List V)) : ∀ r ∈ copies p hist, r.cells ⊆ firstCells p (2 * hist.length) := by
  intro r hr
  simp only [copies, List.mem_map] at hr
  obtain ⟨⟨b, k⟩, hb, rfl⟩ := hr
  have := List.snd_lt_of_mem_zipIdx hb
  exact own_cells_first p _ _ (by simpa using this)

theorem supp_reads {S : Set Cell} (rs : List View) (h : ∀ r ∈ rs, r.cells ⊆ S) (bs : List (List V)) : Supp S fun m => rs.map m.read = bs := by
  intro a b e hm
  rw [← hm]
  exact List.map_congr_left fun r hr => (read_congr fun c hc => e c (h r hr hc)).symm

/-- The blocks calculated from the blocks seen so far; empty ones are left out. -/
def freshVals (f : List (List V) → List V) : List (List V) → List (List V) → List (List V)
  | _, [] => []
  | hist, b :: bs => (if (f (hist ++ [b])).length > 0 then [f (hist ++ [b])] else []) ++ freshVals f (hist ++ [b]) bs

theorem fresh_ok {oc kc : Prop} {Fc : Set Cell} {acts : List (Deed V)} (p : List Nat) (len : Nat → Nat) (f : List (List V) → List V)
    (hlen : ∀ k (hk : k < bs.length), (f (bs.take (k + 1))).length = len (bs[k]).length) (h : OK oc kc (pathCells (0 :: p)) Fc P acts bs) :
    OK True True (pathCells p) ∅ P (bindDeeds (freshHandler p len f) [] acts) (freshVals f [] bs) := by
  have := OK.bind (own := True) (keep := True) (W := pathCells p) (N := nodeCells p) (tail := []) (handler := freshHandler p len f) (pathCells_child 0 p)
    (nodeCells_sub p) (node_disjoint 0 p)
    (fun seen hist bs F => seen = copies p hist ∧ F ⊆ firstCells p (2 * hist.length) ∧
      ∀ k (hk : k < bs.length), (f (hist ++ bs.take (k + 1))).length = len (bs[k]).length)
    (fun _ hist m => (copies p hist).map m.read = hist)
    (fun _ hist => (supp_reads _ (copies_cells p hist) hist).mono (firstCells_sub p _)) (freshVals f)
    (fun hi => ((node_disjoint 0 p).mono_left (hi.2.1.trans (firstCells_sub p _))).symm.mono_left Set.subset_union_left)
    (fun _ _ _ _ => .nil) ?_ (.inl rfl) h [] [] ∅ ⟨rfl, by simp, by simpa using hlen⟩
  · rw [List.append_nil] at this
    exact this.pre fun m hm => ⟨rfl, hm⟩
  · rintro s hist b bs F r C ⟨rfl, hF, hl⟩ hrl hin - hC hr
    refine ⟨fun hx => by simp [freshHandler] at hx, fun s' hs' => ?_⟩
    have hb : (f (hist ++ [b])).length = len r.len := by rw [hrl]; exact hl 0 (by simp)
    simp only [freshHandler, Option.some.injEq, copies_length] at hs'
    refine ⟨hist ++ [b], F ∪ {c | True ∧ c ∈ View.cells ⟨.own p (2 * hist.length + 1), 0, len r.len⟩}, _, ⟨?_, ?_, ?_⟩, rfl, ?_⟩
    · rw [copies_append, ← hs', hrl]
    · rw [List.length_append]
      refine Set.union_subset (hF.trans (firstCells_mono p (by simp))) fun c hc => own_cells_first p 0 (len r.len) ?_ hc.2
      simp; omega
    · intro k hk
      have := hl (k + 1) (by simpa using hk)
      simpa [List.append_assoc] using this
    · intro rest os hrest
      simp only [freshHandler, copies_length, List.cons_append, List.nil_append]
      refine OK.put (C := fun m => (copies p hist).map m.read = hist ∧ C m) (rows := b) (firstCells p (2 * hist.length) ∪ (pathCells (0 :: p) ∪ dataCells))
        (first_child_sub p _) (((supp_reads _ (copies_cells p hist) hist).mono Set.subset_union_left).and (hC.mono Set.subset_union_right))
        (own_cells_disjoint' p 0 _ _ le_rfl) ((own_cells_node p _ _ _).trans (nodeCells_sub p)) ((own_cells_disjoint p _ _ le_rfl).mono_right hF)
        hrl.symm (fun m hm => ⟨hm, hr m hm.2⟩) ?_
      have hS2 : Supp (firstCells p (2 * hist.length + 1) ∪ (pathCells (0 :: p) ∪ dataCells)) fun m => (copies p (hist ++ [b])).map m.read = hist ++ [b] ∧ C m := by
        refine ((supp_reads _ (fun r hr => ?_) _).mono Set.subset_union_left).and (hC.mono Set.subset_union_right)
        rw [copies_append, List.mem_append] at hr
        rcases hr with hr | hr
        · exact (copies_cells p hist r hr).trans (firstCells_mono p (by omega))
        · rw [List.mem_singleton] at hr
          subst hr
          exact own_cells_first p _ _ (by omega)
      refine OK.put (C := fun m => (copies p (hist ++ [b])).map m.read = hist ++ [b] ∧ C m) (rows := f (hist ++ [b]))
        (firstCells p (2 * hist.length + 1) ∪ (pathCells (0 :: p) ∪ dataCells)) (first_child_sub p _) hS2
        (own_cells_disjoint' p 0 _ _ le_rfl) ((own_cells_node p _ _ _).trans (nodeCells_sub p))
        ((own_cells_disjoint p _ _ le_rfl).mono_right (hF.trans (firstCells_mono p (by omega)))) hb (fun m hm => ?_) ?_
      · have e : (copies p (hist ++ [b])).map m.read = hist ++ [b] := by
          rw [copies_append, List.map_append, hm.1.1, List.map_singleton, ← hrl, hm.2]
        refine ⟨⟨e, hm.1.2⟩, ?_⟩
        rw [copies_append, ← hrl] at e
        rw [e]
      · have hF2 : Disjoint (View.cells ⟨.own p (2 * hist.length + 1), 0, len r.len⟩) F :=
          (own_cells_disjoint p _ _ (by omega)).mono_right hF
        rw [hb]
        by_cases h0 : len r.len > 0
        · rw [if_pos h0, if_pos h0]
          exact OK.give _ (first_child_sub p _) hS2 (fun _ => own_cells_disjoint' p 0 _ _ le_rfl) ((own_cells_node p _ _ _).trans (nodeCells_sub p))
            (fun _ => hF2) hb.symm (fun m hm => hm) hrest
        · rw [if_neg h0, if_neg h0]
          exact (hrest.weaken id id (by rfl) (by intro c hc; exact .inl hc.1)).pre fun m hm => hm.1

/-! ### Cumulative average -/

/-- The blocks of an object with a running value, the last row of its last block. -/
def runVals (f : Nat → V → List V → List V) : Nat → V → List (List V) → List (List V)
  | _, _, [] => []
  | c, accu, b :: bs => f c accu b :: runVals f (c + b.length) ((f c accu b).getLast?.getD accu) bs

theorem running_ok {oc kc : Prop} {Fc : Set Cell} {acts : List (Deed V)} (p : List Nat) (init : V) (f : Nat → V → List V → List V)
    (hlen : ∀ c x b, (f c x b).length = b.length) (hne : ∀ b ∈ bs, b ≠ []) (h : OK oc kc (pathCells (0 :: p)) Fc P acts bs) :
    OK False True (pathCells p) ∅ P (bindDeeds (runningHandler p init f) (0, 0, none) acts) (runVals f 0 init bs) := by
  have hsupp : ∀ (s : Nat × Nat × Option View) (g : Nat × V), Supp (firstCells p s.1) fun m : Memory V =>
      match s.2.2 with | none => g.2 = init | some q => (∃ j, j < s.1 ∧ q.arr = .own p j) ∧ m q.arr (q.off + q.len - 1) = g.2 := by
    rintro ⟨k, c, _ | q⟩ g a b e hm
    · exact hm
    · obtain ⟨⟨j, hj, hq⟩, h2⟩ := hm
      exact ⟨⟨j, hj, hq⟩, by rw [← h2]; exact (e (q.arr, _) ⟨j, hj, hq⟩).symm⟩
  have := OK.bind (own := False) (keep := True) (W := pathCells p) (N := nodeCells p) (tail := []) (handler := runningHandler p init f)
    (pathCells_child 0 p) (nodeCells_sub p) (node_disjoint 0 p)
    (fun s (g : Nat × V) bs F => s.2.1 = g.1 ∧ F ⊆ firstCells p s.1 ∧ ∀ b ∈ bs, b ≠ [])
    (fun s g m => match s.2.2 with | none => g.2 = init | some q => (∃ j, j < s.1 ∧ q.arr = .own p j) ∧ m q.arr (q.off + q.len - 1) = g.2)
    (fun s g => (hsupp s g).mono (firstCells_sub p _)) (fun g => runVals f g.1 g.2)
    (fun hi => ((node_disjoint 0 p).mono_left (hi.2.1.trans (firstCells_sub p _))).symm.mono_left Set.subset_union_left)
    (fun _ _ _ _ => .nil) ?_ (.inl rfl) h (0, 0, none) (0, init) ∅ ⟨rfl, by simp, hne⟩
  · rw [List.append_nil] at this
    exact this.pre fun m hm => ⟨rfl, hm⟩
  · rintro ⟨k, c, q⟩ ⟨c', accu⟩ b bs F r C ⟨hc, hF, hbs⟩ hrl hin - hC hr
    simp only at hc
    subst hc
    refine ⟨fun hx => by simp [runningHandler] at hx, fun s' hs' => ?_⟩
    simp only [runningHandler, Option.some.injEq] at hs'
    subst hs'
    have hl1 : (f c accu b).length = r.len := by rw [hlen, hrl]
    have hb0 : b ≠ [] := hbs b (by simp)
    refine ⟨(c + b.length, (f c accu b).getLast?.getD accu), F ∪ {x | True ∧ x ∈ View.cells ⟨.own p k, 0, r.len⟩}, [f c accu b],
      ⟨by simp [hrl], ?_, fun b' hb' => hbs b' (by simp [hb'])⟩, rfl, ?_⟩
    · exact Set.union_subset (hF.trans (firstCells_mono p (by simp))) fun x hx => own_cells_first p 0 r.len (by simp) hx.2
    · intro rest os hrest
      simp only [runningHandler, List.cons_append, List.nil_append]
      refine OK.put (C := C) (rows := f c accu b) (pathCells (0 :: p) ∪ dataCells) (Set.union_subset_union_left _ (pathCells_child 0 p)) hC
        ((node_disjoint 0 p).mono_left (own_cells_node p k _ _)) ((own_cells_node p _ _ _).trans (nodeCells_sub p))
        ((own_cells_disjoint p _ _ le_rfl).mono_right hF) hl1 (fun m hm => ⟨hm.2, ?_⟩) ?_
      · rw [hr m hm.2]
        cases q with
        | none => simp only [hm.1]
        | some q => simp only [hm.1.2]
      · refine .yield _ (((own_cells_node p _ _ _).trans (nodeCells_sub p)).trans Set.subset_union_left) hl1.symm (fun m hm => hm.2) ?_ (fun m hm => hm)
          (fun hx => hx.elim) (fun _ => (own_cells_disjoint p _ _ le_rfl).mono_right hF) (hrest.pre fun m hm => ⟨?_, hm.1⟩)
        · refine Supp.mono (S := pathCells p ∪ dataCells) ?_ (by intro x hx; exact ⟨hx, by simp⟩)
          exact (hC.mono (Set.union_subset_union_left _ (pathCells_child 0 p))).and
            (Supp.read (((own_cells_node p _ _ _).trans (nodeCells_sub p)).trans Set.subset_union_left) _)
        · refine ⟨⟨k, by simp, rfl⟩, ?_⟩
          have h1 : 0 < r.len := by rw [hrl]; exact List.length_pos_iff.2 hb0
          have h2 : (f c accu b).getLast? = (f c accu b)[r.len - 1]? := by rw [List.getLast?_eq_getElem?, hl1]
          rw [h2, ← hm.2]
          simp [Memory.read, h1]

/-! ### Selected channels of whole blocks -/

theorem whole_ok {oc kc : Prop} {Fc : Set Cell} {acts : List (Deed V)} (p : List Nat) (g : V → V) (h : OK oc kc (pathCells (0 :: p)) Fc P acts bs) :
    OK True True (pathCells p) ∅ P (bindDeeds (wholeHandler p (some g)) 0 acts) (bs.map (List.map g)) := by
  have := OK.bind (own := True) (keep := True) (W := pathCells p) (N := nodeCells p) (tail := []) (handler := wholeHandler p (some g)) (pathCells_child 0 p)
    (nodeCells_sub p) (node_disjoint 0 p) (fun k (_ : Unit) _ F => F ⊆ firstCells p k) (fun _ _ _ => True)
    (fun _ _ => Supp.const _) (fun _ bs => bs.map (List.map g))
    (fun hi => ((node_disjoint 0 p).mono_left (hi.trans (firstCells_sub p _))).symm.mono_left Set.subset_union_left)
    (fun _ _ _ _ => .nil) ?_ (.inl rfl) h 0 () ∅ (by simp)
  · rw [List.append_nil] at this
    exact this.pre fun m hm => ⟨trivial, hm⟩
  · rintro k - b bs F r C hF hrl hin - hC hr
    refine ⟨fun hx => by simp [wholeHandler] at hx, fun s' hs' => ?_⟩
    simp only [wholeHandler, Option.some.injEq] at hs'
    subst hs'
    refine ⟨(), F ∪ {x | True ∧ x ∈ View.cells ⟨.own p k, 0, r.len⟩}, [b.map g],
      Set.union_subset (hF.trans (firstCells_mono p (by simp))) fun x hx => own_cells_first p 0 r.len (by simp) hx.2, rfl, ?_⟩
    intro rest os hrest
    simp only [wholeHandler, List.cons_append, List.nil_append]
    refine OK.put (C := C) (rows := b.map g) (pathCells (0 :: p) ∪ dataCells) (Set.union_subset_union_left _ (pathCells_child 0 p)) hC
      ((node_disjoint 0 p).mono_left (own_cells_node p k _ _)) ((own_cells_node p _ _ _).trans (nodeCells_sub p))
      ((own_cells_disjoint p _ _ le_rfl).mono_right hF) (by simp [hrl]) (fun m hm => ⟨hm.2, by rw [hr m hm.2]⟩) ?_
    exact OK.give (Q := fun m => True ∧ C m) (pathCells (0 :: p) ∪ dataCells) (Set.union_subset_union_left _ (pathCells_child 0 p)) ((Supp.const _).and hC)
      (fun _ => (node_disjoint 0 p).mono_left (own_cells_node p k _ _)) ((own_cells_node p _ _ _).trans (nodeCells_sub p))
      (fun _ => (own_cells_disjoint p _ _ le_rfl).mono_right hF) (by simp [hrl]) (fun m hm => ⟨⟨trivial, hm.1⟩, hm.2⟩) hrest

theorem bind_whole (p : List Nat) : ∀ (acts : List (Deed V)) (k : Nat), bindDeeds (wholeHandler p none) k acts = acts
  | [], _ => rfl
  | .store d f :: rest, k => by rw [bindDeeds, bind_whole p rest]
  | .yield r :: rest, k => by simp only [bindDeeds, wholeHandler, bind_whole p rest, List.cons_append, List.nil_append]

/-! ### Stored blocks -/

theorem skip_ok {Wc Fc : Set Cell} {acts : List (Deed V)} (hW : Wc ⊆ W) (h : OK own keep Wc Fc P acts bs) :
    ∀ (k : Nat) (F : Set Cell), F ∩ (Wc ∪ dataCells) ⊆ Fc → OK own keep W F P (bindDeeds skipHandler k acts) (bs.drop k) := by
  induction h with
  | nil => intros; simp only [List.drop_nil]; exact .nil
  | @store Fc P d f rest bs P1 hW1 hF hs h h' ih =>
    intro k F h4
    refine .store P1 (hW1.trans hW) ?_ (hs.mono (Set.union_subset_union_left _ hW)) h (ih k F h4)
    rw [Set.disjoint_left] at hF ⊢
    exact fun c hc hc' => hF hc (h4 ⟨hc', .inl (hW1 hc)⟩)
  | @yield Fc P r b rest bs Q hin hl hr hs h ho hk h' ih =>
    intro k F h4
    cases k with
    | zero =>
      simp only [bindDeeds, skipHandler, gt_iff_lt, lt_irrefl, if_false, List.drop_zero, List.cons_append, List.nil_append]
      refine .yield Q (hin.trans (Set.union_subset_union_left _ hW)) hl hr (hs.mono ?_) h (fun x => (ho x).trans hW) (fun x => ?_) (ih 0 _ ?_)
      · rintro c ⟨hc, hc'⟩
        exact ⟨Set.union_subset_union_left _ hW hc, hc'⟩
      · have := hk x
        rw [Set.disjoint_left] at this ⊢
        exact fun c hc hc' => this hc (h4 ⟨hc', hin hc⟩)
      · rintro c ⟨hc | hc, hc'⟩
        · exact .inl (h4 ⟨hc, hc'⟩)
        · exact .inr hc
    | succ k =>
      simp only [bindDeeds, skipHandler, gt_iff_lt, Nat.zero_lt_succ, if_true, List.drop_succ_cons, List.nil_append, Nat.add_sub_cancel]
      exact (ih k F (h4.trans Set.subset_union_left)).pre h

theorem stored_ok (p : List Nat) (Pc : Memory V → Prop) (hP : Supp (pathCells (0 :: p) ∪ dataCells) Pc) {rest : List (Deed V)} {os : List (List V)}
    (h : ∀ F, F ⊆ nodeCells p → OK own keep (pathCells p) F Pc rest os) :
    ∀ (bs : List (List V)) (k : Nat) (F : Set Cell), F ⊆ firstCells p k → OK own keep (pathCells p) F Pc
      (((bs.zipIdx k).flatMap fun b => [.store ⟨.own p b.2, 0, b.1.length⟩ fun _ => b.1, .yield ⟨.own p b.2, 0, b.1.length⟩]) ++ rest) (bs ++ os)
  | [], k, F, hF => h F (hF.trans (firstCells_sub p k))
  | b :: bs, k, F, hF => by
    simp only [List.zipIdx_cons, List.flatMap_cons, List.cons_append, List.nil_append]
    refine OK.put (C := Pc) (rows := b) (pathCells (0 :: p) ∪ dataCells) (Set.union_subset_union_left _ (pathCells_child 0 p)) hP
      ((node_disjoint 0 p).mono_left (own_cells_node p k _ _)) ((own_cells_node p _ _ _).trans (nodeCells_sub p))
      ((own_cells_disjoint p _ _ le_rfl).mono_right hF) rfl (fun m hm => ⟨hm, rfl⟩) ?_
    refine OK.give (Q := Pc) (pathCells (0 :: p) ∪ dataCells) (Set.union_subset_union_left _ (pathCells_child 0 p)) hP
      (fun _ => (node_disjoint 0 p).mono_left (own_cells_node p k _ _)) ((own_cells_node p _ _ _).trans (nodeCells_sub p))
      (fun _ => (own_cells_disjoint p _ _ le_rfl).mono_right hF) rfl (fun m hm => hm) ?_
    exact stored_ok p Pc hP h bs (k + 1) _
      (Set.union_subset (hF.trans (firstCells_mono p (by simp))) fun x hx => own_cells_first p 0 b.length (by simp) hx.2)

/-- One array for all blocks. -/
theorem simulated_ok (p : List Nat) : ∀ (bs : List (List V)) (P : Memory V → Prop),
    OK True False (pathCells p) ∅ P (simulatedDeeds (.own p 0) bs) bs
  | [], P => .nil
  | b :: bs, P => by
    simp only [simulatedDeeds, List.flatMap_cons, List.cons_append, List.nil_append]
    refine OK.put (C := fun _ => True) (rows := b) ∅ (by simp) (Supp.const True) (by simp) ((own_cells_node p _ _ _).trans (nodeCells_sub p)) (by simp) rfl
      (fun m _ => ⟨trivial, rfl⟩) ?_
    refine OK.give (Q := fun _ => True) ∅ (by simp) (Supp.const True) (by simp) ((own_cells_node p _ _ _).trans (nodeCells_sub p)) (by simp) rfl
      (fun m hm => hm) ?_
    exact (simulated_ok p bs _).weaken id id (le_refl _) (by simp)

/-! ### Views of whole arrays -/

private theorem block_views_step (arr : Loc) (o num n : Nat) (hn : 0 < num) (h0 : 0 < n) :
    ((List.range ((n + num - 1) / num)).map fun k => (View.mk arr (o + k * num) (min num (n - k * num)))) =
      ⟨arr, o, min num n⟩ :: (List.range ((n - num + num - 1) / num)).map fun k => ⟨arr, o + num + k * num, min num (n - num - k * num)⟩ := by
  have e : (n + num - 1) / num = (n - num + num - 1) / num + 1 := by
    by_cases h : n < num
    · rw [Nat.sub_eq_zero_of_le h.le, Nat.zero_add, Nat.div_eq_of_lt (Nat.sub_lt hn Nat.one_pos), Nat.zero_add]
      exact Nat.div_eq_of_lt_le (by omega) (by omega)
    · rw [show n + num - 1 = n - num + num - 1 + num by omega, Nat.add_div_right _ hn]
  rw [e, List.range_succ_eq_map, List.map_cons, List.map_map]
  congr 1
  · simp
  · refine List.map_congr_left fun k _ => ?_
    simp only [Function.comp, Nat.succ_eq_add_one, Nat.add_mul, Nat.one_mul]
    congr 1
    · omega
    · congr 1; omega

theorem views_ok (arr : Loc) {num : Nat} (hn : 0 < num) (hin : ∀ c : Cell, c.1 = arr → c ∈ W ∪ dataCells) (ho : own → ∀ c : Cell, c.1 = arr → c ∈ W)
    (R : List V) : ∀ (o : Nat) (F : Set Cell) (P : Memory V → Prop), (∀ c ∈ F, c.1 = arr → c.2 < o) → (∀ m, P m → m.read ⟨arr, o, R.length⟩ = R) →
      OK own keep W F P (((List.range ((R.length + num - 1) / num)).map fun k => View.mk arr (o + k * num) (min num (R.length - k * num))).map .yield)
        (Spec.chunks num R) := by
  induction R using chunk_induction hn with
  | nil =>
    intro o F P _ _
    have : (num - 1) / num = 0 := Nat.div_eq_of_lt (by omega)
    simp only [List.length_nil, Nat.zero_add, this, List.range_zero, List.map_nil, chunks_nil]
    exact .nil
  | step R hR ih =>
    intro o F P hF hP
    have h0 := List.length_pos_iff.2 hR
    rw [block_views_step arr o num R.length hn h0, chunks_step hn hR, List.map_cons]
    refine .yield (fun m => m.read ⟨arr, o + min num R.length, R.length - num⟩ = R.drop num) (fun c hc => hin c hc.1) (by simp) (fun m hm => ?_) ?_ (fun m hm => ?_)
      (fun x c hc => ho x c hc.1) (fun _ => ?_) ?_
    · rw [read_take, hP m hm]
    · refine Supp.read (S := (W ∪ dataCells) \ {c | own ∧ c ∈ (View.mk arr o (min num R.length)).cells}) (fun c hc => ⟨hin c hc.1, fun hx => ?_⟩) _
      have h1 := hc.2.1
      have h2 := hx.2.2.2
      simp only at h1 h2
      omega
    · rw [read_drop, hP m hm]
    · rw [Set.disjoint_left]
      intro c hc hc'
      have := hF c hc' hc.1
      have := hc.2.1
      simp only at this
      omega
    · have := ih (o + num) (F ∪ {c | keep ∧ c ∈ View.cells ⟨arr, o, min num R.length⟩}) (fun m => m.read ⟨arr, o + min num R.length, R.length - num⟩ = R.drop num) ?_ ?_
      · rw [List.length_drop] at this
        exact this
      · rintro c (hc | hc) h1
        · have := hF c hc h1; omega
        · have := hc.2.2.2; simp only at this; omega
      · intro m hm
        rw [List.length_drop]
        by_cases h2 : num ≤ R.length
        · rwa [Nat.min_eq_left h2] at hm
        · rw [show R.length - num = 0 by omega, List.drop_of_length_le (by omega)]
          rfl

theorem blockViews_eq (arr : Loc) (n num : Nat) :
    blockViews arr n num = (List.range ((n + num - 1) / num)).map fun k => View.mk arr (0 + k * num) (min num (n - k * num)) := by
  simp [blockViews]

/-! ### Zero phase filter -/

theorem zeroPhase_ok {oc kc : Prop} {Fc : Set Cell} {acts : List (Deed V)} (p : List Nat) {num : Nat} (hn : 0 < num) (ff : List V → List V) (data : List V)
    (hff : (ff data).length = data.length) (hbs : bs.flatten = data) (h : OK oc kc (pathCells (0 :: p)) Fc P acts bs) :
    OK True True (pathCells p) ∅ P (bindDeeds (copyHandler p) 0 acts ++
      .store ⟨.own p 0, 0, data.length⟩ (fun h => ff (h.read ⟨.own p 0, 0, data.length⟩)) :: (blockViews (.own p 0) data.length num).map .yield)
      (Spec.chunks num (ff data)) := by
  have hnode : ∀ c : Cell, c.1 = .own p 0 → c ∈ pathCells p := fun c hc => nodeCells_sub p ⟨0, hc⟩
  have := OK.bind (own := True) (keep := True) (W := pathCells p) (N := nodeCells p) (handler := copyHandler p)
    (tail := .store ⟨.own p 0, 0, data.length⟩ (fun h => ff (h.read ⟨.own p 0, 0, data.length⟩)) :: (blockViews (.own p 0) data.length num).map .yield)
    (pathCells_child 0 p) (nodeCells_sub p) (node_disjoint 0 p) (fun j (acc : List V) bs F => j = acc.length ∧ F = ∅ ∧ acc ++ bs.flatten = data)
    (fun _ acc m => m.read ⟨.own p 0, 0, acc.length⟩ = acc) (fun _ _ => Supp.read (own_cells_node p 0 _ _) _) (fun _ _ => Spec.chunks num (ff data))
    (fun hi => by rw [hi.2.1]; simp) ?_ ?_ (.inr fun s r => by simp [copyHandler]) h 0 [] ∅ ⟨rfl, rfl, by simpa using hbs⟩
  · exact this.pre fun m hm => ⟨rfl, hm⟩
  · rintro s acc F ⟨-, rfl, hacc⟩
    simp only [List.flatten_nil, List.append_nil] at hacc
    subst hacc
    refine OK.put (C := fun _ => True) (rows := ff acc) ∅ (by simp) (Supp.const _) (by simp) ((own_cells_node p _ _ _).trans (nodeCells_sub p)) (by simp) hff
      (fun m hm => ⟨trivial, by rw [hm]⟩) ?_
    rw [blockViews_eq]
    have := views_ok (own := True) (keep := True) (W := pathCells p) (.own p 0) hn (fun c hc => .inl (hnode c hc)) (fun _ => hnode) (ff acc) 0 ∅
      (fun m => True ∧ m.read ⟨.own p 0, 0, acc.length⟩ = ff acc) (by simp) (fun m hm => by rw [hff]; exact hm.2)
    rwa [hff] at this
  · rintro s acc b bs F r C ⟨rfl, rfl, hacc⟩ hrl hin - hC hr
    refine ⟨fun hx => by simp [copyHandler] at hx, fun s' hs' => ?_⟩
    simp only [copyHandler, Option.some.injEq] at hs'
    subst hs'
    refine ⟨acc ++ b, ∅, [], ⟨by simp [hrl], rfl, by simpa [List.append_assoc] using hacc⟩, rfl, ?_⟩
    intro rest os hrest
    simp only [copyHandler, List.cons_append, List.nil_append]
    refine OK.put (C := fun m => m.read ⟨.own p 0, 0, acc.length⟩ = acc ∧ C m) (rows := b)
      ((View.mk (.own p 0) 0 acc.length).cells ∪ (pathCells (0 :: p) ∪ dataCells))
      (Set.union_subset (((own_cells_node p _ _ _).trans (nodeCells_sub p)).trans Set.subset_union_left) (Set.union_subset_union_left _ (pathCells_child 0 p)))
      ((Supp.read Set.subset_union_left _).and (hC.mono Set.subset_union_right)) ?_ ((own_cells_node p _ _ _).trans (nodeCells_sub p)) (by simp)
      hrl.symm (fun m hm => ⟨hm, hr m hm.2⟩) (hrest.pre fun m hm => ⟨?_, hm.1.2⟩)
    · rw [Set.disjoint_union_right]
      refine ⟨?_, (node_disjoint 0 p).mono_left (own_cells_node p _ _ _)⟩
      rw [Set.disjoint_left]
      intro c hc hc'
      have h1 := hc.2.1
      have h2 := hc'.2.2
      simp only at h1 h2
      omega
    · rw [List.length_append, read_split, hm.1.1, Nat.zero_add, ← hrl, hm.2]

theorem noise_ok (p : List Nat) {num : Nat} (hn : 0 < num) (R : List V) (P : Memory V → Prop) :
    OK True True (pathCells p) ∅ P (.store ⟨.own p 0, 0, R.length⟩ (fun _ => R) :: (blockViews (.own p 0) R.length num).map .yield) (Spec.chunks num R) := by
  have hnode : ∀ c : Cell, c.1 = .own p 0 → c ∈ pathCells p := fun c hc => nodeCells_sub p ⟨0, hc⟩
  refine OK.put (C := fun _ => True) (rows := R) ∅ (by simp) (Supp.const _) (by simp) ((own_cells_node p _ _ _).trans (nodeCells_sub p)) (by simp) rfl
    (fun m _ => ⟨trivial, rfl⟩) ?_
  rw [blockViews_eq]
  exact views_ok (own := True) (keep := True) (W := pathCells p) (.own p 0) hn (fun c hc => .inl (hnode c hc)) (fun _ => hnode) R 0 ∅
    (fun m => True ∧ m.read ⟨.own p 0, 0, R.length⟩ = R) (by simp) (fun m hm => hm.2)

theorem inplace_ok {kc : Prop} {Fc : Set Cell} {acts : List (Deed V)} (g : V → V) (h : OK True kc W Fc P acts bs) : (¬ kc → Fc = ∅) →
    OK True kc W Fc P (bindDeeds (inplaceHandler g) () acts) (bs.map (List.map g)) := by
  induction h with
  | nil => intro _; exact .nil
  | store P1 hW hF hs h h' ih => intro hk0; exact .store P1 hW hF hs h (ih hk0)
  | @yield Fc P t b rest bs Q hin hlt hr hs h ho hk h' ih =>
    intro hk0
    have hQs : Supp ((W ∪ dataCells) \ t.cells) Q := hs.mono fun c hc => ⟨hc.1, fun hx => hc.2 ⟨trivial, hx⟩⟩
    have htF : Disjoint t.cells Fc := by
      by_cases hkc : kc
      · exact hk hkc
      · rw [hk0 hkc]; simp
    simp only [bindDeeds, inplaceHandler, List.cons_append, List.nil_append, List.map_cons]
    refine OK.put (C := Q) (rows := b.map g) _ Set.sdiff_subset hQs Set.disjoint_sdiff_right (ho trivial) htF (by simp [hlt])
      (fun m hm => ⟨h m hm, by rw [hr m hm]⟩) ?_
    refine OK.give (Q := Q) _ Set.sdiff_subset hQs (fun _ => Set.disjoint_sdiff_right) (ho trivial) (fun _ => htF) (by simp [hlt]) (fun m hm => hm) ?_
    exact ih fun hkc => by simp [hk0 hkc, hkc]

/-! ### Time reversal -/

/-- Collecting the views of a source that keeps its blocks. -/
theorem silent_ok {oc : Prop} {Wc Fc : Set Cell} {acts tail : List (Deed V)} {os : List (List V)} (hWc : Wc ⊆ W) (h : OK oc True Wc Fc P acts bs) :
    ∀ (got : List View) (vals : List (List V)), (∀ r ∈ got, r.cells ⊆ Fc ∧ r.cells ⊆ Wc ∪ dataCells) →
      (OK own keep W ∅ (fun m => (got ++ views acts).map m.read = vals ++ bs) tail os) → Disjoint Wc dataCells →
      OK own keep W ∅ (fun m => P m ∧ got.map m.read = vals) (silent acts ++ tail) os := by
  induction h with
  | nil =>
    intro got vals _ ht _
    simp only [views, List.append_nil] at ht
    exact ht.pre fun m hm => hm.2
  | @store Fc P d f rest bs P1 hW hF hs h h' ih =>
    intro got vals hg ht hd
    rw [silent, List.cons_append]
    have hsup : Supp (Wc ∪ dataCells) fun m => got.map m.read = vals := supp_reads got (fun r hr => (hg r hr).2) vals
    refine .store _ (hW.trans hWc) (by simp) ((hs.and hsup).mono (Set.union_subset_union_left _ hWc)) (fun m hm => ⟨h m hm.1, ?_⟩) (ih got vals hg ht hd)
    rw [← hm.2]
    refine List.map_congr_left fun r hr => read_congr fun c hc => write_of_not_mem m d _ fun hx => ?_
    exact Set.disjoint_left.1 hF hx ((hg r hr).1 hc)
  | @yield Fc P r b rest bs Q hin hl hr hs h ho hk h' ih =>
    intro got vals hg ht hd
    rw [silent]
    refine (ih (got ++ [r]) (vals ++ [b]) ?_ ?_ hd).pre fun m hm => ⟨h m hm.1, by rw [List.map_append, hm.2, List.map_singleton, hr m hm.1]⟩
    · intro q hq
      rw [List.mem_append, List.mem_singleton] at hq
      rcases hq with hq | rfl
      · exact ⟨(hg q hq).1.trans Set.subset_union_left, (hg q hq).2⟩
      · exact ⟨fun c hc => .inr ⟨trivial, hc⟩, hin⟩
    · simpa [views, List.append_assoc] using ht

theorem reverse_loop_ok (p : List Nat) (size nsh : Nat) (h0 : nsh ≤ size) : ∀ (rs : List View) (bs : List (List V)) (X : List V) (tl : List V),
    rs.map View.len = bs.map List.length →
    (∀ r ∈ rs, r.cells ⊆ pathCells (0 :: p) ∪ dataCells) → (∀ b ∈ bs, b.length = size) → X.length = nsh →
    OK True False (pathCells p) ∅ (fun m => rs.map m.read = bs ∧ m.read ⟨.own p 0, 0, nsh⟩ = X) (reverseDeeds (.own p 0) size nsh rs)
      (TimeReverse.loop nsh (X ++ tl) bs)
  | [], [], X, tl, _, _, _, hX => by
    rw [reverseDeeds, TimeReverse.loop, List.take_left' hX]
    exact OK.give (Q := fun _ => True) ∅ (by simp) (Supp.const _) (by simp) ((own_cells_node p _ _ _).trans (nodeCells_sub p)) (by simp) hX.symm
      (fun m hm => ⟨trivial, hm.2⟩) .nil
  | [], b :: bs, X, tl, he, _, _, hX => by simp at he
  | r :: rs, [], X, tl, he, _, _, hX => by simp at he
  | r :: rs, b :: bs, X, tl, he, hin, hl, hX => by
    simp only [List.map_cons, List.cons.injEq] at he
    have hb : b.length = size := hl b (by simp)
    have hN : ∀ off len, (View.mk (.own p 0) off len).cells ⊆ pathCells p := fun off len => (own_cells_node p _ _ _).trans (nodeCells_sub p)
    have hD : ∀ off len, Disjoint (View.mk (.own p 0) off len).cells (pathCells (0 :: p) ∪ dataCells) :=
      fun off len => (node_disjoint 0 p).mono_left (own_cells_node p _ _ _)
    have hsup : Supp (pathCells (0 :: p) ∪ dataCells) fun m : Memory V => (r :: rs).map m.read = b :: bs := supp_reads _ hin _
    have hU := Set.union_subset_union_left dataCells (pathCells_child 0 p)
    simp only [reverseDeeds, TimeReverse.loop, List.cons_append, List.nil_append]
    rw [List.take_left' hX]
    refine OK.put (C := fun m => (r :: rs).map m.read = b :: bs ∧ m.read ⟨.own p 0, 0, nsh⟩ = X) (rows := (b.drop nsh).reverse)
      ((View.mk (.own p 0) 0 nsh).cells ∪ (pathCells (0 :: p) ∪ dataCells)) (Set.union_subset ((hN _ _).trans Set.subset_union_left) hU)
      ((hsup.mono Set.subset_union_right).and (Supp.read Set.subset_union_left _)) ?_ (hN _ _) (by simp) (by simp [hb])
      (fun m hm => ⟨hm, ?_⟩) ?_
    · rw [Set.disjoint_union_right]
      refine ⟨?_, hD _ _⟩
      rw [Set.disjoint_left]
      intro c hc hc'
      have h1 := hc.2.1
      have h2 := hc'.2.2
      simp only at h1 h2
      omega
    · have := hm.1
      rw [List.map_cons, List.cons.injEq] at this
      rw [this.1]
    refine OK.give (Q := fun m => (r :: rs).map m.read = b :: bs) _ hU hsup (fun _ => hD _ _) (hN _ _) (fun h => h.elim) (by simp [hX, hb]; omega)
      (fun m hm => ⟨hm.1.1, ?_⟩) ?_
    · have e := read_split m (.own p 0) 0 nsh (size - nsh)
      rwa [Nat.zero_add, hm.1.2, hm.2, Nat.add_sub_cancel' h0] at e
    · have e : (∅ : Set Cell) ∪ {c | False ∧ c ∈ (View.mk (.own p 0) 0 size).cells} = ∅ := by simp
      rw [e, ← List.drop_left' (l₁ := X) (l₂ := (b.drop nsh).reverse) hX]
      refine OK.put (C := fun m => (r :: rs).map m.read = b :: bs) (rows := (b.take nsh).reverse) _ hU hsup (hD _ _) (hN _ _) (by simp) (by simp [hb, h0])
        (fun m hm => ⟨hm, ?_⟩) ?_
      · rw [List.map_cons, List.cons.injEq] at hm
        rw [hm.1]
      · refine (reverse_loop_ok p size nsh h0 rs bs (b.take nsh).reverse _ he.2 (fun q hq => hin q (by simp [hq])) (fun x hx => hl x (by simp [hx]))
          (by simp [hb, h0])).pre fun m hm => ⟨?_, hm.2⟩
        have := hm.1
        rw [List.map_cons, List.cons.injEq] at this
        exact this.2

theorem OK.lens (h : OK own keep W F P a bs) : (views a).map View.len = bs.map List.length := by
  induction h with
  | nil => rfl
  | store P1 hW hF hs h h' ih => exact ih
  | yield Q hin hl hr hs h ho hk h' ih => simp [views, hl, ih]

theorem OK.cells (h : OK own keep W F P a bs) : ∀ r ∈ views a, r.cells ⊆ W ∪ dataCells := by
  induction h with
  | nil => simp [views]
  | store P1 hW hF hs h h' ih => exact ih
  | yield Q hin hl hr hs h ho hk h' ih =>
    intro r hr
    rw [views, List.mem_cons] at hr
    rcases hr with rfl | hr
    · exact hin
    · exact ih r hr

theorem reverse_ok {oc : Prop} {acts : List (Deed V)} (p : List Nat) (garbage : List V) (hbs : (TimeReverse.result garbage bs).exit = .returned)
    (h : OK oc True (pathCells (0 :: p)) ∅ P acts bs) :
    OK True False (pathCells p) ∅ P (silent acts ++ reverseTail (.own p 0) (views acts)) (TimeReverse.result garbage bs).blocks := by
  refine (silent_ok (pathCells_child 0 p) h [] [] (by simp) ?_ (path_data _)).pre fun m hm => ⟨hm, rfl⟩
  simp only [List.nil_append]
  have hlen := h.lens
  have hcells := h.cells
  generalize views acts = rs at hlen hcells
  have hrev : rs.reverse.map View.len = bs.reverse.map List.length := by rw [List.map_reverse, List.map_reverse, hlen]
  have hU := Set.union_subset_union_left dataCells (pathCells_child 0 p)
  unfold TimeReverse.result at hbs ⊢
  unfold reverseTail
  rcases hb : bs.reverse with _ | ⟨b, hs⟩
  · rw [hb] at hbs; simp [Trace.raise] at hbs
  rcases hr : rs.reverse with _ | ⟨r, rs'⟩
  · rw [hr, hb] at hrev; simp at hrev
  rw [hb] at hbs
  rw [hr, hb, List.map_cons, List.map_cons, List.cons.injEq] at hrev
  simp only at hbs ⊢
  rcases hr0 : rs with _ | ⟨r0, rest⟩
  · simp [hr0] at hr
  rcases hb0 : bs with _ | ⟨b0, rest'⟩
  · simp [hb0] at hb
  rw [hr0, hb0, List.map_cons, List.map_cons, List.cons.injEq] at hlen
  rw [hb0] at hbs
  by_cases hc : b.length ≤ ((b0 :: rest').headD []).length ∧ (hs.all fun b => b.length == ((b0 :: rest').headD []).length) = true
  · rw [if_pos hc]
    obtain ⟨hc1, hc2⟩ := hc
    rw [List.headD_cons] at hc1 hc2
    simp only
    rw [hrev.1, hlen.1]
    have hinr : ∀ q ∈ r :: rs', q.cells ⊆ pathCells (0 :: p) ∪ dataCells := fun q hq => hcells q (by rw [← List.mem_reverse, hr]; exact hq)
    have hsup : Supp (pathCells (0 :: p) ∪ dataCells) fun m : Memory V => (r :: rs').map m.read = b :: hs := supp_reads _ hinr _
    have hmain := reverse_loop_ok p b0.length b.length hc1 rs' hs b.reverse (garbage.drop b.length) hrev.2 (fun q hq => hinr q (by simp [hq]))
      (fun x hx => by simpa using List.all_eq_true.1 hc2 x hx) (by simp)
    refine OK.put (C := fun m => (r :: rs').map m.read = b :: hs) (rows := b.reverse) _ hU hsup
      ((node_disjoint 0 p).mono_left (own_cells_node p _ _ _)) ((own_cells_node p _ _ _).trans (nodeCells_sub p)) (by simp) (by simp)
      (fun m hm => ?_) (hmain.pre fun m hm => ⟨?_, hm.2⟩)
    · have e : (r :: rs').map m.read = b :: hs := by
        rw [← hr, ← hb, List.map_reverse, hr0, hm, hb0]
      refine ⟨e, ?_⟩
      rw [List.map_cons, List.cons.injEq] at e
      rw [e.1]
    · have := hm.1
      rw [List.map_cons, List.cons.injEq] at this
      exact this.2
  · rw [if_neg hc] at hbs
    simp [Trace.raise] at hbs

/-! ### Mixer -/

/-- Running a generator to its next block, with a frame. -/
theorem next_ok {Wd : Set Cell} {od kd : Prop} {Fd : Set Cell} {acts : List (Deed V)} {all : List (List V)} (h : OK od kd Wd Fd P acts all) :
    ∀ (b : List V) (bs : List (List V)), all = b :: bs → ∃ as r rest Q Fd', nextDeed acts = (as, some (r, rest)) ∧ r.cells ⊆ Wd ∪ dataCells ∧
      r.len = b.length ∧ OK od kd Wd Fd' Q rest bs ∧ Supp (Wd ∪ dataCells) Q ∧
      ∀ (own keep : Prop) (W F S : Set Cell) (C : Memory V → Prop) (cont : List (Deed V)) (os : List (List V)), Wd ⊆ W → Disjoint Wd F →
        Supp S C → S ⊆ W ∪ dataCells → Disjoint Wd S → OK own keep W F (fun m => C m ∧ Q m ∧ m.read r = b) cont os →
        OK own keep W F (fun m => C m ∧ P m) (as ++ cont) os := by
  induction h with
  | nil => intro b bs h; cases h
  | @store Fd P d f rest all P1 hW hF hs h h' ih =>
    intro b bs hb
    obtain ⟨as, r, rest', Q, Fd', h1, h2, h3, h4, h5, h6⟩ := ih b bs hb
    refine ⟨.store d f :: as, r, rest', Q, Fd', by simp [nextDeed, h1], h2, h3, h4, h5, ?_⟩
    intro own keep W F S C cont os hWd hdF hC hS hdS hcont
    rw [List.cons_append]
    exact .store _ (hW.trans hWd) (hdF.mono_left hW) ((hC.mono hS).and (hs.mono (Set.union_subset_union_left _ hWd)))
      (fun m hm => ⟨hC.write (hdS.mono_left hW) _ hm.1, h m hm.2⟩) (h6 own keep W F S C cont os hWd hdF hC hS hdS hcont)
  | @yield Fd P r b' rest all Q hin hl hr hs h ho hk h' ih =>
    intro b bs hb
    cases hb
    refine ⟨[], r, rest, Q, _, rfl, hin, hl, h', hs.mono Set.sdiff_subset, ?_⟩
    intro own keep W F S C cont os hWd hdF hC hS hdS hcont
    exact hcont.pre fun m hm => ⟨hm.1, h m hm.2, hr m hm.2⟩

theorem mixer_ok [Add V] {Wc Wd : Set Cell} {kc od kd : Prop} {Fc : Set Cell} {acts : List (Deed V)} (hWc : Wc ⊆ W) (hWd : Wd ⊆ W)
    (hcd : Disjoint Wc (Wd ∪ dataCells)) (hdc : Disjoint Wd (Wc ∪ dataCells)) (h : OK True kc Wc Fc P acts bs) :
    ∀ (Fd : Set Cell) (Pd : Memory V → Prop) (other : List (Deed V)) (bd : List (List V)), Supp (Wd ∪ dataCells) Pd → (¬ kc → Fc = ∅) → Fc ⊆ Wc →
      OK od kd Wd Fd Pd other bd → bd.map List.length = bs.map List.length →
      OK True kc W Fc (fun m => P m ∧ Pd m) (mixDeeds acts other) (List.zipWith (List.zipWith (· + ·)) bs bd) := by
  induction h with
  | nil => intros; simp only [List.zipWith_nil_left]; exact .nil
  | @store Fc P d f rest bs P1 hW hF hs h h' ih =>
    intro Fd Pd other bd hPd hk0 hFc hd hl
    rw [mixDeeds]
    refine .store _ (hW.trans hWc) hF ((hs.mono (Set.union_subset_union_left _ hWc)).and (hPd.mono (Set.union_subset_union_left _ hWd)))
      (fun m hm => ⟨h m hm.1, ?_⟩) (ih Fd Pd other bd hPd hk0 hFc hd hl)
    exact hPd.write (hcd.mono_left hW) _ hm.2
  | @yield Fc P t a rest bs Q hin hlt hr hs h ho hk h' ih =>
    intro Fd Pd other bd hPd hk0 hFc hd hl
    rcases bd with _ | ⟨b, bd⟩
    · simp at hl
    simp only [List.map_cons, List.cons.injEq] at hl
    obtain ⟨as, r, other', Qd, Fd', h1, h2, h3, h4, h5, h6⟩ := next_ok hd b bd rfl
    have htr : t.len = r.len := by rw [hlt, h3, hl.1]
    have e : (if t.len > r.len then View.mk t.arr t.off r.len else t) = t := by simp [htr]
    simp only [mixDeeds, h1, e, gt_iff_lt, lt_irrefl, if_false, List.zipWith_cons_cons]
    have htW : t.cells ⊆ Wc := ho trivial
    have hQs : Supp ((Wc ∪ dataCells) \ t.cells) Q := hs.mono fun c hc => ⟨hc.1, fun hx => hc.2 ⟨trivial, hx⟩⟩
    have htF : Disjoint t.cells Fc := by
      by_cases hkc : kc
      · exact hk hkc
      · rw [hk0 hkc]; simp
    refine (h6 True kc W Fc (Wc ∪ dataCells) (fun m => Q m ∧ m.read t = a) _ _ hWd ?_ ((hQs.mono Set.sdiff_subset).and (Supp.read hin a))
      (Set.union_subset_union_left _ hWc) hdc ?_).pre fun m hm => ⟨⟨h m hm.1, hr m hm.1⟩, hm.2⟩
    · exact (hdc.mono_right (hFc.trans Set.subset_union_left))
    · have hQd : Supp ((Wc ∪ dataCells) \ t.cells ∪ (Wd ∪ dataCells)) fun m => Q m ∧ Qd m :=
        (hQs.mono Set.subset_union_left).and (h5.mono Set.subset_union_right)
      have hS : (Wc ∪ dataCells) \ t.cells ∪ (Wd ∪ dataCells) ⊆ W ∪ dataCells :=
        Set.union_subset (Set.sdiff_subset.trans (Set.union_subset_union_left _ hWc)) (Set.union_subset_union_left _ hWd)
      have hdis : Disjoint t.cells ((Wc ∪ dataCells) \ t.cells ∪ (Wd ∪ dataCells)) := by
        rw [Set.disjoint_union_right]
        exact ⟨Set.disjoint_sdiff_right, hcd.mono_left htW⟩
      have hview : View.mk r.arr r.off t.len = r := by rw [htr]
      refine OK.put (C := fun m => Q m ∧ Qd m) (rows := List.zipWith (· + ·) a b) _ hS hQd hdis (htW.trans hWc) htF (by simp [hlt, hl.1])
        (fun m hm => ⟨⟨hm.1.1, hm.2.1⟩, by rw [hm.1.2, hview, hm.2.2]⟩) ?_
      refine OK.give (Q := fun m => Q m ∧ Qd m) _ hS hQd (fun _ => hdis) (htW.trans hWc) (fun x => htF) (by simp [hlt, hl.1]) (fun m hm => hm) ?_
      exact ih Fd' Qd other' bd h5 (fun hkc => by simp [hk0 hkc, hkc]) (Set.union_subset hFc fun c hc => htW hc.2) h4 hl.2

/-! ### Selection of samples -/

private theorem oneBlock_of {start stop num i n : Nat} (hn : 0 < num) (hi : num ∣ i) (hi' : i = 0 ∨ i < start) (h : stop ≤ i + min num n) :
    oneBlock start stop num := by
  obtain ⟨k, rfl⟩ := hi
  unfold oneBlock
  refine h.trans ((Nat.add_le_add_left (min_le_left _ _) _).trans ?_)
  rw [show num * k + num = num * (k + 1) by ring]
  refine Nat.mul_le_mul_left _ ?_
  rcases hi' with h0 | h0
  · rcases Nat.mul_eq_zero.1 h0 with h1 | h1
    · omega
    · subst h1; exact le_max_left _ _
  · refine le_max_of_le_right ?_
    rw [Nat.le_div_iff_mul_le hn]
    have : (k + 1) * num = num * k + num := by ring
    omega

private theorem stop_of_oneBlock {start stop num i n : Nat} (hn : 0 < num) (hi : num ∣ i) (h : oneBlock start stop num) (h1 : start ≤ i + min num n)
    (hst : stop ≤ i + n) : stop ≤ i + min num n := by
  by_cases hl : n ≤ num
  · rwa [Nat.min_eq_right hl]
  · rw [Nat.min_eq_left (by omega)] at h1 ⊢
    obtain ⟨k, rfl⟩ := hi
    unfold oneBlock at h
    refine h.trans ?_
    rw [show num * k + num = num * (k + 1) by ring] at h1 ⊢
    refine Nat.mul_le_mul_left _ (max_le (by omega) ?_)
    rw [Nat.div_le_iff_le_mul_add_pred hn]
    omega

private theorem selectRows_length (ch : Option (V → V)) (b : List V) : (selectRows ch b).length = b.length := by
  cases ch <;> simp [selectRows]

private theorem selectRows_take (ch : Option (V → V)) (b : List V) (k : Nat) : selectRows ch (b.take k) = (selectRows ch b).take k := by
  cases ch <;> simp [selectRows]

private theorem selectRows_drop (ch : Option (V → V)) (b : List V) (k : Nat) : selectRows ch (b.drop k) = (selectRows ch b).drop k := by
  cases ch <;> simp [selectRows]

private theorem flush_len (a : Loc) (num : Nat) (B : List V) : (maskFlushDeeds (V := V) a num B.length).2 = (maskFlush num B).2.length := by
  unfold maskFlushDeeds maskFlush
  split_ifs <;> simp

private theorem flush_ok (p : List Nat) {num : Nat} {B : List V} {C : Memory V → Prop} {rest : List (Deed V)} {os : List (List V)}
    (hC : Supp (pathCells (0 :: p) ∪ dataCells) C) (hk : keep → B.length < num)
    (h : OK own keep (pathCells p) ∅ (fun m => m.read ⟨.own p 0, 0, (maskFlush num B).2.length⟩ = (maskFlush num B).2 ∧ C m) rest os) :
    OK own keep (pathCells p) ∅ (fun m => m.read ⟨.own p 0, 0, B.length⟩ = B ∧ C m) ((maskFlushDeeds (.own p 0) num B.length).1 ++ rest)
      ((maskFlush num B).1 ++ os) := by
  have hN : ∀ off len, (View.mk (.own p 0) off len).cells ⊆ pathCells p := fun off len => (own_cells_node p _ _ _).trans (nodeCells_sub p)
  have hD : ∀ off len, Disjoint (View.mk (.own p 0) off len).cells (pathCells (0 :: p) ∪ dataCells) :=
    fun off len => (node_disjoint 0 p).mono_left (own_cells_node p _ _ _)
  have hU := Set.union_subset_union_left dataCells (pathCells_child 0 p)
  unfold maskFlush at h ⊢
  unfold maskFlushDeeds
  by_cases hb : B.length ≥ num
  · rw [if_pos hb] at h ⊢
    rw [if_pos hb]
    simp only [List.cons_append, List.nil_append]
    have hkn : ¬ keep := fun x => by have := hk x; omega
    have e : (∅ : Set Cell) ∪ {c | keep ∧ c ∈ (View.mk (.own p 0) 0 num).cells} = ∅ := by simp [hkn]
    refine OK.give (Q := fun m => m.read ⟨.own p 0, num, B.length - num⟩ = B.drop num ∧ C m)
      ((View.mk (.own p 0) num (B.length - num)).cells ∪ (pathCells (0 :: p) ∪ dataCells)) (Set.union_subset ((hN _ _).trans Set.subset_union_left) hU)
      ((Supp.read Set.subset_union_left _).and (hC.mono Set.subset_union_right)) (fun _ => ?_) (hN _ _) (fun x => absurd x hkn) (by simp [hb])
      (fun m hm => ⟨⟨?_, hm.2⟩, ?_⟩) ?_
    · rw [Set.disjoint_union_right]
      refine ⟨?_, hD _ _⟩
      rw [Set.disjoint_left]
      intro c hc hc'
      have h1 := hc.2.2
      have h2 := hc'.2.1
      simp only at h1 h2
      omega
    · have := read_drop m (.own p 0) 0 B.length num
      rwa [hm.1, Nat.min_eq_left hb, Nat.zero_add] at this
    · have := read_take m (.own p 0) 0 B.length num
      rwa [hm.1, Nat.min_eq_left hb] at this
    · rw [e]
      refine OK.put (C := C) (rows := B.drop num) _ hU hC (hD _ _) (hN _ _) (by simp) (by simp) (fun m hm => ⟨hm.2, hm.1⟩) (h.pre fun m hm => ⟨?_, hm.1⟩)
      simpa using hm.2
  · rw [if_neg hb] at h ⊢
    rw [if_neg hb]
    exact h

theorem mask_ok {oc kc : Prop} {Fc : Set Cell} {acts : List (Deed V)} (p : List Nat) (start stop num cap : Nat) (hn : 0 < num) (hss : start < stop)
    (ch : Option (V → V)) (data : List V) (hst : stop ≤ data.length)
    (hx : (maskLoop start stop num cap ((chunks num data).map (selectRows ch)) ⟨[], 0, true⟩).exit = .returned)
    (h1 : oneBlock start stop num → own → oc ∨ ch.isSome) (h2 : ¬ oneBlock start stop num → ¬ keep)
    (h : OK oc kc (pathCells (0 :: p)) Fc P acts (chunks num data)) :
    OK own keep (pathCells p) ∅ P (bindDeeds (maskHandler p start stop num ch) (0, 0, true) acts)
      (maskLoop start stop num cap ((chunks num data).map (selectRows ch)) ⟨[], 0, true⟩).blocks := by
  have hN : ∀ off len k, (View.mk (.own p k) off len).cells ⊆ pathCells p := fun off len k => (own_cells_node p _ _ _).trans (nodeCells_sub p)
  have hD : ∀ off len k, Disjoint (View.mk (.own p k) off len).cells (pathCells (0 :: p) ∪ dataCells) :=
    fun off len k => (node_disjoint 0 p).mono_left (own_cells_node p _ _ _)
  have hU := Set.union_subset_union_left dataCells (pathCells_child 0 p)
  have := OK.bind (own := own) (keep := keep) (W := pathCells p) (N := nodeCells p) (tail := []) (handler := maskHandler p start stop num ch)
    (pathCells_child 0 p) (nodeCells_sub p) (node_disjoint 0 p)
    (fun s (g : MaskState V) bs F => s = (g.buf.length, g.i, g.fblock) ∧ F = ∅ ∧
      (maskLoop start stop num cap (bs.map (selectRows ch)) g).exit = .returned ∧ (g.fblock = true → g.buf = [] ∧ (g.i = 0 ∨ g.i < start)) ∧
      (g.fblock = false → ¬ oneBlock start stop num) ∧ ∃ R, bs = chunks num R ∧ (R ≠ [] → num ∣ g.i) ∧ stop ≤ g.i + R.length)
    (fun _ g m => m.read ⟨.own p 0, 0, g.buf.length⟩ = g.buf) (fun _ _ => Supp.read (own_cells_node p 0 _ _) _)
    (fun g bs => (maskLoop start stop num cap (bs.map (selectRows ch)) g).blocks)
    (fun hi => by rw [hi.2.1]; simp) (fun _ _ _ _ => .nil) ?_ (.inl rfl) h (0, 0, true) ⟨[], 0, true⟩ ∅
    ⟨rfl, rfl, hx, by simp, by simp, data, rfl, by simp, by simpa using hst⟩
  · rw [List.append_nil] at this
    exact this.pre fun m hm => ⟨rfl, hm⟩
  clear h hx
  rintro s ⟨buf, i, fb⟩ b bs F r C ⟨rfl, rfl, hx, hfb, hnf, R, hR, hdvd, hstop⟩ hrl hin hoc hC hr
  have hR0 : R ≠ [] := by rintro rfl; simp [chunks_nil] at hR
  rw [chunks_step hn hR0, List.cons.injEq] at hR
  obtain ⟨hbR, hbs⟩ := hR
  have hbl : b.length = min num R.length := by rw [hbR, List.length_take]
  replace hdvd : num ∣ i := hdvd hR0
  simp only at hfb hnf hstop
  have hRd : (R.drop num ≠ [] → num ∣ i + b.length) ∧ stop ≤ i + b.length + (R.drop num).length := by
    refine ⟨fun hne => ?_, by rw [List.length_drop]; omega⟩
    have : num < R.length := by
      by_contra hc
      exact hne (List.drop_of_length_le (by omega))
    rw [hbl, Nat.min_eq_left (by omega)]
    exact hdvd.add (dvd_refl num)
  rw [List.map_cons, maskLoop] at hx
  simp only [List.map_cons, maskLoop]
  simp only [maskHandler, hrl, selectRows_length] at hx ⊢
  by_cases hc1 : (fb && decide (i + b.length ≥ start)) = true
  · rw [if_pos hc1] at hx
    simp only [if_pos hc1]
    rw [Bool.and_eq_true, decide_eq_true_eq] at hc1
    obtain ⟨hf, hi'⟩ := hc1
    subst hf
    obtain ⟨hbuf, hi0⟩ := hfb rfl
    subst hbuf
    by_cases hc2 : i + b.length ≥ stop
    · have hone : oneBlock start stop num := oneBlock_of hn hdvd hi0 (by rw [← hbl]; exact hc2)
      simp only [if_pos hc2]
      have hsub := sub_cells r (b.length - (i + b.length - start)) (b.length - (i + b.length - stop)) (by omega)
      have hread : ∀ m, C m → selectRows ch (m.read (r.sub (b.length - (i + b.length - start)) (b.length - (i + b.length - stop)))) =
          slice (selectRows ch b) (b.length - (i + b.length - start)) (b.length - (i + b.length - stop)) := by
        intro m hm
        rw [read_sub m r _ _ (by omega), hr m hm, selectRows_drop, selectRows_take, slice]
      have hlen : (slice (selectRows ch b) (b.length - (i + b.length - start)) (b.length - (i + b.length - stop))).length =
          (r.sub (b.length - (i + b.length - start)) (b.length - (i + b.length - stop))).len := by
        simp only [slice, List.length_drop, List.length_take, selectRows_length, View.sub]; omega
      cases ch with
      | none =>
        refine ⟨fun _ => ?_, fun s' hs' => by simp at hs'⟩
        refine .yield (fun _ => True) ((hsub.trans hin).trans hU) hlen.symm (fun m hm => hread m hm.2) (Supp.const _) (fun _ _ => trivial)
          (fun x => (hsub.trans (hoc ?_)).trans (pathCells_child 0 p)) (by simp) .nil
        simpa using h1 hone x
      | some g =>
        refine ⟨fun _ => ?_, fun s' hs' => by simp at hs'⟩
        refine OK.put (C := fun _ => True) (rows := _) ∅ (by simp) (Supp.const _) (by simp) (hN _ _ _) (by simp) hlen
          (fun m hm => ⟨trivial, hread m hm.2⟩) ?_
        exact OK.give (Q := fun _ => True) ∅ (by simp) (Supp.const _) (by simp) (hN _ _ _) (by simp) hlen.symm (fun m hm => hm) .nil
    · rw [if_neg hc2] at hx
      simp only [if_neg hc2]
      have hone : ¬ oneBlock start stop num := fun hx1 => hc2 (by
        rw [hbl] at hi' ⊢
        exact stop_of_oneBlock hn hdvd hx1 hi' hstop)
      have hkn := h2 hone
      have hnew : ((selectRows ch b).drop (b.length - (i + b.length - start))).length = i + b.length - start := by
        rw [List.length_drop, selectRows_length]; omega
      have hcap : ((selectRows ch b).drop (b.length - (i + b.length - start))).length ≤ cap ∧
          ((selectRows ch b).drop (b.length - (i + b.length - start))).length = i + b.length - start := by
        by_contra hcc
        rw [if_neg hcc] at hx
        simp [Trace.raise] at hx
      rw [if_pos hcap] at hx ⊢
      simp only at hx
      refine ⟨fun hy => by simp at hy, fun s' hs' => ?_⟩
      simp only [Option.some.injEq] at hs'
      refine ⟨⟨_, i + b.length, false⟩, ∅, _, ⟨?_, rfl, hx, by simp, fun _ => hone, R.drop num, hbs, hRd.1, hRd.2⟩, rfl, ?_⟩
      · have := flush_len (.own p 0) num ((selectRows ch b).drop (b.length - (i + b.length - start)))
        rw [hnew] at this
        rw [← hs', this]
      · intro rest os hrest
        rw [List.cons_append]
        have hfl := (flush_ok (own := own) p hC (fun x => absurd x hkn) hrest)
        rw [hnew] at hfl
        refine OK.put (C := C) (rows := _) _ hU hC (hD _ _ _) (hN _ _ _) (by simp) hnew (fun m hm => ⟨hm.2, ?_⟩) (hfl.pre fun m hm => ⟨hm.2, hm.1⟩)
        rw [read_sub m r _ _ (by omega), hr m hm.2, selectRows_drop, selectRows_take, List.take_of_length_le (by rw [selectRows_length])]
  · rw [if_neg hc1] at hx
    simp only [if_neg hc1]
    rw [Bool.and_eq_true, decide_eq_true_eq, not_and] at hc1
    by_cases hc2 : i + b.length ≥ stop
    · rw [if_pos hc2] at hx
      simp only [if_pos hc2]
      have hf : fb = false := by
        cases fb with
        | false => rfl
        | true => exact absurd (by omega) (hc1 rfl)
      have hkn := h2 (hnf hf)
      have hk0 : ∀ v : View, (∅ : Set Cell) ∪ {c | keep ∧ c ∈ v.cells} = ∅ := by simp [hkn]
      have hcap : (buf ++ (selectRows ch b).take (b.length - (i + b.length - stop))).length ≤ cap := by
        by_contra hcc
        rw [if_neg hcc] at hx
        simp [Trace.raise] at hx
      rw [if_pos hcap]
      have hm' : ((selectRows ch b).take (b.length - (i + b.length - stop))).length = b.length - (i + b.length - stop) := by
        rw [List.length_take, selectRows_length]; omega
      refine ⟨fun _ => ?_, fun s' hs' => by simp at hs'⟩
      have hB : (buf ++ (selectRows ch b).take (b.length - (i + b.length - stop))).length = buf.length + (b.length - (i + b.length - stop)) := by
        rw [List.length_append, hm']
      have hdis : Disjoint (View.mk (.own p 0) buf.length (b.length - (i + b.length - stop))).cells (View.mk (.own p 0) 0 buf.length).cells := by
        rw [Set.disjoint_left]
        intro c hc hc'
        have h1 := hc.2.1
        have h2 := hc'.2.2
        simp only at h1 h2
        omega
      refine OK.put (C := fun m => m.read ⟨.own p 0, 0, buf.length⟩ = buf) (rows := _) _ ((hN _ _ _).trans Set.subset_union_left)
        (Supp.read (S := (View.mk (.own p 0) 0 buf.length).cells) (le_refl _) _) hdis (hN _ _ _) (by simp) hm' (fun m hm => ⟨hm.1, ?_⟩) ?_
      · rw [read_sub m r _ _ (by omega), hr m hm.2, selectRows_drop, selectRows_take, List.drop_zero]
      refine OK.pre (P := fun m => m.read ⟨.own p 0, 0, buf.length + (b.length - (i + b.length - stop))⟩ =
        buf ++ (selectRows ch b).take (b.length - (i + b.length - stop))) ?_ (fun m hm => by rw [read_split, hm.1, Nat.zero_add, hm.2])
      generalize buf ++ (selectRows ch b).take (b.length - (i + b.length - stop)) = B at hB ⊢
      rw [← hB]
      by_cases hgt : B.length > num
      · rw [if_pos hgt, if_pos hgt]
        refine OK.give (Q := fun m => m.read ⟨.own p 0, num, B.length - num⟩ = B.drop num)
          ((View.mk (.own p 0) num (B.length - num)).cells) ((hN _ _ _).trans Set.subset_union_left)
          (Supp.read (le_refl _) _) (fun _ => ?_) (hN _ _ _) (by simp) (by simp; omega) (fun m hm => ⟨?_, ?_⟩) ?_
        · rw [Set.disjoint_left]
          intro c hc hc'
          have h1 := hc.2.2
          have h2 := hc'.2.1
          simp only at h1 h2
          omega
        · have := read_drop m (.own p 0) 0 B.length num
          rwa [hm, Nat.min_eq_left hgt.le, Nat.zero_add] at this
        · have := read_take m (.own p 0) 0 B.length num
          rwa [hm, Nat.min_eq_left hgt.le] at this
        · rw [hk0]
          refine OK.put (C := fun _ => True) (rows := B.drop num) ∅ (by simp) (Supp.const _) (by simp) (hN _ _ _) (by simp) (by simp)
            (fun m hm => ⟨trivial, hm⟩) ?_
          exact OK.give (Q := fun _ => True) ∅ (by simp) (Supp.const _) (by simp) (hN _ _ _) (by simp) (by simp) (fun m hm => hm) .nil
      · rw [if_neg hgt, if_neg hgt]
        exact OK.give (Q := fun _ => True) ∅ (by simp) (Supp.const _) (by simp) (hN _ _ _) (by simp) rfl (fun m hm => ⟨trivial, hm⟩) .nil
    · rw [if_neg hc2] at hx
      simp only [if_neg hc2]
      by_cases hc3 : i + b.length ≥ start
      · rw [if_pos hc3] at hx
        simp only [if_pos hc3]
        have hf : fb = false := by
          cases fb with
          | false => rfl
          | true => exact absurd hc3 (hc1 rfl)
        have hkn := h2 (hnf hf)
        have hcap : (buf ++ selectRows ch b).length ≤ cap := by
          by_contra hcc
          rw [if_neg hcc] at hx
          simp [Trace.raise] at hx
        rw [if_pos hcap] at hx ⊢
        simp only at hx
        have hB : (buf ++ selectRows ch b).length = buf.length + b.length := by rw [List.length_append, selectRows_length]
        refine ⟨fun hy => by simp at hy, fun s' hs' => ?_⟩
        simp only [Option.some.injEq] at hs'
        refine ⟨⟨_, i + b.length, fb⟩, ∅, _, ⟨?_, rfl, hx, by simp [hf], fun _ => hnf hf, R.drop num, hbs, hRd.1, hRd.2⟩, rfl, ?_⟩
        · have := flush_len (.own p 0) num (buf ++ selectRows ch b)
          rw [hB] at this
          rw [← hs', this]
        · intro rest os hrest
          rw [List.cons_append]
          have hfl := (flush_ok (own := own) p hC (fun x => absurd x hkn) hrest)
          rw [hB] at hfl
          have hdis : Disjoint (View.mk (.own p 0) buf.length b.length).cells ((View.mk (.own p 0) 0 buf.length).cells ∪ (pathCells (0 :: p) ∪ dataCells)) := by
            rw [Set.disjoint_union_right]
            refine ⟨?_, hD _ _ _⟩
            rw [Set.disjoint_left]
            intro c hc hc'
            have h1 := hc.2.1
            have h2 := hc'.2.2
            simp only at h1 h2
            omega
          refine OK.put (C := fun m => m.read ⟨.own p 0, 0, buf.length⟩ = buf ∧ C m) (rows := _) _
            (Set.union_subset ((hN _ _ _).trans Set.subset_union_left) hU)
            ((Supp.read Set.subset_union_left _).and (hC.mono Set.subset_union_right)) hdis (hN _ _ _) (by simp)
            (selectRows_length ch b) (fun m hm => ⟨hm, by rw [hr m hm.2]⟩) (hfl.pre fun m hm => ⟨?_, hm.1.2⟩)
          rw [read_split, hm.1.1, Nat.zero_add, hm.2]
      · rw [if_neg hc3] at hx
        simp only [if_neg hc3]
        have hcap : buf.length ≤ cap := by
          by_contra hcc
          rw [if_neg hcc] at hx
          simp [Trace.raise] at hx
        rw [if_pos hcap] at hx ⊢
        simp only at hx
        refine ⟨fun hy => by simp at hy, fun s' hs' => ?_⟩
        simp only [Option.some.injEq] at hs'
        have hbk : keep → buf.length < num := by
          intro hk
          cases fb with
          | false => exact absurd hk (h2 (hnf rfl))
          | true => rw [(hfb rfl).1]; exact hn
        refine ⟨⟨_, i + b.length, fb⟩, ∅, _, ⟨?_, rfl, hx, ?_, hnf, R.drop num, hbs, hRd.1, hRd.2⟩, rfl, ?_⟩
        · rw [← hs', flush_len]
        · intro hf
          refine ⟨?_, .inr (show i + b.length < start by omega)⟩
          simp only [(hfb hf).1, maskFlush, List.length_nil, ge_iff_le]
          rw [if_neg (by omega)]
        · intro rest os hrest
          exact (flush_ok (own := own) p hC hbk hrest)

end Acoular
