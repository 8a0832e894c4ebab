import Verif.Model.XmlFiles
import Mathlib.Data.List.Perm.Basic

/-!
# C166: geometries, grids and calibration factors from files
-/

namespace Acoular

variable {K D : Type}

private theorem mapM_ok {α β : Type} (f : α → Except PyErr β) (g : α → β) (l : List α) (h : ∀ a ∈ l, f a = .ok (g a)) :
    l.mapM f = .ok (l.map g) := by
  induction l with
  | nil => rfl
  | cons a l ih =>
    rw [List.mapM_cons, h a (by simp), ih fun b hb => h b (by simp [hb])]
    rfl

private theorem mapM_error {α β : Type} (f : α → Except PyErr β) (e : PyErr) (l : List α) (a : α) (ha : a ∈ l) (h : f a = .error e)
    (hall : ∀ b ∈ l, (∃ v, f b = .ok v) ∨ f b = .error e) : l.mapM f = .error e := by
  induction l with
  | nil => cases ha
  | cons b l ih =>
    rw [List.mapM_cons]
    rcases hall b (by simp) with ⟨v, hv⟩ | hv
    · rw [hv]
      rcases List.mem_cons.1 ha with rfl | ha
      · rw [h] at hv; cases hv
      · rw [show l.mapM f = .error e from ih ha fun c hc => hall c (by simp [hc])]
        rfl
    · rw [hv]
      rfl

namespace Spec

/-- The element has this attribute, and its text stands for the number `v`. -/
def HasNumber (parse : String → Option K) (el : XmlElement) (name : String) (v : K) : Prop :=
  ∃ text, el.lookup name = some text ∧ parse text = some v

/-- The element has these three coordinates. -/
def AtPosition (parse : String → Option K) (el : XmlElement) (p : Fin 3 → K) : Prop :=
  HasNumber parse el "x" (p 0) ∧ HasNumber parse el "y" (p 1) ∧ HasNumber parse el "z" (p 2)

/-- Numbers of one digit, for the examples. -/
def oneDigit (text : String) : Option ℤ :=
  [("0", 0), ("1", 1), ("2", 2), ("3", 3), ("4", 4), ("5", 5), ("6", 6), ("7", 7), ("8", 8), ("9", 9)].lookup text

end Spec

open Spec

private theorem float_ok (parse : String → Option K) (el : XmlElement) (name : String) (v : K) (h : HasNumber parse el name v) :
    XmlElement.float parse el name = .ok v := by
  obtain ⟨t, h1, h2⟩ := h
  unfold XmlElement.float XmlElement.get
  rw [h1, Option.getD_some, h2]

private theorem xyz_ok (parse : String → Option K) (el : XmlElement) (p : Fin 3 → K) (h : AtPosition parse el p) :
    XmlElement.xyz parse el = .ok p := by
  unfold XmlElement.xyz
  rw [float_ok parse el _ _ h.1, float_ok parse el _ _ h.2.1, float_ok parse el _ _ h.2.2]
  refine congrArg Except.ok (funext fun i => ?_)
  match i with
  | 0 => rfl
  | 1 => rfl
  | 2 => rfl

private theorem forall₂_mapM (parse : String → Option K) (els : List XmlElement) (ps : List (Fin 3 → K))
    (h : List.Forall₂ (AtPosition parse) els ps) : els.mapM (XmlElement.xyz parse) = .ok ps := by
  induction h with
  | nil => rfl
  | cons h _ ih =>
    rw [List.mapM_cons, xyz_ok parse _ _ h, ih]
    rfl

/-- **C166: positions.** A geometry read from a file has the positions of the elements, in the order of the file; so has a grid, and the
subgrid of every point is the attribute of its own element (empty if it has none). -/
theorem C166_positions (parse : String → Option K) (els : List XmlElement) (ps : List (Fin 3 → K)) (hne : els ≠ [])
    (h : List.Forall₂ (AtPosition parse) els ps) :
    micImport parse (.pos els) = .ok ps ∧
      ∃ names, gridImport parse (.pos els) = .ok (ps, names) ∧ names.length = ps.length ∧
        ∀ (i : ℕ) (el : XmlElement), els[i]? = some el → names[i]? = some ((el.lookup "subgrid").getD "") := by
  have hp : ps ≠ [] := by
    rintro rfl
    cases h
    exact hne rfl
  have hm := forall₂_mapM parse els ps h
  refine ⟨?_, els.map fun el => XmlElement.get el "subgrid", ?_, ?_, ?_⟩
  · simp only [micImport, hm, bind, Except.bind, if_neg hp]
  · simp only [gridImport, hm, bind, Except.bind, if_neg hp]
  · rw [List.length_map, h.length_eq]
  · intro i el he
    rw [List.getElem?_map, he]
    rfl

/-- The hypotheses of `C166_positions` are met. -/
example : List.Forall₂ (AtPosition oneDigit) [[("Name", "P1"), ("x", "1"), ("y", "2"), ("z", "3")]] [![1, 2, 3]] :=
  .cons ⟨⟨"1", rfl, by decide +kernel⟩, ⟨"2", rfl, by decide +kernel⟩, ⟨"3", rfl, by decide +kernel⟩⟩ .nil

/-- **C166: calibration factors** in the order of the file. -/
theorem C166_factors (parse : String → Option K) (els : List XmlElement) (vs : List K)
    (h : List.Forall₂ (fun el v => HasNumber parse el "factor" v) els vs) : calibImport parse (.pos els) = .ok vs := by
  change els.mapM (fun el => XmlElement.float parse el "factor") = .ok vs
  induction h with
  | nil => rfl
  | cons h _ ih =>
    rw [List.mapM_cons, float_ok parse _ _ _ h, ih]
    rfl

/-- The hypotheses of `C166_factors` are met. -/
example : List.Forall₂ (fun el v => HasNumber oneDigit el "factor" v) [[("Name", "P1"), ("factor", "5")]] [5] :=
  .cons ⟨"5", rfl, by decide +kernel⟩ .nil

/-- **C166: what cannot be read is not guessed.** A position without one of its coordinates, or with a text that is no number, makes the
import fail; so does a factor. -/
theorem C166_incomplete (parse : String → Option K) (hempty : parse "" = none) (els : List XmlElement) (el : XmlElement) (hel : el ∈ els)
    (name : String) (hbad : ∀ v, ¬ HasNumber parse el name v) :
    ((name = "x" ∨ name = "y" ∨ name = "z") → micImport parse (.pos els) = .error .valueError ∧
      gridImport parse (.pos els) = .error .valueError) ∧
    (name = "factor" → calibImport parse (.pos els) = .error .valueError) := by
  have hf : XmlElement.float parse el name = .error .valueError := by
    unfold XmlElement.float XmlElement.get
    cases ht : el.lookup name with
    | none => rw [Option.getD_none, hempty]
    | some t =>
      rw [Option.getD_some]
      cases hp : parse t with
      | none => rfl
      | some v => exact absurd ⟨t, ht, hp⟩ (hbad v)
  have hall : ∀ (b : XmlElement) (a : String), (∃ v, XmlElement.float parse b a = .ok v) ∨ XmlElement.float parse b a = .error .valueError := by
    intro b a
    unfold XmlElement.float
    cases parse (XmlElement.get b a) with
    | none => exact Or.inr rfl
    | some v => exact Or.inl ⟨v, rfl⟩
  have hxyz : ∀ b : XmlElement, (∃ v, XmlElement.xyz parse b = .ok v) ∨ XmlElement.xyz parse b = .error .valueError := by
    intro b
    unfold XmlElement.xyz
    rcases hall b "x" with ⟨x, hx⟩ | hx <;> rw [hx]
    · rcases hall b "y" with ⟨y, hy⟩ | hy <;> rw [hy]
      · rcases hall b "z" with ⟨z, hz⟩ | hz <;> rw [hz]
        · exact Or.inl ⟨_, rfl⟩
        · exact Or.inr rfl
      · exact Or.inr rfl
    · exact Or.inr rfl
  constructor
  · intro hn
    have hb : XmlElement.xyz parse el = .error .valueError := by
      rcases hxyz el with ⟨v, hv⟩ | hv
      · exfalso
        unfold XmlElement.xyz at hv
        rcases hn with rfl | rfl | rfl
        · rw [hf] at hv; cases hv
        · rcases hall el "x" with ⟨x, hx⟩ | hx
          · rw [hx, hf] at hv; cases hv
          · rw [hx] at hv; cases hv
        · rcases hall el "x" with ⟨x, hx⟩ | hx
          · rcases hall el "y" with ⟨y, hy⟩ | hy
            · rw [hx, hy, hf] at hv; cases hv
            · rw [hx, hy] at hv; cases hv
          · rw [hx] at hv; cases hv
      · exact hv
    have hm := mapM_error (XmlElement.xyz parse) .valueError els el hel hb fun b _ => hxyz b
    simp only [micImport, gridImport, hm, bind, Except.bind, and_self]
  · rintro rfl
    exact mapM_error _ .valueError els el hel hf fun b _ => hall b _

/-- The hypotheses of `C166_incomplete` are met: `z` is missing. -/
example : oneDigit "" = none ∧ ∀ v, ¬ HasNumber oneDigit [("x", "1"), ("y", "2")] "z" v :=
  ⟨by decide +kernel, fun v ⟨t, h, _⟩ => by cases h⟩

/-- **C166: the file assigned last is the one used.** After any history, assigning the name of another file that can be read makes the
object take the content which this file has at that moment, and keep it whatever happens to the files afterwards. -/
theorem C166_current_partial (imp : XmlFile → Except PyErr D) (w0 : FileWorld D) (history : List (FileAct D)) (name : String) (doc : XmlFile)
    (d : D) (hdoc : (w0.acts imp history).disk name = some doc) (hd : imp doc = .ok d) (hnew : name ≠ (w0.acts imp history).file)
    (later : List (String × Option XmlFile)) :
    let w := w0.acts imp history
    let w' := w0.acts imp (history ++ .setFile name :: later.map fun f => .rewrite f.1 f.2)
    (w.act imp (.setFile name)).2 = none ∧ w'.data = d ∧ w'.file = name := by
  intro w w'
  have h1 : w.act imp (.setFile name) = ({ w with file := name, data := d }, none) := by
    simp only [FileWorld.act, hdoc, w, if_neg hnew, hd]
  have h2 : ∀ (later : List (String × Option XmlFile)) (v : FileWorld D),
      (v.acts imp (later.map fun f => .rewrite f.1 f.2)).data = v.data ∧ (v.acts imp (later.map fun f => .rewrite f.1 f.2)).file = v.file := by
    intro later
    induction later with
    | nil => exact fun v => ⟨rfl, rfl⟩
    | cons f l ih => exact fun v => ih _
  have h3 : w' = (w.act imp (.setFile name)).1.acts imp (later.map fun f => .rewrite f.1 f.2) := by
    simp only [w', w, FileWorld.acts, List.foldl_append, List.foldl_cons]
  rw [h3, h1]
  exact ⟨rfl, (h2 later _).1, (h2 later _).2⟩

/-- The hypotheses of `C166_current_partial` are met. -/
example : (FileWorld.acts (calibImport oneDigit) ⟨fun _ => none, "", []⟩ [.rewrite "a.xml" (some (.pos [[("factor", "2")]]))]).disk "a.xml" =
      some (.pos [[("factor", "2")]]) ∧ calibImport oneDigit (.pos [[("factor", "2")]]) = .ok [2] ∧
    "a.xml" ≠ (FileWorld.acts (calibImport oneDigit) ⟨fun _ => none, "", []⟩ [.rewrite "a.xml" (some (.pos [[("factor", "2")]]))]).file :=
  ⟨rfl, by decide +kernel, by decide⟩

/-- **C166: a file that does not exist** is refused, and nothing changes. -/
theorem C166_missing (imp : XmlFile → Except PyErr D) (w : FileWorld D) (name : String) (h : w.disk name = none) :
    w.act imp (.setFile name) = (w, some .traitError) := by
  simp only [FileWorld.act, h]

/-- The hypothesis of `C166_missing` is met. -/
example : (⟨fun _ => none, "", []⟩ : FileWorld (List ℤ)).disk "a.xml" = none := rfl

/-- **C166 fails for files that cannot be read**, of all three kinds: the assignment succeeds, the object has the new name and the old
content. -/
theorem C166_unreadable_violated (imp : XmlFile → Except PyErr D) (w : FileWorld D) (name : String) (doc : XmlFile) (e : PyErr)
    (hdoc : w.disk name = some doc) (he : imp doc = .error e) (hnew : name ≠ w.file) :
    (w.act imp (.setFile name)).2 = none ∧ (w.act imp (.setFile name)).1.file = name ∧ (w.act imp (.setFile name)).1.data = w.data := by
  simp only [FileWorld.act, hdoc, if_neg hnew, he, and_self]

/-- The hypotheses of `C166_unreadable_violated` are met: no elements (`micImport`, `gridImport`), not well-formed (`calibImport`). A file
without elements is a valid file of no calibration factors. -/
example (parse : String → Option ℤ) : micImport parse (.pos []) = .error .indexError ∧ gridImport parse (.pos []) = .error .indexError ∧
    calibImport parse .malformed = .error .valueError ∧ calibImport parse (.pos []) = .ok [] := ⟨rfl, rfl, rfl, rfl⟩

/-- **C166 fails for a file that was written again**: assigning its name once more does not read it. -/
theorem C166_reassign_violated (imp : XmlFile → Except PyErr D) (w : FileWorld D) (content : XmlFile) :
    let w' := (w.act imp (.rewrite w.file (some content))).1
    w'.disk w.file = some content ∧ (w'.act imp (.setFile w.file)).2 = none ∧ (w'.act imp (.setFile w.file)).1.data = w.data := by
  simp [FileWorld.act]

/-- **C166 fails for names**: a file of the geometry and a file of the calibration that list the same microphones in different order. The
factor of one microphone is applied to the other. -/
theorem C166_names_violated : ∃ geometry calibration : List XmlElement,
    (geometry.map fun el => XmlElement.get el "Name").Perm (calibration.map fun el => XmlElement.get el "Name") ∧
    (geometry.map fun el => XmlElement.get el "Name").Nodup ∧
    micImport oneDigit (.pos geometry) = .ok [![0, 0, 0], ![1, 0, 0]] ∧
    calibImport oneDigit (.pos calibration) = .ok [7, 5] ∧
    ∃ factor, (calibration.find? fun el => XmlElement.get el "Name" == XmlElement.get (geometry.getD 0 []) "Name") = some factor ∧
      XmlElement.get factor "factor" = "5" := by
  refine ⟨[[("Name", "A"), ("x", "0"), ("y", "0"), ("z", "0")], [("Name", "B"), ("x", "1"), ("y", "0"), ("z", "0")]],
    [[("Name", "B"), ("factor", "7")], [("Name", "A"), ("factor", "5")]], ?_, by decide,
    (C166_positions oneDigit _ _ (by simp) (.cons ⟨⟨"0", rfl, rfl⟩, ⟨"0", rfl, rfl⟩, ⟨"0", rfl, rfl⟩⟩
      (.cons ⟨⟨"1", rfl, rfl⟩, ⟨"0", rfl, rfl⟩, ⟨"0", rfl, rfl⟩⟩ .nil))).1,
    C166_factors oneDigit _ _ (.cons ⟨"7", rfl, rfl⟩ (.cons ⟨"5", rfl, rfl⟩ .nil)),
    [("Name", "A"), ("factor", "5")], by decide +kernel, rfl⟩
  exact List.Perm.swap ..

/-- **C166 fails for the names of subgrids** when positions are assigned: they stay those of the file. -/
theorem C166_subgrids_violated (parse : String → Option K) (w : FileWorld (List (Fin 3 → K) × List String)) (pos : List (Fin 3 → K))
    (h : pos.length ≠ w.data.2.length) :
    let w' := (w.act (gridImport parse) (.change fun d => (pos, d.2))).1
    w'.data.1 = pos ∧ w'.data.2.length ≠ w'.data.1.length :=
  ⟨rfl, fun e => h e.symm⟩

/-- The hypothesis of `C166_subgrids_violated` is met. -/
example : ([] : List (Fin 3 → ℤ)).length ≠ (⟨fun _ => none, "a.xml", [fun _ => 0], ["left"]⟩ : FileWorld (List (Fin 3 → ℤ) × List String)).data.2.length := by
  decide

end Acoular
