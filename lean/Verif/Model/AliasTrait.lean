import Verif.Model.Py
import Mathlib.Tactic.TypeStar
import Mathlib.Data.Nat.Notation

/-!
# Model: renamed traits (`acoular/deprecation.py`)

A class is given by its traits (`has`), and by what reading and setting them does to an object of type `S`.  The
warning issued on each use is not modelled.
-/

namespace Acoular

variable {N S V : Type*} [DecidableEq N]

/-- Traits of a class that are not aliases: which there are, reading (may raise), setting (may raise; the object is
then unchanged). -/
structure BaseCls (N S V : Type*) where
  has : N → Bool
  get : S → N → Except PyErr V
  set : S → N → V → Except PyErr S

/-- A class with alias properties: `alias old = some (new, readOnly)`. -/
structure Cls (N S V : Type*) where
  base : BaseCls N S V
  alias : N → Option (N × Bool)

/-- acoular/deprecation.py 72-73 (`cls.class_traits()`). -/
def Cls.has (c : Cls N S V) (n : N) : Bool := c.base.has n || (c.alias n).isSome

/-- `read_only` argument of the decorator. -/
inductive ReadOnly (N : Type*) where
  | all (b : Bool)
  | these (l : List N)

/-- acoular/deprecation.py 59-60. -/
def ReadOnly.current (r : ReadOnly N) (old : N) : Bool :=
  match r with
  | .these l => decide (old ∈ l)
  | .all b => b

/-- acoular/deprecation.py 58-83: one turn of the loop over `old2new.items()`. -/
def aliasStep (r : ReadOnly N) (c : Cls N S V) (e : N × N) : Except PyErr (Cls N S V) :=
  if c.has e.2 then
    .ok ⟨c.base, fun n => if n = e.1 then some (e.2, r.current e.1) else c.alias n⟩
  else .error .valueError

/-- acoular/deprecation.py 34-83 (`decorator`). -/
def deprecatedAlias (r : ReadOnly N) : List (N × N) → Cls N S V → Except PyErr (Cls N S V)
  | [], c => .ok c
  | e :: l, c =>
    match aliasStep r c e with
    | .error x => .error x
    | .ok c' => deprecatedAlias r l c'

/-- acoular/deprecation.py 43-45: `getattr`; the fuel is the recursion limit (RecursionError is a RuntimeError). -/
def getAttr (c : Cls N S V) : ℕ → S → N → Except PyErr V
  | 0, _, _ => .error .runtimeError
  | k + 1, s, n =>
    match c.alias n with
    | some (new, _) => getAttr c k s new
    | none => c.base.get s n

/-- acoular/deprecation.py 47-54: `setattr`; a property without setter raises TraitError. -/
def setAttr (c : Cls N S V) : ℕ → S → N → V → Except PyErr S
  | 0, _, _, _ => .error .runtimeError
  | k + 1, s, n, v =>
    match c.alias n with
    | some (_, true) => .error .traitError
    | some (new, false) => setAttr c k s new v
    | none => c.base.set s n v

/-- What a user does with an object. -/
inductive AttrOp (N V : Type*) where
  | get (n : N)
  | set (n : N) (v : V)

/-- What the user sees. -/
inductive AttrOut (V : Type*) where
  | value (v : V)
  | done
  | raised (e : PyErr)

/-- One operation on an object of the decorated class. -/
def attrOp (c : Cls N S V) (fuel : ℕ) (s : S) : AttrOp N V → S × AttrOut V
  | .get n =>
    match getAttr c fuel s n with
    | .ok v => (s, .value v)
    | .error e => (s, .raised e)
  | .set n v =>
    match setAttr c fuel s n v with
    | .ok s' => (s', .done)
    | .error e => (s, .raised e)

/-- A history of operations with everything seen. -/
def attrRun (c : Cls N S V) (fuel : ℕ) : S → List (AttrOp N V) → S × List (AttrOut V)
  | s, [] => (s, [])
  | s, o :: l =>
    let r := attrOp c fuel s o
    let t := attrRun c fuel r.1 l
    (t.1, r.2 :: t.2)

end Acoular
