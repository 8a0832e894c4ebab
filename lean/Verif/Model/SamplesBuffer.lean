import Verif.Model.Py

/-!
# Model of `SamplesBuffer` (acoular/process.py 720-975)
-/

namespace Acoular

/-- `shift_index_by`, `acoular/process.py` 797-808. -/
inductive ShiftBy
  | resultNum | num
  deriving DecidableEq, Repr

/-- `_buffer`, `_index`, `_empty_source` and what the source generator will still deliver. -/
structure SBuf (α : Type _) where
  buf : List α
  index : Nat
  src : List (List α)
  empty : Bool
  deriving DecidableEq, Repr

/-- `_create_new_buffer`, `acoular/process.py` 828-831 (`z` is the zero row). -/
def SBuf.create {α : Type _} (z : α) (length : Nat) (src : List (List α)) : SBuf α :=
  ⟨List.replicate length z, length, src, false⟩

/-- `level`, `acoular/process.py` 825-826, as a natural number: 0 for a non-positive level. -/
def SBuf.level {α : Type _} (s : SBuf α) : Nat := s.buf.length - s.index

/-- `_write_to_buffer`, `acoular/process.py` 833-837, with numpy's rules for the slice bounds: for
`0 < ns < length` the buffer is shifted; for `ns == length` the slice `[-0:]` is the whole buffer, which
only fits into the empty slice `[0:0]` by broadcasting if it has one row; other cases do not fit. -/
def SBuf.write {α : Type _} (s : SBuf α) (data : List α) : Except PyErr (SBuf α) :=
  let ns := data.length
  if 0 < ns ∧ ns < s.buf.length then .ok { s with buf := s.buf.drop ns ++ data, index := s.index - ns }
  else if ns = 1 ∧ s.buf.length = 1 then .ok { s with buf := data, index := s.index - ns }
  else .error .valueError

/-- `while self.result_num > self.length: self.increase_buffer(snum)`, `acoular/process.py` 839-855 and
925-927, in closed form: the smallest number of steps of `snum` rows that reaches `result_num`. -/
def SBuf.increase {α : Type _} (z : α) (snum : Nat) (resultNum : Option Nat) (s : SBuf α) : SBuf α :=
  match resultNum with
  | none => s
  | some r =>
    let add := (r - s.buf.length + snum - 1) / snum * snum
    { s with buf := List.replicate add z ++ s.buf, index := s.index + add }

/-- One round of `fill_buffer` up to its `yield`, `acoular/process.py` 924-933, recursion over the
blocks the source still has. -/
def SBuf.fill {α : Type _} (z : α) (snum : Nat) (resultNum : Option Nat) :
    List (List α) → SBuf α → Except PyErr (SBuf α)
  | src, s =>
    if s.index ≥ snum then
      let s1 := s.increase z snum resultNum
      match src with
      | [] => .ok { s1 with src := [], empty := true }
      | b :: rest =>
        match s1.write b with
        | .error e => .error e
        | .ok s2 => SBuf.fill z snum resultNum rest { s2 with src := rest }
    else .ok { s with src := src }

/-- `read_from_buffer`, `acoular/process.py` 857-892. -/
def SBuf.read {α : Type _} (num : Nat) (resultNum : Option Nat) (shift : ShiftBy) (s : SBuf α) : List α × SBuf α :=
  let r0 := resultNum.getD num
  let rnum := if s.level ≥ r0 then r0 else s.level
  let data := (s.buf.drop s.index).take rnum
  (data, { s with index := s.index + (match shift with | .resultNum => rnum | .num => num) })

/-- The two loops of `SamplesBuffer.result`, `acoular/process.py` 969-975: while the source is not empty
one round of filling and one read per iteration (leaving the loop if nothing is available), then reads
until the buffer is used up. -/
def SBuf.loop {α : Type _} (z : α) (num snum : Nat) (resultNum : Option Nat) (shift : ShiftBy) :
    (fuel : Nat) → SBuf α → Trace (List α)
  | 0, _ => .diverge
  | fuel + 1, s =>
    if s.empty then
      if s.level > 0 then
        let r := s.read num resultNum shift
        (SBuf.loop z num snum resultNum shift fuel r.2).cons r.1
      else .stop
    else match s.fill z snum resultNum s.src with
      | .error e => .raise e
      | .ok s1 =>
        if s1.level > 0 then
          let r := s1.read num resultNum shift
          (SBuf.loop z num snum resultNum shift fuel r.2).cons r.1
        else .stop

/-- `SamplesBuffer.result`, `acoular/process.py` 935-975.  `source n` = `list(self.source.result(n))`. -/
def SamplesBuffer.result {α : Type _} (z : α) (length : Nat) (sourceNum resultNum : Option Nat) (shift : ShiftBy)
    (source : Nat → List (List α)) (num fuel : Nat) : Trace (List α) :=
  let snum := sourceNum.getD num
  SBuf.loop z num snum resultNum shift fuel (SBuf.create z length (source snum))

end Acoular
