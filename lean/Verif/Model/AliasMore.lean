import Verif.Model.Alias
import Verif.Model.Spectra
import Verif.Model.SamplesBuffer

/-!
# Shared arrays in `RFFT`, `SamplesBuffer` and `IRFFT`

The value models are in `Verif/Model/Spectra.lean` and `Verif/Model/SamplesBuffer.lean`.
-/

namespace Acoular

/-- `RFFT.result`, `acoular/fprocess.py` 156-170, as actions on the array `fftdata` (identity `t`, `num` rows); `snaps` are the transformed
windows, `i` the loop counter, `j` the last value of `i % num`. -/
def RFFT.acts {V : Type*} (t num : Nat) : (i j : Nat) → List V → List (Act V)
  | _, j, [] => if j < num - 1 then [.yield ⟨t, 0, j + 1⟩] else []
  | i, _, s :: rest =>
    .assign ⟨t, i % num, 1⟩ [s] :: ((if i % num = num - 1 then [.yield ⟨t, 0, num⟩] else []) ++ RFFT.acts t num (i + 1) (i % num) rest)

/-- `_write_to_buffer` in `fill_buffer`, `acoular/process.py` 833-837 and 924-933, as actions on the array `_buffer` (identity `t`): both
assignments of a call are one action that gives the whole array its new content.  `result_num` is not set, so the array is never replaced. -/
def SBuf.fillActs {V : Type*} (t : Nat) (snum : Nat) : List (List V) → SBuf V → List (Act V)
  | src, s =>
    if s.index ≥ snum then
      match src with
      | [] => []
      | b :: rest =>
        match s.write b with
        | .error _ => []
        | .ok s2 => .assign ⟨t, 0, s2.buf.length⟩ s2.buf :: SBuf.fillActs t snum rest { s2 with src := rest }
    else []

/-- `read_from_buffer`, `acoular/process.py` 885-892: the result is a view of `_buffer`. -/
def SBuf.readRef {V : Type*} (t num : Nat) (s : SBuf V) : Ref := ⟨t, s.index, if s.level ≥ num then num else s.level⟩

/-- The two loops of `SamplesBuffer.result`, `acoular/process.py` 969-975, as actions (`result_num` not set, `shift_index_by = 'result_num'`). -/
def SBuf.loopActs {V : Type*} (z : V) (t num snum : Nat) : (fuel : Nat) → SBuf V → List (Act V)
  | 0, _ => []
  | fuel + 1, s =>
    if s.empty then
      if s.level > 0 then .yield (s.readRef t num) :: SBuf.loopActs z t num snum fuel (s.read num none .resultNum).2 else []
    else SBuf.fillActs t snum s.src s ++ match s.fill z snum none s.src with
      | .error _ => []
      | .ok s1 => if s1.level > 0 then .yield (s1.readRef t num) :: SBuf.loopActs z t num snum fuel (s1.read num none .resultNum).2 else []

/-- `SamplesBuffer.result`, `acoular/process.py` 935-975, as actions on `_buffer`; `source` = the blocks of the source.  `IRFFT.result` hands on
these views (`acoular/fprocess.py` 265-268). -/
def SamplesBuffer.acts {V : Type*} (z : V) (t length num snum : Nat) (source : List (List V)) (fuel : Nat) : List (Act V) :=
  .assign ⟨t, 0, length⟩ (List.replicate length z) :: SBuf.loopActs z t num snum fuel (SBuf.create z length source)

end Acoular
