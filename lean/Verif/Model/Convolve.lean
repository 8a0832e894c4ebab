import Verif.Model.Py
import Mathlib.Analysis.Fourier.ZMod

/-!
# Model: fast convolution (`acoular/tprocess.py`, `TimeConvolve`)

One channel at a time (the code treats channels separately).  `rfft`/`irfft` of real data of length `2*num` are modelled
by the full discrete Fourier transform of length `2*num`, of which they keep the non-redundant half; exact arithmetic.
-/

namespace Acoular

/-- Spectrum of `2*num` samples (the list is extended by zeros). -/
noncomputable def spectrum (num : ℕ) [NeZero num] (a : List ℂ) : ZMod (2 * num) → ℂ :=
  ZMod.dft fun p : ZMod (2 * num) => a.getD p.val 0

/-- acoular/tprocess.py 1995-2012 (`_get__kernel_blocks`): spectra of the parts of the kernel, each extended by zeros;
`P = ceil(L / num)`. -/
noncomputable def kernelBlocks (num : ℕ) [NeZero num] (kernel : List ℂ) : List (ZMod (2 * num) → ℂ) :=
  (List.range ((kernel.length + num - 1) / num)).map fun i => spectrum num ((kernel.drop (i * num)).take num)

/-- acoular/tprocess.py 2084-2087 (`_append_to_fdl`): the new index is assigned to a local name and never returned, so
the caller's `idx` stays 0. -/
noncomputable def appendToFdl {S : Type*} (fdl : List S) (idx : ℕ) (s : S) : List S := fdl.set idx s

/-- acoular/tprocess.py 2090-2099 (`_spectral_sum`). -/
noncomputable def spectralSum {n : ℕ} (fdl kb : List (ZMod n → ℂ)) : ZMod n → ℂ := (List.zipWith (· * ·) fdl kb).sum

/-- acoular/tprocess.py 2060-2062: one block: the delay line and the second half of the inverse transform. -/
noncomputable def convStep (num : ℕ) [NeZero num] (kb fdl : List (ZMod (2 * num) → ℂ)) (buff : List ℂ) :
    List (ZMod (2 * num) → ℂ) × List ℂ :=
  let fdl' := appendToFdl fdl 0 (spectrum num buff)
  (fdl', (List.range num).map fun t : ℕ => ZMod.dft.symm (spectralSum fdl' kb) ((num + t : ℕ) : ZMod (2 * num)))

/-- A block extended by zeros to `num` samples. -/
def padTo (num : ℕ) (l : List ℂ) : List ℂ := l ++ List.replicate (num - l.length) 0

/-- acoular/tprocess.py 2059-2067 and, with empty blocks, 2069-2076: the blocks yielded, the delay line and the buffer. -/
noncomputable def convStream (num : ℕ) [NeZero num] (kb : List (ZMod (2 * num) → ℂ)) :
    List (ZMod (2 * num) → ℂ) → List ℂ → List (List ℂ) → List (List ℂ) × List (ZMod (2 * num) → ℂ) × List ℂ
  | fdl, buff, [] => ([], fdl, buff)
  | fdl, buff, temp :: l =>
    let s := convStep num kb fdl buff
    let r := convStream num kb s.1 (buff.drop num ++ padTo num temp) l
    (s.2 :: r.1, r.2)

/-- acoular/tprocess.py 2030-2081 (`result`) for one channel with kernel column `kernel`; `M` is `num_samples` of the
source, `blocks` what it yields.  Without a first block `next` raises StopIteration, which leaves a generator as
RuntimeError. -/
noncomputable def convChannel (num : ℕ) [NeZero num] (kernel : List ℂ) (M : ℕ) (blocks : List (List ℂ)) : Trace (List ℂ) :=
  let L := kernel.length
  let P := (L + num - 1) / num
  let Q := (M + num - 1) / num
  let R := (L + M - 1 + num - 1) / num
  let lastSize := (L + M - 1) % num
  let kb := kernelBlocks num kernel
  let fdl : List (ZMod (2 * num) → ℂ) := List.replicate P 0
  match blocks with
  | [] => .raise .runtimeError
  | temp :: rest =>
    let buff := List.replicate num 0 ++ padTo num temp
    if R = 1 then ⟨[(convStep num kb fdl buff).2.take lastSize], .returned⟩
    else
      let a := convStream num kb fdl buff rest
      let b := convStream num kb a.2.1 a.2.2 (List.replicate (R - Q) [])
      ⟨a.1 ++ b.1 ++ [(convStep num kb b.2.1 b.2.2).2.take lastSize], .returned⟩

/-- acoular/tprocess.py 1981-1993 (`_validate_kernel`) and 2014-2081 for all channels: `kernels` are the columns of the
kernel, `N` the number of channels of the source, `blocks c` the blocks of channel `c`.  `_spectral_sum` writes the
columns of the kernel only: in the other channels the spectrum stays zero, the blocks have the same sizes. -/
noncomputable def timeConvolve (num : ℕ) [NeZero num] (kernels : List (List ℂ)) (N M : ℕ) (blocks : ℕ → List (List ℂ)) :
    Except PyErr (ℕ → Trace (List ℂ)) :=
  if kernels.length ≠ 1 ∧ kernels.length ≠ N then .error .valueError
  else .ok fun c =>
    match kernels[c]? with
    | some k => convChannel num k M (blocks c)
    | none =>
      let t := convChannel num (kernels.headD []) M (blocks c)
      ⟨t.blocks.map fun b => b.map fun _ => 0, t.exit⟩

end Acoular
