import Verif.Model.Py

/-!
# Model of the simple block-wise generators

A block of shape `(ns, nc)` is a list of `ns` rows.
-/

namespace Acoular

/-- The index expression `self.channels`: `none` is `slice(0, None, None)` (all channels), `some l` is
`array(l)`.  Models `acoular/tprocess.py` 182-186 (`MaskedTimeOut._get_channels`), identical text in
`acoular/sources.py` 615-619 (`MaskedTimeSamples`) and `acoular/calib.py` 108-112 (`Calib`). -/
def channelMask (invalid : List Int) (total : Nat) : Option (List Nat) :=
  if invalid.length = 0 then none
  else some ((List.range total).filter fun i => decide ((i : Int) ∉ invalid))

/-- `_get_num_channels`, `acoular/tprocess.py` 189-192 and `acoular/sources.py` 622-625. -/
def maskedNumChannels (invalid : List Int) (total : Nat) : Nat :=
  match channelMask invalid total with
  | none => total
  | some l => l.length

/-- `row[channels]` for one row.  Rows have `total` entries, so every index in the mask is valid. -/
def applyMask {K : Type _} (mask : Option (List Nat)) (row : List K) : List K :=
  match mask with
  | none => row
  | some l => l.filterMap fun i => row[i]?

/-- The `while i < stop: yield data[i : i + num]; i += num` loop shared by several classes
(`acoular/sources.py` 512-521; `acoular/process.py` 281-287; `acoular/tprocess.py` 1588-1592).
`fuel` bounds the number of iterations; running out models an infinite loop (which is what happens in
Python for `num = 0`). -/
def blockLoop {α : Type _} (data : List α) (num : Nat) : (fuel i : Nat) → Trace (List α)
  | 0, i => if i < data.length then .diverge else .stop
  | fuel + 1, i =>
    if i < data.length then (blockLoop data num fuel (i + num)).cons (slice data i (i + num))
    else .stop

/-- `TimeSamples.result`, `acoular/sources.py` 446-521.  `calib = none`: no calibration object;
`calib = some c`: calibration object whose `data` is `c` (so `num_mics = len c`,
`acoular/calib.py` 103-105).  `numCh` is `num_channels`, set from the data shape
(`acoular/sources.py` 428-432).  Warnings and the checksum access are left out. -/
def TimeSamples.result {K : Type _} [Mul K] (data : List (List K)) (numCh : Nat)
    (calib : Option (List K)) (num : Nat) : Trace (List (List K)) :=
  if data.length = 0 then .raise .osError
  else match calib with
    | none => blockLoop data num data.length 0
    | some c =>
      if c.length = numCh then
        blockLoop (data.map fun row => List.zipWith (· * ·) row c) num data.length 0
      else .raise .valueError

/-- The `while i < stop` loop of `MaskedTimeSamples.result`, `acoular/sources.py` 744-746. -/
def maskedLoop {α : Type _} (data : List α) (stop num : Nat) : (fuel i : Nat) → Trace (List α)
  | 0, i => if i < stop then .diverge else .stop
  | fuel + 1, i =>
    if i < stop then (maskedLoop data stop num fuel (i + num)).cons (slice data i (min (i + num) stop))
    else .stop

/-- `MaskedTimeSamples.result`, `acoular/sources.py` 664-746.  An empty index array is a float array
in numpy, so indexing with it raises `IndexError` before the first block is yielded. -/
def MaskedTimeSamples.result {K : Type _} [Mul K] (data : List (List K)) (numChTotal : Nat)
    (start : Int) (stop : Option Int) (invalid : List Int) (calib : Option (List K)) (num : Nat) :
    Trace (List (List K)) :=
  let se := sliceIndices start stop data.length
  let mask := channelMask invalid numChTotal
  if se.1 ≥ se.2 then .raise .osError
  else
    let run (cal : List K → List K) : Trace (List (List K)) :=
      if mask = some [] then .raise .indexError
      else maskedLoop (data.map fun row => cal (applyMask mask row)) se.2 num data.length se.1
    match calib with
    | none => run id
    | some c =>
      if c.length = numChTotal then run fun row => List.zipWith (· * ·) row (applyMask mask c)
      else if c.length = maskedNumChannels invalid numChTotal then
        run fun row => List.zipWith (· * ·) row c
      else if c.length = 0 then run id
      else .raise .valueError

/-- State of the loop in `MaskedTimeOut.result`: `buf` is `buf[:bsize]`, `i` the number of source rows
read, `fblock` as in the code. -/
structure MaskState (α : Type _) where
  buf : List α
  i : Nat
  fblock : Bool

/-- `if bsize >= num: yield buf[:num]; buf[:bsize-num] = buf[num:bsize]; bsize -= num`
(`acoular/tprocess.py` 251-254): yields and new buffer content. -/
def maskFlush {α : Type _} (num : Nat) (buf : List α) : List (List α) × List α :=
  if buf.length ≥ num then ([buf.take num], buf.drop num) else ([], buf)

/-- The loop of `MaskedTimeOut.result`, `acoular/tprocess.py` 229-254, over the (channel-masked) source
blocks.  `cap = num + offset` is the number of rows of the buffer; an assignment that does not fit
raises `ValueError` (numpy shape mismatch).  Nat subtractions stand for the Python integer
subtractions, which are non-negative wherever they are used as a slice bound (they are in the
situations the loop can reach). -/
def maskLoop {α : Type _} (start stop num cap : Nat) : List (List α) → MaskState α → Trace (List α)
  | [], _ => .stop
  | block :: rest, s =>
    let bs := block.length
    let i := s.i + bs
    if s.fblock && decide (i ≥ start) then
      if i ≥ stop then .cons (slice block (bs - (i - start)) (bs - (i - stop))) .stop
      else
        let new := block.drop (bs - (i - start))
        if new.length ≤ cap ∧ new.length = i - start then
          let fl := maskFlush num new
          let t := maskLoop start stop num cap rest ⟨fl.2, i, false⟩
          ⟨fl.1 ++ t.blocks, t.exit⟩
        else .raise .valueError
    else if i ≥ stop then
      let buf := s.buf ++ block.take (bs - (i - stop))
      if buf.length ≤ cap then
        if buf.length > num then .cons (buf.take num) (.cons (buf.drop num) .stop)
        else .cons buf .stop
      else .raise .valueError
    else
      let buf := if i ≥ start then s.buf ++ block else s.buf
      if buf.length ≤ cap then
        let fl := maskFlush num buf
        let t := maskLoop start stop num cap rest ⟨fl.2, i, s.fblock⟩
        ⟨fl.1 ++ t.blocks, t.exit⟩
      else .raise .valueError

/-- `MaskedTimeOut._get_num_samples`, `acoular/tprocess.py` 195-197 (and
`acoular/sources.py` 628-630): Python integer difference. -/
def maskedNumSamples (start : Int) (stop : Option Int) (total : Nat) : Int :=
  let se := sliceIndices start stop total
  (se.2 : Int) - (se.1 : Int)

/-- `MaskedTimeOut.result`, `acoular/tprocess.py` 199-258.  `total = num_samples_total`,
`blocks = list(self.source.result(num))`.  `offset = -start % num` (Python modulo), replaced by `num`
when 0. -/
def MaskedTimeOut.result {K : Type _} (blocks : List (List (List K))) (total numChTotal : Nat)
    (start : Int) (stop : Option Int) (invalid : List Int) (num : Nat) : Trace (List (List K)) :=
  let se := sliceIndices start stop total
  let mask := channelMask invalid numChTotal
  if se.1 ≥ se.2 then .raise .osError
  else if mask = some [] then .raise .indexError
  else
    let masked := blocks.map fun b => b.map (applyMask mask)
    if se.1 ≠ 0 ∨ se.2 ≠ total then
      let o := ((-(se.1 : Int)) % (num : Int)).toNat
      let offset := if o = 0 then num else o
      maskLoop se.1 se.2 num (num + offset) masked ⟨[], 0, true⟩
    else ⟨masked, .returned⟩

/-- `ChannelMixer.result`, `acoular/tprocess.py` 282-307.  `weights = []` means "not set"; one weight
is broadcast to all channels. -/
def ChannelMixer.result {K : Type _} [Add K] [Mul K] [OfNat K 0] (blocks : List (List (List K)))
    (numCh : Nat) (weights : List K) : Trace (List (List K)) :=
  let mix (row : List K) : List K :=
    match weights with
    | [] => [row.foldr (· + ·) 0]
    | [w] => [(row.map (w * ·)).foldr (· + ·) 0]
    | ws => [(List.zipWith (· * ·) ws row).foldr (· + ·) 0]
  if weights.length ≠ 0 ∧ weights.length ≠ numCh ∧ weights.length ≠ 1 then .raise .valueError
  else ⟨blocks.map (List.map mix), .returned⟩

/-- `TimePower.result`, `acoular/tprocess.py` 1353-1370. -/
def TimePower.result {K : Type _} [Mul K] (blocks : List (List (List K))) : Trace (List (List K)) :=
  ⟨blocks.map (List.map (List.map fun x => x * x)), .returned⟩

/-- `Calib.result`, `acoular/calib.py` 130-173, for a time domain source with `numCh` channels.
(`data` and `source` set.) -/
def Calib.result {K : Type _} [Mul K] (blocks : List (List (List K))) (numCh : Nat) (data : List K)
    (invalid : List Int) : Trace (List (List K)) :=
  let mask := channelMask invalid data.length
  if mask = some [] then .raise .indexError
  else if (applyMask mask data).length ≠ numCh then .raise .valueError
  else ⟨blocks.map (List.map fun row => List.zipWith (· * ·) row (applyMask mask data)), .returned⟩

/-- `return_result`, `acoular/tools/helpers.py` 128-156.  `zip(range(nblocks), resulter)` takes at most
`nblocks` blocks; `concatenate([])` raises `ValueError`. -/
def returnResult {α : Type _} (blocks : List (List α)) (nmax : Int) (num : Nat) : Except PyErr (List α) :=
  if nmax > 0 then
    let nblocks := (nmax.toNat - 1) / num + 1
    let got := blocks.take nblocks
    if got = [] then .error .valueError else .ok (got.flatten.take nmax.toNat)
  else if blocks = [] then .error .valueError else .ok blocks.flatten

/-- The number of rows to write next (`anz`), `none` for the `break`; `acoular/tprocess.py` 1935-1941. -/
def WriteH5.quota (stotal : Int) (scount num : Nat) : Option Nat :=
  let sleft := stotal - scount
  if stotal ≠ -1 ∧ sleft > 0 then some (min num sleft.toNat)
  else if stotal = -1 then some num
  else none

/-- The `while self.write_flag` loop of `WriteH5.result`, `acoular/tprocess.py` 1934-1949.
`stotal = num_samples_write` (an `Int`, -1 for "no limit"), `scount` rows counted so far, `flags k` the
value of `write_flag` when the loop condition is evaluated for the `k`-th time (it can be cleared from
outside between two `next` calls).  Result: rows appended to the file, blocks yielded. -/
def WriteH5.loop {α : Type _} (stotal : Int) (num : Nat) (flags : Nat → Bool) :
    (k scount : Nat) → List (List α) → List α × List (List α)
  | _, _, [] => ([], [])
  | k, scount, data :: rest =>
    if flags k = false then ([], [])
    else match WriteH5.quota stotal scount num with
      | none => ([], [])
      | some anz =>
        let r := WriteH5.loop stotal num flags (k + 1) (scount + anz) rest
        (data.take anz ++ r.1, data :: r.2)

/-- `WriteH5.result`, `acoular/tprocess.py` 1909-1950 (file creation and metadata left out). -/
def WriteH5.result {α : Type _} (blocks : List (List α)) (stotal : Int) (num : Nat) (flags : Nat → Bool) :
    List α × List (List α) :=
  WriteH5.loop stotal num flags 0 0 blocks

/-- `SoundDeviceSamplesGenerator.result`, `acoular/sdinput.py` 121-134, with a fixed `num_samples > 0`:
`read k` is the block returned by the k-th `stream.read(num)`. -/
def SoundDevice.loop {α : Type _} (read : Nat → List α) (numSamples num : Nat) :
    (fuel k count : Nat) → Trace (List α)
  | 0, _, count => if count < numSamples then .diverge else .stop
  | fuel + 1, k, count =>
    if count < numSamples then
      let anz := min num (numSamples - count)
      (SoundDevice.loop read numSamples num fuel (k + 1) (count + anz)).cons ((read k).take anz)
    else .stop

/-- The splice loop of `TimeReverse.result`, `acoular/tprocess.py` 1434-1438.  `temp` is the array, `hs`
the remaining blocks in reverse order.  `temp[nsh:] = h[: nsh - 1 : -1]` replaces the tail by the
reversed rows `nsh..` of `h` (for `nsh >= 1`); `temp[:nsh] = h[nsh - 1 :: -1]` replaces the head by the
reversed first `nsh` rows.  The yielded `temp` is taken as a copy. -/
def TimeReverse.loop {α : Type _} (nsh : Nat) : (temp : List α) → (hs : List (List α)) → List (List α)
  | temp, [] => [temp.take nsh]
  | temp, h :: hs =>
    let temp1 := temp.take nsh ++ (h.drop nsh).reverse
    temp1 :: TimeReverse.loop nsh ((h.take nsh).reverse ++ temp1.drop nsh) hs

/-- `TimeReverse.result`, `acoular/tprocess.py` 1412-1438.  `garbage` is the uninitialised content of
`empty_like(result_list[0])`.  `result_list[0]` raises `IndexError` for a source without blocks.  The
numpy assignments raise `ValueError` if the lengths do not match. -/
def TimeReverse.result {α : Type _} (garbage : List α) (blocks : List (List α)) : Trace (List α) :=
  match blocks.reverse with
  | [] => .raise .indexError
  | h :: hs =>
    let size := (blocks.headD []).length
    let nsh := h.length
    if nsh ≤ size ∧ (hs.all fun b => b.length == size) then
      ⟨TimeReverse.loop nsh (h.reverse ++ garbage.drop nsh) hs, .returned⟩
    else .raise .valueError

end Acoular
