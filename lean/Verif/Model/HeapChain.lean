import Verif.Model.Chain

/-!
# Chains of processing blocks that share arrays

The chains of `Verif/Model/Chain.lean`, with the arrays they work on.  An array is a function from row numbers to rows (its number of rows is
known from the views that are used); a block is a view of an array.  A run of a generator is the list of what it does: it stores rows in arrays of
its own, it changes arrays it received (`Mixer`), and it hands out views.  What a consumer finds in a view depends on when it looks.  Exceptions
are left out: the list of actions ends where one is raised.
-/

namespace Acoular

/-- Identity of an array: data of a `TimeSamples` object, or the `k`-th array created by the generator at a place of the tree (numbers of the
branches from the leaf to the root; the root is a run). -/
inductive Loc where
  | data (a : Nat)
  | own (path : List Nat) (k : Nat)
  deriving DecidableEq

/-- Memory: the rows of all arrays. -/
abbrev Memory (V : Type) := Loc → Nat → V

/-- Rows `off ≤ i < off + len` of an array. -/
structure View where
  arr : Loc
  off : Nat
  len : Nat
  deriving DecidableEq

variable {V : Type}

/-- Content of a view. -/
def Memory.read (h : Memory V) (r : View) : List V := (List.range r.len).map fun k => h r.arr (r.off + k)

/-- `view[...] = rows` -/
def Memory.write (h : Memory V) (r : View) (rows : List V) : Memory V := fun a i =>
  if a = r.arr ∧ r.off ≤ i ∧ i < r.off + r.len then rows.getD (i - r.off) (h a i) else h a i

/-- What a generator does. -/
inductive Deed (V : Type)
  /-- store what is calculated from the memory -/
  | store (dst : View) (f : Memory V → List V)
  /-- `yield` -/
  | yield (r : View)

/-- `view[a:b]` -/
def View.sub (r : View) (a b : Nat) : View := ⟨r.arr, r.off + a, b - a⟩

/-- Objects connected through `source`. -/
inductive HObj (V : Type)
  /-- `TimeSamples` without calibration; its data are the first `len` rows of this array -/
  | samples (arr len : Nat)
  /-- A simulated source that fills one array again and again (`PointSource`, `MovingPointSource`); `signal` is what it calculates -/
  | simulated (signal : List V)
  /-- A simulated source that calculates everything first (`UncorrelatedNoiseSource`) -/
  | noise (signal : List V)
  /-- An object that calculates a new array from the blocks received so far (`f`), `len` rows for a block of given length, nothing if this is
  zero; it requests blocks that are `mult` times as long. -/
  | fresh (mult : Nat) (len : Nat → Nat) (f : List (List V) → List V) (c : HObj V)
  /-- `TimeCumAverage`: `f count accu block` -/
  | running (init : V) (f : Nat → V → List V → List V) (c : HObj V)
  /-- An object that hands on what it receives (`WriteH5`). -/
  | pass (c : HObj V)
  /-- An object that changes the rows of the block it received, in place (first statement of the loop of `SourceMixer`) -/
  | inplace (g : V → V) (c : HObj V)
  /-- `Cache` with these blocks in the file (for each block size), all of them or not -/
  | cache (complete : Bool) (stored : Nat → List (List V)) (c : HObj V)
  /-- `MaskedTimeOut`; `channels = none`: all channels -/
  | mask (start stop total : Nat) (channels : Option (V → V)) (c : HObj V)
  /-- `FiltFiltOctave` with `n` samples announced by the source -/
  | zeroPhase (filtfilt : List V → List V) (n : Nat) (c : HObj V)
  /-- `TimeReverse` -/
  | reverse (c : HObj V)
  /-- `Mixer` with one additional source -/
  | mixer (c d : HObj V)

/-- A generator that handles the blocks of its source one by one: between two requests the source does what it does until its next `yield`; then
follow the deeds of the handler, which may end the loop (`none`). -/
def bindDeeds {σ : Type} (handler : σ → View → List (Deed V) × Option σ) : σ → List (Deed V) → List (Deed V)
  | _, [] => []
  | s, .store d f :: rest => .store d f :: bindDeeds handler s rest
  | s, .yield r :: rest =>
    match handler s r with
    | (as, none) => as
    | (as, some s') => as ++ bindDeeds handler s' rest

/-- Generators that create a new array for every block: `Calib.result` (acoular/calib.py 172-173), `TimePower.result`, `ChannelMixer.result`,
`Filter.result` (acoular/tprocess.py 1369-1370, 306-307, 1476-1480), `Average.result` (acoular/process.py 188-194).  State: number of blocks and
where they are; the local variables of the generator (state of the filter) are represented by private copies of the blocks seen. -/
def freshHandler (path : List Nat) (len : Nat → Nat) (f : List (List V) → List V) (seen : List View) (r : View) :
    List (Deed V) × Option (List View) :=
  let k := seen.length
  let copy : View := ⟨.own path (2 * k), 0, r.len⟩
  let out : View := ⟨.own path (2 * k + 1), 0, len r.len⟩
  ([.store copy fun h => h.read r, .store out fun h => f ((seen ++ [copy]).map h.read)] ++ (if len r.len > 0 then [.yield out] else []),
    some (seen ++ [copy]))

/-- `TimeCumAverage.result`, acoular/tprocess.py 1395-1403.  State: number of blocks, of rows, and the last block handed out: `accu = temp[-1]` is
a view of it. -/
def runningHandler (path : List Nat) (init : V) (f : Nat → V → List V → List V) (s : Nat × Nat × Option View) (r : View) :
    List (Deed V) × Option (Nat × Nat × Option View) :=
  let out : View := ⟨.own path s.1, 0, r.len⟩
  let accu (h : Memory V) : V := match s.2.2 with | none => init | some q => h q.arr (q.off + q.len - 1)
  ([.store out fun h => f s.2.1 (accu h) (h.read r), .yield out], some (s.1 + 1, s.2.1 + r.len, some out))

/-- `temp *= weights[0]`, acoular/sources.py 2318, the block handed on. -/
def inplaceHandler (g : V → V) (_ : Unit) (r : View) : List (Deed V) × Option Unit := ([.store r fun h => (h.read r).map g, .yield r], some ())

/-- The second loop of `Cache._get_data_from_incomplete_cache`, acoular/process.py 299-308: the first blocks are not handed on (for none of them:
`_pass_data` and `_write_data_to_cache`). -/
def skipHandler (m : Nat) (r : View) : List (Deed V) × Option Nat := if m > 0 then ([], some (m - 1)) else ([.yield r], some 0)

/-- `block[:, self.channels]` with a list of channels is a new array, with a slice a view. -/
def selectRows (channels : Option (V → V)) (rows : List V) : List V := match channels with | none => rows | some g => rows.map g

/-- `if bsize >= num: yield buf[:num]; buf[: bsize - num] = buf[num:bsize]; bsize -= num`, acoular/tprocess.py 251-254. -/
def maskFlushDeeds (buf : Loc) (num bsize : Nat) : List (Deed V) × Nat :=
  if bsize ≥ num then
    ([.yield ⟨buf, 0, num⟩, .store ⟨buf, 0, bsize - num⟩ fun h => h.read ⟨buf, num, bsize - num⟩], bsize - num)
  else ([], bsize)

/-- The loop of `MaskedTimeOut.result`, acoular/tprocess.py 229-254, on the array `buf`.  State: `bsize`, `i`, `fblock`. -/
def maskHandler (path : List Nat) (start stop num : Nat) (channels : Option (V → V)) (s : Nat × Nat × Bool) (r : View) :
    List (Deed V) × Option (Nat × Nat × Bool) :=
  let buf : Loc := .own path 0
  let bs := r.len
  let i := s.2.1 + bs
  if s.2.2 && decide (i ≥ start) then
    if i ≥ stop then
      let part := r.sub (bs - (i - start)) (bs - (i - stop))
      match channels with
      | none => ([.yield part], none)
      | some g => ([.store ⟨.own path 1, 0, part.len⟩ fun h => (h.read part).map g, .yield ⟨.own path 1, 0, part.len⟩], none)
    else
      let fl := maskFlushDeeds buf num (i - start)
      (.store ⟨buf, 0, i - start⟩ (fun h => selectRows channels (h.read (r.sub (bs - (i - start)) bs))) :: fl.1, some (fl.2, i, false))
  else if i ≥ stop then
    let m := bs - (i - stop)
    let bsize := s.1 + m
    (.store ⟨buf, s.1, m⟩ (fun h => selectRows channels (h.read (r.sub 0 m))) ::
      (if bsize > num then
        [.yield ⟨buf, 0, num⟩, .store ⟨buf, 0, bsize - num⟩ fun h => h.read ⟨buf, num, bsize - num⟩, .yield ⟨buf, 0, bsize - num⟩]
       else [.yield ⟨buf, 0, bsize⟩]), none)
  else if i ≥ start then
    let fl := maskFlushDeeds buf num (s.1 + bs)
    (.store ⟨buf, s.1, bs⟩ (fun h => selectRows channels (h.read r)) :: fl.1, some (fl.2, i, s.2.2))
  else
    let fl := maskFlushDeeds buf num s.1
    (fl.1, some (fl.2, i, s.2.2))

/-- `for block in self.source.result(num): yield block[:, self.channels]`, acoular/tprocess.py 256-258.  State: number of blocks. -/
def wholeHandler (path : List Nat) (channels : Option (V → V)) (k : Nat) (r : View) : List (Deed V) × Option Nat :=
  match channels with
  | none => ([.yield r], some (k + 1))
  | some g => ([.store ⟨.own path k, 0, r.len⟩ fun h => (h.read r).map g, .yield ⟨.own path k, 0, r.len⟩], some (k + 1))

/-- `data[j : j + ns] = block; j += ns`, acoular/tprocess.py 1581-1584. -/
def copyHandler (path : List Nat) (j : Nat) (r : View) : List (Deed V) × Option Nat :=
  ([.store ⟨.own path 0, j, r.len⟩ fun h => h.read r], some (j + r.len))

/-- What is left if all blocks are put into a list: `result_list.extend(self.source.result(num))`, acoular/tprocess.py 1427. -/
def silent : List (Deed V) → List (Deed V)
  | [] => []
  | .store d f :: rest => .store d f :: silent rest
  | .yield _ :: rest => silent rest

/-- The views handed out. -/
def views : List (Deed V) → List View
  | [] => []
  | .store _ _ :: rest => views rest
  | .yield r :: rest => r :: views rest

/-- `for h in result_list[::-1]: temp[nsh:] = h[: nsh - 1 : -1]; yield temp; temp[:nsh] = h[nsh - 1 :: -1]` and `yield temp[:nsh]`,
acoular/tprocess.py 1434-1438; `size` rows of `temp`, `hs` the views in reverse order. -/
def reverseDeeds (temp : Loc) (size nsh : Nat) : List View → List (Deed V)
  | [] => [.yield ⟨temp, 0, nsh⟩]
  | r :: hs => [.store ⟨temp, nsh, size - nsh⟩ fun h => ((h.read r).drop nsh).reverse, .yield ⟨temp, 0, size⟩,
      .store ⟨temp, 0, nsh⟩ fun h => ((h.read r).take nsh).reverse] ++ reverseDeeds temp size nsh hs

/-- `TimeReverse.result` after the blocks have been collected, acoular/tprocess.py 1428-1438. -/
def reverseTail (temp : Loc) (rs : List View) : List (Deed V) :=
  match rs.reverse, rs with
  | r :: hs, r0 :: _ => .store ⟨temp, 0, r.len⟩ (fun h => (h.read r).reverse) :: reverseDeeds temp r0.len r.len hs
  | _, _ => []

/-- `next(g)`: what the generator does up to its next `yield`, the view it hands out (`none`: it ends), and what is left of it. -/
def nextDeed : List (Deed V) → List (Deed V) × Option (View × List (Deed V))
  | [] => ([], none)
  | .store d f :: rest => let n := nextDeed rest; (.store d f :: n.1, n.2)
  | .yield r :: rest => ([], some (r, rest))

/-- The loop of `Mixer.result`, acoular/tprocess.py 1331-1344, with one additional generator. -/
def mixDeeds [Add V] : List (Deed V) → List (Deed V) → List (Deed V)
  | [], _ => []
  | .store d f :: rest, other => .store d f :: mixDeeds rest other
  | .yield t :: rest, other =>
    match nextDeed other with
    | (as, none) => as
    | (as, some (r, other')) =>
      let t' : View := if t.len > r.len then ⟨t.arr, t.off, r.len⟩ else t
      as ++ .store t' (fun h => List.zipWith (· + ·) (h.read t') (h.read ⟨r.arr, r.off, t'.len⟩)) :: .yield t' ::
        (if t.len > t'.len then [] else mixDeeds rest other')

/-- The views of `n` rows, `num` at a time: `while i < n: yield data[i : i + num]; i += num` (acoular/sources.py 519-521,
acoular/tprocess.py 1588-1592). -/
def blockViews (arr : Loc) (n num : Nat) : List View :=
  (List.range ((n + num - 1) / num)).map fun k => ⟨arr, k * num, min num (n - k * num)⟩

/-- `PointSource.result` (acoular/sources.py 908-945 with `_fill_mic_signal_block`, 96-112) and `MovingPointSource.result` (1201-1206): the array `out`
is created once, filled, handed out, filled again.  The rows are given (`Verif/Model/Sources.lean` says what they are); they are stored one by one, but
nobody looks in between. -/
def simulatedDeeds (out : Loc) (blocks : List (List V)) : List (Deed V) :=
  blocks.flatMap fun b => [.store ⟨out, 0, b.length⟩ fun _ => b, .yield ⟨out, 0, b.length⟩]

/-- The deeds of `result(num)` of the last object, at a place of the tree. -/
def HObj.deeds [Add V] : HObj V → List Nat → Nat → List (Deed V)
  | .samples arr len, _, num => (blockViews (.data arr) len num).map .yield
  | .simulated signal, p, num => simulatedDeeds (.own p 0) ((List.range ((signal.length + num - 1) / num)).map fun k => (signal.drop (k * num)).take num)
  | .noise signal, p, num =>  -- acoular/sources.py 2096-2110
    .store ⟨.own p 0, 0, signal.length⟩ (fun _ => signal) :: (blockViews (.own p 0) signal.length num).map .yield
  | .fresh mult len f c, p, num => bindDeeds (freshHandler p len f) [] (c.deeds (0 :: p) (num * mult))
  | .running init f c, p, num => bindDeeds (runningHandler p init f) (0, 0, none) (c.deeds (0 :: p) num)
  | .pass c, p, num => c.deeds (0 :: p) num
  | .inplace g c, p, num => bindDeeds (inplaceHandler g) () (c.deeds (0 :: p) num)
  | .cache complete stored c, p, num =>
    ((stored num).zipIdx.flatMap fun b => [.store ⟨.own p b.2, 0, b.1.length⟩ fun _ => b.1, .yield ⟨.own p b.2, 0, b.1.length⟩]) ++
      if complete then [] else bindDeeds skipHandler (stored num).length (c.deeds (0 :: p) num)
  | .mask start stop total channels c, p, num =>
    if start ≥ stop then []
    else if start ≠ 0 ∨ stop ≠ total then bindDeeds (maskHandler p start stop num channels) (0, 0, true) (c.deeds (0 :: p) num)
    else bindDeeds (wholeHandler p channels) 0 (c.deeds (0 :: p) num)
  | .zeroPhase ff n c, p, num =>
    bindDeeds (copyHandler p) 0 (c.deeds (0 :: p) num) ++
      .store ⟨.own p 0, 0, n⟩ (fun h => ff (h.read ⟨.own p 0, 0, n⟩)) :: (blockViews (.own p 0) n num).map .yield
  | .reverse c, p, num => let a := c.deeds (0 :: p) num; silent a ++ reverseTail (.own p 0) (views a)
  | .mixer c d, p, num => mixDeeds (c.deeds (0 :: p) num) (d.deeds (1 :: p) num)

/-- `Calib`, `TimePower`, `ChannelMixer`: every row of the result depends on one row of the block (acoular/calib.py 172-173,
acoular/tprocess.py 1369-1370, 306-307). -/
def HObj.rowwise (g : V → V) (c : HObj V) : HObj V := .fresh 1 id (fun seen => (seen.getLastD []).map g) c

/-- `SourceMixer` with two sources and their weights (acoular/sources.py 2310-2328; the check of the weights is left out): the block of the first
source is multiplied in place, `next(g) * weights[1]` is a new array, the rest is as in `Mixer.result`. -/
def HObj.sourceMixer (w v : V → V) (c d : HObj V) : HObj V := .mixer (.inplace w c) (.rowwise v d)

/-- `Filter` and derived classes: the block made of the last one by the model of `Filter.result` (acoular/tprocess.py 1458-1480). -/
def HObj.filter {K : Type} [Field K] [AddCommGroup V] [Module K V] (sos : List (Spec.Sos K)) (c : HObj V) : HObj V :=
  .fresh 1 id (fun seen => (Filter.result sos (fun _ => sos) seen).blocks.getLastD []) c

/-- `Average` (acoular/process.py 188-194). -/
def HObj.average (K : Type) [Field K] [AddCommGroup V] [Module K V] (nav : Nat) (c : HObj V) : HObj V :=
  .fresh nav (· / nav) (fun seen => let temp := seen.getLastD []; (reshapeGroups (temp.length / nav) nav temp).map (rowMean K)) c

/-- `TimeCumAverage`: `(accu * (count[0] - 1) + cumsum(temp, axis=0)) / count[:ns]` (acoular/tprocess.py 1400). -/
def HObj.cumAverage (K : Type) [Field K] [AddCommGroup V] [Module K V] (c : HObj V) : HObj V :=
  .running 0 (fun count accu temp => (List.range temp.length).map fun j =>
    ((count + 1 + j : Nat) : K)⁻¹ • (((count : Nat) : K) • accu + ((cumsum temp)[j]?).getD 0)) c

/-- Memory after some deeds. -/
def afterDeeds (h : Memory V) : List (Deed V) → Memory V
  | [] => h
  | .store d f :: rest => afterDeeds (h.write d (f h)) rest
  | .yield _ :: rest => afterDeeds h rest

/-- What a consumer sees that looks at each block when it gets it, and then does `env k` to the memory before it asks for the next one (`k` the
number of the block). -/
def seenWith (env : Nat → View → Memory V → Memory V) : Nat → Memory V → List (Deed V) → List (List V)
  | _, _, [] => []
  | k, h, .store d f :: rest => seenWith env k (h.write d (f h)) rest
  | k, h, .yield r :: rest => h.read r :: seenWith env (k + 1) (env k r h) rest

/-- What a consumer sees that looks at each block when it gets it and changes nothing. -/
def seenAtOnce (h : Memory V) (a : List (Deed V)) : List (List V) := seenWith (fun _ _ h => h) 0 h a

/-- What a consumer sees that collects the views and looks at them in the end. -/
def seenInTheEnd (h : Memory V) (a : List (Deed V)) : List (List V) := (views a).map (afterDeeds h a).read

end Acoular
