import Verif.Model.Aiaa

/-!
# Names of cache files and of WAV files

`find_basename` (acoular/tools/utils.py) and its uses in `Cache`, `PowerSpectra` and `WriteWAV`. Names are lists of characters; `cls` is the
name of the class of an object.
-/

namespace Acoular

/-- A chain of objects, the last one first. -/
inductive NamedSource where
  /-- `TimeSamples`, `MaskedTimeSamples`: with the attribute `basename` (acoular/sources.py 375, 415-416) -/
  | recording (cls digest file : List Char)
  /-- an object with neither `basename` nor `source`: signals at point sources, `SourceMixer`, … -/
  | generator (cls digest : List Char)
  /-- an object with `source` and without `basename`: filters, mixers, averages, … -/
  | block (cls digest : List Char) (source : NamedSource)
  /-- `MaskedTimeOut` (acoular/tprocess.py 160, 170-179) -/
  | masked (cls digest : List Char) (source : NamedSource)
  /-- `Cache` (acoular/process.py 248, 262-263) -/
  | cache (cls digest : List Char) (source : NamedSource)

/-- `source.__class__.__name__ + source.digest`. -/
def NamedSource.ident : NamedSource → List Char
  | .recording c d _ | .generator c d | .block c d _ | .masked c d _ | .cache c d _ => c ++ d

/-- The default of `find_basename` and `get_file_basename`. -/
def voidName : List Char := ['v', 'o', 'i', 'd']

/-- `find_basename` (acoular/tools/utils.py 33-57), with the properties `basename` of the objects it meets. -/
def findBasename : NamedSource → List Char → List Char
  | .recording _ _ file, _ => fileBasename file
  | .generator _ _, alt => alt
  | .block _ _ s, alt => findBasename s alt
  | .masked _ _ s, _ => findBasename s s.ident
  | .cache _ _ s, _ => findBasename s voidName

/-- The file of an object in the directory for cache files (acoular/h5cache.py 87). -/
def cacheFileName (basename : List Char) : List Char := basename ++ "_cache.h5".toList

/-- The file used by a `Cache` with this source (acoular/process.py 262-263, 352). -/
def cacheFileOfCache (s : NamedSource) : List Char := cacheFileName (findBasename s voidName)

/-- The file used by `PowerSpectra` with this source and by the beamformers using it (acoular/spectra.py 353-354, 512,
acoular/fbeamform.py 368). -/
def cacheFileOfSpectra (s : NamedSource) : List Char := cacheFileName (findBasename s s.ident)

/-- The file `WriteWAV.save` writes (acoular/tprocess.py 1799-1808, 1818-1824); channels are not negative here. -/
def wavFileName (s : NamedSource) (file : List Char) (channels : List ℕ) : List Char :=
  if file = [] then findBasename s voidName ++ (channels.flatMap fun c => Nat.toDigits 10 c) ++ ".wav".toList else file

end Acoular
