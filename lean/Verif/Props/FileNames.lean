import Verif.Model.FileNames

/-!
# C170: names of cache files and of WAV files
-/

namespace Acoular

namespace Spec

/-- The file with the recording at the beginning of the chain. -/
def recordedIn : NamedSource → Option (List Char)
  | .recording _ _ file => some file
  | .generator _ _ => none
  | .block _ _ s | .masked _ _ s | .cache _ _ s => recordedIn s

/-- No object of the chain has a name of its own. -/
def Nameless : NamedSource → Prop
  | .generator _ _ => True
  | .block _ _ s => Nameless s
  | _ => False

/-- No object of the chain excludes channels or samples. -/
def Unmasked : NamedSource → Prop
  | .masked _ _ _ => False
  | .recording _ _ _ | .generator _ _ => True
  | .block _ _ s | .cache _ _ s => Unmasked s

end Spec

open Spec

private theorem find_recorded (s : NamedSource) (file : List Char) (h : recordedIn s = some file) (alt : List Char) :
    findBasename s alt = fileBasename file := by
  induction s generalizing alt with
  | recording c d f => cases h; rfl
  | generator c d => cases h
  | block c d s ih => exact ih h alt
  | masked c d s ih => exact ih h _
  | cache c d s ih => exact ih h _

private theorem find_nameless (s : NamedSource) (h : Nameless s) (alt : List Char) : findBasename s alt = alt := by
  induction s generalizing alt with
  | recording c d f => cases h
  | generator c d => rfl
  | block c d s ih => exact ih h alt
  | masked c d s ih => cases h
  | cache c d s ih => cases h

private theorem find_void (s : NamedSource) (h : Unmasked s) (hr : recordedIn s = none) : findBasename s voidName = voidName := by
  induction s with
  | recording c d f => cases hr
  | generator c d => rfl
  | block c d s ih => exact ih h hr
  | masked c d s ih => cases h
  | cache c d s ih => exact ih h hr

/-- **C170: everything that is done with a recording** is kept in one file, named after the file of the recording, whatever the chain; and
this is the name of a WAV file, with the numbers of the channels. -/
theorem C170_recording (s : NamedSource) (file : List Char) (h : recordedIn s = some file) (channels : List ℕ) :
    cacheFileOfCache s = fileBasename file ++ "_cache.h5".toList ∧ cacheFileOfSpectra s = fileBasename file ++ "_cache.h5".toList ∧
      wavFileName s [] channels = fileBasename file ++ (channels.flatMap fun c => Nat.toDigits 10 c) ++ ".wav".toList := by
  unfold cacheFileOfCache cacheFileOfSpectra cacheFileName wavFileName
  rw [find_recorded s file h, find_recorded s file h, if_pos rfl]
  exact ⟨rfl, rfl, rfl⟩

/-- The hypothesis of `C170_recording` is met. -/
example : recordedIn (.cache "Cache".toList [] (.block "FiltFreqWeight".toList [] (.recording "TimeSamples".toList [] "/data/run1.h5".toList))) =
      some "/data/run1.h5".toList ∧ fileBasename "/data/run1.h5".toList = "run1".toList := ⟨rfl, by decide +kernel⟩

/-- What identifies an object: the name of its class and its digest. -/
theorem C170_ident (c d f : List Char) (s : NamedSource) : (NamedSource.generator c d).ident = c ++ d ∧ (NamedSource.block c d s).ident = c ++ d ∧
    (NamedSource.masked c d s).ident = c ++ d ∧ (NamedSource.cache c d s).ident = c ++ d ∧ (NamedSource.recording c d f).ident = c ++ d :=
  ⟨rfl, rfl, rfl, rfl, rfl⟩

/-- **C170: spectra of simulated data** are kept in files of their own: different sources, different files. -/
theorem C170_simulated_partial (s t : NamedSource) (hs : Nameless s) (ht : Nameless t) :
    (cacheFileOfSpectra s = cacheFileOfSpectra t ↔ s.ident = t.ident) ∧ cacheFileOfSpectra s = s.ident ++ "_cache.h5".toList := by
  unfold cacheFileOfSpectra cacheFileName
  rw [find_nameless s hs, find_nameless t ht]
  exact ⟨List.append_left_inj _, rfl⟩

/-- The hypotheses of `C170_simulated_partial` are met. -/
example : Nameless (.block "FiltOctave".toList [] (.generator "PointSource".toList "1".toList)) := trivial

/-- **C170: simulated data with excluded channels** are kept in files named after the source, also behind a `Cache`. -/
theorem C170_masked (s : NamedSource) (h : Nameless s) (c d c' d' : List Char) :
    cacheFileOfCache (.masked c d s) = s.ident ++ "_cache.h5".toList ∧ cacheFileOfSpectra (.masked c d s) = s.ident ++ "_cache.h5".toList ∧
      cacheFileOfSpectra (.cache c' d' (.masked c d s)) = s.ident ++ "_cache.h5".toList := by
  unfold cacheFileOfCache cacheFileOfSpectra cacheFileName
  simp only [findBasename, find_nameless s h, and_self]

/-- The hypothesis of `C170_masked` is met. -/
example : Nameless (.generator "PointSource".toList "1".toList) := trivial

/-- **C170: a name that is given** is used for a WAV file. -/
theorem C170_given (s : NamedSource) (file : List Char) (h : file ≠ []) (channels : List ℕ) : wavFileName s file channels = file := by
  unfold wavFileName
  rw [if_neg h]

/-- The hypothesis of `C170_given` is met. -/
example : "a.wav".toList ≠ [] := by decide

/-- **C170 fails for simulated data behind a `Cache`**, and for the `Cache` itself: one file, `void_cache.h5`, for all of them. -/
theorem C170_void_violated (s : NamedSource) (h : Unmasked s) (hr : recordedIn s = none) (c d : List Char) :
    cacheFileOfCache s = "void_cache.h5".toList ∧ cacheFileOfSpectra (.cache c d s) = "void_cache.h5".toList := by
  have e : "void_cache.h5".toList = voidName ++ "_cache.h5".toList := by decide +kernel
  unfold cacheFileOfCache cacheFileOfSpectra cacheFileName
  rw [e]
  exact ⟨by rw [find_void s h hr], by rw [findBasename, find_void s h hr]⟩

/-- The hypotheses of `C170_void_violated` are met. -/
example : Unmasked (.generator "PointSource".toList "1".toList) ∧ recordedIn (.generator "PointSource".toList "1".toList) = none := ⟨trivial, rfl⟩

/-- **C170 fails for WAV files of simulated data**: without a given name, two different simulations are written to the same file, the second
over the first. -/
theorem C170_wav_violated (s t : NamedSource) (hs : Unmasked s) (ht : Unmasked t) (hs' : recordedIn s = none) (ht' : recordedIn t = none)
    (channels : List ℕ) : wavFileName s [] channels = wavFileName t [] channels := by
  unfold wavFileName
  rw [find_void s hs hs', find_void t ht ht']

/-- The hypotheses of `C170_wav_violated` are met by two different sources. -/
example : (NamedSource.generator "PointSource".toList "1".toList).ident ≠ (NamedSource.generator "PointSource".toList "2".toList).ident := by
  decide

/-- **C170 fails for the channels of WAV files**: channels 1 and 2 go to the same file as channel 12, for every source. -/
theorem C170_channels_violated (s : NamedSource) : wavFileName s [] [1, 2] = wavFileName s [] [12] := by
  unfold wavFileName
  rw [show ([1, 2].flatMap fun c => Nat.toDigits 10 c) = ([12].flatMap fun c => Nat.toDigits 10 c) by decide +kernel]

/-- **C170 fails for recordings with the same name** in different directories (or with different extensions): one cache file. -/
theorem C170_same_name_violated : ∃ a b : List Char, a ≠ b ∧
    ∀ c d, cacheFileOfSpectra (.recording c d a) = cacheFileOfSpectra (.recording c d b) := by
  refine ⟨"/monday/run1.h5".toList, "/tuesday/run1.h5".toList, by decide +kernel, fun c d => ?_⟩
  unfold cacheFileOfSpectra
  show cacheFileName (fileBasename _) = cacheFileName (fileBasename _)
  exact congrArg cacheFileName (by decide +kernel)

end Acoular
