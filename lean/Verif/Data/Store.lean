import Mathlib.Data.List.Basic
import Mathlib.Data.Finset.Basic

/-!
Model of the data sets that keep state: the iteration over `/repo/neuralcompression/data/_clic_2020_video.py` and
the downloads of `_kodak.py` and `_clic_2020_image.py`.

Simplifications: a clip sampler of pytorchvideo divides a video into a fixed positive number of clips, which it returns
in order. Sampling happens in one process. The network delivers a file or fails. The directory tree is a record of
the names that the code uses.
-/

namespace Verif.Data.Store

/-! ### Iterating over videos -/

/-- The state of the data set: `_clic_2020_video.py:51-55`, `89-95`. `rest` is what the sampler's iterator has not
yielded yet, `current` the video in progress with the number of its next clip. -/
structure Clic where
  rest : List ℕ
  current : Option (ℕ × ℕ)

/-- A new data set, for a sampler that yields `order`: `_clic_2020_video.py:89-95`. -/
def Clic.init (order : List ℕ) : Clic := ⟨order, none⟩

/-- `__getitem__`: `_clic_2020_video.py:97-145`: the number of the video and of the clip. `clips v` is the number of
clips of video `v`. -/
def Clic.get (clips : ℕ → ℕ) (s : Clic) (index : ℕ) : Clic × (ℕ × ℕ) :=
  let (video, clip) := match s.current with
    | some c => c
    | none => (index, 0)
  let current := if clip + 1 ≥ clips video then none else some (video, clip + 1)
  ({ s with current := current }, (video, clip))

/-- `__next__`: `_clic_2020_video.py:150-160`. The iterator object is always true, so it is never made anew. `none` is
`StopIteration`. -/
def Clic.next (clips : ℕ → ℕ) (s : Clic) : Clic × Option (ℕ × ℕ) :=
  match s.rest with
  | [] => (s, none)
  | index :: rest =>
    let r := { s with rest := rest }.get clips index
    (r.1, some r.2)

/-- A `for` loop over the data set, which runs until `StopIteration`. `fuel` bounds the number of rounds. -/
def Clic.loopAux (clips : ℕ → ℕ) : ℕ → Clic → Clic × List (ℕ × ℕ)
  | 0, s => (s, [])
  | fuel + 1, s =>
    match s.next clips with
    | (s', none) => (s', [])
    | (s', some item) =>
      let r := loopAux clips fuel s'
      (r.1, item :: r.2)

/-- The items of a whole loop. -/
def Clic.loop (clips : ℕ → ℕ) (s : Clic) : Clic × List (ℕ × ℕ) := loopAux clips (s.rest.length + 1) s

/-! ### Kodak -/

/-- The exceptions. -/
inductive Err | runtime | fileExists | fileNotFound | url | os | value
deriving DecidableEq, Repr

/-- The contents of the root directory, `none` if it does not exist: image `i + 1` at `i`. -/
abbrev KodakDir (Bytes : Type) := Option (ℕ → Option Bytes)

/-- The arguments of `Kodak`: `_kodak.py:43-51`. `online` is the number of images that the network delivers before it
fails (or the process is killed), and `part` the number of bytes of the next image that were written by then, `none` if its file was
not opened. -/
structure KodakArgs where
  checkHash : Bool := true
  download : Bool := false
  forceDownload : Bool := false
  online : ℕ := 24
  part : Option ℕ := none

variable {Byte : Type}

/-- `_download`: `_kodak.py:79-95`. `Path.mkdir` raises `FileExistsError` if the directory exists. -/
def kodakDownload (server : ℕ → List Byte) (force : Bool) (online : ℕ) (part : Option ℕ) (dir : KodakDir (List Byte)) :
    KodakDir (List Byte) × Option Err :=
  match dir, force with
  | some d, false => (some d, some .runtime)
  | some d, true => (some d, some .fileExists)
  | none, _ =>
    (some fun i => if i < 24 ∧ i < online then some (server i)
      else if i < 24 ∧ i = online then part.map fun k => (server i).take k else none, if 24 ≤ online then none else some .url)

/-- `_check_integrity`: `_kodak.py:69-77`. `hash` is SHA-1. -/
def kodakCheck {Digest : Type} [DecidableEq Digest] (hash : List Byte → Digest) (expected : Digest)
    (dir : ℕ → Option (List Byte)) : Option Err :=
  match (List.range 24).mapM dir with
  | none => some .fileNotFound
  | some files => if hash files.flatten = expected then none else some .runtime

/-- `__init__`: `_kodak.py:52-67`. -/
def kodakInit {Digest : Type} [DecidableEq Digest] (hash : List Byte → Digest) (expected : Digest)
    (server : ℕ → List Byte) (a : KodakArgs) (dir : KodakDir (List Byte)) : KodakDir (List Byte) × Option Err :=
  let r := if a.download then kodakDownload server a.forceDownload a.online a.part dir
    else match dir with
      | none => (none, some .fileNotFound)
      | some d => (some d, none)
  match r with
  | (dir', some e) => (dir', some e)
  | (dir', none) =>
    (dir', if a.checkHash then match dir' with
        | none => some .fileNotFound
        | some d => kodakCheck hash expected d
      else none)

/-! ### CLIC images -/

/-- The splits: `_clic_2020_image.py:48-73`. -/
inductive Split | train | val | test
deriving DecidableEq, Repr

/-- The root directory: which archives are complete, the images in the directories of the splits and in `valid`, and
the two places where `__MACOSX` may be. `none` is a directory that does not exist. -/
structure ClicDir (File : Type) where
  archive : Split → Bool
  images : Split → Option (List File)
  valid : Option (List File)
  macosx : Bool
  macosxTest : Bool

/-- An empty root. -/
def ClicDir.empty {File : Type} : ClicDir File := ⟨fun _ => false, fun _ => none, none, false, false⟩

/-- `download`: `_clic_2020_image.py:108-126`. `download_and_extract_archive` downloads an archive only if it is not
there, and extracts it in any case; the archives hold a directory of images (`valid` for the validation split) and
`__MACOSX`. `os.rename` of a directory onto one that is not empty raises `OSError`. `online` is whether the network
works. -/
def clicDownload {File : Type} (server : Split → List File) (split : Split) (online : Bool) (d : ClicDir File) :
    ClicDir File × Option Err :=
  if !d.archive split && !online then (d, some .url)
  else
    let d := { d with archive := fun s => if s = split then true else d.archive s }
    match split with
    | .train => ({ d with
        images := fun s => if s = .train then some (server .train) else d.images s
        macosx := false }, none)
    | .test => ({ d with
        images := fun s => if s = .test then some (server .test) else d.images s
        macosxTest := false }, none)
    | .val =>
      match d.images .val with
      | some (_ :: _) => ({ d with
          valid := some (server .val)
          macosx := true }, some .os)
      | _ => ({ d with
          images := fun s => if s = .val then some (server .val) else d.images s
          valid := none
          macosx := false }, none)

/-- `CLIC2020Image(root, split, download=True)`: `_clic_2020_image.py:75-93`: the paths, or an exception. -/
def clicInit {File : Type} (server : Split → List File) (split : Split) (download online : Bool) (d : ClicDir File) :
    ClicDir File × Except Err (List File) :=
  if download then
    match clicDownload server split online d with
    | (d', some e) => (d', .error e)
    | (d', none) => (d', .ok ((d'.images split).getD []))
  else (d, .ok ((d.images split).getD []))

end Verif.Data.Store
