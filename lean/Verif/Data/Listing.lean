import Mathlib.Data.List.Sort

/-!
Model of what the data sets and scripts make of the listing of a directory, and of the concurrent download of the CLIC videos:
`/repo/neuralcompression/data/_clic_2020_image.py`, `_div2k_dataset.py`, `_clic_2020_video.py`, and `update_checkpoint` of
`/repo/projects/bits_back_diffusion/bits_back_diffusion/script_util.py`.

A file system lists a directory in any order, without repetition.
-/

namespace Verif.Data.Listing

/-- The name of a file. -/
abbrev Name := List Char

/-- The comparison of names, by code points: `sorted` compares paths of one directory by their names. -/
def leName : Name → Name → Bool
  | [], _ => true
  | _ :: _, [] => false
  | a :: as, b :: bs => decide (a.toNat < b.toNat) || (decide (a.toNat = b.toNat) && leName as bs)

/-- `fnmatch` of the pattern `pre*suf`. -/
def isMatch (pre suf n : Name) : Bool :=
  pre.isPrefixOf n && suf.isSuffixOf n && decide (pre.length + suf.length ≤ n.length)

/-- `path.glob(f"{pre}*{suf}")`, in the order of the listing. -/
def glob (pre suf : Name) (listing : List Name) : List Name := listing.filter (isMatch pre suf)

/-- The paths of `CLIC2020Image` and `DIV2K`: `_clic_2020_image.py:93`, `_div2k_dataset.py:50`. -/
def imagePaths (listing : List Name) : List Name :=
  (glob [] ['.', 'p', 'n', 'g'] listing).insertionSort fun a b => leName a b = true

/-- `l[i]` in Python. -/
def pyIndex {α : Type} (l : List α) (i : ℤ) : Option α :=
  if 0 ≤ i then l[i.toNat]? else if -i ≤ l.length then l[(l.length + i).toNat]? else none

/-- `__getitem__` without a transform; `none` is `IndexError`: `_clic_2020_image.py:95-103`, `_div2k_dataset.py:52-60`. -/
def imageItem {Img : Type} (content : Name → Img) (listing : List Name) (i : ℤ) : Option Img :=
  (pyIndex (imagePaths listing) i).map content

/-- The frames of a video of `CLIC2020Video`: `_clic_2020_video.py:101-103`. -/
def framePaths (listing : List Name) : List Name := glob [] ['_', 'y', '.', 'p', 'n', 'g'] listing

/-- The frames of a clip, for the numbers that the clip sampler and the frame filter select: `FrameVideo.get_clip`
(pytorchvideo) looks every number up in the list of paths: `_clic_2020_video.py:105-123`. -/
def clip (listing : List Name) (frames : List ℕ) : Option (List Name) := frames.mapM fun i => (framePaths listing)[i]?

/-! ### The newest checkpoint -/

/-- The stem of a name: up to the last dot. -/
def stem (n : Name) : Name := ((n.reverse.dropWhile (· ≠ '.')).drop 1).reverse

/-- The digits of a number. -/
def digit? (c : Char) : Option ℕ := if '0'.toNat ≤ c.toNat ∧ c.toNat ≤ '9'.toNat then some (c.toNat - '0'.toNat) else none

/-- `int(path.stem[-6:])`, `none` for `ValueError`: `script_util.py:122`. (`int` also accepts signs, blanks and inner
underscores.) -/
def resumeStep (n : Name) : Option ℕ :=
  (((stem n).drop ((stem n).length - 6)).mapM digit?).bind fun ds =>
    if ds = [] then none else some (ds.foldl (fun a d => 10 * a + d) 0)

/-- The turns of `max(files, key=...)`: a later file replaces the best so far only if its key is larger. -/
def maxLoop (key : Name → Option ℕ) : Name × ℕ → List Name → Option (Name × ℕ)
  | best, [] => some best
  | best, n :: ns => match key n with
    | none => none
    | some k => maxLoop key (if best.2 < k then (n, k) else best) ns

/-- The checkpoint that `update_checkpoint` finds in a directory: no file gives `some none`, a name without a number raises:
`script_util.py:149-153`. -/
def newest (pre suf : Name) (listing : List Name) : Option (Option Name) :=
  match glob pre ('.' :: suf) listing with
  | [] => some none
  | n :: ns => match resumeStep n with
    | none => none
    | some k => (maxLoop resumeStep (n, k) ns).map fun b => some b.1

/-! ### Download of the videos -/

/-- A file of an archive: its directory, its name and its contents. -/
structure Member (C : Type) where
  dir : String
  file : String
  content : C

/-- The directories of the data set with their files. -/
abbrev Tree (C : Type) := String → Option (String → Option C)

/-- What `ZipFile.extractall` does (CPython): test whether the directory of a file exists, make it if not, write the file. -/
inductive Op (C : Type)
  | check (dir : String)
  | mkdir (dir : String)
  | write (m : Member C)

/-- The operations for an archive. Entries for directories are left out: `_clic_2020_video.py:176-177`. -/
def extract {C : Type} (ms : List (Member C)) : List (Op C) :=
  ms.flatMap fun m => [.check m.dir, .mkdir m.dir, .write m]

/-- A thread: what it still has to do, the outcome of its last test, and whether it has raised. -/
structure Thread (C : Type) where
  ops : List (Op C)
  missing : Bool
  failed : Bool

/-- The next operation of a thread. `os.makedirs` raises `FileExistsError` if the directory exists by now. -/
def Thread.step {C : Type} (t : Thread C) (tree : Tree C) : Thread C × Tree C :=
  match t.ops with
  | [] => (t, tree)
  | .check d :: ops => ({ t with ops := ops, missing := (tree d).isNone }, tree)
  | .mkdir d :: ops =>
    if t.missing then
      match tree d with
      | none => ({ t with ops := ops }, fun e => if e = d then some fun _ => none else tree e)
      | some _ => (⟨[], t.missing, true⟩, tree)
    else ({ t with ops := ops }, tree)
  | .write m :: ops =>
    match tree m.dir with
    | none => (⟨[], t.missing, true⟩, tree)
    | some files =>
      ({ t with ops := ops }, fun e => if e = m.dir then some fun f => if f = m.file then some m.content else files f else tree e)

/-- The threads of the executor and the directory: `_clic_2020_video.py:180-187`. -/
structure World (C : Type) where
  threads : ℕ → Thread C
  tree : Tree C

/-- Thread `i` does its next operation. -/
def World.step {C : Type} (w : World C) (i : ℕ) : World C :=
  let r := (w.threads i).step w.tree
  ⟨fun j => if j = i then r.1 else w.threads j, r.2⟩

/-- A schedule: which thread is next. -/
def World.run {C : Type} (w : World C) : List ℕ → World C
  | [] => w
  | i :: is => (w.step i).run is

/-- The start of a download: one task for every address; `none` is a failure of the network: `_clic_2020_video.py:165-187`. -/
def start {C : Type} (archives : List (Option (List (Member C)))) (tree : Tree C) : World C :=
  ⟨fun i => match archives[i]? with
    | none => ⟨[], false, false⟩
    | some none => ⟨[], false, true⟩
    | some (some ms) => ⟨extract ms, false, false⟩, tree⟩

/-- All tasks have ended: leaving the executor waits for this, also if `future.result()` raises: `_clic_2020_video.py:180-196`. -/
def World.ended {C : Type} (w : World C) : Prop := ∀ i, (w.threads i).ops = []

/-- `download` raises: `_clic_2020_video.py:194`. -/
def World.raises {C : Type} (w : World C) : Prop := ∃ i, (w.threads i).failed = true

end Verif.Data.Listing
