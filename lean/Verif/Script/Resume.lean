import Mathlib.Data.Nat.Digits.Defs
import Mathlib.Data.Nat.Count
import Mathlib.Logic.Relation

/-!
Model of the script `/repo/projects/bits_back_diffusion/encode.py` with `update_checkpoint` and
`parse_resume_step_from_filename` of `bits_back_diffusion/script_util.py`: encoding a data set, decoding it for a check,
and continuing from checkpoints after crashes at any point.

Simplifications.  One process of the `W` processes is modelled (each has its own directory and its own share of the data,
encode.py:15-16); the barrier at the end and logging are left out.  `cfg.encode_checkpoint` and `cfg.decode_checkpoint`
are not set, so that the directory of the run is searched.  The codec is a pair of functions `push` and `pop` on
messages (`codec.encode`, `codec.decode`); `load_state_dict` restores the message and the count (C21).  Batch `k` of the
data loader is `data k`, the same in every run.  A file is either written completely or torn: `np.savez` writes in place
and `np.load` raises on a torn file.
-/

namespace Verif.Script.Resume

/-! ### Names -/

/-- The characters of a formatted number. -/
inductive Glyph | digit (d : ℕ) | minus
deriving DecidableEq, Repr

/-- The decimal digits, at least `w` of them, the last digit first: zero padding of `f"{n:06d}"`. -/
def padDigits (w n : ℕ) : List Glyph :=
  (Nat.digits 10 n ++ List.replicate (w - (Nat.digits 10 n).length) 0).map .digit

/-- `f"{z:06d}"`, the last character first: encode.py:146, 186.  The minus sign counts towards the width. -/
def fmt06 (z : ℤ) : List Glyph :=
  if 0 ≤ z then padDigits 6 z.toNat else padDigits 5 (-z).toNat ++ [.minus]

/-- The value of a digit. -/
def Glyph.val? : Glyph → Option ℕ
  | .digit d => some d
  | .minus => none

/-- `int(s)`, for digits with an optional minus sign before them; the last character comes first. -/
def parseInt (s : List Glyph) : ℤ :=
  if s.getLast? = some .minus then -((Nat.ofDigits 10 (s.filterMap Glyph.val?) : ℕ) : ℤ)
  else ((Nat.ofDigits 10 (s.filterMap Glyph.val?) : ℕ) : ℤ)

/-- `int(path.stem[-6:])` for a file name that ends in `f"{z:06d}"`: script_util.py:122. -/
def resumeStep (z : ℤ) : ℤ := parseInt ((fmt06 z).take 6)

/-! ### The directory and the process -/

/-- A file, if it exists. -/
inductive File (α : Type) | torn | full (a : α)

/-- The directory of the run: encode checkpoints and decode checkpoints by the number of batches in the message,
decoded batches by their number. -/
structure Dir (M D : Type) where
  enc : ℕ → Option (File (M × ℕ))
  dec : ℕ → Option (File (M × ℕ))
  batch : ℕ → Option (File D)

/-- The program counter and the state of the codec: message and `data_count`. -/
inductive Proc (M D : Type)
  /-- Not running: before the first start, or after a crash. -/
  | idle
  /-- Ended by an exception. -/
  | failed
  /-- Ended with "completed": encode.py:89. -/
  | done
  /-- At the head of the loop of `encode`: encode.py:58-62, 112. -/
  | encoding (m : M) (k : ℕ)
  /-- Before or in the `np.savez` of encode.py:147. -/
  | savingEnc (m : M) (k : ℕ)
  /-- Looking for a decode checkpoint: encode.py:71-74. -/
  | loading (m : M) (k : ℕ)
  /-- At the head of the loop of `decode`: encode.py:177. -/
  | decoding (m : M) (k : ℕ)
  /-- Before or in the `np.savez` of encode.py:180. -/
  | savingBatch (m : M) (k : ℕ) (d : D)
  /-- Before or in the `np.savez` of encode.py:187. -/
  | savingDec (m : M) (k : ℕ)
  /-- The comparison of all decoded batches: encode.py:80-86. -/
  | checking

structure World (M D : Type) where
  dir : Dir M D
  proc : Proc M D

/-- The configuration: batch size `codec.data_shape[0]`, `save_interval`, `evaluator.num_samples`, the number of
processes, `check`, and the data. -/
structure Cfg (D : Type) where
  B : ℕ
  S : ℕ
  N : ℕ
  W : ℕ
  check : Bool
  data : ℕ → D

/-- The codec: `codec.encode` and `codec.decode`, `none` for an exception. -/
structure Coder (M D : Type) where
  push : M → D → Option M
  pop : M → Option (M × D)

variable {M D : Type}

/-- `max(ckpt_files, key=parse_resume_step_from_filename)` may return file `k`: script_util.py:149-153.  Among equal keys
the first one of the directory listing is chosen; any of them may be the first. -/
def Newest {α : Type} (key : ℕ → ℤ) (files : ℕ → Option α) (k : ℕ) : Prop :=
  (files k).isSome ∧ ∀ j, (files j).isSome → key j ≤ key k

/-- The key of `encode-ckpt{samples:06d}.npz`: encode.py:146. -/
def Cfg.encKey (c : Cfg D) (k : ℕ) : ℤ := resumeStep ((c.B * k : ℕ) : ℤ)

/-- The key of `decode-ckpt{-num_remaining:06d}.npz`: encode.py:186. -/
def Cfg.decKey (c : Cfg D) (k : ℕ) : ℤ := resumeStep (-((c.B * k : ℕ) : ℤ))

/-- Fewer than `num_samples` samples are encoded: encode.py:59-60, 111-112. -/
def Cfg.More (c : Cfg D) (k : ℕ) : Prop := c.B * k * c.W < c.N

/-- A checkpoint follows batch `k` in `encode`: encode.py:141-145. -/
def Cfg.SaveEnc (c : Cfg D) (k : ℕ) : Prop := c.N ≤ c.B * k * c.W ∨ c.B * k % c.S < c.B

/-- A checkpoint follows batch `k` in `decode`: encode.py:185. -/
def Cfg.SaveDec (c : Cfg D) (k : ℕ) : Prop := c.B * k % c.S < c.B

def put {α : Type} (f : ℕ → Option α) (k : ℕ) (a : α) : ℕ → Option α := fun j => if j = k then some a else f j

/-- The files pass the comparison: encode.py:80-86.  The `i`-th file in the order of the numbers in the names is compared
with batch `i`; `Nat.count` counts the files before it. -/
def Passes (c : Cfg D) (b : ℕ → Option (File D)) : Prop :=
  ∀ j f, b j = some f → f = .full (c.data (Nat.count (fun i => (b i).isSome = true) j))

/-- The process is not running. -/
def Stopped (w : World M D) : Prop := w.proc = .idle ∨ w.proc = .failed ∨ w.proc = .done

/-- `main` up to the loading of an encode checkpoint: encode.py:43-56; `fresh` is the initial message. -/
inductive Start (c : Cfg D) : World M D → World M D → Prop
  | fresh (w : World M D) (m : M) : Stopped w → (∀ k, w.dir.enc k = none) → Start c w ⟨w.dir, .encoding m 0⟩
  | load (w : World M D) (k n : ℕ) (m : M) : Stopped w → Newest c.encKey w.dir.enc k → w.dir.enc k = some (.full (m, n)) →
      Start c w ⟨w.dir, .encoding m n⟩
  | bad (w : World M D) (k : ℕ) : Stopped w → Newest c.encKey w.dir.enc k → w.dir.enc k = some .torn →
      Start c w ⟨w.dir, .failed⟩

/-- A step of the running process. -/
inductive Run (c : Cfg D) (C : Coder M D) : World M D → World M D → Prop
  /-- encode.py:113-119, and no checkpoint. -/
  | encode (f : Dir M D) (m m' : M) (k : ℕ) : c.More k → C.push m (c.data k) = some m' → ¬ c.SaveEnc (k + 1) →
      Run c C ⟨f, .encoding m k⟩ ⟨f, .encoding m' (k + 1)⟩
  /-- encode.py:113-119, and a checkpoint. -/
  | encodeSave (f : Dir M D) (m m' : M) (k : ℕ) : c.More k → C.push m (c.data k) = some m' → c.SaveEnc (k + 1) →
      Run c C ⟨f, .encoding m k⟩ ⟨f, .savingEnc m' (k + 1)⟩
  /-- `codec.encode` raises. -/
  | encodeFail (f : Dir M D) (m : M) (k : ℕ) : c.More k → C.push m (c.data k) = none →
      Run c C ⟨f, .encoding m k⟩ ⟨f, .failed⟩
  /-- encode.py:147. -/
  | savedEnc (f : Dir M D) (m : M) (k : ℕ) :
      Run c C ⟨f, .savingEnc m k⟩ ⟨{ f with enc := put f.enc k (.full (m, k)) }, .encoding m k⟩
  /-- encode.py:70, without `check`. -/
  | finish (f : Dir M D) (m : M) (k : ℕ) : ¬ c.More k → c.check = false → Run c C ⟨f, .encoding m k⟩ ⟨f, .done⟩
  /-- encode.py:70, with `check`. -/
  | encoded (f : Dir M D) (m : M) (k : ℕ) : ¬ c.More k → c.check = true →
      Run c C ⟨f, .encoding m k⟩ ⟨f, .loading m k⟩
  /-- encode.py:71-78, without a decode checkpoint. -/
  | loadNone (f : Dir M D) (m : M) (k : ℕ) : (∀ j, f.dec j = none) →
      Run c C ⟨f, .loading m k⟩ ⟨f, .decoding m k⟩
  /-- encode.py:71-78, with a decode checkpoint. -/
  | loadDec (f : Dir M D) (m m' : M) (k j n : ℕ) : Newest c.decKey f.dec j → f.dec j = some (.full (m', n)) →
      Run c C ⟨f, .loading m k⟩ ⟨f, .decoding m' n⟩
  /-- encode.py:74 raises. -/
  | loadBad (f : Dir M D) (m : M) (k j : ℕ) : Newest c.decKey f.dec j → f.dec j = some .torn →
      Run c C ⟨f, .loading m k⟩ ⟨f, .failed⟩
  /-- encode.py:178. -/
  | decode (f : Dir M D) (m m' : M) (k : ℕ) (d : D) : C.pop m = some (m', d) →
      Run c C ⟨f, .decoding m (k + 1)⟩ ⟨f, .savingBatch m' k d⟩
  /-- `codec.decode` raises. -/
  | decodeFail (f : Dir M D) (m : M) (k : ℕ) : C.pop m = none → Run c C ⟨f, .decoding m (k + 1)⟩ ⟨f, .failed⟩
  /-- encode.py:179-180, and no checkpoint. -/
  | savedBatch (f : Dir M D) (m : M) (k : ℕ) (d : D) : ¬ c.SaveDec k →
      Run c C ⟨f, .savingBatch m k d⟩ ⟨{ f with batch := put f.batch k (.full d) }, .decoding m k⟩
  /-- encode.py:179-180, and a checkpoint. -/
  | savedBatchSave (f : Dir M D) (m : M) (k : ℕ) (d : D) : c.SaveDec k →
      Run c C ⟨f, .savingBatch m k d⟩ ⟨{ f with batch := put f.batch k (.full d) }, .savingDec m k⟩
  /-- encode.py:187. -/
  | savedDec (f : Dir M D) (m : M) (k : ℕ) :
      Run c C ⟨f, .savingDec m k⟩ ⟨{ f with dec := put f.dec k (.full (m, k)) }, .decoding m k⟩
  /-- The loop of `decode` ends. -/
  | decoded (f : Dir M D) (m : M) : Run c C ⟨f, .decoding m 0⟩ ⟨f, .checking⟩
  /-- encode.py:80-89. -/
  | passed (f : Dir M D) : Passes c f.batch → Run c C ⟨f, .checking⟩ ⟨f, .done⟩
  /-- The assertion fails, or a file cannot be read: encode.py:86. -/
  | mismatch (f : Dir M D) : ¬ Passes c f.batch → Run c C ⟨f, .checking⟩ ⟨f, .failed⟩

/-- A crash: the process is gone.  If it was saving, the file may be left torn. -/
inductive Crash : World M D → World M D → Prop
  | lost (w : World M D) : Crash w ⟨w.dir, .idle⟩
  | tornEnc (f : Dir M D) (m : M) (k : ℕ) : Crash ⟨f, .savingEnc m k⟩ ⟨{ f with enc := put f.enc k .torn }, .idle⟩
  | tornBatch (f : Dir M D) (m : M) (k : ℕ) (d : D) :
      Crash ⟨f, .savingBatch m k d⟩ ⟨{ f with batch := put f.batch k .torn }, .idle⟩
  | tornDec (f : Dir M D) (m : M) (k : ℕ) : Crash ⟨f, .savingDec m k⟩ ⟨{ f with dec := put f.dec k .torn }, .idle⟩

/-- Anything that can happen next. -/
inductive Step (c : Cfg D) (C : Coder M D) : World M D → World M D → Prop
  | start {w w'} : Start c w w' → Step c C w w'
  | run {w w'} : Run c C w w' → Step c C w w'
  | crash {w w'} : Crash w w' → Step c C w w'

/-- An empty directory. -/
def emptyDir : Dir M D := ⟨fun _ => none, fun _ => none, fun _ => none⟩

/-- The histories of a run directory: starts, steps and crashes in any order. -/
def Reachable (c : Cfg D) (C : Coder M D) (w : World M D) : Prop :=
  Relation.ReflTransGen (Step c C) ⟨emptyDir, .idle⟩ w

end Verif.Script.Resume
