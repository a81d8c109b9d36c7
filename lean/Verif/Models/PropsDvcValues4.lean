import Verif.Models.PropsDvcValues3
import Verif.Functional.PropsWarp

/-!
# C136: which weights belong to which layer, and where a warped pixel comes from
-/

namespace Verif.Models.DvcValues

open Verif Verif.Functional Verif.Models.DvcNets
open Verif.Models.VqVaeNet (bind_ok)

/-- Tensors in front of a list of tensors. -/
def consTensor (t : Tensor) (ts : ℕ → Tensor) : ℕ → Tensor
  | 0 => t
  | n + 1 => ts n

/-- **C136, layers in sequence.** Layer number `n` of a sequence gets the output of the layer before it, and uses the weights
number `n`. -/
theorem C136_layers (training : Bool) (w : ℕ → LayerW) (ls : List Layer) (t r : Tensor)
    (h : runAll training w 0 ls t = .ok r) :
    ∃ ts : ℕ → Tensor, ts 0 = t ∧ ts ls.length = r ∧
      ∀ n (hn : n < ls.length), run training false ls[n] (w n) (ts n) = .ok (ts (n + 1)) := by
  suffices H : ∀ m (t : Tensor), runAll training w m ls t = .ok r → ∃ ts : ℕ → Tensor, ts 0 = t ∧ ts ls.length = r ∧
      ∀ n (hn : n < ls.length), run training false ls[n] (w (m + n)) (ts n) = .ok (ts (n + 1)) by
    obtain ⟨ts, a, b, c⟩ := H 0 t h
    exact ⟨ts, a, b, fun n hn => by have := c n hn; rwa [Nat.zero_add] at this⟩
  clear h t
  induction ls with
  | nil =>
    intro m t h
    rw [runAll] at h
    cases h
    exact ⟨fun _ => r, rfl, rfl, fun n hn => absurd hn (by simp)⟩
  | cons l rest ih =>
    intro m t h
    rw [runAll] at h
    obtain ⟨t1, e1, h⟩ := bind_ok h
    obtain ⟨ts, a, b, c⟩ := ih (m + 1) t1 h
    refine ⟨consTensor t ts, rfl, b, ?_⟩
    intro n hn
    cases n with
    | zero => simpa [consTensor, a] using e1
    | succ n =>
      have := c n (by simpa using hn)
      simpa [consTensor, Nat.add_assoc, Nat.add_comm 1 n] using this

/-- **C136, layers of an encoder.** -/
theorem C136_encoder_layers (k : Coder) (training : Bool) (w : ℕ → LayerW) (t r : Tensor) (sizes : List Shape)
    (h : encode k training w t = .ok (r, sizes)) :
    ∃ ts : ℕ → Tensor, ts 0 = t ∧ ts k.encoder.length = r ∧
      ∀ n (hn : n < k.encoder.length), run training false k.encoder[n] (w n) (ts n) = .ok (ts (n + 1)) := by
  suffices H : ∀ (ls : List Layer) m (t : Tensor) (s : List Shape), encodeLoop training w m ls t s = .ok (r, sizes) →
      ∃ ts : ℕ → Tensor, ts 0 = t ∧ ts ls.length = r ∧
        ∀ n (hn : n < ls.length), run training false ls[n] (w (m + n)) (ts n) = .ok (ts (n + 1)) by
    obtain ⟨ts, a, b, c⟩ := H _ 0 t [] h
    exact ⟨ts, a, b, fun n hn => by have := c n hn; rwa [Nat.zero_add] at this⟩
  intro ls
  induction ls with
  | nil =>
    intro m t s h
    rw [encodeLoop] at h
    cases h
    exact ⟨fun _ => r, rfl, rfl, fun n hn => absurd hn (by simp)⟩
  | cons l rest ih =>
    intro m t s h
    unfold encodeLoop at h
    obtain ⟨t1, e1, h⟩ := bind_ok h
    obtain ⟨ts, a, b, c⟩ := ih (m + 1) t1 _ h
    refine ⟨consTensor t ts, rfl, b, ?_⟩
    intro n hn
    cases n with
    | zero => simpa [consTensor, a] using e1
    | succ n =>
      have := c n (by simpa using hn)
      simpa [consTensor, Nat.add_assoc, Nat.add_comm 1 n] using this

/-- **C136, layers of a decoder.** Transposed convolutions get a size: the sizes in the reverse order. -/
theorem C136_decoder_layers (k : Coder) (training : Bool) (w : ℕ → LayerW) (t r : Tensor) (sizes : List Shape)
    (h : decode k training w t sizes = .ok r) :
    ∃ ts : ℕ → Tensor, ts 0 = t ∧ ts k.decoder.length = r ∧
      ∀ n (hn : n < k.decoder.length),
        if k.decoder[n].isConvT then
          ∃ wanted, sizes.reverse[((k.decoder.take n).filter Layer.isConvT).length]? = some wanted ∧
            runSized training k.decoder[n] (w n) (ts n) wanted = .ok (ts (n + 1))
        else run training true k.decoder[n] (w n) (ts n) = .ok (ts (n + 1)) := by
  suffices H : ∀ (ls : List Layer) m (t : Tensor) (s : List Shape), decodeLoop training w m ls t s = .ok r →
      ∃ ts : ℕ → Tensor, ts 0 = t ∧ ts ls.length = r ∧
        ∀ n (hn : n < ls.length),
          if ls[n].isConvT then
            ∃ wanted, s.reverse[((ls.take n).filter Layer.isConvT).length]? = some wanted ∧
              runSized training ls[n] (w (m + n)) (ts n) wanted = .ok (ts (n + 1))
          else run training true ls[n] (w (m + n)) (ts n) = .ok (ts (n + 1)) by
    unfold decode at h
    split at h
    · cases h
    obtain ⟨ts, a, b, c⟩ := H _ 0 t sizes h
    exact ⟨ts, a, b, fun n hn => by have := c n hn; rwa [Nat.zero_add] at this⟩
  intro ls
  induction ls with
  | nil =>
    intro m t s h
    rw [decodeLoop] at h
    cases h
    exact ⟨fun _ => r, rfl, rfl, fun n hn => absurd hn (by simp)⟩
  | cons l rest ih =>
    intro m t s h
    unfold decodeLoop at h
    split at h
    · rename_i hl
      split at h
      · cases h
      · rename_i wanted hw
        obtain ⟨t1, e1, h⟩ := bind_ok h
        obtain ⟨ts, a, b, c⟩ := ih (m + 1) t1 _ h
        obtain ⟨q, hq⟩ : ∃ q, s = q ++ [wanted] := by
          rcases List.eq_nil_or_concat s with h0 | ⟨q, x, h0⟩
          · simp [h0] at hw
          · refine ⟨q, ?_⟩
            rw [h0] at hw ⊢
            simp at hw
            simp [hw]
        refine ⟨consTensor t ts, rfl, b, ?_⟩
        intro n hn
        cases n with
        | zero =>
          rw [if_pos (by simpa using hl)]
          refine ⟨wanted, by simp [hq], ?_⟩
          simpa [consTensor, a] using e1
        | succ n =>
          have := c n (by simpa using hn)
          rw [hq] at this ⊢
          simpa [consTensor, hl, Nat.add_assoc, Nat.add_comm 1 n] using this
    · rename_i hl
      obtain ⟨t1, e1, h⟩ := bind_ok h
      obtain ⟨ts, a, b, c⟩ := ih (m + 1) t1 _ h
      refine ⟨consTensor t ts, rfl, b, ?_⟩
      intro n hn
      cases n with
      | zero =>
        rw [if_neg (by simpa using hl)]
        simpa [consTensor, a] using e1
      | succ n =>
        have := c n (by simpa using hn)
        simpa [consTensor, hl, Nat.add_assoc, Nat.add_comm 1 n] using this

/-- **C136, warping.** The first channel of a flow moves columns, the second rows, in units of half the image: a flow that leads
from the point of pixel `(i, j)` — the points of the first and last pixels are -1 and 1 — to the centre of pixel `(y, x)` — the
borders of the image are -1 and 1 — gives all channels of that pixel. -/
theorem C136_warp (image flow r : Tensor) (h : warpTensor image flow = .ok r) (b i j y x : ℕ)
    (hh : 2 ≤ flow.shape.h) (hw : 2 ≤ flow.shape.w) (hy : y < image.shape.h) (hx : x < image.shape.w)
    (h0 : (-1 + 2 * j / (flow.shape.w - 1) : ℝ) + flow.val b 0 i j = -1 + (2 * x + 1) / image.shape.w)
    (h1 : (-1 + 2 * i / (flow.shape.h - 1) : ℝ) + flow.val b 1 i j = -1 + (2 * y + 1) / image.shape.h) (c : ℕ) :
    r.val b c i j = image.val b c y x := by
  unfold warpTensor at h
  unfold Warp.denseImageWarp at h
  rw [if_neg (by simp)] at h
  dsimp only at h
  by_cases e1 : flow.shape.c = 2
  case neg => simp [e1] at h
  by_cases e2 : image.shape.n ≠ flow.shape.n ∨ image.shape.h = 0 ∨ image.shape.w = 0
  case pos => simp [e1, e2] at h
  rw [if_neg (by simp [e1]), if_neg e2] at h
  injection h with h
  subst h
  dsimp only
  have hhe : (image.shape.h : ℝ) ≠ 0 := by exact_mod_cast (by omega : image.shape.h ≠ 0)
  have hwe : (image.shape.w : ℝ) ≠ 0 := by exact_mod_cast (by omega : image.shape.w ≠ 0)
  refine Warp.gridSample_nat _ _ _ _ hy hx _ _ ?_ ?_
  · unfold Warp.unnormalize Warp.linspace
    rw [if_neg (by simp), if_neg (by omega), h0]
    field_simp
    ring
  · unfold Warp.unnormalize Warp.linspace
    rw [if_neg (by simp), if_neg (by omega), h1]
    field_simp
    ring

/-- Three by four pixels with three channels. -/
def smallImage : Tensor := ⟨⟨1, 3, 3, 4⟩, fun _ c i j => c + 10 * i + j⟩

/-- A flow from its first pixel to row 2 and column 1. -/
noncomputable def smallFlow : Tensor :=
  ⟨⟨1, 2, 3, 4⟩, fun _ c i j => if i = 0 ∧ j = 0 then (if c = 0 then 3 / 4 else 5 / 3) else 0⟩

example : ∃ r, warpTensor smallImage smallFlow = .ok r ∧ ∀ c : ℕ, r.val 0 c 0 0 = c + 10 * 2 + 1 := by
  obtain ⟨r, h⟩ : ∃ r, warpTensor smallImage smallFlow = .ok r := ⟨_, rfl⟩
  refine ⟨r, h, fun c => ?_⟩
  rw [C136_warp smallImage smallFlow r h 0 0 0 2 1 (by simp [smallFlow]) (by simp [smallFlow]) (by simp [smallImage])
    (by simp [smallImage]) (by norm_num [smallFlow, smallImage]) (by norm_num [smallFlow, smallImage]) c]
  norm_num [smallImage]

end Verif.Models.DvcValues
