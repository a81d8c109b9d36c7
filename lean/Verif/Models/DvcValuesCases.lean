import Verif.Models.PropsDvcValues3

/-!
# C136: cases that meet the hypotheses
-/

namespace Verif.Models.DvcValues

open Verif Verif.Functional Verif.Models.DvcNets

theorem default_defined {Str : Type} (n : ℕ) (we : Weights Str) (training : Bool) (u v : ℕ → ℕ → ℕ → ℕ → ℝ) (x y : Tensor)
    (hxy : x.shape = y.shape) (hc : x.shape.c = 3) (hh : 16 ≤ x.shape.h) (hw : 16 ≤ x.shape.w) :
    ∃ o, forward (Model.default n) we training u v x y = .ok o ∧ o.image2.shape = x.shape := by
  have hs := (C109_default n training x.shape y.shape (by omega) (by omega)).1 ⟨hxy, hc, hh, hw⟩
  obtain ⟨o, ho, hosh⟩ := of_shape (forward_shape (Model.default n) we training u v x y) hs
  exact ⟨o, ho, hosh.2.1⟩

/-- A range coder that writes the symbols and their tables as they are. -/
noncomputable def plainBottleneck : Bottleneck (List (ℕ × ℤ)) :=
  ⟨fun _ => 1 / 2, fun _ _ => 1 / 2, id, fun s _ => s.map Prod.snd⟩

/-- Weights of a model. -/
noncomputable def plainWeights : Weights (List (ℕ × ℤ)) :=
  ⟨fun k _ => constLayer k, fun _ => copyLayer, plainBottleneck, fun _ => copyLayer,
    ⟨fun _ => copyLayer, fun _ => (zeroBlock, zeroBlock), fun _ => copyLayer⟩, fun _ => copyLayer, plainBottleneck,
    fun _ => constLayer 2⟩

/-- Three frames of 16 by 30 pixels. -/
noncomputable def frames (a : ℝ) : Tensor := ⟨⟨3, 3, 16, 30⟩, fun b c i j => a * b + c + i / 7 - j⟩

example : ∃ p o d, compress (Model.default 4) plainWeights (frames 1) (frames 2) = .ok p ∧
    forward (Model.default 4) plainWeights false (fun _ _ _ _ => 0) (fun _ _ _ _ => 0) (frames 1) (frames 2) = .ok o ∧
    decompress (Model.default 4) plainWeights (frames 1) p = .ok d ∧ p.flow.length = 3 ∧ d.shape = ⟨3, 3, 16, 30⟩ ∧
    d.val 2 1 15 29 = min 1 (max 0 (o.image2.val 2 1 15 29)) := by
  obtain ⟨p, o, d, h1, h2, h3, h4, _, h6, h7⟩ := C136_default_partial 4 plainWeights (fun _ => rfl) (fun _ => rfl) (frames 1)
    (frames 2) rfl rfl (by simp [frames]) (by simp [frames]) (by simp [frames]) (fun _ _ _ _ => 0) fun _ _ _ _ => 0
  exact ⟨p, o, d, h1, h2, h3, h4, h6, h7 2 (by simp [frames]) 1 (by norm_num) 15 (by simp [frames]) 29 (by simp [frames])⟩

/-- The last frame and the first one. -/
noncomputable def ends (a : ℝ) : Tensor :=
  ⟨⟨2, 3, 16, 30⟩, fun b c i j => a * (if b = 0 then 2 else 0) + c + i / 7 - j⟩

theorem ends_selected (a : ℝ) : Selected 2 (fun b => if b = 0 then 2 else 0) (frames a) (ends a) := by
  refine ⟨rfl, fun b hb => ⟨by dsimp only; split_ifs <;> simp [frames], fun c _ i _ j _ => ?_⟩⟩
  simp [frames, ends]

example : ∃ o o', forward (Model.default 4) plainWeights true (fun _ _ _ _ => 1 / 3) (fun _ _ _ _ => 1 / 4) (frames 1)
      (frames 2) = .ok o ∧
    forward (Model.default 4) plainWeights true (fun _ _ _ _ => 1 / 3) (fun _ _ _ _ => 1 / 4) (ends 1) (ends 2) = .ok o' ∧
    o'.image2.val 0 1 3 4 = o.image2.val 2 1 3 4 := by
  obtain ⟨o, ho, q⟩ := default_defined 4 plainWeights true (fun _ _ _ _ => 1 / 3) (fun _ _ _ _ => 1 / 4) (frames 1)
    (frames 2) rfl rfl (by simp [frames]) (by simp [frames])
  obtain ⟨o', ho', _, h2, _⟩ := (C136_batch_partial (Model.default 4) plainWeights true (Or.inr ⟨rfl, rfl, rfl, rfl⟩) 2 (fun b => if b = 0 then 2 else 0)
    (fun _ _ _ _ => 1 / 3) (fun _ _ _ _ => 1 / 3) (fun _ _ _ _ => 1 / 4) (fun _ _ _ _ => 1 / 4) (fun _ _ _ => ⟨rfl, rfl⟩)
    (frames 1) (frames 2) (ends 1) (ends 2) rfl (ends_selected 1) (ends_selected 2)).1 o ho
  exact ⟨o, o', ho, ho', (h2.2 0 (by norm_num)).2 1 (by rw [q]; simp [frames]) 3 (by rw [q]; simp [frames]) 4
    (by rw [q]; simp [frames])⟩

/-- The strings of the last and the first frame, alone. -/
example : ∃ p p', compress (Model.default 4) plainWeights (frames 1) (frames 2) = .ok p ∧
    compress (Model.default 4) plainWeights (ends 1) (ends 2) = .ok p' ∧ p'.flow.length = 2 ∧ p'.flow[0]? = p.flow[2]? := by
  obtain ⟨p, o, d, h1, _⟩ := C136_default_partial 4 plainWeights (fun _ => rfl) (fun _ => rfl) (frames 1)
    (frames 2) rfl rfl (by simp [frames]) (by simp [frames]) (by simp [frames]) (fun _ _ _ _ => 0) fun _ _ _ _ => 0
  obtain ⟨p', h2, h3, _⟩ := (C136_strings (Model.default 4) plainWeights 2 _ (frames 1) (frames 2) (ends 1) (ends 2) rfl
    (ends_selected 1) (ends_selected 2)).1 p h1
  obtain ⟨s, a, b⟩ := h3.2 0 (by norm_num)
  exact ⟨p, p', h1, h2, h3.1, by rw [b]; exact a.symm⟩

/-- The flow of the example: the five levels give 0, 1, 2, 3 and 4. -/
example : ∃ flow pairs, estimate {} false plainWeights.estimator (frames 1) (frames 2) = .ok (flow, pairs) ∧
    flow.val 1 0 7 20 = 10 ∧ pairs.length = 5 := by
  have hs := (C109_flow_partial {} false rfl (by norm_num) (frames 1).shape (frames 2).shape (by simp [frames])
    (by simp [frames])).1 ⟨rfl, by simp [frames], by simp [frames], by simp [frames], rfl, Or.inl rfl⟩
  obtain ⟨⟨flow, pairs⟩, h, _⟩ := of_shape (estimate_shape {} false plainWeights.estimator (frames 1) (frames 2)) hs
  refine ⟨flow, pairs, h, ?_, (C136_pairs {} false _ (by norm_num) _ _ _ _ h).1⟩
  have hw : plainWeights.estimator = fun (k : ℕ) (_ : ℕ) => constLayer (k : ℝ) := rfl
  rw [hw] at h
  rw [C136_flow_sum {} (by simp) (by norm_num) false (fun k => (k : ℝ)) _ _ _ _ h]
  norm_num [Finset.sum_range_succ]

end Verif.Models.DvcValues
