import Verif.Vct.PatcherLemmas
import Mathlib.Data.Int.Basic

/-
C23 and C24: the patcher.
-/
namespace Verif.Vct

open Verif.Tensor

/-- Smallest multiple of the stride that is at least the size. -/
def Legal (stride H : Nat) : Prop := ∀ k, H ≤ k * stride → (∀ j, H ≤ j * stride → k ≤ j) → k * stride < 2 * H

theorem ceilDiv_least (n s : Nat) (hs : 0 < s) (j : Nat) (h : n ≤ j * s) : ceilDiv n s ≤ j := by
  unfold ceilDiv
  have : n + s - 1 < (j + 1) * s := by
    have : (j + 1) * s = j * s + s := by ring
    omega
  have := Nat.div_lt_of_lt_mul (show n + s - 1 < s * (j + 1) by rw [Nat.mul_comm]; exact this)
  omega

theorem legal_iff (s H : Nat) (hs : 0 < s) (hH : 0 < H) :
    Legal s H ↔ ceilDiv H s * s - H < H := by
  have g := ceilDiv_mul_ge H s hs
  constructor
  · intro h
    have := h (ceilDiv H s) g (fun j hj => ceilDiv_least H s hs j hj)
    omega
  · intro h k hk hmin
    have : k ≤ ceilDiv H s := hmin _ g
    have h2 : k * s ≤ ceilDiv H s * s := Nat.mul_le_mul_right _ this
    omega

theorem reflect_id (n : Nat) (i : Nat) (h : i < n) : reflect n (i : Int) = i := by
  unfold reflect
  rw [if_neg (by omega), if_neg (by omega)]
  omega

/-- **C23.**  For every batch size, number of channels, height, width and stride such that the reflection
padding up to the next multiple of the stride is legal: cutting into non-overlapping patches and
un-patching with the original size as crop gives back a tensor of the same shape with the same
elements. -/
theorem C23_roundtrip {R : Type} [CommSemiring R] (stride B C H W : Nat) (x : Tensor R)
    (hx : x.shape = [B, C, H, W]) (hs : 0 < stride) (hC : 0 < C) (hH : 0 < H) (hW : 0 < W)
    (lH : Legal stride H) (lW : Legal stride W) :
    ∃ t nH nW r, patch stride x B C H W stride = .ok (t, nH, nW) ∧
      unpatch stride t nH nW (some (H, W)) true = .ok r ∧ Same r x := by
  rw [legal_iff _ _ hs hH] at lH
  rw [legal_iff _ _ hs hW] at lW
  obtain ⟨t, ht, hts, htg⟩ := patch_spec stride x B C H W stride hs hH hW le_rfl (by simp)
    (by simpa using lH) (by simpa using lW)
  obtain ⟨r, hr, hrs, hrg⟩ := unpatch_spec stride t B C (ceilDiv H stride) (ceilDiv W stride) (some (H, W)) hs
    hC (ceilDiv_pos _ _ hs hH) (ceilDiv_pos _ _ hs hW) hts
  have gH := ceilDiv_mul_ge H stride hs
  have gW := ceilDiv_mul_ge W stride hs
  have hsh : r.shape = x.shape := by
    rw [hrs, hx]
    simp only [min_eq_left gH, min_eq_left gW]
  refine ⟨t, _, _, r, ht, hr, hsh, ?_⟩
  intro idx hidx
  have hidx' := hidx
  rw [hsh, hx] at hidx'
  match idx, hidx' with
  | [b, c, y, z], ⟨hb, hc, hy, hz, _⟩ =>
    have ey := Nat.div_add_mod y stride
    have ez := Nat.div_add_mod z stride
    rw [Nat.mul_comm] at ey ez
    have my := Nat.mod_lt y hs
    have mz := Nat.mod_lt z hs
    have dy : y / stride < ceilDiv H stride := Nat.div_lt_of_lt_mul (by rw [Nat.mul_comm]; omega)
    have dz : z / stride < ceilDiv W stride := Nat.div_lt_of_lt_mul (by rw [Nat.mul_comm]; omega)
    have h1 := hrg b c (y / stride) (y % stride) (z / stride) (z % stride) hb hc dy dz my mz
      (by rw [ey, ez]; exact hidx)
    have h2 := htg b (y / stride) (z / stride) (y % stride) (z % stride) c hb dy dz my mz hc
    rw [ey, ez] at h1 h2
    rw [h1, h2]
    simp only [Nat.sub_self, Nat.zero_div, Int.natCast_zero, Int.sub_zero]
    rw [reflect_id H y hy, reflect_id W z hz]

/-- Sizes for which the padding is not legal raise; no wrong data is returned. -/
theorem C23_rejects {R : Type} [CommSemiring R] (stride B C H W : Nat) (x : Tensor R)
    (hs : 0 < stride) (hH : 0 < H) (hW : 0 < W) (h : ¬ (Legal stride H ∧ Legal stride W)) :
    patch stride x B C H W stride = .error .pad := by
  rw [legal_iff _ _ hs hH, legal_iff _ _ hs hW] at h
  unfold patch padPatch padReflect
  simp only [Nat.sub_self, Nat.zero_div, Nat.zero_mod, lt_irrefl, ne_eq, not_true, if_false, Nat.add_zero,
    hH, hW, true_and]
  rw [if_neg (by omega)]
  rfl

/-- C23 is not vacuous: 5 × 7 with stride 4 needs padding and is legal. -/
example : Legal 4 5 ∧ Legal 4 7 ∧ ¬ Legal 4 1 := by
  rw [legal_iff _ _ (by decide) (by decide), legal_iff _ _ (by decide) (by decide),
    legal_iff _ _ (by decide) (by decide)]
  decide

/-- Position `k` of an axis of length `n` that has been continued by mirroring at its two end positions shows the
original position `y` (the end positions themselves are not repeated). -/
def Mirrored (n : Nat) (k : Int) (y : Nat) : Prop :=
  y < n ∧ (k = y ∨ k = -(y : Int) ∨ k + y = 2 * ((n : Int) - 1))

theorem mirrored_reflect (n : Nat) (k : Int) (h1 : -(n : Int) < k) (h2 : k ≤ 2 * ((n : Int) - 1)) :
    Mirrored n k (reflect n k) := by
  unfold Mirrored reflect
  split_ifs <;> omega

/-- **C24.**  For every size, stride and window size with even difference such that the padding is legal: the
overlapping and the non-overlapping patching of the same latent have the same number of patches, in
both directions, the overlapping patch contains the block `(i, j)` exactly in its centre (also where it is padding), and its
elements are the elements of the latent at the sliced positions, mirrored at the border. -/
theorem C24_windows {R : Type} [CommSemiring R] (stride B C H W p : Nat) (x : Tensor R)
    (hs : 0 < stride) (hH : 0 < H) (hW : 0 < W) (h1 : stride ≤ p) (h2 : (p - stride) % 2 = 0)
    (h3 : ceilDiv H stride * stride - H + (p - stride) / 2 < H)
    (h4 : ceilDiv W stride * stride - W + (p - stride) / 2 < W) :
    ∃ big small nH nW, patch stride x B C H W p = .ok (big, nH, nW) ∧
      patch stride x B C H W stride = .ok (small, nH, nW) ∧
      big.shape = [B * nH * nW, p ^ 2, C] ∧ small.shape = [B * nH * nW, stride ^ 2, C] ∧
      (∀ b i j u v c, b < B → i < nH → j < nW → u < stride → v < stride → c < C →
        big.get [(b * nH + i) * nW + j, ((p - stride) / 2 + u) * p + ((p - stride) / 2 + v), c] =
          small.get [(b * nH + i) * nW + j, u * stride + v, c]) ∧
      (∀ b i j u v c y z, b < B → i < nH → j < nW → u < p → v < p → c < C → y < H → z < W →
        i * stride + u = y + (p - stride) / 2 → j * stride + v = z + (p - stride) / 2 →
        big.get [(b * nH + i) * nW + j, u * p + v, c] = x.get [b, c, y, z]) ∧
      (∀ b i j u v c, b < B → i < nH → j < nW → u < p → v < p → c < C →
        ∃ y z, Mirrored H ((i * stride + u : Nat) - ((p - stride) / 2 : Nat) : Int) y ∧
          Mirrored W ((j * stride + v : Nat) - ((p - stride) / 2 : Nat) : Int) z ∧
          big.get [(b * nH + i) * nW + j, u * p + v, c] = x.get [b, c, y, z]) := by
  obtain ⟨t, ht, hts, htg⟩ := patch_spec stride x B C H W p hs hH hW h1 h2 h3 h4
  obtain ⟨t', ht', hts', htg'⟩ := patch_spec stride x B C H W stride hs hH hW le_rfl (by simp)
    (by rw [Nat.sub_self]; omega) (by rw [Nat.sub_self]; omega)
  refine ⟨t, t', _, _, ht, ht', hts, hts', ?_, ?_, ?_⟩
  · intro b i j u v c hb hi hj hu hv hc
    have hm : 2 * ((p - stride) / 2) = p - stride := by omega
    rw [htg b i j _ _ c hb hi hj (by omega) (by omega) hc, htg' b i j u v c hb hi hj hu hv hc]
    generalize (p - stride) / 2 = m
    simp only [Nat.sub_self, Nat.zero_div]
    rw [show ((i * stride + (m + u) : Nat) : Int) - (m : Nat) = ((i * stride + u : Nat) : Int) - (0 : Nat) by
        push_cast; ring,
      show ((j * stride + (m + v) : Nat) : Int) - (m : Nat) = ((j * stride + v : Nat) : Int) - (0 : Nat) by
        push_cast; ring]
  · intro b i j u v c y z hb hi hj hu hv hc hy hz ey ez
    rw [htg b i j u v c hb hi hj hu hv hc, ey, ez]
    rw [show ((y + (p - stride) / 2 : Nat) : Int) - ((p - stride) / 2 : Nat) = (y : Int) by push_cast; ring,
      show ((z + (p - stride) / 2 : Nat) : Int) - ((p - stride) / 2 : Nat) = (z : Int) by push_cast; ring,
      reflect_id H y hy, reflect_id W z hz]
  · intro b i j u v c hb hi hj hu hv hc
    have bnd : ∀ n k q, k < ceilDiv n stride → q < p → 0 < n →
        ceilDiv n stride * stride - n + (p - stride) / 2 < n →
        -(n : Int) < ((k * stride + q : Nat) : Int) - ((p - stride) / 2 : Nat) ∧
          ((k * stride + q : Nat) : Int) - ((p - stride) / 2 : Nat) ≤ 2 * ((n : Int) - 1) := by
      intro n k q hk hq hn h
      have g := ceilDiv_mul_ge n stride hs
      have e : (k + 1) * stride ≤ ceilDiv n stride * stride := Nat.mul_le_mul_right _ hk
      rw [Nat.add_mul, Nat.one_mul] at e
      generalize ceilDiv n stride * stride = N at *
      generalize k * stride = K at *
      omega
    exact ⟨_, _, mirrored_reflect _ _ (bnd H i u hi hu hH h3).1 (bnd H i u hi hu hH h3).2,
      mirrored_reflect _ _ (bnd W j v hj hv hW h4).1 (bnd W j v hj hv hW h4).2,
      htg b i j u v c hb hi hj hu hv hc⟩

/-- C24 is not vacuous: the stride 4 and window 8 of the video model on a 16 × 15 latent. -/
example : 4 ≤ 8 ∧ (8 - 4) % 2 = 0 ∧ ceilDiv 16 4 * 4 - 16 + (8 - 4) / 2 < 16 ∧
    ceilDiv 15 4 * 4 - 15 + (8 - 4) / 2 < 15 ∧ ceilDiv 15 4 = 4 := by decide

/-- Un-patching with the other memory layout (`channels_last=False`, the default) is the same after
moving the channels. -/
theorem C23_channels_first {α : Type} (stride B C nH nW : Nat) (t : Tensor α)
    (hs : 0 < stride) (hC : 0 < C) (hH : 0 < nH) (hW : 0 < nW)
    (ht : t.shape = [B * nH * nW, C, stride ^ 2]) :
    ∃ r, unpatch stride t nH nW none false = .ok r ∧ r.shape = [B, C, nH * stride, nW * stride] ∧
      ∀ b c i u j v, b < B → c < C → i < nH → j < nW → u < stride → v < stride →
        r.get [b, c, i * stride + u, j * stride + v] =
          t.get [(b * nH + i) * nW + j, c, u * stride + v] := by
  have hsh : (t.permute [0, 2, 1]).shape = [B * nH * nW, stride ^ 2, C] := by
    show List.map _ _ = _
    rw [ht]; rfl
  obtain ⟨r, hr, hrs, hrg⟩ := unpatch_spec stride (t.permute [0, 2, 1]) B C nH nW none hs hC hH hW hsh
  refine ⟨r, ?_, hrs, ?_⟩
  · rw [← hr]; rfl
  · intro b c i u j v hb hc hi hj hu hv
    have by' : i * stride + u < nH * stride := by
      have : (i + 1) * stride ≤ nH * stride := Nat.mul_le_mul_right _ hi
      have e : (i + 1) * stride = i * stride + stride := by ring
      omega
    have bz : j * stride + v < nW * stride := by
      have : (j + 1) * stride ≤ nW * stride := Nat.mul_le_mul_right _ hj
      have e : (j + 1) * stride = j * stride + stride := by ring
      omega
    rw [hrg b c i u j v hb hc hi hj hu hv (by rw [hrs]; exact inRange4 hb hc by' bz)]
    have hr' : InRange (List.map (fun p => t.shape.getD p 0) [0, 2, 1])
        [(b * nH + i) * nW + j, u * stride + v, c] := by
      rw [ht]; exact ⟨row_lt hb hi hj, col_lt hu hv, hc, trivial⟩
    rw [get_permute t _ _ hr']
    rfl

end Verif.Vct
