import Verif.Vct.Patcher

/-
Lemmas about the patcher: every step by index.
-/
namespace Verif.Vct

open Verif.Tensor

variable {α : Type}

theorem ceilDiv_mul_ge (n s : Nat) (hs : 0 < s) : n ≤ ceilDiv n s * s := by
  unfold ceilDiv
  have h1 := Nat.div_add_mod (n + s - 1) s
  have h2 := Nat.mod_lt (n + s - 1) hs
  rw [Nat.mul_comm] at h1
  omega

theorem ceilDiv_pos (n s : Nat) (hs : 0 < s) (hn : 0 < n) : 0 < ceilDiv n s := by
  unfold ceilDiv
  exact Nat.div_pos (by omega) hs

theorem inRange4 {a b c d i j k l : Nat} (h1 : i < a) (h2 : j < b) (h3 : k < c) (h4 : l < d) :
    InRange [a, b, c, d] [i, j, k, l] := ⟨h1, h2, h3, h4, trivial⟩

theorem row_lt {b B i nH j nW : Nat} (hb : b < B) (hi : i < nH) (hj : j < nW) :
    (b * nH + i) * nW + j < B * nH * nW := by
  have h1 : b * nH + i < B * nH := by
    calc b * nH + i < b * nH + nH := by omega
      _ = (b + 1) * nH := by ring
      _ ≤ B * nH := Nat.mul_le_mul_right _ hb
  calc (b * nH + i) * nW + j < (b * nH + i) * nW + nW := by omega
    _ = (b * nH + i + 1) * nW := by ring
    _ ≤ B * nH * nW := Nat.mul_le_mul_right _ h1

theorem col_lt {u p v : Nat} (hu : u < p) (hv : v < p) : u * p + v < p ^ 2 := by
  calc u * p + v < u * p + p := by omega
    _ = (u + 1) * p := by ring
    _ ≤ p * p := Nat.mul_le_mul_right _ hu
    _ = p ^ 2 := by ring

/-- The non-overlapping partition, by index. -/
theorem windowPartition_spec (x : Tensor α) (B C nH nW p : Nat) (hp : 0 < p)
    (hx : x.shape = [B, C, nH * p, nW * p]) :
    ∃ t, windowPartition x B C (nH * p) (nW * p) p = .ok t ∧ t.shape = [B * nH * nW, p ^ 2, C] ∧
      ∀ b i j u v c, b < B → i < nH → j < nW → u < p → v < p → c < C →
        t.get [(b * nH + i) * nW + j, u * p + v, c] = x.get [b, c, i * p + u, j * p + v] := by
  have e1 : numel [B, C, nH, p, nW, p] = numel x.shape := by
    rw [hx]; simp only [numel]; ring
  have e2 : numel [B * nH * nW, p ^ 2, C] = numel ((Tensor.mk [B, C, nH, p, nW, p] x.data).permute [0, 2, 4, 3, 5, 1]).shape := by
    show numel [B * nH * nW, p ^ 2, C] = numel [B, nH, nW, p, p, C]
    simp only [numel]; ring
  refine ⟨⟨[B * nH * nW, p ^ 2, C], ((Tensor.mk [B, C, nH, p, nW, p] x.data).permute [0, 2, 4, 3, 5, 1]).data⟩, ?_, rfl, ?_⟩
  · unfold windowPartition
    rw [Nat.mul_mod_left, Nat.mul_mod_left, Nat.mul_div_cancel _ hp, Nat.mul_div_cancel _ hp]
    simp only [ne_eq, not_true, or_self, if_false, Tensor.reshape, e1, if_true, orErr, bind, Except.bind, e2]
  · intro b i j u v c hb hi hj hu hv hc
    have e3 : ravel [B * nH * nW, p ^ 2, C] [(b * nH + i) * nW + j, u * p + v, c] =
        ravel [B, nH, nW, p, p, C] [b, i, j, u, v, c] := by
      simp only [ravel, numel]; ring
    have e4 := get_permute (Tensor.mk [B, C, nH, p, nW, p] x.data) [0, 2, 4, 3, 5, 1] [b, i, j, u, v, c]
      (show InRange [B, nH, nW, p, p, C] _ from ⟨hb, hi, hj, hu, hv, hc, trivial⟩)
    have e5 : permIdx [0, 2, 4, 3, 5, 1] [b, i, j, u, v, c] = [b, c, i, u, j, v] := rfl
    rw [e5] at e4
    unfold Tensor.get at e4 ⊢
    rw [hx]
    simp only at e4 ⊢
    rw [e3]
    refine Eq.trans e4 ?_
    congr 1
    simp only [ravel, numel]; ring

/-- The identity kernel. -/
theorem kernel_get {R : Type} [CommSemiring R] (C p o c u v : Nat) (ho : o < C * p ^ 2) (hc : c < C)
    (hu : u < p) (hv : v < p) :
    (Tensor.mk [C * p ^ 2, C, p, p] (diagOnes R (p ^ 2 * C)).data).get [o, c, u, v] =
      if o = c * p ^ 2 + (u * p + v) then 1 else 0 := by
  have h1 := col_lt hu hv
  have h2 : c * p ^ 2 + (u * p + v) < p ^ 2 * C := by
    calc c * p ^ 2 + (u * p + v) < c * p ^ 2 + p ^ 2 := by omega
      _ = (c + 1) * p ^ 2 := by ring
      _ ≤ C * p ^ 2 := Nat.mul_le_mul_right _ hc
      _ = p ^ 2 * C := by ring
  have e := get_ofFn [p ^ 2 * C, p ^ 2 * C]
    (fun idx => if idx.getD 0 0 = idx.getD 1 0 then (1 : R) else 0) [o, c * p ^ 2 + (u * p + v)]
    ⟨by rw [Nat.mul_comm]; exact ho, h2, trivial⟩
  simp only [List.getD_cons_zero, List.getD_cons_succ] at e
  rw [← e]
  have e' : ravel [C * p ^ 2, C, p, p] [o, c, u, v] =
      ravel [p ^ 2 * C, p ^ 2 * C] [o, c * p ^ 2 + (u * p + v)] := by
    simp only [ravel, numel]; ring
  show (diagOnes R (p ^ 2 * C)).data (ravel [C * p ^ 2, C, p, p] [o, c, u, v]) =
    (diagOnes R (p ^ 2 * C)).data (ravel [p ^ 2 * C, p ^ 2 * C] [o, c * p ^ 2 + (u * p + v)])
  rw [e']

/-- The convolution with the identity kernel picks one element. -/
theorem conv_get {R : Type} [CommSemiring R] (x : Tensor R) (B C H W p s b i j u v c : Nat)
    (hb : b < B) (hi : i < (H - p) / s + 1) (hj : j < (W - p) / s + 1) (hu : u < p) (hv : v < p)
    (hc : c < C) :
    (conv2d x (Tensor.mk [C * p ^ 2, C, p, p] (diagOnes R (p ^ 2 * C)).data) B C H W (C * p ^ 2) p s).get
      [b, c * p ^ 2 + (u * p + v), i, j] = x.get [b, c, i * s + u, j * s + v] := by
  have h1 := col_lt hu hv
  have ho : c * p ^ 2 + (u * p + v) < C * p ^ 2 := by
    calc c * p ^ 2 + (u * p + v) < c * p ^ 2 + p ^ 2 := by omega
      _ = (c + 1) * p ^ 2 := by ring
      _ ≤ C * p ^ 2 := Nat.mul_le_mul_right _ hc
  unfold conv2d
  rw [get_ofFn _ _ _ (inRange4 hb ho hi hj)]
  simp only [List.getD_cons_zero, List.getD_cons_succ]
  have key : ∀ c' ∈ Finset.range C, ∀ u' ∈ Finset.range p, ∀ v' ∈ Finset.range p,
      (Tensor.mk [C * p ^ 2, C, p, p] (diagOnes R (p ^ 2 * C)).data).get
        [c * p ^ 2 + (u * p + v), c', u', v'] =
        if c' = c then (if u' = u then (if v' = v then (1 : R) else 0) else 0) else 0 := by
    intro c' hc' u' hu' v' hv'
    rw [Finset.mem_range] at hc' hu' hv'
    rw [kernel_get C p _ c' u' v' ho hc' hu' hv']
    have h1' := col_lt hu' hv'
    by_cases e : c * p ^ 2 + (u * p + v) = c' * p ^ 2 + (u' * p + v')
    · rw [if_pos e]
      have hpp : 0 < p ^ 2 := by omega
      have hp : 0 < p := by omega
      have q1 : (c * p ^ 2 + (u * p + v)) / p ^ 2 = c := by
        rw [Nat.mul_comm, Nat.mul_add_div hpp, Nat.div_eq_of_lt h1, Nat.add_zero]
      have q2 : (c' * p ^ 2 + (u' * p + v')) / p ^ 2 = c' := by
        rw [Nat.mul_comm, Nat.mul_add_div hpp, Nat.div_eq_of_lt h1', Nat.add_zero]
      have ec : c' = c := by rw [← q1, ← q2, e]
      subst ec
      have e' : u * p + v = u' * p + v' := by omega
      have q3 : (u * p + v) / p = u := by
        rw [Nat.mul_comm, Nat.mul_add_div hp, Nat.div_eq_of_lt hv, Nat.add_zero]
      have q4 : (u' * p + v') / p = u' := by
        rw [Nat.mul_comm, Nat.mul_add_div hp, Nat.div_eq_of_lt hv', Nat.add_zero]
      have eu : u' = u := by rw [← q3, ← q4, e']
      subst eu
      have ev : v' = v := by omega
      rw [if_pos rfl, if_pos rfl, if_pos ev]
    · rw [if_neg e]
      split_ifs with a1 a2 a3
      · exact absurd (by rw [a1, a2, a3]) e
      all_goals rfl
  rw [Finset.sum_congr rfl (fun c' hc' => Finset.sum_congr rfl (fun u' hu' => Finset.sum_congr rfl
    (fun v' hv' => by rw [key c' hc' u' hu' v' hv'])))]
  simp only [ite_mul, one_mul, zero_mul]
  rw [Finset.sum_eq_single c]
  · rw [Finset.sum_eq_single u]
    · simp [hv]
    · intro u' _ hne; simp [hne]
    · intro h; exact absurd (Finset.mem_range.2 hu) h
  · intro c' _ hne; simp [hne]
  · intro h; exact absurd (Finset.mem_range.2 hc) h

/-- The overlapping partition, by index. -/
theorem windowPartitionConv_spec {R : Type} [CommSemiring R] (stride : Nat) (x : Tensor R)
    (B C H W p : Nat) :
    ∃ t, windowPartitionConv stride x B C H W p = .ok t ∧
      t.shape = [B * ((H - p) / stride + 1) * ((W - p) / stride + 1), p ^ 2, C] ∧
      ∀ b i j u v c, b < B → i < (H - p) / stride + 1 → j < (W - p) / stride + 1 → u < p → v < p → c < C →
        t.get [(b * ((H - p) / stride + 1) + i) * ((W - p) / stride + 1) + j, u * p + v, c] =
          x.get [b, c, i * stride + u, j * stride + v] := by
  have e0 : numel [C * p ^ 2, C, p, p] = numel (diagOnes R (p ^ 2 * C)).shape := by
    show numel [C * p ^ 2, C, p, p] = numel [p ^ 2 * C, p ^ 2 * C]
    simp only [numel]; ring
  set nH := (H - p) / stride + 1 with hnH
  set nW := (W - p) / stride + 1 with hnW
  let y := conv2d x (Tensor.mk [C * p ^ 2, C, p, p] (diagOnes R (p ^ 2 * C)).data) B C H W (C * p ^ 2) p stride
  have hy : y.shape = [B, C * p ^ 2, nH, nW] := rfl
  have e1 : numel [B, C, p ^ 2, nH, nW] = numel y.shape := by
    rw [hy]; simp only [numel]; ring
  let z := (Tensor.mk [B, C, p ^ 2, nH, nW] y.data).permute [0, 3, 4, 2, 1]
  have e2 : numel [B * nH * nW, p ^ 2, C] = numel z.shape := by
    show numel [B * nH * nW, p ^ 2, C] = numel [B, nH, nW, p ^ 2, C]
    simp only [numel]; ring
  refine ⟨⟨[B * nH * nW, p ^ 2, C], z.data⟩, ?_, rfl, ?_⟩
  · have r0 := reshape_some (diagOnes R (p ^ 2 * C)) _ e0
    have r1 := reshape_some y _ e1
    have r2 := reshape_some z _ e2
    unfold windowPartitionConv
    simp only [r0, orErr, bind, Except.bind, ← hnH, ← hnW]
    simp only [y] at r1
    simp only [r1]
    simp only [z, y] at r2
    simp only [r2]
    rfl
  · intro b i j u v c hb hi hj hu hv hc
    have e3 : ravel [B * nH * nW, p ^ 2, C] [(b * nH + i) * nW + j, u * p + v, c] =
        ravel [B, nH, nW, p ^ 2, C] [b, i, j, u * p + v, c] := by
      simp only [ravel, numel]; ring
    have e4 := get_permute (Tensor.mk [B, C, p ^ 2, nH, nW] y.data) [0, 3, 4, 2, 1] [b, i, j, u * p + v, c]
      (show InRange [B, nH, nW, p ^ 2, C] _ from ⟨hb, hi, hj, col_lt hu hv, hc, trivial⟩)
    have e5 : permIdx [0, 3, 4, 2, 1] [b, i, j, u * p + v, c] = [b, c, u * p + v, i, j] := rfl
    rw [e5] at e4
    have e6 := conv_get x B C H W p stride b i j u v c hb hi hj hu hv hc
    have e7 : ravel [B, C, p ^ 2, nH, nW] [b, c, u * p + v, i, j] =
        ravel [B, C * p ^ 2, nH, nW] [b, c * p ^ 2 + (u * p + v), i, j] := by
      simp only [ravel, numel]; ring
    have e8 : (Tensor.mk [B * nH * nW, p ^ 2, C] z.data).get [(b * nH + i) * nW + j, u * p + v, c] =
        z.get [b, i, j, u * p + v, c] := by
      show z.data (ravel [B * nH * nW, p ^ 2, C] _) = z.data (ravel [B, nH, nW, p ^ 2, C] _)
      rw [e3]
    rw [e8, e4, ← e6]
    show y.data (ravel [B, C, p ^ 2, nH, nW] _) = y.data (ravel [B, C * p ^ 2, nH, nW] _)
    rw [e7]

/-- `patch` succeeds exactly on legal sizes; the result by index. -/
theorem patch_spec {R : Type} [CommSemiring R] (stride : Nat) (x : Tensor R) (B C H W p : Nat)
    (hs : 0 < stride) (hH : 0 < H) (hW : 0 < W) (h1 : stride ≤ p) (h2 : (p - stride) % 2 = 0)
    (h3 : ceilDiv H stride * stride - H + (p - stride) / 2 < H)
    (h4 : ceilDiv W stride * stride - W + (p - stride) / 2 < W) :
    ∃ t, patch stride x B C H W p = .ok (t, ceilDiv H stride, ceilDiv W stride) ∧
      t.shape = [B * ceilDiv H stride * ceilDiv W stride, p ^ 2, C] ∧
      ∀ b i j u v c, b < B → i < ceilDiv H stride → j < ceilDiv W stride → u < p → v < p → c < C →
        t.get [(b * ceilDiv H stride + i) * ceilDiv W stride + j, u * p + v, c] =
          x.get [b, c, reflect H ((i * stride + u : Nat) - ((p - stride) / 2 : Nat) : Int),
            reflect W ((j * stride + v : Nat) - ((p - stride) / 2 : Nat) : Int)] := by
  have gH := ceilDiv_mul_ge H stride hs
  have gW := ceilDiv_mul_ge W stride hs
  have pH := ceilDiv_pos H stride hs hH
  have pW := ceilDiv_pos W stride hs hW
  set nH := ceilDiv H stride with hnH
  set nW := ceilDiv W stride with hnW
  set m := (p - stride) / 2 with hm
  have hpad : padPatch stride x B C H W p = .ok (ofFn [B, C, m + H + (nH * stride - H + m),
      m + W + (nW * stride - W + m)] (fun idx => x.get [idx.getD 0 0, idx.getD 1 0,
        reflect H ((idx.getD 2 0 : Int) - m), reflect W ((idx.getD 3 0 : Int) - m)]), nH, nW) := by
    unfold padPatch padReflect
    rw [if_neg (by omega), if_neg (by omega)]
    simp only [← hnH, ← hnW, ← hm]
    rw [if_pos (by omega), Nat.mul_div_cancel _ hs, Nat.mul_div_cancel _ hs]
    rfl
  set xp := ofFn [B, C, m + H + (nH * stride - H + m),
      m + W + (nW * stride - W + m)] (fun idx => x.get [idx.getD 0 0, idx.getD 1 0,
        reflect H ((idx.getD 2 0 : Int) - m), reflect W ((idx.getD 3 0 : Int) - m)]) with hxp
  have eH : m + H + (nH * stride - H + m) = nH * stride + (p - stride) := by omega
  have eW : m + W + (nW * stride - W + m) = nW * stride + (p - stride) := by omega
  have hget : ∀ b c y z, b < B → c < C → y < nH * stride + (p - stride) → z < nW * stride + (p - stride) →
      xp.get [b, c, y, z] = x.get [b, c, reflect H ((y : Int) - m), reflect W ((z : Int) - m)] := by
    intro b c y z hb hc hy hz
    rw [hxp, get_ofFn _ _ _ (inRange4 hb hc (by omega) (by omega))]
    rfl
  have hshape : xp.shape = [B, C, nH * stride + (p - stride), nW * stride + (p - stride)] := by
    rw [← eH, ← eW]; rfl
  have bound : ∀ i n u, i < n → u < p → i * stride + u < n * stride + (p - stride) := by
    intro i n u hi hu
    have : (i + 1) * stride ≤ n * stride := Nat.mul_le_mul_right _ hi
    have e : (i + 1) * stride = i * stride + stride := by ring
    omega
  unfold patch
  rw [hpad]
  simp only [bind, Except.bind, ← hnH, ← hnW, ← hm, eH, eW]
  by_cases hps : p = stride
  · subst hps
    simp only [Nat.sub_self, Nat.add_zero] at hshape hget bound ⊢
    obtain ⟨t, ht, hts, htg⟩ := windowPartition_spec xp B C nH nW p hs hshape
    refine ⟨t, ?_, hts, ?_⟩
    · rw [if_pos trivial, ht]; rfl
    · intro b i j u v c hb hi hj hu hv hc
      rw [htg b i j u v c hb hi hj hu hv hc, hget b c _ _ hb hc (bound _ _ _ hi hu) (bound _ _ _ hj hv)]
  · rw [if_neg hps]
    obtain ⟨t, ht, hts, htg⟩ := windowPartitionConv_spec stride xp B C (nH * stride + (p - stride))
      (nW * stride + (p - stride)) p
    have fH : (nH * stride + (p - stride) - p) / stride + 1 = nH := by
      obtain ⟨k, hk⟩ : ∃ k, nH = k + 1 := ⟨nH - 1, by omega⟩
      have : nH * stride + (p - stride) - p = k * stride := by
        rw [hk, Nat.add_mul, Nat.one_mul]; omega
      rw [this, Nat.mul_div_cancel _ hs, hk]
    have fW : (nW * stride + (p - stride) - p) / stride + 1 = nW := by
      obtain ⟨k, hk⟩ : ∃ k, nW = k + 1 := ⟨nW - 1, by omega⟩
      have : nW * stride + (p - stride) - p = k * stride := by
        rw [hk, Nat.add_mul, Nat.one_mul]; omega
      rw [this, Nat.mul_div_cancel _ hs, hk]
    rw [fH, fW] at hts htg
    refine ⟨t, ?_, hts, ?_⟩
    · rw [ht]; rfl
    · intro b i j u v c hb hi hj hu hv hc
      rw [htg b i j u v c hb hi hj hu hv hc, hget b c _ _ hb hc (bound _ _ _ hi hu) (bound _ _ _ hj hv)]

/-- `unpatch` by index, for patches of shape `[B*nH*nW, stride^2, C]`. -/
theorem unpatch_spec (stride : Nat) (t : Tensor α) (B C nH nW : Nat) (cr : Option (Nat × Nat))
    (hs : 0 < stride) (hC : 0 < C) (hH : 0 < nH) (hW : 0 < nW)
    (ht : t.shape = [B * nH * nW, stride ^ 2, C]) :
    ∃ r, unpatch stride t nH nW cr true = .ok r ∧
      r.shape = [B, C, match cr with | none => nH * stride | some (h, _) => min h (nH * stride),
        match cr with | none => nW * stride | some (_, w) => min w (nW * stride)] ∧
      ∀ b c i u j v, b < B → c < C → i < nH → j < nW → u < stride → v < stride →
        InRange r.shape [b, c, i * stride + u, j * stride + v] →
        r.get [b, c, i * stride + u, j * stride + v] =
          t.get [(b * nH + i) * nW + j, u * stride + v, c] := by
  have hpos : 0 < nH * nW * stride * stride * C := by positivity
  have n1 : numel t.shape = B * numel [nH, nW, stride, stride, C] := by
    rw [ht]; simp only [numel]; ring
  have n2 : numel [nH, nW, stride, stride, C] ≠ 0 := by
    simp only [numel]
    have : nH * (nW * (stride * (stride * (C * 1)))) = nH * nW * stride * stride * C := by ring
    omega
  have n2' : 0 < numel [nH, nW, stride, stride, C] := Nat.pos_of_ne_zero n2
  let z := (Tensor.mk [B, nH, nW, stride, stride, C] t.data).permute [0, 5, 1, 3, 2, 4]
  have hz : z.shape = [B, C, nH, stride, nW, stride] := rfl
  have n3 : numel z.shape = B * numel [C, nH * stride, nW * stride] := by
    rw [hz]; simp only [numel]; ring
  have n4 : 0 < numel [C, nH * stride, nW * stride] := by
    simp only [numel]; positivity
  let w : Tensor α := ⟨[B, C, nH * stride, nW * stride], z.data⟩
  have hw : ∀ b c i u j v, b < B → c < C → i < nH → j < nW → u < stride → v < stride →
      w.get [b, c, i * stride + u, j * stride + v] = t.get [(b * nH + i) * nW + j, u * stride + v, c] := by
    intro b c i u j v hb hc hi hj hu hv
    have e1 : w.get [b, c, i * stride + u, j * stride + v] = z.get [b, c, i, u, j, v] := by
      show z.data (ravel [B, C, nH * stride, nW * stride] _) = z.data (ravel [B, C, nH, stride, nW, stride] _)
      congr 1
      simp only [ravel, numel]; ring
    have e2 := get_permute (Tensor.mk [B, nH, nW, stride, stride, C] t.data) [0, 5, 1, 3, 2, 4] [b, c, i, u, j, v]
      (show InRange [B, C, nH, stride, nW, stride] _ from ⟨hb, hc, hi, hu, hj, hv, trivial⟩)
    have e3 : permIdx [0, 5, 1, 3, 2, 4] [b, c, i, u, j, v] = [b, i, j, u, v, c] := rfl
    rw [e3] at e2
    rw [e1, e2]
    unfold Tensor.get
    rw [ht]
    show t.data (ravel [B, nH, nW, stride, stride, C] _) = t.data _
    congr 1
    simp only [ravel, numel]; ring
  have hun : unpatch stride t nH nW cr true = match cr with
      | none => .ok w
      | some (h, w') => .ok (crop w B C (nH * stride) (nW * stride) h w') := by
    have r1 := reshapeInfer_some t B _ n2' n1
    have r2 := reshapeInfer_some z B _ n4 n3
    unfold unpatch
    simp only [if_true, ht, List.getD_cons_zero, List.getD_cons_succ, ne_eq, not_true, if_false]
    simp only [r1, orErr, bind, Except.bind]
    simp only [z] at r2
    simp only [r2]
    cases cr with
    | none => rfl
    | some c => rfl
  cases cr with
  | none => exact ⟨w, hun, rfl, fun b c i u j v hb hc hi hj hu hv _ => hw b c i u j v hb hc hi hj hu hv⟩
  | some cc =>
    obtain ⟨h, w'⟩ := cc
    refine ⟨_, hun, rfl, fun b c i u j v hb hc hi hj hu hv hr => ?_⟩
    rw [← hw b c i u j v hb hc hi hj hu hv]
    exact get_ofFn _ _ _ hr

end Verif.Vct
