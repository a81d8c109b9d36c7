import Verif.Vct.Agree
import Verif.Vct.PropsReport
import Verif.Vct.PropsEntropy

/-!
C121: the forward pass of the video model in evaluation mode and `compress_video` reconstruct the same video.
-/

namespace Verif.Vct

open Verif.Tensor

variable {S : Type}

/-- No entry lies half way between two integers. -/
def NoTies (x : Tensor ℝ) : Prop := ∀ idx, InRange x.shape idx → ∀ k : ℤ, x.get idx ≠ k + 1 / 2

/-- All that is predicted for token `j`, features included, depends only on the tokens before `j`. -/
def Net.CausalAll (net : Net) (n K : Nat) : Prop :=
  ∀ (A B : Buf) (j : Nat), A.length = n → B.length = n → (∀ t ∈ A, t.length = K) → (∀ t ∈ B, t.length = K) →
    j < n → (∀ k, k < j → A.getD k [] = B.getD k []) →
    (net.means A).getD j [] = (net.means B).getD j [] ∧ (net.scales A).getD j [] = (net.scales B).getD j [] ∧
      (net.feats A).getD j [] = (net.feats B).getD j []

/-- The networks see the shape and the elements of a tensor, nothing else. -/
structure VideoNets.Elementwise {Proc Rec : Type} (n : VideoNets Proc Rec) : Prop where
  process : ∀ a b, Same a b → n.process a = n.process b
  dequantize : ∀ a b f g, Same a b → Same f g → n.dequantize a f = n.dequantize b g

theorem quant1_round {x : ℝ} (h : ∀ k : ℤ, x ≠ k + 1 / 2) (m : ℝ) : quant1 x m = roundHalfEven x := by
  have h7 := roundHalfEven_add_int x (-roundHalfEven m) (by
    intro h8
    exact h ⌊x⌋ (by linarith))
  push_cast at h7
  rw [quant1, sub_eq_add_neg, h7]
  push_cast
  ring

theorem bnForward_quant1 (c : BnCfg) (bound noise x s m : ℝ) : (bnForward c bound false noise x s m).1 = quant1 x m := by
  simp [bnForward, gaussianForward, quantizeMode, quant1]

/-- Rounding a token. -/
noncomputable def roundTok (t : List ℝ) : List ℝ := t.map fun v => (roundHalfEven v : ℝ)

theorem tok_forward (c : BnCfg) (bound : ℝ) (xs ss ms : List ℝ) (h1 : ss.length = xs.length) (h2 : ms.length = xs.length)
    (hx : ∀ v ∈ xs, ∀ k : ℤ, v ≠ k + 1 / 2) :
    List.zipWith (fun x (sm : ℝ × ℝ) => (bnForward c bound false 0 x sm.1 sm.2).1) xs (ss.zip ms) = roundTok xs := by
  induction xs generalizing ss ms with
  | nil => rfl
  | cons x xs ih =>
    cases ss with
    | nil => simp at h1
    | cons s ss =>
      cases ms with
      | nil => simp at h2
      | cons m ms =>
        simp only [List.zip_cons_cons, List.zipWith_cons_cons, roundTok, List.map_cons, bnForward_quant1,
          quant1_round (hx x (by simp))]
        congr 1
        have := ih ss ms (by simpa using h1) (by simpa using h2) (fun v hv => hx v (by simp [hv]))
        simpa only [bnForward_quant1, roundTok] using this

theorem tok_quant1 (xs ms : List ℝ) (h2 : ms.length = xs.length) (hx : ∀ v ∈ xs, ∀ k : ℤ, v ≠ k + 1 / 2) :
    List.zipWith quant1 xs ms = roundTok xs := by
  induction xs generalizing ms with
  | nil => rfl
  | cons x xs ih =>
    cases ms with
    | nil => simp at h2
    | cons m ms =>
      simp only [List.zipWith_cons_cons, roundTok, List.map_cons, quant1_round (hx x (by simp))]
      congr 1
      exact ih ms (by simpa using h2) (fun v hv => hx v (by simp [hv]))

theorem forwardTokens_eq (c : BnCfg) (bound : ℝ) {K : Nat} (toks scales means : Buf) (h1 : scales.length = toks.length)
    (h2 : means.length = toks.length) (k0 : ∀ t ∈ toks, t.length = K) (k1 : ∀ t ∈ scales, t.length = K)
    (k2 : ∀ t ∈ means, t.length = K) (hx : ∀ t ∈ toks, ∀ v ∈ t, ∀ k : ℤ, v ≠ k + 1 / 2) :
    forwardTokens c bound toks scales means = toks.map roundTok := by
  unfold forwardTokens
  induction toks generalizing scales means with
  | nil => rfl
  | cons x xs ih =>
    cases scales with
    | nil => simp at h1
    | cons s ss =>
      cases means with
      | nil => simp at h2
      | cons m ms =>
        simp only [List.zip_cons_cons, List.zipWith_cons_cons, List.map_cons]
        rw [tok_forward c bound x s m (by rw [k0 x (by simp), k1 s (by simp)]) (by rw [k0 x (by simp), k2 m (by simp)])
          (hx x (by simp))]
        congr 1
        exact ih ss ms (by simpa using h1) (by simpa using h2) (fun t ht => k0 t (by simp [ht]))
          (fun t ht => k1 t (by simp [ht])) (fun t ht => k2 t (by simp [ht])) (fun t ht => hx t (by simp [ht]))

theorem reflect_lt (n : Nat) (i : Nat) (hn : 0 < n) (h : i < 2 * n - 1) : reflect n (i : Int) < n := by
  unfold reflect
  split_ifs <;> omega

/-- Patching the rounded latent rounds the tokens; tokens contain only entries of the latent. -/
theorem patch_round (w C H W : Nat) (hw : 0 < w) (hH : 0 < H) (hW : 0 < W) (lH : Legal w H) (lW : Legal w W)
    (x : Tensor ℝ) (hx : x.shape = [1, C, H, W]) :
    ∃ t tq, patch w x 1 C H W w = .ok (t, ceilDiv H w, ceilDiv W w) ∧
      patch w (roundTensor x) 1 C H W w = .ok (tq, ceilDiv H w, ceilDiv W w) ∧
      t.shape.getD 0 0 = ceilDiv H w * ceilDiv W w ∧ tq.shape.getD 0 0 = ceilDiv H w * ceilDiv W w ∧
      tokensOf tq (ceilDiv H w * ceilDiv W w) (w ^ 2) C =
        (tokensOf t (ceilDiv H w * ceilDiv W w) (w ^ 2) C).map roundTok ∧
      (∀ ch y z, ch < C → y < H → z < W →
        tq.get [y / w * ceilDiv W w + z / w, y % w * w + z % w, ch] = (roundTensor x).get [0, ch, y, z] ∧
        t.get [y / w * ceilDiv W w + z / w, y % w * w + z % w, ch] = x.get [0, ch, y, z]) ∧
      (NoTies x → ∀ tok ∈ tokensOf t (ceilDiv H w * ceilDiv W w) (w ^ 2) C, ∀ v ∈ tok, ∀ k : ℤ, v ≠ k + 1 / 2) := by
  have lH' := (legal_iff _ _ hw hH).1 lH
  have lW' := (legal_iff _ _ hw hW).1 lW
  obtain ⟨t, ht, hts, htg⟩ := patch_spec w x 1 C H W w hw hH hW le_rfl (by simp) (by simpa using lH')
    (by simpa using lW')
  obtain ⟨tq, hq, hqs, hqg⟩ := patch_spec w (roundTensor x) 1 C H W w hw hH hW le_rfl (by simp) (by simpa using lH')
    (by simpa using lW')
  have gH := ceilDiv_mul_ge H w hw
  have gW := ceilDiv_mul_ge W w hw
  set nH := ceilDiv H w with hnH
  set nW := ceilDiv W w with hnW
  rw [Nat.one_mul] at hts hqs
  have key : ∀ p i ch, p < nH * nW → i < w ^ 2 → ch < C → ∃ idx, InRange x.shape idx ∧ t.get [p, i, ch] = x.get idx ∧
      tq.get [p, i, ch] = (roundTensor x).get idx := by
    intro p i ch hp hi hch
    have hnW0 : 0 < nW := by
      rcases Nat.eq_zero_or_pos nW with h | h
      · rw [h, Nat.mul_zero] at hp; omega
      · exact h
    have a1 : p / nW < nH := Nat.div_lt_of_lt_mul (by rw [Nat.mul_comm]; exact hp)
    have a2 := Nat.mod_lt p hnW0
    have b1 : i / w < w := Nat.div_lt_of_lt_mul (by rw [← pow_two]; exact hi)
    have b2 := Nat.mod_lt i hw
    have ep : (0 * nH + p / nW) * nW + p % nW = p := by
      rw [Nat.zero_mul, Nat.zero_add, Nat.mul_comm]; exact Nat.div_add_mod p nW
    have ei : i / w * w + i % w = i := by rw [Nat.mul_comm]; exact Nat.div_add_mod i w
    have h1 := htg 0 (p / nW) (p % nW) (i / w) (i % w) ch (by omega) a1 a2 b1 b2 hch
    have h2 := hqg 0 (p / nW) (p % nW) (i / w) (i % w) ch (by omega) a1 a2 b1 b2 hch
    rw [ep, ei] at h1 h2
    refine ⟨_, ?_, h1, h2⟩
    rw [hx]
    have c1 : p / nW * w + i / w < nH * w := flat_lt a1 b1
    have c2 : p % nW * w + i % w < nW * w := flat_lt a2 b2
    simp only [Nat.sub_self, Nat.zero_div, Int.natCast_zero, Int.sub_zero]
    exact ⟨by omega, hch, reflect_lt _ _ hH (by omega), reflect_lt _ _ hW (by omega), trivial⟩
  refine ⟨t, tq, ht, hq, by rw [hts]; rfl, by rw [hqs]; rfl, ?_, ?_, ?_⟩
  · simp only [tokensOf, List.map_map]
    refine List.map_congr_left fun i hi => ?_
    simp only [Function.comp, roundTok, List.map_map]
    refine List.map_congr_left fun k hk => ?_
    rw [List.mem_range] at hi hk
    have hC : 0 < C := by
      rcases Nat.eq_zero_or_pos C with h | h
      · rw [h, Nat.mul_zero] at hk; omega
      · exact h
    obtain ⟨idx, _, e1, e2⟩ := key (k / C) i (k % C) (Nat.div_lt_of_lt_mul (by rw [Nat.mul_comm]; exact hk)) hi
      (Nat.mod_lt _ hC)
    simp only [Function.comp]
    rw [e1, e2]
    rfl
  · intro ch y z hch hy hz
    have ey := Nat.div_add_mod y w
    have ez := Nat.div_add_mod z w
    rw [Nat.mul_comm] at ey ez
    have my := Nat.mod_lt y hw
    have mz := Nat.mod_lt z hw
    have dy : y / w < nH := Nat.div_lt_of_lt_mul (by rw [Nat.mul_comm]; omega)
    have dz : z / w < nW := Nat.div_lt_of_lt_mul (by rw [Nat.mul_comm]; omega)
    have h2 := hqg 0 (y / w) (z / w) (y % w) (z % w) ch (by omega) dy dz my mz hch
    have h3 := htg 0 (y / w) (z / w) (y % w) (z % w) ch (by omega) dy dz my mz hch
    rw [ey, ez, Nat.zero_mul, Nat.zero_add] at h2 h3
    rw [h2, h3]
    simp only [Nat.sub_self, Nat.zero_div, Int.natCast_zero, Int.sub_zero]
    rw [reflect_id H y hy, reflect_id W z hz]
    exact ⟨rfl, rfl⟩
  · intro hnt tok htok v hv
    simp only [tokensOf, List.mem_map, List.mem_range] at htok
    obtain ⟨i, hi, rfl⟩ := htok
    rw [List.mem_map] at hv
    obtain ⟨k, hk, rfl⟩ := hv
    rw [List.mem_range] at hk
    have hC : 0 < C := by
      rcases Nat.eq_zero_or_pos C with h | h
      · rw [h, Nat.mul_zero] at hk; omega
      · exact h
    obtain ⟨idx, hidx, e1, _⟩ := key (k / C) i (k % C) (Nat.div_lt_of_lt_mul (by rw [Nat.mul_comm]; exact hk)) hi
      (Nat.mod_lt _ hC)
    rw [e1]
    exact hnt idx hidx

/-- Un-patching a buffer of tokens, entry by entry. -/
theorem unpatch_tokens (w C H W : Nat) (hw : 0 < w) (hC : 0 < C) (hH : 0 < H) (hW : 0 < W) (b : Buf) :
    ∃ r, unpatch w (ofTokens (ceilDiv H w * ceilDiv W w) (w ^ 2) C b) (ceilDiv H w) (ceilDiv W w) (some (H, W)) true =
        .ok r ∧ r.shape = [1, C, H, W] ∧
      ∀ ch y z, ch < C → y < H → z < W → r.get [0, ch, y, z] =
        (b.getD (y % w * w + z % w) []).getD ((y / w * ceilDiv W w + z / w) * C + ch) 0 := by
  have gH := ceilDiv_mul_ge H w hw
  have gW := ceilDiv_mul_ge W w hw
  have pH := ceilDiv_pos H w hw hH
  have pW := ceilDiv_pos W w hw hW
  set nH := ceilDiv H w with hnH
  set nW := ceilDiv W w with hnW
  obtain ⟨r, hr, hrs, hrg⟩ := unpatch_spec w (ofTokens (nH * nW) (w ^ 2) C b) 1 C nH nW (some (H, W)) hw
    hC pH pW (by rw [Nat.one_mul]; rfl)
  have hrs' : r.shape = [1, C, H, W] := by
    rw [hrs]; simp only [min_eq_left gH, min_eq_left gW]
  refine ⟨r, hr, hrs', ?_⟩
  intro ch y z hch hy hz
  have ey := Nat.div_add_mod y w
  have ez := Nat.div_add_mod z w
  rw [Nat.mul_comm] at ey ez
  have my := Nat.mod_lt y hw
  have mz := Nat.mod_lt z hw
  have dy : y / w < nH := Nat.div_lt_of_lt_mul (by rw [Nat.mul_comm]; omega)
  have dz : z / w < nW := Nat.div_lt_of_lt_mul (by rw [Nat.mul_comm]; omega)
  have hin : InRange r.shape [0, ch, y, z] := by rw [hrs']; exact ⟨by omega, hch, hy, hz, trivial⟩
  have h1 := hrg 0 ch (y / w) (y % w) (z / w) (z % w) (by omega) hch dy dz my mz (by rw [ey, ez]; exact hin)
  rw [ey, ez, Nat.zero_mul, Nat.zero_add] at h1
  rw [h1, ofTokens_get _ _ _ _ _ _ _ (flat_lt dy dz) (by rw [pow_two]; exact flat_lt my mz) hch]

/-- Tensors of the same shape `[1, C, H, W]` with the same entries. -/
theorem same_of_entries {a b : Tensor ℝ} {C H W : Nat} (ha : a.shape = [1, C, H, W]) (hb : b.shape = [1, C, H, W])
    (h : ∀ ch y z, ch < C → y < H → z < W → a.get [0, ch, y, z] = b.get [0, ch, y, z]) : Same a b := by
  refine ⟨ha.trans hb.symm, ?_⟩
  intro idx hi
  rw [ha] at hi
  match idx, hi with
  | [i, ch, y, z], ⟨h0, h1, h2, h3, _⟩ =>
    obtain rfl : i = 0 := by omega
    exact h ch y z h1 h2 h3

/-- The forward pass on any latent: every value is quantized around the mean predicted for it. -/
theorem forward_spec (c : BnCfg) (bound : ℝ) (w C H W D : Nat) (hw : 0 < w) (hC : 0 < C) (hH : 0 < H) (hW : 0 < W)
    (hD : 0 < D) (lH : Legal w H) (lW : Legal w W) (x : Tensor ℝ) (hx : x.shape = [1, C, H, W]) (net : Net)
    (hn : net.ShapeOk (w ^ 2) (ceilDiv H w * ceilDiv W w * C)) :
    ∃ a, forwardScene c bound net w C H W D x = .ok a ∧ a.latent.shape = [1, C, H, W] ∧
      ∀ ch y z, ch < C → y < H → z < W → ∃ m : ℝ,
        (∃ (B : Buf) (i k : Nat), B.length = w ^ 2 ∧ (∀ t ∈ B, t.length = ceilDiv H w * ceilDiv W w * C) ∧
          i < w ^ 2 ∧ k < ceilDiv H w * ceilDiv W w * C ∧ m = ((net.means B).getD i []).getD k 0) ∧
        a.latent.get [0, ch, y, z] = quant1 (x.get [0, ch, y, z]) m := by
  obtain ⟨t, tq, ht, hq, hP, hPq, htok, hget, hties⟩ := patch_round w C H W hw hH hW lH lW x hx
  set P := ceilDiv H w * ceilDiv W w with hPd
  have hl := tokensOf_length t P (w ^ 2) C
  have hm := tokensOf_mem t P (w ^ 2) C
  have hlq := tokensOf_length tq P (w ^ 2) C
  have hmq := tokensOf_mem tq P (w ^ 2) C
  set B := tokensOf tq P (w ^ 2) C with hB
  obtain ⟨n1, n2, n3, n4⟩ := hn _ hlq hmq
  obtain ⟨fa, ha, _, _⟩ := unpatch_tokens w D H W hw hD hH hW (net.feats B)
  obtain ⟨l, hll, sl, gl⟩ := unpatch_tokens w C H W hw hC hH hW
    (forwardTokens c bound (tokensOf t P (w ^ 2) C) (net.scales B) (net.means B))
  rw [← hPd] at ha hll
  refine ⟨⟨l, fa⟩, by simp only [forwardScene, hq, liftP, hPq, ← hB, ha, ht, hll], sl, ?_⟩
  intro ch y z hch hy hz
  have dy : y / w < ceilDiv H w := Nat.div_lt_of_lt_mul (by
    have := ceilDiv_mul_ge H w hw; rw [Nat.mul_comm]; omega)
  have dz : z / w < ceilDiv W w := Nat.div_lt_of_lt_mul (by
    have := ceilDiv_mul_ge W w hw; rw [Nat.mul_comm]; omega)
  have hi : y % w * w + z % w < w ^ 2 := by rw [pow_two]; exact flat_lt (Nat.mod_lt y hw) (Nat.mod_lt z hw)
  have hp : y / w * ceilDiv W w + z / w < P := flat_lt dy dz
  have hk := flat_lt hp hch
  have hxt := tokensOf_get t P (w ^ 2) C _ _ ch hi hp hch
  rw [(hget ch y z hch hy hz).2] at hxt
  set i := y % w * w + z % w with hid
  set k := (y / w * ceilDiv W w + z / w) * C + ch with hkd
  refine ⟨((net.means B).getD i []).getD k 0, ⟨B, i, k, hlq, hmq, hi, hk, rfl⟩, ?_⟩
  show l.get [0, ch, y, z] = _
  rw [gl ch y z hch hy hz, ← hxt]
  have l1 : i < (tokensOf t P (w ^ 2) C).length := by omega
  have l2 : i < (net.scales B).length := by omega
  have l3 : i < (net.means B).length := by omega
  have k1 : k < ((tokensOf t P (w ^ 2) C)[i]).length := by rw [hm _ (List.getElem_mem l1)]; exact hk
  have k2 : k < ((net.scales B)[i]).length := by rw [n4 _ (List.getElem_mem l2)]; exact hk
  have k3 : k < ((net.means B)[i]).length := by rw [n2 _ (List.getElem_mem l3)]; exact hk
  unfold forwardTokens
  rw [List.getD_eq_getElem _ _ (show i < _ by simp only [List.length_zipWith, List.length_zip]; omega), List.getElem_zipWith,
    List.getElem_zip, List.getD_eq_getElem _ _ (show k < _ by simp only [List.length_zipWith, List.length_zip]; omega),
    List.getElem_zipWith, List.getElem_zip, bnForward_quant1, List.getD_eq_getElem _ _ l1, List.getD_eq_getElem _ _ k1,
    List.getD_eq_getElem _ _ l3, List.getD_eq_getElem _ _ k3]

theorem compressFeatures_ok {c : BnCfg} (hc : c.Ok) {e : Coder S} (he : e.Lossless (c.numMeans * c.numScales))
    (w C H W D : Nat) (hw : 0 < w) (hH : 0 < H) (hW : 0 < W) (hD : 0 < D) (lH : Legal w H) (lW : Legal w W)
    (x : Tensor ℝ) (hx : x.shape = [1, C, H, W]) (net : Net) :
    ∃ f, compressFeatures c e net w C H W D x = .ok f := by
  obtain ⟨t, tq, ht, hq, hP, hPq, _⟩ := patch_round w C H W hw hH hW lH lW x hx
  set P := ceilDiv H w * ceilDiv W w with hPd
  obtain ⟨fb, hb, _⟩ := unpatch_tokens w D H W hw hD hH hW
    (encodeTokens c e net (P * C) (P * D) (tokensOf t P (w ^ 2) C)).feats
  rw [← hPd] at hb
  exact ⟨fb, by simp only [compressFeatures, ht, liftP, hP, hb]⟩

/-- **C121, one scene.**  If no entry of the latent is half way between two integers, then for every network the
single pass over the rounded latent and the coding token by token, with or without the real decode, give the same latent,
and if the network is causal also the same features. -/
theorem C121_scene_partial {c : BnCfg} (hc : c.Ok) {e : Coder S} (he : e.Lossless (c.numMeans * c.numScales)) (bound : ℝ)
    (w C H W D : Nat) (hw : 0 < w) (hC : 0 < C) (hH : 0 < H) (hW : 0 < W) (hD : 0 < D) (lH : Legal w H) (lW : Legal w W)
    (x : Tensor ℝ) (hx : x.shape = [1, C, H, W]) (hnt : NoTies x) (net : Net)
    (hn : net.ShapeOk (w ^ 2) (ceilDiv H w * ceilDiv W w * C)) (runDecode : Bool) :
    ∃ a b, forwardScene c bound net w C H W D x = .ok a ∧ compressScene c e net w C H W D runDecode x = .ok b ∧
      Same a.latent b.latent ∧ (net.CausalAll (w ^ 2) (ceilDiv H w * ceilDiv W w * C) → Same a.feats b.feats) := by
  obtain ⟨t, tq, ht, hq, hP, hPq, htok, hget, hties⟩ := patch_round w C H W hw hH hW lH lW x hx
  obtain ⟨st0, r, _, _, hcT, hcF, hrs, hr⟩ := compress_spec (D := D) hc he w C H W hw hC hH hW lH lW x net hn
  set P := ceilDiv H w * ceilDiv W w with hPd
  set toks := tokensOf t P (w ^ 2) C with htoks
  have hl := tokensOf_length t P (w ^ 2) C
  have hm := tokensOf_mem t P (w ^ 2) C
  obtain ⟨st, hst, q1, q2, _, q4, _⟩ := encode_spec (D := P * D) hc he (Nat.pow_pos hw) hn hl hm
  rw [← htoks] at hl hm hst q4
  have hties := hties hnt
  have hlq := tokensOf_length tq P (w ^ 2) C
  have hmq := tokensOf_mem tq P (w ^ 2) C
  obtain ⟨n1, n2, n3, n4⟩ := hn _ hlq hmq
  have hquant : ∀ j, j < w ^ 2 → st.quantized.getD j [] = (tokensOf tq P (w ^ 2) C).getD j [] := by
    intro j hj
    obtain ⟨_, hlen, e1⟩ := q4 j hj
    have hmem : toks.getD j [] ∈ toks := getD_mem _ _ _ (by omega)
    rw [e1, tok_quant1 _ _ (by rw [hlen, hm _ hmem]) (hties _ hmem), htok,
      List.getD_eq_getElem _ _ (show j < (toks.map roundTok).length by rw [List.length_map]; omega), List.getElem_map,
      List.getD_eq_getElem _ _ (show j < toks.length by omega)]
  have hout : forwardTokens c bound toks (net.scales (tokensOf tq P (w ^ 2) C)) (net.means (tokensOf tq P (w ^ 2) C)) =
      tokensOf tq P (w ^ 2) C := by
    rw [forwardTokens_eq c bound toks _ _ (by rw [n3, hl]) (by rw [n1, hl]) hm n4 n2 hties, htok]
  obtain ⟨fa, ha, sa, ga⟩ := unpatch_tokens w D H W hw hD hH hW (net.feats (tokensOf tq P (w ^ 2) C))
  obtain ⟨fb, hb, sb, gb⟩ := unpatch_tokens w D H W hw hD hH hW st.feats
  obtain ⟨l, hll, sl, gl⟩ := unpatch_tokens w C H W hw hC hH hW (tokensOf tq P (w ^ 2) C)
  rw [← hPd] at ha hb hll
  have hfw : forwardScene c bound net w C H W D x = .ok ⟨l, fa⟩ := by
    simp only [forwardScene, hq, liftP, hPq, ha, ht, ← htoks, hout, hll]
  have hcf : compressFeatures c e net w C H W D x = .ok fb := by
    simp only [compressFeatures, ht, liftP, hP, ← htoks, hst, hb]
  have hround : ∀ ch y z, ch < C → y < H → z < W → l.get [0, ch, y, z] = (roundTensor x).get [0, ch, y, z] := by
    intro ch y z hch hy hz
    have dy : y / w < ceilDiv H w := Nat.div_lt_of_lt_mul (by
      have := ceilDiv_mul_ge H w hw; rw [Nat.mul_comm]; omega)
    have dz : z / w < ceilDiv W w := Nat.div_lt_of_lt_mul (by
      have := ceilDiv_mul_ge W w hw; rw [Nat.mul_comm]; omega)
    rw [gl ch y z hch hy hz, tokensOf_get tq P (w ^ 2) C _ _ ch
      (by rw [pow_two]; exact flat_lt (Nat.mod_lt y hw) (Nat.mod_lt z hw)) (flat_lt dy dz) hch]
    exact (hget ch y z hch hy hz).1
  have hfeats : net.CausalAll (w ^ 2) (P * C) → Same fa fb := by
    intro hca
    refine same_of_entries sa sb ?_
    intro ch y z hch hy hz
    have hj : y % w * w + z % w < w ^ 2 := by rw [pow_two]; exact flat_lt (Nat.mod_lt y hw) (Nat.mod_lt z hw)
    rw [ga ch y z hch hy hz, gb ch y z hch hy hz]
    obtain ⟨⟨B, b1, b2, b3, _, _, b6⟩, _⟩ := q4 _ hj
    rw [b6, (hca B (tokensOf tq P (w ^ 2) C) _ b1 hlq b2 hmq hj
      (fun k hk => (b3 k hk).trans (hquant k (by omega)))).2.2]
  cases runDecode with
  | false =>
    refine ⟨⟨l, fa⟩, ⟨roundTensor x, fb⟩, hfw, by simp only [compressScene, hcf, hcF], ?_, hfeats⟩
    exact same_of_entries sl (by exact hx) hround
  | true =>
    refine ⟨⟨l, fa⟩, ⟨r, fb⟩, hfw, by simp only [compressScene, hcf, hcT], ?_, hfeats⟩
    refine same_of_entries sl hrs ?_
    intro ch y z hch hy hz
    obtain ⟨m, _, e⟩ := hr ch y z hch hy hz
    have hin : InRange x.shape [0, ch, y, z] := by rw [hx]; exact ⟨by omega, hch, hy, hz, trivial⟩
    rw [hround ch y z hch hy hz, e, quant1_round (hnt _ hin)]
    rfl

/-- The loop with two codes that give every scene the same latent and the same features. -/
theorem codeFrom_same {Proc Rec : Type} {code code' : ℕ → Net → Tensor ℝ → Except EmErr SceneOut}
    {n : VideoNets Proc Rec} (hn : n.Elementwise) (ctxLen : ℕ) (scenes : List (Tensor ℝ))
    (h : ∀ i ctx x, x ∈ scenes → ∃ a b, code i (n.net ctx) x = .ok a ∧ code' i (n.net ctx) x = .ok b ∧
      Same a.latent b.latent ∧ Same a.feats b.feats) (i : ℕ) (st : List Proc) :
    ∃ rs, rs.length = scenes.length ∧ codeFrom code n ctxLen i st scenes = .ok rs ∧
      codeFrom code' n ctxLen i st scenes = .ok rs := by
  induction scenes generalizing i st with
  | nil => exact ⟨[], rfl, rfl, rfl⟩
  | cons x rest ih =>
    obtain ⟨a, b, ha, hb, hl, hf⟩ := h i
      (Pipe.encodedSeqs Pipe.entropyContextLen (if i = 0 then [n.fake x.shape] else st)) x (by simp)
    obtain ⟨rs, h0, h1, h2⟩ := ih (fun j ctx y hy => h j ctx y (by simp [hy])) (i + 1)
      (if i = 0 then [n.process a.latent] else Pipe.sliceLast ctxLen (st ++ [n.process a.latent]))
    refine ⟨n.dequantize a.latent a.feats :: rs, by simp [h0], ?_, ?_⟩
    · simp only [codeFrom, ha, h1]
    · simp only [codeFrom, hb, ← hn.process _ _ hl, h2, ← hn.dequantize _ _ _ _ hl hf]

/-- The full property: for every video, all networks that are causal and see only elements, and every lossless
coder, both ways of running the model reconstruct the same scenes. -/
def EvaluateIsCompress : Prop :=
  ∀ (S Proc Rec : Type) (c : BnCfg) (e : Coder S) (bound : ℝ) (n : VideoNets Proc Rec) (ctxLen w C H W D : ℕ)
    (scenes : List (Tensor ℝ)), c.Ok → e.Lossless (c.numMeans * c.numScales) → n.Elementwise →
    0 < w → 0 < C → 0 < H → 0 < W → 0 < D → Legal w H → Legal w W →
    (∀ ctx, (n.net ctx).ShapeOk (w ^ 2) (ceilDiv H w * ceilDiv W w * C) ∧
      (n.net ctx).CausalAll (w ^ 2) (ceilDiv H w * ceilDiv W w * C)) →
    (∀ x ∈ scenes, x.shape = [1, C, H, W]) →
    ∃ rs, evaluateScenes c bound n ctxLen w C H W D scenes = .ok rs ∧
      compressScenes c bound e n ctxLen w C H W D scenes = .ok rs

/-- **C121.**  For videos of any number of scenes of which no entry is half way between two integers, evaluating and
compressing reconstruct the same scenes. -/
theorem C121_video_partial {Proc Rec : Type} {c : BnCfg} (hc : c.Ok) {e : Coder S}
    (he : e.Lossless (c.numMeans * c.numScales)) (bound : ℝ) (n : VideoNets Proc Rec) (hel : n.Elementwise)
    (ctxLen w C H W D : Nat) (hw : 0 < w) (hC : 0 < C) (hH : 0 < H) (hW : 0 < W) (hD : 0 < D) (lH : Legal w H)
    (lW : Legal w W)
    (hn : ∀ ctx, (n.net ctx).ShapeOk (w ^ 2) (ceilDiv H w * ceilDiv W w * C) ∧
      (n.net ctx).CausalAll (w ^ 2) (ceilDiv H w * ceilDiv W w * C))
    (scenes : List (Tensor ℝ)) (hs : ∀ x ∈ scenes, x.shape = [1, C, H, W]) (hnt : ∀ x ∈ scenes, NoTies x) :
    ∃ rs, rs.length = scenes.length ∧ evaluateScenes c bound n ctxLen w C H W D scenes = .ok rs ∧
      compressScenes c bound e n ctxLen w C H W D scenes = .ok rs := by
  refine codeFrom_same hel ctxLen scenes ?_ 0 []
  intro i ctx x hx
  obtain ⟨a, b, h1, h2, h3, h4⟩ := C121_scene_partial hc he bound w C H W D hw hC hH hW hD lH lW x (hs x hx) (hnt x hx)
    (n.net ctx) (hn ctx).1 (decide (i < 3))
  by_cases hi : i = 0
  · exact ⟨a, a, h1, by simp only [if_pos hi, h1], ⟨rfl, fun _ _ => rfl⟩, ⟨rfl, fun _ _ => rfl⟩⟩
  · exact ⟨a, b, h1, by simp only [if_neg hi, h2], h3, h4 (hn ctx).2⟩

/-- Predicts mean and scale 1 everywhere. -/
noncomputable def constOne : Net :=
  ⟨fun b => b.map (·.map fun _ => 1), fun b => b.map (·.map fun _ => 1), fun _ => []⟩

theorem constOne_get (b : Buf) (j : Nat) : (b.map (·.map fun _ => (1 : ℝ))).getD j [] =
    List.replicate (b.getD j []).length 1 := by
  rw [List.getD_eq_getElem?_getD, List.getElem?_map, List.getD_eq_getElem?_getD]
  cases b[j]? with
  | none => rfl
  | some t => simp

theorem constOne_shape (n K : Nat) : constOne.ShapeOk n K := by
  intro b h1 h2
  have : ∀ t ∈ b.map (·.map fun _ => (1 : ℝ)), t.length = K := by
    intro t ht
    simp only [List.mem_map] at ht
    obtain ⟨a, ha, rfl⟩ := ht
    simp [h2 a ha]
  exact ⟨by simp [constOne, h1], this, by simp [constOne, h1], this⟩

theorem constOne_causal (n K : Nat) : constOne.CausalAll n K := by
  intro A B j hA hB kA kB hj _
  have h : (A.map (·.map fun _ => (1 : ℝ))).getD j [] = (B.map (·.map fun _ => (1 : ℝ))).getD j [] := by
    rw [constOne_get, constOne_get, kA _ (getD_mem _ _ _ (by omega)), kB _ (getD_mem _ _ _ (by omega))]
  exact ⟨h, h, rfl⟩

open Classical in
/-- Reads the only entry of a latent. -/
noncomputable def oneNets : VideoNets Unit (List Nat × ℝ) :=
  ⟨fun _ => (), fun _ => (), fun _ => constOne,
    fun t _ => (t.shape, if InRange t.shape [0, 0, 0, 0] then t.get [0, 0, 0, 0] else 0)⟩

theorem oneNets_elementwise : oneNets.Elementwise := by
  refine ⟨fun _ _ _ => rfl, fun a b _ _ h _ => ?_⟩
  simp only [oneNets]
  rw [h.1]
  by_cases hi : InRange b.shape [0, 0, 0, 0]
  · rw [if_pos hi, if_pos hi, h.2 _ (by rw [h.1]; exact hi)]
  · rw [if_neg hi, if_neg hi]

theorem codeFrom_values {code : ℕ → Net → Tensor ℝ → Except EmErr SceneOut} {v : ℕ → Tensor ℝ → ℝ} {L : ℕ}
    (scenes : List (Tensor ℝ)) (h : ∀ i x, x ∈ scenes → ∃ a, code i constOne x = .ok a ∧
      a.latent.shape = [1, 1, 1, 1] ∧ a.latent.get [0, 0, 0, 0] = v i x) (i : ℕ) (st : List Unit) :
    codeFrom code oneNets L i st scenes =
      .ok ((List.zipWith v (List.range' i scenes.length) scenes).map fun r => ([1, 1, 1, 1], r)) := by
  induction scenes generalizing i st with
  | nil => rfl
  | cons x rest ih =>
    obtain ⟨a, h1, h2, h3⟩ := h i x (by simp)
    have h4 := ih (fun j y hy => h j y (by simp [hy])) (i + 1)
      (if i = 0 then [()] else Pipe.sliceLast L (st ++ [()]))
    have h5 : InRange [1, 1, 1, 1] [0, 0, 0, 0] := ⟨by decide, by decide, by decide, by decide, trivial⟩
    have e1 : ∀ ctx, oneNets.net ctx = constOne := fun _ => rfl
    have e2 : oneNets.process a.latent = () := rfl
    have e3 : oneNets.dequantize a.latent a.feats = ([1, 1, 1, 1], v i x) := by
      simp only [oneNets]
      rw [if_pos (by rw [h2]; exact h5), h2, h3]
    simp only [codeFrom, e1, e2, h1, h4, e3, List.length_cons, List.range'_succ, List.zipWith_cons_cons, List.map_cons]

/-- A scene of one value. -/
noncomputable def oneScene (v : ℝ) : Tensor ℝ := ⟨[1, 1, 1, 1], fun _ => v⟩

theorem mean_constOne {B : Buf} {i k n K : Nat} (b1 : B.length = n) (b2 : ∀ t ∈ B, t.length = K) (hi : i < n)
    (hk : k < K) : ((constOne.means B).getD i []).getD k 0 = 1 := by
  simp only [constOne]
  rw [constOne_get, b2 _ (getD_mem _ _ _ (by omega)), List.getD_eq_getElem _ _ (by simpa using hk)]
  simp

/-- The witness video: three scenes 0, then a scene with the value 1/2; all means are 1. -/
theorem witness (bound : ℝ) : evaluateScenes defaultBn bound oneNets 2 1 1 1 1 1
      [oneScene 0, oneScene 0, oneScene 0, oneScene (1 / 2)] =
        .ok [([1, 1, 1, 1], 0), ([1, 1, 1, 1], 0), ([1, 1, 1, 1], 0), ([1, 1, 1, 1], 1)] ∧
    compressScenes defaultBn bound plainCoder oneNets 2 1 1 1 1 1
      [oneScene 0, oneScene 0, oneScene 0, oneScene (1 / 2)] =
        .ok [([1, 1, 1, 1], 0), ([1, 1, 1, 1], 0), ([1, 1, 1, 1], 0), ([1, 1, 1, 1], 0)] := by
  have hL : Legal 1 1 := (legal_iff _ _ (by decide) (by decide)).2 (by decide)
  have r1 : roundHalfEven (1 : ℝ) = 1 := by
    have := roundHalfEven_int 1
    rwa [Int.cast_one] at this
  have r0 : roundHalfEven (0 : ℝ) = 0 := by
    have := roundHalfEven_int 0
    rwa [Int.cast_zero] at this
  have rm : roundHalfEven (-1 : ℝ) = -1 := by
    have := roundHalfEven_int (-1)
    push_cast at this
    exact this
  have q0 : quant1 0 1 = 0 := by
    rw [quant1, r1]; norm_num [rm]
  have qh : quant1 (1 / 2) 1 = 1 := by
    rw [quant1, r1, show (1 / 2 : ℝ) - (1 : ℤ) = -(1 / 2) by norm_num, round_neg_half]; norm_num
  have hf : ∀ v, ∃ a, forwardScene defaultBn bound constOne 1 1 1 1 1 (oneScene v) = .ok a ∧
      a.latent.shape = [1, 1, 1, 1] ∧ a.latent.get [0, 0, 0, 0] = quant1 v 1 := by
    intro v
    obtain ⟨a, h1, h2, h3⟩ := forward_spec defaultBn bound 1 1 1 1 1 (by decide) (by decide) (by decide) (by decide)
      (by decide) hL hL (oneScene v) rfl constOne (constOne_shape _ _)
    obtain ⟨m, ⟨B, i, k, b1, b2, hi, hk, hm⟩, h4⟩ := h3 0 0 0 (by decide) (by decide) (by decide)
    rw [mean_constOne b1 b2 hi hk] at hm
    exact ⟨a, h1, h2, by rw [h4, hm]; rfl⟩
  have hc : ∀ v d, ∃ a, compressScene defaultBn plainCoder constOne 1 1 1 1 1 d (oneScene v) = .ok a ∧
      a.latent.shape = [1, 1, 1, 1] ∧
      a.latent.get [0, 0, 0, 0] = if d = true then quant1 v 1 else (roundHalfEven v : ℝ) := by
    intro v d
    obtain ⟨f, hf⟩ := compressFeatures_ok (e := plainCoder) defaultBn_ok (plainCoder_lossless _) 1 1 1 1 1 (by decide)
      (by decide) (by decide) (by decide) hL hL (oneScene v) rfl constOne
    obtain ⟨st, r, _, _, hT, hF, hrs, h3⟩ := compress_spec (D := 1) defaultBn_ok (plainCoder_lossless _) 1 1 1 1
      (by decide) (by decide) (by decide) (by decide) hL hL (oneScene v) constOne (constOne_shape _ _)
    obtain ⟨m, ⟨B, i, k, b1, b2, hi, hk, hm⟩, h4⟩ := h3 0 0 0 (by decide) (by decide) (by decide)
    rw [mean_constOne b1 b2 hi hk] at hm
    cases d with
    | true => exact ⟨⟨r, f⟩, by simp only [compressScene, hf, hT], hrs, by rw [if_pos rfl]; show r.get _ = _; rw [h4, hm]; rfl⟩
    | false => exact ⟨⟨roundTensor (oneScene v), f⟩, by simp only [compressScene, hf, hF], rfl, by
        rw [if_neg (by decide)]; rfl⟩
  constructor
  · rw [evaluateScenes, codeFrom_values (v := fun _ x => quant1 (x.get [0, 0, 0, 0]) 1)]
    · simp only [List.length_cons, List.length_nil, List.range'_succ, List.range'_zero, List.zipWith_cons_cons,
        List.zipWith_nil_left, List.map_cons, List.map_nil]
      have e : ∀ v, (oneScene v).get [0, 0, 0, 0] = v := fun _ => rfl
      simp only [e, q0, qh]
    · intro i x hx
      have : ∃ v, x = oneScene v := by
        simp only [List.mem_cons, List.not_mem_nil, or_false] at hx
        rcases hx with h | h | h | h <;> exact ⟨_, h⟩
      obtain ⟨v, rfl⟩ := this
      exact hf v
  · rw [compressScenes, codeFrom_values (v := fun i x => if i < 3 then quant1 (x.get [0, 0, 0, 0]) 1
      else (roundHalfEven (x.get [0, 0, 0, 0]) : ℝ))]
    · simp only [List.length_cons, List.length_nil, List.range'_succ, List.range'_zero, List.zipWith_cons_cons,
        List.zipWith_nil_left, List.map_cons, List.map_nil]
      have e : ∀ v, (oneScene v).get [0, 0, 0, 0] = v := fun _ => rfl
      simp only [e, q0, qh, round_half]
      norm_num
    · intro i x hx
      have : ∃ v, x = oneScene v := by
        simp only [List.mem_cons, List.not_mem_nil, or_false] at hx
        rcases hx with h | h | h | h <;> exact ⟨_, h⟩
      obtain ⟨v, rfl⟩ := this
      by_cases hi : i = 0
      · obtain ⟨a, h1, h2, h3⟩ := hf v
        refine ⟨a, by simp only [if_pos hi, h1], h2, ?_⟩
        rw [h3, if_pos (by omega)]; rfl
      · obtain ⟨a, h1, h2, h3⟩ := hc v (decide (i < 3))
        refine ⟨a, by simp only [if_neg hi, h1], h2, ?_⟩
        rw [h3]
        by_cases h4 : i < 3
        · rw [if_pos (by simpa using h4), if_pos h4]; rfl
        · rw [if_neg (by simpa using h4), if_neg h4]; rfl

/-- **C121 is violated by the code** for values half way between two integers: from the fourth scene on `compress_video`
rounds the latent itself, while the forward pass rounds it around the predicted mean.  Witness: a fourth scene of value
1/2 with predicted mean 1 is reconstructed from 1 when evaluating and from 0 when compressing. -/
theorem C121_violated : ¬ EvaluateIsCompress := by
  intro h
  have hL : Legal 1 1 := (legal_iff _ _ (by decide) (by decide)).2 (by decide)
  obtain ⟨rs, h1, h2⟩ := h _ _ _ defaultBn plainCoder 1 oneNets 2 1 1 1 1 1
    [oneScene 0, oneScene 0, oneScene 0, oneScene (1 / 2)] defaultBn_ok (plainCoder_lossless _) oneNets_elementwise
    (by decide) (by decide) (by decide) (by decide) (by decide) hL hL
    (fun _ => ⟨constOne_shape _ _, constOne_causal _ _⟩) (by
      intro x hx
      simp only [List.mem_cons, List.not_mem_nil, or_false] at hx
      rcases hx with h | h | h | h <;> rw [h] <;> rfl)
  rw [(witness 1).1] at h1
  rw [(witness 1).2] at h2
  rw [← h1] at h2
  simp at h2

/-- C121 is not vacuous: a video of four 5 × 7 scenes with 3 channels and entries 1/3. -/
example : ∃ rs, rs.length = 4 ∧ evaluateScenes defaultBn 1 oneNets 2 4 3 5 7 2
      (List.replicate 4 ⟨[1, 3, 5, 7], fun _ => 1 / 3⟩) = .ok rs ∧
    compressScenes defaultBn 1 plainCoder oneNets 2 4 3 5 7 2 (List.replicate 4 ⟨[1, 3, 5, 7], fun _ => 1 / 3⟩) = .ok rs := by
  obtain ⟨rs, h0, h1, h2⟩ := C121_video_partial defaultBn_ok (plainCoder_lossless _) 1 oneNets oneNets_elementwise 2 4 3 5 7 2 (by decide)
    (by decide) (by decide) (by decide) (by decide) ((legal_iff _ _ (by decide) (by decide)).2 (by decide))
    ((legal_iff _ _ (by decide) (by decide)).2 (by decide)) (fun _ => ⟨constOne_shape _ _, constOne_causal _ _⟩)
    (List.replicate 4 ⟨[1, 3, 5, 7], fun _ => 1 / 3⟩) (by
      intro x hx
      rw [List.mem_replicate] at hx
      rw [hx.2]) (by
      intro x hx idx _ k hk
      rw [List.mem_replicate] at hx
      rw [hx.2] at hk
      have : (1 / 3 : ℝ) = k + 1 / 2 := hk
      have h6 : (6 * k : ℝ) = -1 := by linarith
      have : (6 * k : ℤ) = -1 := by exact_mod_cast h6
      omega)
  exact ⟨rs, by rw [h0, List.length_replicate], h1, h2⟩

end Verif.Vct
