import Verif.Vct.Entropy
import Verif.Vct.PropsBottleneck
import Verif.Vct.PatcherLemmas

/-
Lemmas for C25 and C26.
-/
namespace Verif.Vct

open Verif.Tensor

variable {S : Type}

/-- The network returns buffers of the shape of its input. -/
def Net.ShapeOk (net : Net) (n K : Nat) : Prop :=
  ∀ b : Buf, b.length = n → (∀ t ∈ b, t.length = K) →
    (net.means b).length = n ∧ (∀ t ∈ net.means b, t.length = K) ∧
    (net.scales b).length = n ∧ (∀ t ∈ net.scales b, t.length = K)

/-- What one coded value becomes. -/
noncomputable def quant1 (x m : ℝ) : ℝ := (roundHalfEven (x - roundHalfEven m) : ℝ) + roundHalfEven m

theorem bnCompress_fst (c : BnCfg) (e : Coder S) (x s m : List ℝ) :
    (bnCompress c e x s m).1 = List.zipWith quant1 x m := by
  simp only [bnCompress]
  induction x generalizing m with
  | nil => simp
  | cons a x ih =>
    cases m with
    | nil => simp
    | cons b m => simp only [List.zipWith_cons_cons, List.map_cons, ih]; rfl

theorem bn_law {c : BnCfg} (hc : c.Ok) {e : Coder S} (he : e.Lossless (c.numMeans * c.numScales))
    (x s m : List ℝ) (h1 : x.length = m.length) (h2 : s.length = m.length) :
    bnDecompress c e (bnCompress c e x s m).2 s m = (bnCompress c e x s m).1 := by
  have hd : List.zipWith (decIndex c) m s = List.zipWith (encIndex c) m s := by
    have : decIndex c = encIndex c := by
      funext a b; exact (C28_range c hc a b).2.2.1
    rw [this]
  simp only [bnDecompress, bnCompress, hd]
  rw [he]
  · rw [List.zipWith_map_left, List.zipWith_map_left]
  · simp [h1, h2]
  · intro i hi
    obtain ⟨k, hk, rfl⟩ := List.getElem_of_mem hi
    have hk' := hk
    rw [List.length_zipWith] at hk'
    rw [List.getElem_zipWith]
    obtain ⟨a, b, _⟩ := C28_range c hc (m[k]'(by omega)) (s[k]'(by omega))
    exact ⟨a, by push_cast; exact b⟩

theorem getD_mem {α : Type} (l : List α) (i : Nat) (d : α) (h : i < l.length) : l.getD i d ∈ l := by
  rw [List.getD_eq_getElem _ _ h]
  exact List.getElem_mem h

theorem mem_set_len {b : Buf} {K k : Nat} {q : List ℝ} (hb : ∀ t ∈ b, t.length = K) (hq : q.length = K) :
    ∀ t ∈ b.set k q, t.length = K := by
  intro t ht
  rcases List.mem_or_eq_of_mem_set ht with h | h
  · exact hb t h
  · rw [h]; exact hq

theorem getD_set_ne {α : Type} (l : List α) (i j : Nat) (a d : α) (h : i ≠ j) :
    (l.set i a).getD j d = l.getD j d := by
  simp [List.getD_eq_getElem?_getD, List.getElem?_set_ne h]

theorem getD_set_eq {α : Type} (l : List α) (i : Nat) (a d : α) (h : i < l.length) :
    (l.set i a).getD i d = a := by
  rw [List.getD_eq_getElem?_getD, List.getElem?_set_self h]; rfl

/-- What the rest of the encoder's loop does from index `i ≥ 1` on, and that the decoder follows it. -/
theorem loop_spec {c : BnCfg} (hc : c.Ok) {e : Coder S} (he : e.Lossless (c.numMeans * c.numScales))
    {net : Net} {n K : Nat} (hn : net.ShapeOk n K) {latent : Buf} (hl : latent.length = n)
    (hlK : ∀ t ∈ latent, t.length = K) :
    ∀ (d i : Nat), 1 ≤ i → i + d = n → ∀ (st : EncSt S) (m s : List ℝ), st.prev = some (m, s) →
      m.length = K → s.length = K → st.quantized.length = n → (∀ t ∈ st.quantized, t.length = K) →
      st.means.length = n → st.scales.length = n → st.feats.length = n →
      ∃ st', encLoop c e net latent (List.range' i d ++ [0]) st = st' ∧
        st'.quantized.length = n ∧ (∀ t ∈ st'.quantized, t.length = K) ∧
        (∀ j, j + 1 < i → st'.quantized.getD j [] = st.quantized.getD j []) ∧
        (∀ j, j < i → st'.means.getD j [] = st.means.getD j [] ∧ st'.scales.getD j [] = st.scales.getD j [] ∧
          st'.feats.getD j [] = st.feats.getD j []) ∧
        st'.quantized.getD (i - 1) [] = List.zipWith quant1 (latent.getD (i - 1) []) m ∧
        (∀ j, i ≤ j → j < n → (∃ B : Buf, B.length = n ∧ (∀ t ∈ B, t.length = K) ∧
          (∀ k, k < j → B.getD k [] = st'.quantized.getD k []) ∧
          st'.means.getD j [] = (net.means B).getD j [] ∧ st'.scales.getD j [] = (net.scales B).getD j [] ∧
          st'.feats.getD j [] = (net.feats B).getD j []) ∧
          (st'.means.getD j []).length = K ∧
          st'.quantized.getD j [] = List.zipWith quant1 (latent.getD j []) (st'.means.getD j [])) ∧
        ∃ new, st'.strings = st.strings ++ new ∧ new.length = d + 1 ∧
          ∀ rest, (decLoop c e net none n (List.range' i d ++ [0]) (some (m, s)) st.quantized (new ++ rest) =
              .ok (st'.quantized, rest)) ∧
            (decLoop c e net (some (st'.means, st'.scales)) n (List.range' i d ++ [0]) (some (m, s))
              st.quantized (new ++ rest) = .ok (st'.quantized, rest)) := by
  intro d
  induction d with
  | zero =>
    intro i hi hin st m s hp hm hs hq hqK hml hsl hfl
    have hk : prevIdx n 0 = i - 1 := by simp [prevIdx]; omega
    have hlat : (latent.getD (i - 1) []).length = K := hlK _ (getD_mem _ _ _ (by omega))
    have hlaw := bn_law hc he (latent.getD (i - 1) []) s m (by omega) (by omega)
    refine ⟨_, rfl, ?_⟩
    simp only [List.range'_zero, List.nil_append, encLoop, hp, hl, hk, if_true]
    have hz : (List.zipWith quant1 (latent.getD (i - 1) []) m).length = K := by simp only [List.length_zipWith]; omega
    rw [bnCompress_fst]
    refine ⟨by simp [hq], mem_set_len hqK hz, ?_, by intros; simp, getD_set_eq _ _ _ _ (by omega), ?_,
      [(bnCompress c e (latent.getD (i - 1) []) s m).2], rfl, rfl, ?_⟩
    · intro j hj
      exact getD_set_ne _ _ _ _ _ (by omega)
    · intro j h1 h2; omega
    · intro rest
      simp only [List.cons_append, List.nil_append, decLoop, hk, if_true, hlaw, bnCompress_fst, and_self]
  | succ d ih =>
    intro i hi hin st m s hp hm hs hq hqK hml hsl hfl
    have hi0 : i ≠ 0 := by omega
    have hk : prevIdx n i = i - 1 := by simp [prevIdx, hi0]
    have hlat : (latent.getD (i - 1) []).length = K := hlK _ (getD_mem _ _ _ (by omega))
    have hlaw := bn_law hc he (latent.getD (i - 1) []) s m (by omega) (by omega)
    rw [bnCompress_fst] at hlaw
    have hz : (List.zipWith quant1 (latent.getD (i - 1) []) m).length = K := by simp only [List.length_zipWith]; omega
    set buf1 := st.quantized.set (i - 1) (List.zipWith quant1 (latent.getD (i - 1) []) m) with hb1
    have hb1l : buf1.length = n := by simp [hb1, hq]
    have hb1K : ∀ t ∈ buf1, t.length = K := mem_set_len hqK hz
    obtain ⟨nm1, nm2, ns1, ns2⟩ := hn buf1 hb1l hb1K
    set mi := (net.means buf1).getD i [] with hmi
    set si := (net.scales buf1).getD i [] with hsi
    have hmiK : mi.length = K := nm2 _ (getD_mem _ _ _ (by omega))
    have hsiK : si.length = K := ns2 _ (getD_mem _ _ _ (by omega))
    set str := (bnCompress c e (latent.getD (i - 1) []) s m).2 with hstr
    set st2 : EncSt S := { st with
      prev := some (mi, si), quantized := buf1, means := st.means.set i mi, scales := st.scales.set i si,
      feats := st.feats.set i ((net.feats buf1).getD i []), strings := st.strings ++ [str] } with hst2
    obtain ⟨st', he', q1, q2, q3, q4, q5, q6, new, r1, r2, r3⟩ := ih (i + 1) (by omega) (by omega) st2 mi si rfl
      hmiK hsiK hb1l hb1K (by simp [hst2, hml]) (by simp [hst2, hsl]) (by simp [hst2, hfl])
    rw [Nat.add_sub_cancel] at q5
    have qm := q4 i (by omega)
    have em : st'.means.getD i [] = mi := by
      rw [qm.1]; exact getD_set_eq _ _ _ _ (by omega)
    have es : st'.scales.getD i [] = si := by
      rw [qm.2.1]; exact getD_set_eq _ _ _ _ (by omega)
    have ef : st'.feats.getD i [] = (net.feats buf1).getD i [] := by
      rw [qm.2.2]; exact getD_set_eq _ _ _ _ (by omega)
    have hpre : ∀ k, k < i → buf1.getD k [] = st'.quantized.getD k [] := fun k hk => (q3 k (by omega)).symm
    refine ⟨st', ?_, q1, q2, ?_, ?_, ?_, ?_, str :: new, ?_, ?_, ?_⟩
    · rw [← he', List.range'_succ, List.cons_append]
      simp only [encLoop, hp, hl, hk, if_neg hi0, EncSt.predict, bnCompress_fst]
      rfl
    · intro j hj
      rw [q3 j (by omega)]
      exact getD_set_ne _ _ _ _ _ (by omega)
    · intro j hj
      obtain ⟨a, b, f⟩ := q4 j (by omega)
      rw [a, b, f]
      exact ⟨getD_set_ne _ _ _ _ _ (by omega), getD_set_ne _ _ _ _ _ (by omega), getD_set_ne _ _ _ _ _ (by omega)⟩
    · rw [q3 (i - 1) (by omega)]
      exact getD_set_eq _ _ _ _ (by omega)
    · intro j h1 h2
      rcases Nat.eq_or_lt_of_le h1 with rfl | h1'
      · rw [em, es, ef]
        exact ⟨⟨buf1, hb1l, hb1K, hpre, rfl, rfl, rfl⟩, hmiK, q5⟩
      · exact q6 j h1' h2
    · rw [r1, hst2]; simp
    · simp [r2]
    · intro rest
      obtain ⟨a, b⟩ := r3 rest
      rw [List.range'_succ, List.cons_append, List.cons_append]
      constructor
      · simp only [decLoop, hk, if_neg hi0, hlaw]
        exact a
      · simp only [decLoop, hk, if_neg hi0, hlaw, em, es]
        exact b

/-- Everything about `_encode` and `_decode` on tokens. -/
theorem encode_spec {c : BnCfg} (hc : c.Ok) {e : Coder S} (he : e.Lossless (c.numMeans * c.numScales))
    {net : Net} {n K D : Nat} (hpos : 0 < n) (hn : net.ShapeOk n K) {latent : Buf} (hl : latent.length = n)
    (hlK : ∀ t ∈ latent, t.length = K) :
    ∃ st : EncSt S, encodeTokens c e net K D latent = st ∧
      st.quantized.length = n ∧ (∀ t ∈ st.quantized, t.length = K) ∧ st.strings.length = n ∧
      (∀ j, j < n → (∃ B : Buf, B.length = n ∧ (∀ t ∈ B, t.length = K) ∧
          (∀ k, k < j → B.getD k [] = st.quantized.getD k []) ∧
          st.means.getD j [] = (net.means B).getD j [] ∧ st.scales.getD j [] = (net.scales B).getD j [] ∧
          st.feats.getD j [] = (net.feats B).getD j []) ∧
          (st.means.getD j []).length = K ∧
          st.quantized.getD j [] = List.zipWith quant1 (latent.getD j []) (st.means.getD j [])) ∧
      decodeTokens c e net none n K st.strings = .ok st.quantized ∧
      decodeTokens c e net (some (st.means, st.scales)) n K st.strings = .ok st.quantized := by
  obtain ⟨n, rfl⟩ : ∃ n', n = n' + 1 := ⟨n - 1, by omega⟩
  have hf1 : (full (n + 1) K 10).length = n + 1 := by simp [full]
  have hf2 : ∀ t ∈ full (n + 1) K 10, t.length = K := by
    intro t ht
    rw [full, List.mem_replicate] at ht
    rw [ht.2]; simp
  obtain ⟨nm1, nm2, ns1, ns2⟩ := hn _ hf1 hf2
  set b0 := full (n + 1) K 10 with hb0
  set mi := (net.means b0).getD 0 [] with hmi
  set si := (net.scales b0).getD 0 [] with hsi
  have hmiK : mi.length = K := nm2 _ (getD_mem _ _ _ (by omega))
  have hsiK : si.length = K := ns2 _ (getD_mem _ _ _ (by omega))
  set st1 : EncSt S := ⟨some (mi, si), b0, (full (n + 1) K 100).set 0 mi, (full (n + 1) K 100).set 0 si,
    (full (n + 1) D 100).set 0 ((net.feats b0).getD 0 []), []⟩ with hst1
  have hfl : (full (n + 1) K 100).length = n + 1 := by simp [full]
  obtain ⟨st', he', q1, q2, q3, q4, q5, q6, new, r1, r2, r3⟩ := loop_spec hc he hn hl hlK n 1 le_rfl
    (by omega) st1 mi si rfl hmiK hsiK hf1 hf2 (by simp [hst1, hfl]) (by simp [hst1, hfl]) (by simp [hst1, full])
  have hrange : List.range (n + 1) = 0 :: List.range' 1 n := by
    rw [List.range_eq_range', List.range'_succ]
  have hnew : st'.strings = new := by rw [r1, hst1]; simp
  have qm := q4 0 (by omega)
  have em : st'.means.getD 0 [] = mi := by
    rw [qm.1]; exact getD_set_eq _ _ _ _ (by omega)
  have es : st'.scales.getD 0 [] = si := by
    rw [qm.2.1]; exact getD_set_eq _ _ _ _ (by omega)
  have ef : st'.feats.getD 0 [] = (net.feats b0).getD 0 [] := by
    rw [qm.2.2]; exact getD_set_eq _ _ _ _ (by simp [full])
  refine ⟨st', ?_, q1, q2, by rw [hnew, r2], ?_, ?_, ?_⟩
  · rw [← he', encodeTokens, hl, hrange, List.cons_append]
    simp only [encLoop, EncSt.predict]
    rfl
  · intro j hj
    rcases Nat.eq_zero_or_pos j with rfl | hj0
    · rw [em, es, ef]
      exact ⟨⟨b0, hf1, hf2, fun k hk => absurd hk (by omega), rfl, rfl, rfl⟩, hmiK, q5⟩
    · exact q6 j hj0 hj
  · have a := (r3 []).1
    rw [List.append_nil] at a
    have : decLoop c e net none (n + 1) (List.range (n + 1) ++ [0]) none b0 new = .ok (st'.quantized, []) := by
      rw [hrange, List.cons_append]
      simp only [decLoop]
      exact a
    rw [decodeTokens, hnew, this]
    rfl
  · have a := (r3 []).2
    rw [List.append_nil] at a
    have : decLoop c e net (some (st'.means, st'.scales)) (n + 1) (List.range (n + 1) ++ [0]) none b0 new =
        .ok (st'.quantized, []) := by
      rw [hrange, List.cons_append]
      simp only [decLoop, em, es]
      exact a
    rw [decodeTokens, hnew, this]
    rfl

end Verif.Vct
