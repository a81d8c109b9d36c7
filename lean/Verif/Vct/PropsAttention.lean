import Verif.Vct.Attention
import Mathlib.Tactic.Linarith
import Mathlib.Tactic.NormNum
import Mathlib.Tactic.FinCases
import Mathlib.Tactic.Ring

/-
C30: causality of the decoder.
-/
namespace Verif.Vct.Attn

/-- An exponential as computed in float32: one at zero, and exactly zero below -104 (where the true value is
below half the smallest positive float). -/
structure Underflows (E : ℝ → ℝ) : Prop where
  one : E 0 = 1
  zero : ∀ x, x ≤ -104 → E x = 0

/-- All self-attention scores met while running the blocks on `x` are at most 4·10⁵ in absolute value. -/
def Bounded (E : ℝ → ℝ) {d h k n m : Nat} (enc : Fin m → Vec d) : List (Block d h k) → (Fin n → Vec d) → Prop
  | [], _ => True
  | b :: bs, x =>
    (∀ hd i j, |score b.self (fun i => b.ln1a (x i)) (fun i => b.ln1a (x i)) hd i j| ≤ 400000) ∧
      Bounded E enc bs (b.forward E enc x)

theorem tile_self {n : Nat} (mask : Fin n → Fin n → ℝ) (i j : Fin n) : tile mask i j = mask i j := by
  unfold tile
  congr 1
  exact Fin.ext (Nat.mod_eq_of_lt j.isLt)

theorem sup_congr {n : Nat} (f g : Fin n → ℝ) (i : Fin n) (hfg : ∀ j ≤ i, f j = g j) (hf : ∀ j, i < j → f j ≤ f i)
    (hg : ∀ j, i < j → g j ≤ g i) (hn : (Finset.univ : Finset (Fin n)).Nonempty) :
    Finset.univ.sup' hn f = Finset.univ.sup' hn g := by
  apply le_antisymm
  · apply Finset.sup'_le
    intro j _
    rcases le_or_gt j i with h | h
    · rw [hfg j h]; exact Finset.le_sup' g (Finset.mem_univ j)
    · refine (hf j h).trans ?_
      rw [hfg i le_rfl]; exact Finset.le_sup' g (Finset.mem_univ i)
  · apply Finset.sup'_le
    intro j _
    rcases le_or_gt j i with h | h
    · rw [← hfg j h]; exact Finset.le_sup' f (Finset.mem_univ j)
    · refine (hg j h).trans ?_
      rw [← hfg i le_rfl]; exact Finset.le_sup' f (Finset.mem_univ i)

/-- Masked self-attention at position `i` only depends on the positions up to `i`. -/
theorem attention_causal {E : ℝ → ℝ} (hE : Underflows E) {d h k n : Nat} (a : MHA d h k) (x y : Fin n → Vec d)
    (i : Fin n) (hxy : ∀ j ≤ i, x j = y j) (hx : ∀ hd j, |score a x x hd i j| ≤ 400000)
    (hy : ∀ hd j, |score a y y hd i j| ≤ 400000) :
    attention E a x x (some (lookAhead n)) i = attention E a y y (some (lookAhead n)) i := by
  unfold attention
  refine congrArg a.proj ?_
  funext hd c
  apply Finset.sum_congr rfl
  intro j _
  simp only [tile_self]
  rcases le_or_gt j i with hj | hj
  · rw [hxy j hj]
    congr 2
    set f : Fin n → ℝ := fun j => score a x x hd i j + lookAhead n i j * -1000000 with hf
    set g : Fin n → ℝ := fun j => score a y y hd i j + lookAhead n i j * -1000000 with hg
    have hfg : ∀ j ≤ i, f j = g j := by
      intro j hj
      simp only [hf, hg, score, hxy j hj, hxy i le_rfl]
    have big : ∀ (z : Fin n → Vec d), (∀ hd j, |score a z z hd i j| ≤ 400000) → ∀ j, i < j →
        score a z z hd i j + lookAhead n i j * -1000000 ≤ score a z z hd i i + lookAhead n i i * -1000000 - 104 := by
      intro z hz j hj
      have h1 := abs_le.1 (hz hd j)
      have h2 := abs_le.1 (hz hd i)
      simp only [lookAhead, hj, if_true, lt_irrefl, if_false]
      linarith
    have hn : (Finset.univ : Finset (Fin n)).Nonempty := ⟨j, Finset.mem_univ j⟩
    have hsup := sup_congr f g i hfg (fun j hj => by have := big x hx j hj; simp only [hf]; linarith)
      (fun j hj => by have := big y hy j hj; simp only [hg]; linarith) hn
    have hzero : ∀ (u : Fin n → ℝ), (∀ j, i < j → u j ≤ u i - 104) → ∀ j, i < j →
        E (u j - Finset.univ.sup' hn u) = 0 := by
      intro u hu j hj
      apply hE.zero
      have h1 := hu j hj
      have h2 := Finset.le_sup' u (Finset.mem_univ i)
      linarith
    unfold softmax
    simp only
    have hsum : ∑ j', E (f j' - Finset.univ.sup' hn f) = ∑ j', E (g j' - Finset.univ.sup' hn g) := by
      apply Finset.sum_congr rfl
      intro j' _
      rcases le_or_gt j' i with h | h
      · rw [hfg j' h, hsup]
      · rw [hzero f (big x hx) j' h, hzero g (big y hy) j' h]
    rw [hsum, hfg j hj, hsup]
  · simp only [lookAhead, hj, if_true, sub_self, mul_zero, zero_mul]

/-- A decoder block at position `i` only depends on the positions up to `i`. -/
theorem block_causal {E : ℝ → ℝ} (hE : Underflows E) {d h k n m : Nat} (b : Block d h k) (enc : Fin m → Vec d)
    (x y : Fin n → Vec d) (i : Fin n) (hxy : ∀ j ≤ i, x j = y j)
    (hx : ∀ hd i j, |score b.self (fun i => b.ln1a (x i)) (fun i => b.ln1a (x i)) hd i j| ≤ 400000)
    (hy : ∀ hd i j, |score b.self (fun i => b.ln1a (y i)) (fun i => b.ln1a (y i)) hd i j| ≤ 400000) :
    ∀ j ≤ i, b.forward E enc x j = b.forward E enc y j := by
  intro j hj
  have h1 : attention E b.self (fun i => b.ln1a (x i)) (fun i => b.ln1a (x i)) (some (lookAhead n)) j =
      attention E b.self (fun i => b.ln1a (y i)) (fun i => b.ln1a (y i)) (some (lookAhead n)) j :=
    attention_causal hE b.self _ _ j (fun k hk => by rw [hxy k (hk.trans hj)]) (fun hd l => hx hd j l)
      (fun hd l => hy hd j l)
  have hj' := hxy j hj
  simp only [Block.forward]
  have h2 : ∀ (u v : Fin n → Vec d), u j = v j → attention E b.cross u enc none j = attention E b.cross v enc none j := by
    intro u v huv
    simp only [attention, score, huv]
  rw [h1, hj']
  rw [h2 _ (fun i => b.ln2a (y i + attention E b.self (fun i => b.ln1a (y i)) (fun i => b.ln1a (y i))
    (some (lookAhead n)) i + b.mlp1 (b.ln1b (y i + attention E b.self (fun i => b.ln1a (y i))
      (fun i => b.ln1a (y i)) (some (lookAhead n)) i)))) (by simp only [h1, hj'])]

theorem transformer_causal {E : ℝ → ℝ} (hE : Underflows E) {d h k n m : Nat} (enc : Fin m → Vec d) :
    ∀ (bs : List (Block d h k)) (x y : Fin n → Vec d) (i : Fin n), (∀ j ≤ i, x j = y j) →
      Bounded E enc bs x → Bounded E enc bs y → ∀ j ≤ i, transformer E enc bs x j = transformer E enc bs y j
  | [], _, _, _, hxy, _, _ => hxy
  | b :: bs, x, y, i, hxy, hx, hy =>
    transformer_causal hE enc bs _ _ i (block_causal hE b enc x y i hxy hx.1 hy.1) hx.2 hy.2

/-- The full property: for all weights, the mean and scale predicted for token `i` do not change when the
tokens `i, i + 1, ...` of the latent change. -/
def DecoderCausal (E : ℝ → ℝ) : Prop :=
  ∀ (c d h k n m : Nat) (p : Predictor c d h k n) (enc : Fin m → Vec d) (x y : Fin n → Vec c) (i : Fin n),
    (∀ j < i, x j = y j) → predict E p enc x i = predict E p enc y i

/-- **C30, what holds.**  For every number of layers, heads, channels, tokens, all weights, all encoder outputs: if
the scores of the masked self-attention stay below 4·10⁵ in absolute value for both latents, the
predictions for token `i` agree for latents that agree on the tokens before `i`.  (Missing: larger
scores.) -/
theorem C30_partial {E : ℝ → ℝ} (hE : Underflows E) {c d h k n m : Nat} (p : Predictor c d h k n)
    (enc : Fin m → Vec d) (x y : Fin n → Vec c) (i : Fin n) (hxy : ∀ j < i, x j = y j)
    (hx : Bounded E enc p.blocks (fun i => p.embed i (startSym p.sym x i)))
    (hy : Bounded E enc p.blocks (fun i => p.embed i (startSym p.sym y i))) :
    predict E p enc x i = predict E p enc y i := by
  have h := transformer_causal hE enc p.blocks (fun i => p.embed i (startSym p.sym x i))
    (fun i => p.embed i (startSym p.sym y i)) i (by
      intro j hj
      have : startSym p.sym x j = startSym p.sym y j := by
        unfold startSym
        split_ifs with h0
        · rfl
        · apply hxy
          rw [Fin.lt_def]
          rw [Fin.le_def] at hj
          show j.val - 1 < i.val
          omega
      rw [this]) hx hy i le_rfl
  simp only [predict, h]

/-- Attention that uses the channel as query, key and value. -/
def plainMHA : MHA 1 1 1 :=
  ⟨fun v _ c => v c, fun v _ c => v c, fun v _ c => v c, fun f => f 0, 1⟩

/-- One block whose self-attention is `plainMHA` and whose other parts are zero or the identity. -/
def plainBlock : Block 1 1 1 :=
  ⟨id, plainMHA, id, fun _ => 0, id, ⟨fun _ _ _ => 0, fun _ _ _ => 0, fun _ _ _ => 0, fun _ => 0, 1⟩, id, fun _ => 0⟩

/-- A predictor made of that block. -/
def plainPredictor : Predictor 1 1 1 1 2 := ⟨fun _ => 1, fun _ v => v, [plainBlock], id, id⟩

theorem plain_forward (E : ℝ → ℝ) (enc x : Fin 2 → Vec 1) :
    plainBlock.forward E enc x 0 = fun _ => x 0 0 +
      softmax E (fun j : Fin 2 => x 0 0 * x j 0 + lookAhead 2 0 j * -1000000) 0 * x 0 0 := by
  have hmask : ∀ j : Fin 2, tile (lookAhead 2) (0 : Fin 2) j = lookAhead 2 0 j := tile_self _ _
  funext c
  simp only [Block.forward, plainBlock, plainMHA, attention, score, id, Pi.add_apply, Pi.zero_apply, add_zero,
    Fin.sum_univ_two, hmask]
  fin_cases c
  simp [lookAhead]

/-- **C30 is violated by the code for weights with large scores**: masking only subtracts 10⁶ from the scores
before the softmax.  If a masked score exceeds the others by more, the softmax gives all its weight to the
masked position, and the second masking then leaves nothing: the prediction changes with a later token.
Witness: one head with one channel; changing the first token, which the prediction for it must not depend
on, from 0 to 3·10⁶ changes that prediction. -/
theorem C30_violated {E : ℝ → ℝ} (hE : Underflows E) : ¬ DecoderCausal E := by
  intro hc
  have h := hc 1 1 1 1 2 2 plainPredictor (fun _ _ => 0) (fun _ _ => 0) (fun _ _ => 3000000) 0
    (fun j hj => absurd hj (by simp))
  have h1 := congrFun (congrArg Prod.fst h) 0
  have key : ∀ b : ℝ, (predict E plainPredictor (fun _ _ => 0 : Fin 2 → Vec 1) (fun _ _ => b) 0).1 0 =
      1 + softmax E (fun j : Fin 2 => if j = 0 then 1 else b - 1000000) 0 := by
    intro b
    simp only [predict, plainPredictor, transformer, id]
    rw [plain_forward]
    simp only [startSym, Fin.val_zero, dif_pos, one_mul, mul_one]
    congr 2
    funext j
    fin_cases j <;> simp [lookAhead, startSym]
    ring
  rw [key, key] at h1
  have sup_two : ∀ (u v : ℝ) (hne : (Finset.univ : Finset (Fin 2)).Nonempty),
      Finset.univ.sup' hne (fun j : Fin 2 => if j = 0 then u else v) = max u v := by
    intro u v hne
    apply le_antisymm
    · apply Finset.sup'_le
      intro j _
      split_ifs
      · exact le_max_left _ _
      · exact le_max_right _ _
    · apply max_le
      · exact Finset.le_sup' (fun j : Fin 2 => if j = 0 then u else v) (Finset.mem_univ 0)
      · exact Finset.le_sup' (fun j : Fin 2 => if j = 0 then u else v) (Finset.mem_univ 1)
  have a : softmax E (fun j : Fin 2 => if j = 0 then (1 : ℝ) else 0 - 1000000) 0 = 1 := by
    unfold softmax
    simp only [sup_two, Fin.sum_univ_two, if_true]
    rw [max_eq_left (by norm_num), sub_self, hE.one, if_neg (by decide), hE.zero _ (by norm_num)]
    norm_num
  have b : softmax E (fun j : Fin 2 => if j = 0 then (1 : ℝ) else 3000000 - 1000000) 0 = 0 := by
    unfold softmax
    simp only [sup_two, Fin.sum_univ_two, if_true]
    rw [max_eq_right (by norm_num), hE.zero _ (by norm_num), zero_div]
  rw [a, b] at h1
  norm_num at h1

/-- Such exponentials exist. -/
noncomputable example : Underflows (fun x => if x ≤ -104 then 0 else 1 + x / 104) := by
  constructor
  · norm_num
  · intro x hx; rw [if_pos hx]

/-- C30_partial is not vacuous: the predictor above on small latents. -/
example (E : ℝ → ℝ) (enc : Fin 2 → Vec 1) (x : Fin 2 → Vec 1) (hx : |x 0 0| ≤ 100) :
    Bounded E enc plainPredictor.blocks
      (fun i => plainPredictor.embed i (startSym plainPredictor.sym x i)) := by
  refine ⟨?_, trivial⟩
  intro hd i j
  have hb : ∀ i : Fin 2, |startSym plainPredictor.sym x i 0| ≤ 100 := by
    intro i
    fin_cases i
    · simp [startSym, plainPredictor]
    · simpa [startSym] using hx
  have h1 := hb i
  have h2 := hb j
  simp only [score, plainMHA, plainBlock, plainPredictor, Finset.univ_unique, Fin.default_eq_zero,
    Finset.sum_singleton, mul_one, id] at h1 h2 ⊢
  rw [abs_mul]
  calc _ ≤ (100 : ℝ) * 100 := by gcongr
    _ ≤ 400000 := by norm_num

end Verif.Vct.Attn
