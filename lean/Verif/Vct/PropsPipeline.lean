import Verif.Vct.Pipeline
import Mathlib.Tactic.Ring
import Mathlib.Tactic.IntervalCases

/-!
# C32 (temporal context window) and C33 (frame geometry)
-/

namespace Verif.Vct.Pipe

variable {Scene Lat Feat Proc Rec : Type}

/-! ### C32 -/

/-- The entry a coded scene leaves behind: its quantised latent and the processed form. -/
def entry (n : Nets Scene Lat Feat Proc Rec) (b : Bottleneck Lat Feat) : Prev Lat Proc :=
  (b.latentQ, n.process b.latentQ)

theorem encodeFrom_length (n : Nets Scene Lat Feat Proc Rec) (L : ℕ) (scenes : List Scene) :
    ∀ i st, (encodeFrom n L i st scenes).length = scenes.length := by
  induction scenes with
  | nil => intro i st; rfl
  | cons s rest ih => intro i st; simp [encodeFrom, ih]

theorem sliceLast_suffix {α : Type} (k : ℕ) (l : List α) : sliceLast k l <:+ l := by
  unfold sliceLast; split
  · exact List.suffix_rfl
  · exact List.drop_suffix _ _

theorem sliceLast_length {α : Type} {k : ℕ} (hk : 0 < k) (l : List α) :
    (sliceLast k l).length = min l.length k := by
  unfold sliceLast; rw [if_neg (by omega), List.length_drop]; omega

theorem encodeFrom_window (n : Nets Scene Lat Feat Proc Rec) {L : ℕ} (hL : 0 < L) (scenes : List Scene) :
    ∀ (idx : ℕ) (st past : List (Prev Lat Proc)), past.length = idx → st <:+ past →
      st.length = min idx L → ∀ (i : ℕ) (hi : i < (encodeFrom n L idx st scenes).length),
      ((encodeFrom n L idx st scenes)[i]).1 <:+
          past ++ ((encodeFrom n L idx st scenes).take (i + 1)).map (fun r => entry n r.2) ∧
        ((encodeFrom n L idx st scenes)[i]).1.length = min (idx + i + 1) L := by
  induction scenes with
  | nil => intro idx st past _ _ _ i hi; simp [encodeFrom] at hi
  | cons s rest ih =>
    intro idx st past hp hsuf hlen i hi
    set r := if idx = 0 then encodeI n s else encodeP n L s idx st with hr
    have hstep : r.1 <:+ past ++ [entry n r.2] ∧ r.1.length = min (idx + 1) L := by
      by_cases h0 : idx = 0
      · rw [if_pos h0] at hr
        rw [hr]
        have : past = [] := List.eq_nil_of_length_eq_zero (by omega)
        subst this
        refine ⟨?_, ?_⟩
        · simp [encodeI, decodeI, entry]
        · simp [encodeI, decodeI, h0]; omega
      · rw [if_neg h0] at hr
        rw [hr]
        refine ⟨?_, ?_⟩
        · simp only [encodeP, decodeP]
          refine (sliceLast_suffix _ _).trans ?_
          obtain ⟨t, rfl⟩ := hsuf
          exact ⟨t, by simp [entry]⟩
        · simp only [encodeP, decodeP]
          rw [sliceLast_length hL]
          simp [hlen]; omega
    have hcons : encodeFrom n L idx st (s :: rest) = r :: encodeFrom n L (idx + 1) r.1 rest := rfl
    simp only [hcons] at hi ⊢
    cases i with
    | zero => simpa using hstep
    | succ j =>
      have := ih (idx + 1) r.1 (past ++ [entry n r.2]) (by simp [hp]) hstep.1 hstep.2 j
        (by simpa using hi)
      simp only [List.getElem_cons_succ, List.take_succ_cons, List.map_cons]
      refine ⟨by simpa using this.1, ?_⟩
      rw [this.2]; congr 1; omega

/-- C32 (window): for every video length and every context length `L ≥ 1`, after the scene with number `i`
the encoder's state consists of exactly the last `min (i + 1) L` coded latents, in order. -/
theorem C32_window_partial (n : Nets Scene Lat Feat Proc Rec) {L : ℕ} (hL : 0 < L) (scenes : List Scene) :
    (encodeScenes n L scenes).length = scenes.length ∧
    ∀ (i : ℕ) (hi : i < (encodeScenes n L scenes).length),
      ((encodeScenes n L scenes)[i]).1 <:+
          ((encodeScenes n L scenes).take (i + 1)).map (fun r => (r.2.latentQ, n.process r.2.latentQ)) ∧
        ((encodeScenes n L scenes)[i]).1.length = min (i + 1) L := by
  refine ⟨encodeFrom_length n L scenes 0 [], fun i hi => ?_⟩
  have := encodeFrom_window n hL scenes 0 [] [] rfl List.suffix_rfl (by simp) i hi
  rw [List.nil_append, Nat.zero_add] at this
  exact this

theorem decodeFrom_eq (n : Nets Scene Lat Feat Proc Rec) (L : ℕ) (scenes : List Scene) :
    ∀ idx st, decodeFrom n L idx st ((encodeFrom n L idx st scenes).map (·.2)) =
      (encodeFrom n L idx st scenes).map fun r => (r.1, n.dequantize r.2.latentQ r.2.features) := by
  induction scenes with
  | nil => intro idx st; rfl
  | cons s rest ih =>
    intro idx st
    simp only [encodeFrom, List.map_cons, decodeFrom]
    by_cases h0 : idx = 0
    · simp only [if_pos h0]
      rw [show (decodeI n (encodeI n s).2).2 = (encodeI n s).1 from rfl, ih]
      rfl
    · simp only [if_neg h0]
      rw [show (decodeP n L (encodeP n L s idx st).2 st).2 = (encodeP n L s idx st).1 from rfl, ih]
      rfl

/-- C32 (agreement): for every video and every context length, the decoder run on the transmitted latents has
after every scene the same state as the encoder, and produces one reconstruction per scene, from that scene's
latent and features. -/
theorem C32_agree (n : Nets Scene Lat Feat Proc Rec) (L : ℕ) (scenes : List Scene) :
    (decodeScenes n L ((encodeScenes n L scenes).map (·.2))).map (·.1) =
        (encodeScenes n L scenes).map (·.1) ∧
      (decodeScenes n L ((encodeScenes n L scenes).map (·.2))).map (·.2) =
        (encodeScenes n L scenes).map fun r => n.dequantize r.2.latentQ r.2.features := by
  unfold decodeScenes encodeScenes
  rw [decodeFrom_eq]
  simp [Function.comp_def]

theorem contexts_getElem (n : Nets Scene Lat Feat Proc Rec) (L : ℕ) (scenes : List Scene) (i : ℕ)
    (hi : i + 1 < scenes.length) :
    (contexts n L scenes)[i + 1]? =
      ((encodeScenes n L scenes)[i]?).map fun r => context r.1 := by
  cases scenes with
  | nil => simp at hi
  | cons s rest =>
    have h1 : i < rest.length := by simpa using hi
    simp [contexts, h1]

/-- C32 (contexts): with context length 1 or 2 the entropy model is given exactly two contexts (its own
context length) at every scene of every video. -/
theorem C32_contexts_partial (n : Nets Scene Lat Feat Proc Rec) {L : ℕ} (h1 : 1 ≤ L) (h2 : L ≤ 2)
    (scenes : List Scene) :
    (contexts n L scenes).length = scenes.length ∧
      ∀ c ∈ contexts n L scenes, c.length = entropyContextLen := by
  have hlen : (contexts n L scenes).length = scenes.length := by
    cases scenes with
    | nil => rfl
    | cons s rest =>
      simp only [contexts, List.length_cons, List.length_take, List.length_map]
      have := encodeFrom_length n L (s :: rest) 0 []
      simp only [encodeScenes, this, List.length_cons]
      omega
  refine ⟨hlen, fun c hc => ?_⟩
  obtain ⟨i, hi, rfl⟩ := List.getElem_of_mem hc
  cases i with
  | zero =>
    cases scenes with
    | nil => simp [contexts] at hi
    | cons s rest => simp [contexts, context, encodedSeqs, entropyContextLen]
  | succ j =>
    have hj : j + 1 < scenes.length := by rw [← hlen]; exact hi
    obtain ⟨hl, hw⟩ := C32_window_partial n (L := L) (by omega) scenes
    have hj' : j < (encodeScenes n L scenes).length := by omega
    have hget := contexts_getElem n L scenes j hj
    rw [List.getElem?_eq_getElem hi, List.getElem?_eq_getElem hj'] at hget
    simp only [Option.map_some, Option.some.injEq] at hget
    rw [hget]
    have hs := (hw j hj').2
    set st := ((encodeScenes n L scenes)[j]).1
    unfold context encodedSeqs entropyContextLen
    simp only [List.length_map, hs]
    split
    · simp [hs]; omega
    · simp [hs]; omega

/-- C32 (contexts, contents): with the default context length 2, scene `i + 2` is coded given the two
latents before it, oldest first, and scene 1 given the first latent twice. -/
theorem C32_contexts_content (n : Nets Scene Lat Feat Proc Rec) (scenes : List Scene) :
    (∀ (i : ℕ) (_ : i + 2 < scenes.length) (h0 : i < (encodeScenes n 2 scenes).length)
        (h1 : i + 1 < (encodeScenes n 2 scenes).length),
      (contexts n 2 scenes)[i + 2]? = some [n.process ((encodeScenes n 2 scenes)[i]).2.latentQ,
        n.process ((encodeScenes n 2 scenes)[i + 1]).2.latentQ]) ∧
    ∀ (h0 : 0 < (encodeScenes n 2 scenes).length), 1 < scenes.length →
      (contexts n 2 scenes)[1]? = some [n.process ((encodeScenes n 2 scenes)[0]).2.latentQ,
        n.process ((encodeScenes n 2 scenes)[0]).2.latentQ] := by
  obtain ⟨hl, hw⟩ := C32_window_partial n (L := 2) (by omega) scenes
  refine ⟨fun i hi h0 h1 => ?_, fun h0 h1 => ?_⟩
  · rw [contexts_getElem n 2 scenes (i + 1) (by omega), List.getElem?_eq_getElem h1]
    obtain ⟨hsuf, hlen⟩ := hw (i + 1) h1
    have htake : (encodeScenes n 2 scenes).take (i + 1 + 1) =
        (encodeScenes n 2 scenes).take i ++ [(encodeScenes n 2 scenes)[i], (encodeScenes n 2 scenes)[i + 1]] := by
      rw [List.take_add_one (i := i + 1), List.take_add_one (i := i), List.getElem?_eq_getElem h0,
        List.getElem?_eq_getElem h1]
      simp only [Option.toList, List.append_assoc, List.cons_append, List.nil_append]
    rw [htake] at hsuf
    simp only [List.map_append, List.map_cons, List.map_nil] at hsuf
    have hst : ((encodeScenes n 2 scenes)[i + 1]).1 =
        [entry n ((encodeScenes n 2 scenes)[i]).2, entry n ((encodeScenes n 2 scenes)[i + 1]).2] := by
      rw [List.suffix_iff_eq_drop] at hsuf
      rw [hsuf, hlen]
      simp only [List.length_append, List.length_map, List.length_cons, List.length_nil]
      rw [List.drop_append]
      simp [entry]
    simp [context, hst, encodedSeqs, entropyContextLen, entry]
  · rw [contexts_getElem n 2 scenes 0 (by omega), List.getElem?_eq_getElem h0]
    obtain ⟨hsuf, hlen⟩ := hw 0 h0
    have htake : (encodeScenes n 2 scenes).take (0 + 1) = [(encodeScenes n 2 scenes)[0]] := by
      rw [List.take_add_one, List.getElem?_eq_getElem h0]; simp
    rw [htake] at hsuf
    have hst : ((encodeScenes n 2 scenes)[0]).1 = [entry n ((encodeScenes n 2 scenes)[0]).2] := by
      rw [List.suffix_iff_eq_drop] at hsuf
      rw [hsuf, hlen]
      simp [entry]
    simp [context, hst, encodedSeqs, entropyContextLen, entry]

/-- C32 (stand-alone entropy model): an entropy model with context length 1, 2 or 3 extracts exactly that many
contexts from one up to that many previous latents, in order, repeating the oldest. -/
theorem C32_extract (k : ℕ) (hk : 1 ≤ k) (hk3 : k ≤ 3) (seqs : List Proc) (h1 : 1 ≤ seqs.length)
    (h2 : seqs.length ≤ k) :
    ∃ m, encodedSeqs k seqs = List.replicate m (seqs.head (by
        intro h; rw [h] at h1; simp at h1)) ++ seqs ∧ m + seqs.length = k := by
  rcases seqs with _ | ⟨a, _ | ⟨b, _ | ⟨c, _ | ⟨d, rest⟩⟩⟩⟩
  · simp at h1
  · refine ⟨k - 1, ?_, by simp; omega⟩
    interval_cases k <;> simp [encodedSeqs, List.replicate]
  · refine ⟨k - 2, ?_, by simp at *; omega⟩
    simp at h2
    interval_cases k <;> simp [encodedSeqs]
  · refine ⟨k - 3, ?_, by simp at *; omega⟩
    simp at h2
    have : k = 3 := by omega
    subst this
    simp [encodedSeqs]
  · simp at h2; omega

/-- C32 fails outside these lengths.  (1) A pipeline with context length at least 3 gives its entropy model
three contexts instead of two at the fourth scene of every video (the model's positional encoding then fails
its assertion, entropy_model_layers.py:60).  (2) With context length 0 the state is never shortened.  (3) An
entropy model built with a context length above 3 silently gets too few contexts. -/
theorem C32_violated :
    (∀ (n : Nets Scene Lat Feat Proc Rec) (L : ℕ), 3 ≤ L → ∀ scenes : List Scene, 4 ≤ scenes.length →
      ∃ c, (contexts n L scenes)[3]? = some c ∧ c.length = 3 ∧ c.length ≠ entropyContextLen) ∧
    (∀ (n : Nets Scene Lat Feat Proc Rec) (a b c : Scene),
      (encodeScenes n 0 [a, b, c]).map (fun r => r.1.length) = [1, 2, 3]) ∧
    (∀ (k : ℕ), 4 ≤ k → ∀ seqs : List Proc, seqs.length < k → (encodedSeqs k seqs).length < k) := by
  refine ⟨fun n L hL scenes h4 => ?_, fun n a b c => rfl, fun k hk seqs h => ?_⟩
  · obtain ⟨hl, hw⟩ := C32_window_partial n (L := L) (by omega) scenes
    have h2 : 2 < (encodeScenes n L scenes).length := by omega
    refine ⟨context ((encodeScenes n L scenes)[2]).1, ?_, ?_⟩
    · rw [contexts_getElem n L scenes 2 (by omega), List.getElem?_eq_getElem h2]; rfl
    · have hs := (hw 2 h2).2
      have : (context ((encodeScenes n L scenes)[2]).1).length = 3 := by
        unfold context encodedSeqs entropyContextLen
        simp only [List.length_map, hs]
        rw [if_neg (by omega)]
        simp [hs]; omega
      exact ⟨this, by rw [this]; decide⟩
  · unfold encodedSeqs
    rw [if_pos h, if_neg (by omega), if_neg (by omega)]
    exact h

/-- Non-vacuity: a video of five scenes with arithmetic networks (each latent mixes the scene with the
contexts). -/
def toyNets : Nets ℕ ℕ ℕ ℕ ℕ where
  fake := fun _ => 7
  process := fun q => q + 1
  entropy := fun i s ctx => ⟨10 * s + ctx.sum + i, s⟩
  dequantize := fun q f => q + f

example : (encodeScenes toyNets 2 [1, 2, 3, 4, 5]).map (·.1) =
    [[(26, 27)], [(26, 27), (75, 76)], [(75, 76), (135, 136)], [(135, 136), (255, 256)],
      [(255, 256), (446, 447)]] := by decide +kernel

example : contexts toyNets 2 [1, 2, 3, 4] = [[8, 8], [27, 27], [27, 76], [76, 136]] := by decide +kernel

/-! ### C33 -/

theorem makeConv_half {n : ℕ} (h : 1 ≤ n) : makeConv 5 2 n = (n - 1) / 2 + 1 := by
  simp only [makeConv, convOut]; omega

theorem makeDeconv_double {n : ℕ} (h : 1 ≤ n) : makeDeconv 5 2 n = 2 * n := by
  simp only [makeDeconv, deconvOut]; omega

theorem residualUnit_id {n : ℕ} (h : 1 ≤ n) : residualUnit n = n := by
  simp only [residualUnit, makeConv, convOut]; omega

theorem residualUnits_id (r : ℕ) {n : ℕ} (h : 1 ≤ n) : residualUnit^[r] n = n := by
  induction r with
  | zero => rfl
  | succ r ih => rw [Function.iterate_succ_apply', ih, residualUnit_id h]

theorem analysis_eq (t : Transform) {n : ℕ} (h : 1 ≤ n) : t.analysis n = (n - 1) / 16 + 1 := by
  have step : ∀ m, makeConv 5 2 (m + 1) = m / 2 + 1 := fun m => by
    rw [makeConv_half (by omega)]; rfl
  have res : ∀ r m, residualUnit^[r] (m + 1) = m + 1 := fun r m => residualUnits_id r (by omega)
  obtain ⟨m, rfl⟩ : ∃ m, n = m + 1 := ⟨n - 1, by omega⟩
  cases t with
  | convGDN => simp only [Transform.analysis, step]; omega
  | elic r mf => simp only [Transform.analysis, step, res]; omega

theorem synthesis_eq (t : Transform) {n : ℕ} (h : 1 ≤ n) : t.synthesis n = 16 * n := by
  have step : ∀ m, 1 ≤ m → makeDeconv 5 2 m = 2 * m := fun m hm => makeDeconv_double hm
  cases t with
  | convGDN =>
    simp only [Transform.synthesis]
    rw [step n h, step (2 * n) (by omega), step (2 * (2 * n)) (by omega),
      step (2 * (2 * (2 * n))) (by omega)]
    omega
  | elic r mf =>
    simp only [Transform.synthesis]
    rw [step n h, residualUnits_id r (n := 2 * n) (by omega), step (2 * n) (by omega),
      residualUnits_id r (n := 2 * (2 * n)) (by omega), step (2 * (2 * n)) (by omega),
      residualUnits_id r (n := 2 * (2 * (2 * n))) (by omega), step (2 * (2 * (2 * n))) (by omega)]
    omega

/-- C33 (padding): the padded size is the next multiple of the down-sampling factor, and nothing is added
when the size already is a multiple. -/
theorem C33_padding (t : Transform) (n : ℕ) :
    2 ^ t.numDown ∣ n + padAmount t n ∧ padAmount t n < 2 ^ t.numDown ∧
      (2 ^ t.numDown ∣ n → padAmount t n = 0) := by
  have hpos : 0 < 2 ^ t.numDown := by positivity
  simp only [padAmount, Nat.add_zero]
  set f := 2 ^ t.numDown
  refine ⟨?_, Nat.mod_lt _ hpos, fun h => ?_⟩
  · have h1 := Nat.mod_lt n hpos
    rw [Nat.dvd_iff_mod_eq_zero, Nat.add_mod, Nat.mod_mod, ← Nat.add_mod]
    have : n + (f - n % f) = f * (n / f + 1) := by
      have := Nat.div_add_mod n f
      rw [Nat.mul_add]; omega
    rw [this]; simp
  · rw [Nat.dvd_iff_mod_eq_zero.1 h]; simp

/-- Padding at the end leaves the original elements where they are. -/
theorem C33_padding_keeps (n i : ℕ) (h : i < n) : reflect n (i : ℤ) = i := by
  unfold reflect
  rw [if_neg (by omega), if_neg (by omega)]
  simp

/-- The sizes that work: 49 to 64, and from 81 on. -/
def Supported (n : ℕ) : Prop := (49 ≤ n ∧ n ≤ 64) ∨ 81 ≤ n

instance (n : ℕ) : Decidable (Supported n) := by unfold Supported; infer_instance

/-- C33 (the part that holds): for both transform families, in training and in evaluation, whenever the
forward pass returns, each frame axis has the size of the input; and it returns exactly for the sizes 49 to
64 and from 81 on (if the frames can be chunked as configured). -/
theorem C33_partial (t : Transform) (training : Bool) (bt : ℕ) {n : ℕ} (hn : 1 ≤ n) :
    (∀ m, forwardAxis t training bt n = .ok m → m = n) ∧
      ((∃ m, forwardAxis t training bt n = .ok m) ↔ t.chunkOk bt = true ∧ Supported n) := by
  have key : ∀ p, 1 ≤ p → n ≤ p → (p - 1) / 16 = (n - 1) / 16 →
      ((do
        if t.chunkOk bt then
          let latent ← entropyAxis (t.analysis p)
          let out := min n (t.synthesis latent)
          return if training then out else min n out
        else .error .chunk : Except SizeErr ℕ) =
        if t.chunkOk bt = true then if Supported n then .ok n else .error .pad else .error .chunk) := by
    intro p hp hnp hdiv
    by_cases hc : t.chunkOk bt = true
    · simp only [hc, if_true, analysis_eq t hp, hdiv]
      unfold entropyAxis ceilDiv
      by_cases hs : Supported n
      · rw [if_pos hs]
        unfold Supported at hs
        rw [if_pos (by omega)]
        simp only [bind, Except.bind, pure, Except.pure]
        rw [synthesis_eq t (by omega)]
        have hmin : min n (16 * ((n - 1) / 16 + 1)) = n := by omega
        simp [hmin]
      · rw [if_neg hs]
        unfold Supported at hs
        rw [if_neg (by omega)]
        rfl
    · simp [hc]
  have hfull : forwardAxis t training bt n =
      (if t.chunkOk bt = true then if Supported n then .ok n else .error .pad else .error .chunk) ∨
      (forwardAxis t training bt n = .error .pad ∧ ¬Supported n) := by
    unfold forwardAxis
    cases training with
    | true =>
      left
      simpa [bind, Except.bind] using key n hn le_rfl rfl
    | false =>
      obtain ⟨hdvd, hlt, _⟩ := C33_padding t n
      unfold padAxis
      by_cases hp : padAmount t n < n
      · left
        rw [if_neg (by simp), if_pos hp]
        have := key (n + padAmount t n) (by omega) (by omega) (by
          cases t with
          | convGDN => simp only [Transform.numDown] at hdvd hlt; norm_num at hdvd hlt; omega
          | elic r m => simp only [Transform.numDown] at hlt; norm_num at hlt; simp [hlt])
        simpa [bind, Except.bind] using this
      · right
        rw [if_neg (by simp), if_neg hp]
        refine ⟨rfl, ?_⟩
        have : padAmount t n < 16 := lt_of_lt_of_le hlt (by cases t <;> simp [Transform.numDown])
        unfold Supported; omega
  rcases hfull with h | ⟨h, hs⟩
  · rw [h]
    by_cases hc : t.chunkOk bt = true <;> by_cases hs : Supported n <;> simp [hc, hs]
  · rw [h]
    simp [hs]

/-- C33 (the configuration of the frames): only an ELIC transform with `max_frames` restricts the number of frames, to at
most `max_frames` or a multiple of it. -/
theorem C33_frames (t : Transform) (bt : ℕ) :
    t.chunkOk bt = true ↔ ∀ r m, t = .elic r (some m) → bt ≤ m ∨ m ∣ bt := by
  match t with
  | .convGDN => simp [Transform.chunkOk]
  | .elic r none => simp [Transform.chunkOk]
  | .elic r (some m) =>
    by_cases h : m < bt
    · simp [Transform.chunkOk, h, Nat.dvd_iff_mod_eq_zero, Nat.not_le.2 h]
    · simp [Transform.chunkOk, h, Nat.not_lt.1 h]

/-- Non-vacuity of `C33_frames`: seven frames in chunks of three do not work, six do. -/
example : Transform.chunkOk (.elic 3 (some 3)) 7 = false ∧ Transform.chunkOk (.elic 3 (some 3)) 6 = true := by
  decide

/-- C33 fails for the other sizes: the evaluation forward pass of a video of height (or width) at most 48, or
from 65 to 80, raises `RuntimeError` from reflection padding instead of returning frames, e.g. at 80. -/
theorem C33_violated (t : Transform) (bt : ℕ) :
    (∀ n, 1 ≤ n → (n ≤ 48 ∨ (65 ≤ n ∧ n ≤ 80)) → ∀ m, forwardAxis t false bt n ≠ .ok m) ∧
      forwardAxis .convGDN false 5 80 = .error .pad := by
  refine ⟨fun n hn hs m h => ?_, by decide +kernel⟩
  have := ((C33_partial t false bt hn).2.1 ⟨m, h⟩).2
  unfold Supported at this; omega

/-- The size condition used for the entropy model is the one under which the patcher's padding succeeds for
both windows (encoder 8, decoder 4, stride 4). -/
theorem entropyAxis_patcher {α : Type} (x : Tensor α) (B C h w : ℕ) :
    ((∃ r, padPatch 4 x B C h w 8 = .ok r) ∧ ∃ r, padPatch 4 x B C h w 4 = .ok r) ↔
      (∃ a, entropyAxis h = .ok a) ∧ ∃ b, entropyAxis w = .ok b := by
  unfold padPatch padReflect entropyAxis ceilDiv
  norm_num
  constructor
  · rintro ⟨⟨a, b, c, h1⟩, ⟨a', b', c', h2⟩⟩
    split at h1 <;> rename_i hh
    · exact ⟨⟨h, by rw [if_pos (by omega)]⟩, ⟨w, by rw [if_pos (by omega)]⟩⟩
    · simp at h1
  · rintro ⟨⟨a, h1⟩, ⟨b, h2⟩⟩
    split at h1
    · split at h2
      · rename_i g1 g2
        rw [if_pos (by omega), if_pos (by omega)]
        exact ⟨⟨_, _, _, rfl⟩, ⟨_, _, _, rfl⟩⟩
      · simp at h2
    · simp at h1

theorem flatten_chunks {α : Type} (m : ℕ) (l : List α) (k : ℕ) :
    ((List.range k).map fun i => (l.drop (i * m)).take m).flatten = l.take (k * m) := by
  induction k with
  | zero => simp
  | succ k ih =>
    rw [List.range_succ, List.map_append, List.flatten_append, ih]
    simp only [List.map_cons, List.map_nil, List.flatten_cons, List.flatten_nil, List.append_nil]
    rw [Nat.succ_mul, List.take_add]

/-- C33 (chunking): setting `max_frames` never changes the result: if the transform returns, it returns every
frame transformed on its own, in order; and it returns exactly if the number of frames is at most
`max_frames` or a multiple of it. -/
theorem C33_chunked {α β : Type} (maxFrames : Option ℕ) (net : α → β) (frames : List α) :
    (∀ out, chunked maxFrames net frames = .ok out → out = frames.map net) ∧
      ((∃ out, chunked maxFrames net frames = .ok out) ↔
        ∀ m, maxFrames = some m → frames.length ≤ m ∨ m ∣ frames.length) := by
  cases maxFrames with
  | none => simp [chunked, eq_comm]
  | some m =>
    unfold chunked
    simp only [Option.some.injEq, forall_eq']
    by_cases h : m < frames.length
    · rw [if_pos h]
      by_cases hd : frames.length % m = 0
      · rw [if_pos hd]
        have hdvd : m ∣ frames.length := Nat.dvd_of_mod_eq_zero hd
        refine ⟨fun out ho => ?_, by simp [hdvd]⟩
        simp only [Except.ok.injEq] at ho
        rw [← ho]
        have h1 := flatten_chunks m (frames.map net) (frames.length / m)
        rw [Nat.div_mul_cancel hdvd, List.take_of_length_le (by simp)] at h1
        rw [← h1]
        simp [List.map_take, List.map_drop]
      · rw [if_neg hd]
        refine ⟨fun out ho => by simp at ho, ?_⟩
        simp only [reduceCtorEq, exists_false, false_iff, not_or, not_le]
        exact ⟨h, fun hh => hd (Nat.mod_eq_zero_of_dvd hh)⟩
    · rw [if_neg h]
      simp [eq_comm]; left; omega

/-- Non-vacuity: HD video, both transforms; 1080 is padded to 1088 by the first. -/
example : padAmount .convGDN 1080 = 8 ∧ forwardAxis .convGDN false 5 1080 = .ok 1080 ∧
    forwardAxis (.elic 3 (some 2)) false 6 1080 = .ok 1080 ∧
    forwardAxis (.elic 3 (some 4)) false 6 1080 = .error .chunk ∧
    forwardAxis .convGDN false 5 72 = .error .pad := by decide +kernel

example : chunked (some 2) (fun x : ℕ => x + 1) [1, 2, 3, 4] = .ok [2, 3, 4, 5] := by decide +kernel

end Verif.Vct.Pipe
