import Verif.Layers.LatentTree
import Verif.Layers.PropsVq

/-!
# C119: trees of operations on latents
-/

namespace Verif.Layers.LatentTree

open Verif.Layers.Vq

/-- The tree can process latents of `n` channels. -/
def Fits : Tree → ℕ → Prop
  | .quantize _ d _, n => n = d
  | .normalizeOnly, _ => True
  | .normalize child, n => Fits child n
  | .projectOnly i _, n => n = i.inDim
  | .project i _ child, n => n = i.inDim ∧ Fits child i.outDim

/-- There is a quantiser in the tree. -/
def Quantizes : Tree → Prop
  | .quantize .. => True
  | .normalizeOnly => False
  | .normalize child => Quantizes child
  | .projectOnly .. => False
  | .project _ _ child => Quantizes child

variable {P : Type}

theorem lt_of_getLatent {h : Heap P} {r : ℕ} {l : Lat P} (e : getLatent h r = some l) : r < h.length := by
  by_contra hr
  rw [getLatent, List.getElem?_eq_none (not_lt.1 hr)] at e
  cases e

@[simp] theorem length_setLatent (h : Heap P) (r : ℕ) (l : Lat P) : (setLatent h r l).length = h.length := by
  simp [setLatent]

theorem getElem?_setLatent (h : Heap P) (r j : ℕ) (l : Lat P) :
    (setLatent h r l)[j]? = if r = j then (h[j]?).map (fun rec => { rec with latent := some l }) else h[j]? := by
  unfold setLatent
  rw [List.getElem?_modify]
  split <;> simp

theorem getLatent_setLatent {h : Heap P} {r : ℕ} (hr : r < h.length) (l : Lat P) :
    getLatent (setLatent h r l) r = some l := by
  rw [getLatent, getElem?_setLatent, if_pos rfl, List.getElem?_eq_getElem hr]
  rfl

theorem setLatent_setLatent (h : Heap P) (r : ℕ) (l l' : Lat P) : setLatent (setLatent h r l) r l' = setLatent h r l' := by
  apply List.ext_getElem?
  intro j
  rw [getElem?_setLatent, getElem?_setLatent, getElem?_setLatent]
  split
  · simp [Option.map_map, Function.comp_def]
  · rfl

/-- Where the result is: the record that was given, unless there is a quantiser, which makes a new record. -/
theorem result_place (fl : ℝ → ℝ) (size : ℕ) (t : Tree) (h : Heap P) (r r' : ℕ) (h' : Heap P)
    (e : forward fl size t h r = (.ok r', h')) :
    (¬ Quantizes t → r' = r ∧ h'.length = h.length) ∧ (Quantizes t → r' = h.length ∧ h'.length = h.length + 1) := by
  induction t generalizing h r r' h' with
  | quantize K d cb =>
    refine ⟨fun hq => absurd trivial hq, fun _ => ?_⟩
    unfold forward at e
    split at e
    · cases e
    · split at e
      · injection e with e1 e2
        injection e1 with e1
        subst e1 e2
        simp
      · cases e
  | normalizeOnly =>
    refine ⟨fun _ => ?_, fun hq => hq.elim⟩
    unfold forward at e
    split at e
    · cases e
    · injection e with e1 e2
      injection e1 with e1
      subst e1 e2
      simp
  | normalize child ih =>
    unfold forward at e
    split at e
    · cases e
    · have := ih _ _ _ _ e
      simpa only [length_setLatent, Quantizes] using this
  | projectOnly i o =>
    refine ⟨fun _ => ?_, fun hq => hq.elim⟩
    unfold forward at e
    split at e
    · cases e
    · split at e
      · cases e
      · injection e with e1 e2
        injection e1 with e1
        subst e1 e2
        simp
  | project i o child ih =>
    unfold forward at e
    split at e
    · cases e
    · split at e
      · cases e
      · rename_i r1 h1 e1
        split at e
        · cases e
        · injection e with e2 e3
          injection e2 with e2
          subst e2 e3
          have := ih _ _ _ _ e1
          simpa only [length_setLatent, Quantizes] using this

/-- **C119, frame.** A call, whether it raises or not, whatever the arithmetic: every record that existed before exists
after it; in the record it was given nothing but the latent changes, and all others remain as they were. -/
theorem C119_frame (fl : ℝ → ℝ) (size : ℕ) (t : Tree) (h : Heap P) (r : ℕ) :
    ∀ j rec, h[j]? = some rec → ∃ l, (forward fl size t h r).2[j]? = some { rec with latent := l } ∧
      (j ≠ r → l = rec.latent) := by
  have hset : ∀ (h : Heap P) (r : ℕ) (x : Lat P) j rec, h[j]? = some rec → ∃ l, (setLatent h r x)[j]? = some { rec with latent := l } ∧
      (j ≠ r → l = rec.latent) := by
    intro h r x j rec hj
    rw [getElem?_setLatent]
    split
    · rename_i e; exact ⟨some x, by rw [hj]; rfl, fun hne => absurd e.symm hne⟩
    · exact ⟨rec.latent, hj, fun _ => rfl⟩
  induction t generalizing h r with
  | quantize K d cb =>
    intro j rec hj
    refine ⟨rec.latent, ?_, fun _ => rfl⟩
    unfold forward
    split
    · exact hj
    · split
      · dsimp only
        rw [List.getElem?_append_left (by
          by_contra hc
          rw [List.getElem?_eq_none (not_lt.1 hc)] at hj
          cases hj)]
        exact hj
      · exact hj
  | normalizeOnly =>
    intro j rec hj
    unfold forward
    split
    · exact ⟨rec.latent, hj, fun _ => rfl⟩
    · exact hset _ _ _ j rec hj
  | normalize child ih =>
    intro j rec hj
    unfold forward
    split
    · exact ⟨rec.latent, hj, fun _ => rfl⟩
    · rename_i l _
      obtain ⟨x, h1, h2⟩ := hset h r (normLat l) j rec hj
      obtain ⟨y, h3, h4⟩ := ih _ r j _ h1
      exact ⟨y, h3, fun hne => by rw [h4 hne]; exact h2 hne⟩
  | projectOnly i o =>
    intro j rec hj
    unfold forward
    split
    · exact ⟨rec.latent, hj, fun _ => rfl⟩
    · split
      · exact ⟨rec.latent, hj, fun _ => rfl⟩
      · exact hset _ _ _ j rec hj
  | project i o child ih =>
    intro j rec hj
    unfold forward
    split
    · exact ⟨rec.latent, hj, fun _ => rfl⟩
    · rename_i l _
      obtain ⟨x, h1, h2⟩ := hset h r l j rec hj
      obtain ⟨y, h3, h4⟩ := ih _ r j _ h1
      have hy : ∃ y, (forward fl size child (setLatent h r l) r).2[j]? = some { rec with latent := y } ∧
          (j ≠ r → y = rec.latent) := ⟨y, h3, fun hne => by rw [h4 hne]; exact h2 hne⟩
      split
      · rename_i e1
        rw [e1] at hy
        exact hy
      · rename_i r1 h1' e1
        rw [e1] at hy
        obtain ⟨y, hy1, hy2⟩ := hy
        split
        · exact ⟨y, hy1, hy2⟩
        · rename_i l' _
          obtain ⟨z, hz1, hz2⟩ := hset h1' r1 l' j _ hy1
          refine ⟨z, hz1, fun hne => ?_⟩
          have hlt : j < h.length := by
            by_contra hc
            rw [List.getElem?_eq_none (not_lt.1 hc)] at hj
            cases hj
          have hp := result_place fl size child _ _ _ _ e1
          rw [length_setLatent] at hp
          have hne' : j ≠ r1 := by
            by_cases hq : Quantizes child
            · have := (hp.2 hq).1; omega
            · rw [(hp.1 hq).1]; exact hne
          rw [hz2 hne']
          exact hy2 hne

/-- **C119, the indices suffice.** In exact arithmetic, for every tree with a quantiser: the latent in the result has as
many channels as the one given, and at each pixel it is a function of the index at that pixel alone, the same function for
all inputs.  The result is a new record with indices below the size of the codebook and the byte count of the quantiser. -/
theorem C119_determined_partial (t : Tree) (n : ℕ) (hb : Built t) (hf : Fits t n) (hq : Quantizes t) :
    ∃ (K : ℕ) (dec : Fin (K + 1) → Fin n → ℝ), ∀ (P : Type) (size : ℕ) (h : Heap P) (r : ℕ) (v : P → Fin n → ℝ),
      getLatent h r = some ⟨n, v⟩ →
      ∃ h' rec, ∃ ix : P → Fin (K + 1), forward id size t h r = (.ok h.length, h') ∧ h'.length = h.length + 1 ∧
        h'[h.length]? = some rec ∧ rec.latent = some ⟨n, fun p => dec (ix p)⟩ ∧
        rec.indices = some (fun p => (ix p : ℕ)) ∧ rec.numBytes = some (numBytes size 1 1 (K + 1)) := by
  induction t generalizing n with
  | quantize K d cb =>
    have hn : n = d := hf
    subst hn
    refine ⟨K, effective true cb, fun P size h r v hv => ?_⟩
    unfold forward
    simp only [hv, dite_true]
    refine ⟨_, _, _, rfl, by simp, by rw [List.getElem?_append_right le_rfl]; simp; rfl, ?_, rfl, rfl⟩
    simp [straightThrough]
  | normalizeOnly => exact hq.elim
  | normalize child ih =>
    obtain ⟨K, dec, hd⟩ := ih n hb hf hq
    refine ⟨K, dec, fun P size h r v hv => ?_⟩
    have hr := lt_of_getLatent hv
    obtain ⟨h', rec, ix, e1, e2, e3, e4⟩ := hd P size (setLatent h r (normLat ⟨n, v⟩)) r _ (getLatent_setLatent hr _)
    rw [length_setLatent] at e1 e2 e3
    refine ⟨h', rec, ix, ?_, e2, e3, e4⟩
    unfold forward
    rw [hv]
    exact e1
  | projectOnly i o => exact hq.elim
  | project i o child ih =>
    obtain ⟨hb1, hb2, hb3⟩ := hb
    obtain ⟨hf1, hf2⟩ := hf
    obtain ⟨ii, io, iw, ib⟩ := i
    obtain ⟨oi, oo, ow, ob⟩ := o
    dsimp only at hb1 hb2 hf1 hf2
    subst hb1 hb2 hf1
    obtain ⟨K, dec, hd⟩ := ih io hb3 hf2 hq
    refine ⟨K, fun k => Conv.apply ⟨io, n, ow, ob⟩ (dec k), fun P size h r v hv => ?_⟩
    have hr := lt_of_getLatent hv
    have hin : Conv.call ⟨n, io, iw, ib⟩ (getLatent h r) = .ok ⟨io, fun p => Conv.apply ⟨n, io, iw, ib⟩ (v p)⟩ := by
      rw [hv]; simp [Conv.call]
    obtain ⟨h', rec, ix, e1, e2, e3, e4, e5, e6⟩ :=
      hd P size (setLatent h r ⟨io, fun p => Conv.apply ⟨n, io, iw, ib⟩ (v p)⟩) r _ (getLatent_setLatent hr _)
    rw [length_setLatent] at e1 e2 e3
    have hout : Conv.call ⟨io, n, ow, ob⟩ (getLatent h' h.length) =
        .ok ⟨n, fun p => Conv.apply ⟨io, n, ow, ob⟩ (dec (ix p))⟩ := by
      rw [getLatent, e3, Option.bind_some, e4]; simp [Conv.call]
    refine ⟨setLatent h' h.length ⟨n, fun p => Conv.apply ⟨io, n, ow, ob⟩ (dec (ix p))⟩,
      { rec with latent := some ⟨n, fun p => Conv.apply ⟨io, n, ow, ob⟩ (dec (ix p))⟩ }, ix, ?_, by simpa using e2,
      by rw [getElem?_setLatent, if_pos rfl, e3]; rfl, rfl, e5, e6⟩
    unfold forward
    rw [hin]
    dsimp only
    rw [e1]
    dsimp only
    rw [hout]

/-- The bottleneck of the published VQ-VAE: 256 channels are projected to 8, normalised and quantised. -/
example (i : Conv) (o : Conv) (hi : i.inDim = 256 ∧ i.outDim = 8) (ho : o.inDim = 8 ∧ o.outDim = 256)
    (cb : Fin 1024 → Fin 8 → ℝ) :
    let t := Tree.project i o (.normalize (.quantize 1023 8 cb))
    Built t ∧ Fits t 256 ∧ Quantizes t := by
  simp [Built, Fits, Quantizes, hi, ho]

/-- **C119, without a quantiser** the record that was given is returned, with as many channels as before. -/
theorem C119_same (fl : ℝ → ℝ) (size : ℕ) (t : Tree) (n : ℕ) (hb : Built t) (hf : Fits t n) (hq : ¬ Quantizes t)
    (h : Heap P) (r : ℕ) (v : P → Fin n → ℝ) (hv : getLatent h r = some ⟨n, v⟩) :
    ∃ h' w, forward fl size t h r = (.ok r, h') ∧ h'.length = h.length ∧ getLatent h' r = some ⟨n, w⟩ := by
  induction t generalizing n h with
  | quantize K d cb => exact absurd trivial hq
  | normalizeOnly =>
    unfold forward
    rw [hv]
    exact ⟨_, _, rfl, length_setLatent .., getLatent_setLatent (lt_of_getLatent hv) _⟩
  | normalize child ih =>
    have hr := lt_of_getLatent hv
    obtain ⟨h', w, e1, e2, e3⟩ := ih n hb hf hq (setLatent h r (normLat ⟨n, v⟩)) _ (getLatent_setLatent hr _)
    unfold forward
    rw [hv]
    exact ⟨h', w, e1, by simpa using e2, e3⟩
  | projectOnly i o =>
    obtain ⟨hb1, hb2⟩ := hb
    have hf : n = i.inDim := hf
    obtain ⟨ii, io, iw, ib⟩ := i
    obtain ⟨oi, oo, ow, ob⟩ := o
    dsimp only at hb1 hb2 hf
    subst hb1 hb2 hf
    have hr := lt_of_getLatent hv
    unfold forward
    rw [hv]
    simp only [Conv.call, dite_true]
    exact ⟨_, _, rfl, length_setLatent .., getLatent_setLatent hr _⟩
  | project i o child ih =>
    obtain ⟨hb1, hb2, hb3⟩ := hb
    obtain ⟨hf1, hf2⟩ := hf
    obtain ⟨ii, io, iw, ib⟩ := i
    obtain ⟨oi, oo, ow, ob⟩ := o
    dsimp only at hb1 hb2 hf1 hf2
    subst hb1 hb2 hf1
    have hr := lt_of_getLatent hv
    obtain ⟨h', w, e1, e2, e3⟩ := ih io hb3 hf2 hq
      (setLatent h r ⟨io, fun p => Conv.apply ⟨n, io, iw, ib⟩ (v p)⟩) _ (getLatent_setLatent hr _)
    have hin : Conv.call ⟨n, io, iw, ib⟩ (getLatent h r) = .ok ⟨io, fun p => Conv.apply ⟨n, io, iw, ib⟩ (v p)⟩ := by
      rw [hv]; simp [Conv.call]
    have hout : Conv.call ⟨io, n, ow, ob⟩ (getLatent h' r) = .ok ⟨n, fun p => Conv.apply ⟨io, n, ow, ob⟩ (w p)⟩ := by
      rw [e3]; simp [Conv.call]
    unfold forward
    rw [hin]
    dsimp only
    rw [e1]
    dsimp only
    rw [hout]
    exact ⟨_, _, rfl, by simpa using e2, getLatent_setLatent (by simpa [e2] using hr) _⟩

/-- **C119, scale.** Behind a normalisation the lengths of the vectors do not matter: multiplying the vector of each pixel
by a positive number, above the numerical guard, changes nothing at all. -/
theorem C119_scale (fl : ℝ → ℝ) (size : ℕ) (child : Tree) (n : ℕ) (h : Heap P) (r : ℕ) (v : P → Fin n → ℝ)
    (hv : getLatent h r = some ⟨n, v⟩) (s : P → ℝ) (hs : ∀ p, 0 < s p) (h1 : ∀ p, 1e-12 ≤ norm2 (v p))
    (h2 : ∀ p, 1e-12 ≤ norm2 (fun i => s p * v p i)) :
    forward fl size (.normalize child) (setLatent h r ⟨n, fun p i => s p * v p i⟩) r =
      forward fl size (.normalize child) h r := by
  have hr := lt_of_getLatent hv
  have hn : normLat ⟨n, fun p i => s p * v p i⟩ = normLat ⟨n, v⟩ := by
    unfold normLat
    dsimp only
    congr 1
    funext p i
    have hnorm : norm2 (fun i => s p * v p i) = s p * norm2 (v p) := by
      unfold norm2
      simp only [mul_pow]
      rw [← Finset.mul_sum, Real.sqrt_mul (sq_nonneg _), Real.sqrt_sq (hs p).le]
    unfold Vq.normalize
    rw [max_eq_left (h2 p), max_eq_left (h1 p), hnorm, mul_div_mul_left _ _ (hs p).ne']
  unfold forward
  rw [hv, getLatent_setLatent hr]
  dsimp only
  rw [hn, setLatent_setLatent]

/-- **C119, violated: the argument.** A projection with a quantiser below it leaves in the record it was given the projected
(and normalised) latent, and a second call with the same record raises if the projection changes the number of channels. -/
theorem C119_violated_argument (fl : ℝ → ℝ) (size : ℕ) (i o : Conv) (K d n : ℕ) (cb : Fin (K + 1) → Fin d → ℝ)
    (hb : Built (.project i o (.normalize (.quantize K d cb)))) (hf : Fits (.project i o (.normalize (.quantize K d cb))) n)
    (hd : d ≠ n) (h : Heap P) (r : ℕ) (v : P → Fin n → ℝ) (hv : getLatent h r = some ⟨n, v⟩) :
    let t := Tree.project i o (.normalize (.quantize K d cb))
    ∃ h', forward fl size t h r = (.ok h.length, h') ∧ (∃ w, getLatent h' r = some ⟨d, w⟩) ∧
      (forward fl size t h' r).1 = .error .runtime := by
  obtain ⟨hb1, hb2, -⟩ := hb
  obtain ⟨hf1, hf2⟩ := hf
  have hf2 : i.outDim = d := hf2
  obtain ⟨ii, io, iw, ib⟩ := i
  obtain ⟨oi, oo, ow, ob⟩ := o
  dsimp only at hb1 hb2 hf1 hf2
  subst hb1 hb2 hf1
  cases hf2
  have hr := lt_of_getLatent hv
  intro t
  have key : ∃ h', forward fl size t h r = (.ok h.length, h') ∧ ∃ w, getLatent h' r = some ⟨io, w⟩ := by
    simp only [t, forward, hv, Conv.call, dite_true]
    rw [getLatent_setLatent hr]
    simp only [normLat]
    rw [setLatent_setLatent, getLatent_setLatent hr]
    simp only [dite_true]
    have hg : ∀ (g : Heap P) (x : Record P), getLatent (g ++ [x]) g.length = x.latent := by
      intro g x
      rw [getLatent, List.getElem?_append_right le_rfl]; simp
    rw [hg]
    simp only [dite_true, length_setLatent]
    refine ⟨_, rfl, ?_⟩
    rw [getLatent, getElem?_setLatent, if_neg (by omega), List.getElem?_append_left (by simpa using hr)]
    exact ⟨_, getLatent_setLatent hr _⟩
  obtain ⟨h', e, w, hw⟩ := key
  refine ⟨h', e, ⟨w, hw⟩, ?_⟩
  simp only [t, forward, hw, Conv.call, dif_neg hd]

theorem log2_eq {x : ℝ} {z : ℤ} (h1 : (2 : ℝ) ^ z ≤ x) (h2 : x < (2 : ℝ) ^ (z + 1)) : Int.log 2 x = z := by
  have hx : 0 < x := lt_of_lt_of_le (by positivity) h1
  apply le_antisymm
  · have := (Int.lt_zpow_iff_log_lt (b := 2) (by norm_num) hx (x := z + 1)).1 (by exact_mod_cast h2)
    omega
  · exact (Int.zpow_le_iff_le_log (b := 2) (by norm_num) hx).1 (by exact_mod_cast h1)

theorem float32_grid {z : ℤ} (m : ℤ) (h1 : (2 : ℝ) ^ z ≤ |(m : ℝ) * 2 ^ (z - 23)|) (h2 : |(m : ℝ) * 2 ^ (z - 23)| < (2 : ℝ) ^ (z + 1)) :
    float32 ((m : ℝ) * 2 ^ (z - 23)) = m * 2 ^ (z - 23) := by
  have hx : (m : ℝ) * 2 ^ (z - 23) ≠ 0 := by
    intro h; rw [h, abs_zero] at h1
    have : (0 : ℝ) < 2 ^ z := by positivity
    linarith
  unfold float32
  rw [if_neg hx, log2_eq h1 h2, mul_div_assoc, div_self (by positivity), mul_one, roundHalfEven_int]

/-- 2⁻²⁴ is lost in `1 + 2⁻²⁴`. -/
theorem float32_one_add : float32 (1 + 2 ^ (-24 : ℤ)) = 1 := by
  have hlog : Int.log 2 |(1 : ℝ) + 2 ^ (-24 : ℤ)| = 0 := by
    apply log2_eq <;> rw [abs_of_pos (by positivity)] <;> norm_num
  have hr : roundHalfEven (8388608 + 1 / 2) = 8388608 := by
    have hfl : ⌊(8388608 + 1 / 2 : ℝ)⌋ = 8388608 := by
      rw [Int.floor_eq_iff]; norm_num
    unfold roundHalfEven
    rw [hfl, if_neg (by norm_num), if_neg (by norm_num), if_pos (by decide)]
  unfold float32
  rw [if_neg (by positivity), hlog]
  have : ((1 : ℝ) + 2 ^ (-24 : ℤ)) / 2 ^ ((0 : ℤ) - 23) = 8388608 + 1 / 2 := by norm_num
  rw [this, hr]
  norm_num

/-- **C119, violated in floating point.** The straight-through estimator is rounded: there are a codebook of two entries and
two pixels that get the same index, but not the same latent.  The second one is not the entry of the codebook, so a receiver
of the indices does not see the latent that the decoder saw. -/
theorem C119_violated_float :
    ∃ (cb : Fin 2 → Fin 2 → ℝ) (v : Bool → Fin 2 → ℝ) (h' : Heap Bool) (rec : Record Bool) (l : Bool → Fin 2 → ℝ),
      forward float32 2 (.quantize 1 2 cb) [{ latent := some ⟨2, v⟩ }] 0 = (.ok 1, h') ∧ h'[1]? = some rec ∧
        rec.indices = some (fun _ => 0) ∧ rec.latent = some ⟨2, l⟩ ∧ l false = cb 0 ∧ l true 0 = 1 - 2 ^ (-24 : ℤ) ∧
        cb 0 0 = 1 := by
  let cb : Fin 2 → Fin 2 → ℝ := ![![1, 0], ![0, -1]]
  let v : Bool → Fin 2 → ℝ := fun b => if b then ![-2 ^ (-24 : ℤ), 1] else ![1, 0]
  have he : effective true cb = cb := by
    funext k
    have : norm2 (cb k) = 1 := by
      unfold norm2
      fin_cases k <;> simp [cb]
    funext c
    simp only [effective, if_true, Vq.normalize, this]
    rw [max_eq_left (by norm_num), div_one]
  have hix : ∀ p, index cb (v p) = 0 := by
    intro p
    unfold index
    rw [he]
    apply argmin_unique
    · intro j
      cases p <;> fin_cases j <;> simp [distances, cb, v, Fin.sum_univ_two] <;> norm_num
    · intro j hj
      exact absurd hj (Fin.not_lt_zero j)
  let l : Bool → Fin 2 → ℝ := fun p c => straightThrough float32 (v p c) (cb 0 c)
  let new : Record Bool := ⟨some ⟨2, l⟩, some ⟨2, v⟩, some (numBytes 2 1 1 2), some fun _ => 0⟩
  have hfw : forward float32 2 (.quantize 1 2 cb) [{ latent := some ⟨2, v⟩ }] 0 =
      (.ok 1, [{ latent := some ⟨2, v⟩ }, new]) := by
    unfold forward
    simp only [getLatent, List.getElem?_cons_zero, Option.bind_some, dite_true, List.length_singleton, Fin.cast_refl,
      id, hix, he]
    rfl
  refine ⟨cb, v, _, new, l, hfw, rfl, rfl, rfl, ?_, ?_, by simp [cb]⟩
  · have h0 : float32 0 = 0 := if_pos rfl
    have h1 : float32 1 = 1 := by
      have := float32_grid (z := 0) 8388608 (by norm_num) (by norm_num)
      norm_num at this
      exact this
    funext c
    fin_cases c
    · change float32 (1 + float32 (1 - 1)) = 1
      rw [sub_self, h0, add_zero, h1]
    · change float32 (0 + float32 (0 - 0)) = 0
      rw [sub_self, h0, add_zero, h0]
  · change float32 (-2 ^ (-24 : ℤ) + float32 (1 - -2 ^ (-24 : ℤ))) = 1 - 2 ^ (-24 : ℤ)
    rw [sub_neg_eq_add, float32_one_add]
    have := float32_grid (z := -1) 16777215 (by norm_num) (by norm_num)
    have e : (-2 ^ (-24 : ℤ) + 1 : ℝ) = ((16777215 : ℤ) : ℝ) * 2 ^ ((-1 : ℤ) - 23) := by norm_num
    rw [e, this]
    norm_num

end Verif.Layers.LatentTree
