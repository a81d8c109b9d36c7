import Verif.Vct.Grad
import Verif.Train.PropsAutograd

/-!
C126: what a frame of a video teaches in training.
-/

namespace Verif.Vct.Grad

open Verif.Train.Autograd

variable {V W D F S P ι κ : Type} [NormedAddCommGroup V] [NormedSpace ℝ V] [NormedAddCommGroup W] [NormedSpace ℝ W]
  [NormedAddCommGroup D] [NormedSpace ℝ D] [NormedAddCommGroup F] [NormedSpace ℝ F] [NormedAddCommGroup S]
  [NormedSpace ℝ S] [NormedAddCommGroup P] [NormedSpace ℝ P] [Fintype ι] [Fintype κ]

/-! ### Specification -/

/-- The frames that are in the context of frame `k > 0`: the last `ctxLen` ones (all for `ctxLen = 0`, see C32). -/
def window (ctxLen k : ℕ) : List ℕ := (List.range k).filter fun j => ctxLen = 0 ∨ k ≤ j + ctxLen

/-- The context of frame `k`: the frames of the window, a single one twice; for the first frame the fake latent
(`none`) twice. -/
def contextOf (ctxLen k : ℕ) : List (Option ℕ) :=
  let l := if k = 0 then [none] else (window ctxLen k).map some
  if l.length = 1 then l ++ l else l

/-- All networks are differentiable, with the derivative that their backward pass applies. -/
structure Smooth (n : Nets W D F S P ι κ) : Prop where
  fake : n.fake.Smooth
  process : n.process.Smooth
  mean : ∀ k, (n.mean k).Smooth
  scale : ∀ k, (n.scale k).Smooth
  features : ∀ k, (n.features k).Smooth
  scaleIndex : n.scaleIndex.Smooth
  likelihood : n.likelihood.Smooth
  dequantize : n.dequantize.Smooth

section spec
variable (n : Nets W D F S P ι κ) (ctxLen : ℕ) (noise : ℕ → κ → ℝ) (w : V → W) (y : ℕ → V → ι → ℝ) (q : ℕ → ι → ℝ)
  (v₀ : V)

/-- The latent of frame `j` as later frames see it near `v₀`: the first frame's is fixed, the others follow the
unrounded latent at a fixed distance. -/
def past (v : V) (j : ℕ) : ι → ℝ := if j = 0 then q 0 else y j v + (q j - y j v₀)

/-- An entry of the context, processed. -/
def entry (v : V) : Option ℕ → D
  | none => n.process.fn (w v, n.fake.fn (w v))
  | some j => n.process.fn (w v, past y q v₀ v j)

/-- What the transformer is given for frame `k`: rounding as a fixed shift. -/
noncomputable def input (k : ℕ) (v : V) : W × (Fin (contextOf ctxLen k).length → D) × (κ → ℝ) :=
  (w v, fun i => entry n w y q v₀ v (contextOf ctxLen k)[i],
    fun x => y k v (n.src x) + ((roundHalfEven (y k v₀ (n.src x)) : ℝ) - y k v₀ (n.src x)))

/-- The predicted means of frame `k`. -/
noncomputable def means (k : ℕ) (v : V) : κ → ℝ := (n.mean _).fn (input n ctxLen w y q v₀ k v)

/-- The likelihood of frame `k` as an ordinary function: of the latent relative to the mean, whose rounding error (and so its
fractional part) is fixed. -/
noncomputable def likelihoodOf (k : ℕ) (v : V) : P :=
  let μ := means n ctxLen w y q v₀ k
  n.likelihood.fn
    (fun x => y k v (n.src x) - (μ v x + ((roundHalfEven (μ v₀ x) : ℝ) - μ v₀ x)) + noise k x,
      fun x => (μ v₀ x - roundHalfEven (μ v₀ x) + 1 / 2) * n.numMeans,
      n.scaleIndex.fn ((n.scale _).fn (input n ctxLen w y q v₀ k v)))

/-- The transmitted latent of frame `k`: rounded about the rounded mean. -/
noncomputable def transmitted (k : ℕ) (i : ι) : ℝ :=
  let r := roundHalfEven (means n ctxLen w y q v₀ k v₀ (n.dst i))
  (roundHalfEven (y k v₀ i - r) + r : ℤ)

/-- What the synthesis gets for frame `k`, as an ordinary function. -/
noncomputable def synthesisOf (k : ℕ) (v : V) : S :=
  n.dequantize.fn (w v, y k v + (q k - y k v₀), (n.features _).fn (input n ctxLen w y q v₀ k v))

end spec

/-! ### Lemmas -/

theorem gather_tracks {A B : Type} [Fintype A] [Fintype B] (f : B → A) {x : Node V (A → ℝ)} {g : V → A → ℝ} {v : V}
    (h : x.Tracks g v) : (gather f x).Tracks (fun u b => g u (f b)) v := by
  refine ⟨by simp [gather, h.1], ?_⟩
  exact hasFDerivAt_pi.2 fun b => hasFDerivAt_pi'.1 h.2 (f b)

theorem gather_still {A B : Type} [Fintype A] [Fintype B] (f : B → A) {x : Node V (A → ℝ)} {δ : V}
    (h : x.Still δ) : (gather f x).Still δ := by
  simp only [Node.Still] at *
  funext b
  simp [gather, h]

theorem filter_range (m k : ℕ) : (List.range k).filter (fun j => decide (m ≤ j)) = (List.range k).drop m := by
  induction k with
  | zero => simp
  | succ k ih =>
    rw [List.range_succ, List.filter_append, ih, List.drop_append]
    by_cases h : m ≤ k
    · have : m - k = 0 := by omega
      simp [h, this]
    · have h2 : m - k ≠ 0 := by omega
      obtain ⟨a, ha⟩ := Nat.exists_eq_succ_of_ne_zero h2
      simp [h, ha]

theorem window_eq (ctxLen k : ℕ) : window ctxLen k = Pipe.sliceLast ctxLen (List.range k) := by
  unfold window Pipe.sliceLast
  by_cases h : ctxLen = 0
  · simp [h]
  · rw [if_neg h, List.length_range, ← filter_range]
    congr 1
    funext j
    apply decide_eq_decide.2
    omega

theorem window_succ (ctxLen k : ℕ) : Pipe.sliceLast ctxLen (window ctxLen k ++ [k]) = window ctxLen (k + 1) := by
  rw [window_eq, window_eq, List.range_succ]
  unfold Pipe.sliceLast
  by_cases h : ctxLen = 0
  · simp [h]
  · simp only [if_neg h, List.length_append, List.length_drop, List.length_range, List.length_singleton]
    rw [List.drop_append, List.drop_append, List.drop_drop, List.length_drop, List.length_range]
    congr 1
    · congr 1
      omega
    · congr 1
      omega

theorem sliceLast_map {A B : Type} (f : A → B) (k : ℕ) (l : List A) :
    Pipe.sliceLast k (l.map f) = (Pipe.sliceLast k l).map f := by
  unfold Pipe.sliceLast
  by_cases h : k = 0
  · simp [h]
  · simp [h]

theorem encodedSeqs_map {A B : Type} (f : A → B) (k : ℕ) (l : List A) :
    Pipe.encodedSeqs k (l.map f) = (Pipe.encodedSeqs k l).map f := by
  unfold Pipe.encodedSeqs
  simp only [List.length_map]
  split_ifs <;> simp

theorem window_one (ctxLen : ℕ) : window ctxLen 1 = [0] := by
  simp [window, List.range_succ, List.filter_cons]

theorem window_ne_nil (ctxLen k : ℕ) : window ctxLen (k + 1) ≠ [] := by
  intro h
  have : k ∈ window ctxLen (k + 1) := by
    simp [window]
    omega
  rw [h] at this
  cases this

theorem contextOf_eq (ctxLen k : ℕ) :
    contextOf ctxLen k = Pipe.encodedSeqs Pipe.entropyContextLen (if k = 0 then [none] else (window ctxLen k).map some) := by
  have key : ∀ l : List (Option ℕ), l ≠ [] → (if l.length = 1 then l ++ l else l)
      = Pipe.encodedSeqs Pipe.entropyContextLen l := by
    intro l hl
    have : 0 < l.length := List.length_pos_iff.2 hl
    unfold Pipe.encodedSeqs Pipe.entropyContextLen
    by_cases h : l.length = 1
    · simp [h]
    · have : ¬ l.length < 2 := by omega
      simp [h, this]
  unfold contextOf
  apply key
  cases k with
  | zero => simp
  | succ k => simpa using window_ne_nil ctxLen k

/-- The transformer's networks on a context of tracked tensors. -/
theorem apply_context {X Y : Type} [NormedAddCommGroup X] [NormedSpace ℝ X] [NormedAddCommGroup Y] [NormedSpace ℝ Y]
    (o : (k : ℕ) → Op (W × (Fin k → D) × X) Y) (ho : ∀ k, (o k).Smooth) {v : V} {w : Node V W} {wf : V → W}
    (hw : w.Tracks wf v) {x : Node V X} {xf : V → X} (hx : x.Tracks xf v) {α : Type} (c : List α)
    (N : α → Node V D) (g : V → α → D) (hN : ∀ a ∈ c, (N a).Tracks (fun u => g u a) v) :
    ((w.pair ((Node.pi fun i : Fin (c.map N).length => (c.map N)[i]).pair x)).apply (o (c.map N).length)).Tracks
      (fun u => (o c.length).fn (wf u, fun i => g u c[i], xf u)) v := by
  have key : ∀ (m : ℕ) (hm : m = c.length) (a : Fin m → Node V D) (f : Fin m → V → D),
      (∀ i, (a i).Tracks (f i) v) → (∀ i : Fin m, ∀ u, f i u = g u (c[i.1]'(by have := i.2; omega))) →
      ((w.pair ((Node.pi a).pair x)).apply (o m)).Tracks
        (fun u => (o c.length).fn (wf u, fun i => g u c[i], xf u)) v := by
    intro m hm a f ha hf
    subst hm
    refine ((hw.pair ((Node.Tracks.pi ha).pair hx)).apply (ho _)).congr fun u => ?_
    congr 3
    funext i
    exact hf i u
  refine key _ (by simp) _ (fun i u => g u (c[i.1]'(by simpa using i.2))) (fun i => ?_) (fun i u => rfl)
  have : (c.map N)[i] = N (c[i.1]'(by simpa using i.2)) := by simp
  rw [this]
  exact hN _ (List.getElem_mem _)

theorem apply_context_still {X Y : Type} [NormedAddCommGroup X] [NormedSpace ℝ X] [NormedAddCommGroup Y]
    [NormedSpace ℝ Y] (o : (k : ℕ) → Op (W × (Fin k → D) × X) Y) {δ : V} {w : Node V W} (hw : w.Still δ) {x : Node V X}
    (hx : x.Still δ) (c : List (Node V D)) (hc : ∀ a ∈ c, a.Still δ) :
    ((w.pair ((Node.pi fun i : Fin c.length => c[i]).pair x)).apply (o c.length)).Still δ :=
  ((hw.pair ((Node.Still.pi fun i => hc _ (List.getElem_mem _)).pair hx)).apply _)

section loop
variable (n : Nets W D F S P ι κ) (ctxLen : ℕ) (noise : ℕ → κ → ℝ) (w : Node V W)

/-- The processed latent of frame `j` as the later frames see it, given the outputs. -/
noncomputable def proc (lat : ℕ → Node V (ι → ℝ)) (j : ℕ) : Node V D :=
  (w.pair (if j = 0 then (lat 0).detach else lat j)).apply n.process

/-- An entry of a context as a tensor. -/
noncomputable def entryNode (lat : ℕ → Node V (ι → ℝ)) : Option ℕ → Node V D
  | none => (w.pair (w.apply n.fake)).apply n.process
  | some j => proc n w lat j

/-- Every frame is coded with its context. -/
theorem codeFrom_get (lat : ℕ → Node V (ι → ℝ)) (rest : List (Node V (ι → ℝ))) :
    ∀ (k : ℕ) (state : List (Node V D)), (k ≠ 0 → state = (window ctxLen k).map (proc n w lat)) →
      (∀ i (h : i < (codeFrom n w ctxLen noise k state rest).length),
        (codeFrom n w ctxLen noise k state rest)[i].latentQ = lat (k + i)) →
      (codeFrom n w ctxLen noise k state rest).length = rest.length ∧
      ∀ i (h : i < (codeFrom n w ctxLen noise k state rest).length) (h' : i < rest.length),
        (codeFrom n w ctxLen noise k state rest)[i] = codeLatent n w (noise (k + i)) rest[i]
          (if k + i = 0 then [(w.pair (w.apply n.fake)).apply n.process]
            else (window ctxLen (k + i)).map (proc n w lat)) := by
  induction rest with
  | nil => intro k state _ _; simp [codeFrom]
  | cons y rest ih =>
    intro k state hst hq
    by_cases hk : k = 0
    · subst hk
      simp only [codeFrom, if_true] at hq ⊢
      have h0 := hq 0 (by simp)
      simp only [List.getElem_cons_zero, Nat.add_zero] at h0
      obtain ⟨l, e⟩ := ih 1 (stateI n w (codeLatent n w (noise 0) y [(w.pair (w.apply n.fake)).apply n.process]))
        (fun _ => by rw [window_one]; simp [stateI, h0, proc])
        (fun i h => by
          have := hq (i + 1) (by simpa using h)
          simp only [List.getElem_cons_succ] at this
          rw [this]; congr 1; omega)
      refine ⟨by simp [l], fun i h h' => ?_⟩
      cases i with
      | zero => simp
      | succ i =>
        simp only [List.getElem_cons_succ]
        rw [e i (by simpa using h) (by simpa using h')]
        have : 1 + i = 0 + (i + 1) := by omega
        rw [this]
    · simp only [codeFrom, if_neg hk] at hq ⊢
      have h0 := hq 0 (by simp)
      simp only [List.getElem_cons_zero, Nat.add_zero] at h0
      obtain ⟨l, e⟩ := ih (k + 1) (stateP n w ctxLen (codeLatent n w (noise k) y state) state)
        (fun _ => by
          have : proc n w lat k = (w.pair (lat k)).apply n.process := by simp [proc, hk]
          rw [stateP, h0, hst hk, ← this, ← window_succ]
          rw [← sliceLast_map]
          simp)
        (fun i h => by
          have := hq (i + 1) (by simpa using h)
          simp only [List.getElem_cons_succ] at this
          rw [this]; congr 1; omega)
      refine ⟨by simp [l], fun i h h' => ?_⟩
      cases i with
      | zero => simp [hk, hst hk]
      | succ i =>
        simp only [List.getElem_cons_succ]
        rw [e i (by simpa using h) (by simpa using h')]
        have : k + 1 + i = k + (i + 1) := by omega
        rw [this]

/-- The latents of the outputs. -/
noncomputable def latents (outs : List (Out V F S P ι)) (j : ℕ) : Node V (ι → ℝ) :=
  (outs[j]?).elim (Node.const 0) (·.latentQ)

theorem code_get (scenes : List (Node V (ι → ℝ))) :
    (code n w ctxLen noise scenes).length = scenes.length ∧
    ∀ k (h : k < (code n w ctxLen noise scenes).length) (h' : k < scenes.length),
      (code n w ctxLen noise scenes)[k] = codeLatent n w (noise k) scenes[k]
        (if k = 0 then [(w.pair (w.apply n.fake)).apply n.process]
          else (window ctxLen k).map (proc n w (latents (code n w ctxLen noise scenes)))) := by
  obtain ⟨l, e⟩ := codeFrom_get n ctxLen noise w (latents (code n w ctxLen noise scenes)) scenes 0 []
    (fun h => absurd rfl h) (fun i h => by
      have : (code n w ctxLen noise scenes)[i]? = some (codeFrom n w ctxLen noise 0 [] scenes)[i] :=
        List.getElem?_eq_getElem h
      rw [Nat.zero_add, latents, this]
      rfl)
  refine ⟨l, fun k h h' => ?_⟩
  have := e k h h'
  simp only [Nat.zero_add] at this
  exact this

theorem encoded_eq (lat : ℕ → Node V (ι → ℝ)) (k : ℕ) :
    Pipe.encodedSeqs Pipe.entropyContextLen (if k = 0 then [(w.pair (w.apply n.fake)).apply n.process]
      else (window ctxLen k).map (proc n w lat)) = (contextOf ctxLen k).map (entryNode n w lat) := by
  rw [contextOf_eq, ← encodedSeqs_map]
  congr 1
  split_ifs
  · simp [entryNode]
  · rw [List.map_map]
    rfl

end loop

/-! ### Claims -/

section claims
variable (n : Nets W D F S P ι κ) (ctxLen : ℕ) (noise : ℕ → κ → ℝ) (wn : Node V W) (scenes : List (Node V (ι → ℝ)))

/-- One frame. -/
theorem codeWith_tracks (hs : Smooth n) (hd : ∀ i, n.src (n.dst i) = i) {v₀ : V} {w : V → W}
    (hw : wn.Tracks w v₀) (y : ℕ → V → ι → ℝ) (q : ℕ → ι → ℝ) (k : ℕ) {scene : Node V (ι → ℝ)}
    (hy : scene.Tracks (y k) v₀) (N : Option ℕ → Node V D)
    (hN : ∀ a ∈ contextOf ctxLen k, (N a).Tracks (fun u => entry n w y q v₀ u a) v₀) :
    let o := codeWith n wn (noise k) scene ((contextOf ctxLen k).map N)
    o.latentQ.val = transmitted n ctxLen w y q v₀ k ∧
      HasFDerivAt (y k) o.latentQ.der v₀ ∧
      o.likelihood.Tracks (likelihoodOf n ctxLen noise w y q v₀ k) v₀ ∧
      (o.latentQ.val = q k → o.synthesisIn.Tracks (synthesisOf n ctxLen w y q v₀ k) v₀) := by
  intro o
  have hx := gather_tracks n.src hy.roundSt
  have hm : (Node.apply (n.mean ((contextOf ctxLen k).map N).length) (wn.pair
      ((Node.pi fun i => ((contextOf ctxLen k).map N)[i]).pair (gather n.src (roundSt scene))))).Tracks
      (means n ctxLen w y q v₀ k) v₀ :=
    apply_context n.mean hs.mean hw hx (contextOf ctxLen k) N (entry n w y q v₀) hN
  have hsc := apply_context n.scale hs.scale hw hx (contextOf ctxLen k) N (entry n w y q v₀) hN
  have hf := apply_context n.features hs.features hw hx (contextOf ctxLen k) N (entry n w y q v₀) hN
  have hin := gather_tracks n.src hy
  have hrm := hm.roundSt
  have hi := hin.sub hrm
  have hmi := ((hm.sub hrm).add (Node.Tracks.const fun _ => 1 / 2)).scale n.numMeans
  have hl := ((hi.add (Node.Tracks.const (noise k))).pair (hmi.pair (hsc.apply hs.scaleIndex))).apply hs.likelihood
  have hq := gather_tracks n.dst (hi.roundSt.add hrm)
  have hval : o.latentQ.val = transmitted n ctxLen w y q v₀ k := by
    refine hq.1.trans ?_
    funext i
    simp only [transmitted, Pi.add_apply, Pi.sub_apply, hd, Int.cast_add, add_sub_cancel]
  have hder : o.latentQ.Tracks (fun u => y k u + (o.latentQ.val - y k v₀)) v₀ := by
    refine hq.congr fun u => ?_
    rw [hval]
    funext i
    simp only [transmitted, Pi.add_apply, Pi.sub_apply, hd, Int.cast_add, add_sub_cancel]
    ring
  have hlik : o.likelihood.Tracks (likelihoodOf n ctxLen noise w y q v₀ k) v₀ := by
    refine hl.congr fun u => ?_
    unfold likelihoodOf
    congr 2
    refine Prod.ext ?_ rfl
    funext x
    simp only [Pi.smul_apply, Pi.add_apply, Pi.sub_apply, smul_eq_mul]
    ring
  refine ⟨hval, ?_, hlik, ?_⟩
  · have := hder.2.sub_const (o.latentQ.val - y k v₀)
    simpa using this
  · intro he
    rw [he] at hder
    exact (hw.pair (hder.pair hf)).apply hs.dequantize

/-- **C126, the gradient.** `w` and `y k` are the parameters and the unrounded latents of the frames as functions of
whatever is trained.  After a training pass over a video of any length, for every frame: the transmitted latent is the
unrounded one rounded about the rounded mean, and its derivative is that of the unrounded latent (straight-through); the
likelihood and the input of the synthesis have the values and derivatives of the functions in which each rounding is a
fixed shift, the latents of the frames in the window follow their unrounded latents, and the latent of the first
frame, as context, is constant. -/
theorem C126_gradient (hs : Smooth n) (hd : ∀ i, n.src (n.dst i) = i) {v₀ : V} {w : V → W}
    (hw : wn.Tracks w v₀) (y : ℕ → V → ι → ℝ)
    (hy : ∀ k (h : k < scenes.length), scenes[k].Tracks (y k) v₀) :
    let outs := code n wn ctxLen noise scenes
    let q := fun j => (latents outs j).val
    outs.length = scenes.length ∧ ∀ k (h : k < outs.length),
      outs[k].latentQ.val = transmitted n ctxLen w y q v₀ k ∧
      HasFDerivAt (y k) outs[k].latentQ.der v₀ ∧
      (outs[k].likelihood.val = likelihoodOf n ctxLen noise w y q v₀ k v₀ ∧
        HasFDerivAt (likelihoodOf n ctxLen noise w y q v₀ k) outs[k].likelihood.der v₀) ∧
      (outs[k].synthesisIn.val = synthesisOf n ctxLen w y q v₀ k v₀ ∧
        HasFDerivAt (synthesisOf n ctxLen w y q v₀ k) outs[k].synthesisIn.der v₀) := by
  intro outs q
  obtain ⟨hlen, hget⟩ := code_get n ctxLen noise wn scenes
  have hlat : ∀ k (h : k < outs.length), latents outs k = outs[k].latentQ := by
    intro k h
    simp [latents, List.getElem?_eq_getElem h]
  have hmem : ∀ k j, some j ∈ contextOf ctxLen k → j < k := by
    intro k j hj
    have : some j ∈ (if k = 0 then [none] else (window ctxLen k).map some) := by
      unfold contextOf at hj
      simp only at hj
      split_ifs at hj with h1 h2 <;> simp_all
    split_ifs at this with h1
    · simp at this
    · simp [window] at this
      exact this.1
  have fakeT : (entryNode n wn (latents outs) none).Tracks (fun u => entry n w y q v₀ u none) v₀ :=
    (hw.pair (hw.apply hs.fake)).apply hs.process
  suffices key : ∀ k (h : k < outs.length),
      outs[k].latentQ.val = transmitted n ctxLen w y q v₀ k ∧
      HasFDerivAt (y k) outs[k].latentQ.der v₀ ∧
      outs[k].likelihood.Tracks (likelihoodOf n ctxLen noise w y q v₀ k) v₀ ∧
      (outs[k].latentQ.val = q k → outs[k].synthesisIn.Tracks (synthesisOf n ctxLen w y q v₀ k) v₀) by
    refine ⟨hlen, fun k h => ?_⟩
    obtain ⟨a, b, c, d⟩ := key k h
    exact ⟨a, b, c, d (by simp only [q]; rw [hlat k h])⟩
  intro k
  induction k using Nat.strong_induction_on with
  | _ k ih =>
    intro h
    have h' : k < scenes.length := by rw [← hlen]; exact h
    have e : outs[k] = _ := hget k h h'
    rw [e, codeLatent, encoded_eq]
    refine codeWith_tracks n ctxLen noise wn hs hd hw y q k (hy k h') _ fun a ha => ?_
    cases a with
    | none => exact fakeT
    | some j =>
      have hj := hmem k j ha
      have hj' : j < outs.length := by omega
      refine (hw.pair ?_).apply hs.process
      unfold past
      by_cases h0 : j = 0
      · subst h0
        simp only [if_true]
        exact ⟨rfl, hasFDerivAt_const _ _⟩
      · simp only [if_neg h0]
        refine ⟨?_, ?_⟩
        · exact (add_sub_cancel _ _).symm
        · have := (ih j hj hj').2.1
          rw [hlat j hj']
          exact this.add_const _

/-- **C126, who is taught.** Whatever the derivatives of the networks are: what frame `k` costs and looks like changes, to
first order, only with the parameters, the latent of frame `k` and the latents of the frames of its window other than
the first frame. -/
theorem C126_reach (k : ℕ) (h : k < (code n wn ctxLen noise scenes).length) (h' : k < scenes.length) (δ : V)
    (hw : wn.der δ = 0) (hk : scenes[k].der δ = 0)
    (hwin : ∀ j (hj : j < scenes.length), j ≠ 0 → j ∈ window ctxLen k → scenes[j].der δ = 0) :
    (code n wn ctxLen noise scenes)[k].likelihood.der δ = 0 ∧
      (code n wn ctxLen noise scenes)[k].synthesisIn.der δ = 0 ∧
      (code n wn ctxLen noise scenes)[k].latentQ.der δ = 0 := by
  obtain ⟨hlen, hget⟩ := code_get n ctxLen noise wn scenes
  have hq : ∀ j (hj : j < (code n wn ctxLen noise scenes).length) (hj' : j < scenes.length), scenes[j].der δ = 0 →
      (code n wn ctxLen noise scenes)[j].latentQ.Still δ := by
    intro j hj hj' h0
    rw [hget j hj hj']
    have : ∀ a : Node V (κ → ℝ), (gather n.dst ((roundSt ((gather n.src scenes[j]).sub a)).add a)).Still δ := by
      intro a
      refine gather_still _ ?_
      have hg : (gather n.src scenes[j]).Still δ := gather_still _ h0
      simp only [Node.Still] at hg ⊢
      simp [Node.add, roundSt_der, Node.sub, hg]
    exact this _
  have hctx : ∀ a ∈ (contextOf ctxLen k).map (entryNode n wn (latents (code n wn ctxLen noise scenes))), a.Still δ := by
    intro a ha
    obtain ⟨b, hb, rfl⟩ := List.mem_map.1 ha
    cases b with
    | none => exact (Node.Still.pair hw (Node.Still.apply _ hw)).apply _
    | some j =>
      refine (Node.Still.pair hw ?_).apply _
      by_cases h0 : j = 0
      · rw [if_pos h0]
        exact Node.Still.detach _
      · rw [if_neg h0]
        have hj : j ∈ window ctxLen k := by
          have : some j ∈ (if k = 0 then [none] else (window ctxLen k).map some) := by
            unfold contextOf at hb
            simp only at hb
            split_ifs at hb with h1 h2 <;> simp_all
          split_ifs at this with h1
          · simp at this
          · simpa using this
        have hjk : j < k := by
          simp [window] at hj
          exact hj.1
        have hj2 : j < (code n wn ctxLen noise scenes).length := by omega
        have : latents (code n wn ctxLen noise scenes) j = (code n wn ctxLen noise scenes)[j].latentQ := by
          simp [latents, List.getElem?_eq_getElem hj2]
        rw [this]
        exact hq j hj2 (by omega) (hwin j (by omega) h0 hj)
  have h3 := hq k h h' hk
  have e := hget k h h'
  rw [codeLatent, encoded_eq] at e
  have hx : (gather n.src (roundSt scenes[k])).Still δ := gather_still _ (Node.Still.roundSt hk)
  have hm := apply_context_still n.mean hw hx _ hctx
  have hsc := apply_context_still n.scale hw hx _ hctx
  have hf := apply_context_still n.features hw hx _ hctx
  have hin : (gather n.src scenes[k]).Still δ := gather_still _ hk
  refine ⟨?_, ?_, h3⟩
  · rw [e]
    exact ((((hin.sub hm.roundSt).add (.const _)).pair
      ((((hm.sub hm.roundSt).add (.const _)).scale _).pair (hsc.apply _))).apply _)
  · rw [e] at h3 ⊢
    exact (Node.Still.pair hw (Node.Still.pair h3 hf)).apply _

/-- **C126, the loss.** If only the latent of frame `j` changes, the gradient of the loss of a training step is that of the
losses of frame `j` itself and, unless `j` is the first frame, of the later frames that have `j` in their window; the
first frame counts once and every other frame ten times. -/
theorem C126_loss (dist : ℕ → Op (W × S) ℝ) (rate : Op P ℝ) (j : ℕ) (δ : V) (hw : wn.der δ = 0)
    (hδ : ∀ i (h : i < scenes.length), i ≠ j → scenes[i].der δ = 0) :
    let outs := code n wn ctxLen noise scenes
    (trainingLoss dist rate wn outs).der δ =
      (∑ k : Fin outs.length, if (k : ℕ) = j ∨ (j ≠ 0 ∧ j ∈ window ctxLen k)
        then (if (k : ℕ) = 0 then 1 else 10) * (frameLoss dist rate wn k outs[k]).der δ else 0) / scenes.length := by
  intro outs
  have hlen : outs.length = scenes.length := (code_get n ctxLen noise wn scenes).1
  have hsum : ∀ (i : ℕ) (l : List (Out V F S P ι)), (lossFrom dist rate wn i l).der δ =
      ∑ k : Fin l.length, (if i + (k : ℕ) = 0 then 1 else 10) * (frameLoss dist rate wn (i + k) l[k]).der δ := by
    intro i l
    induction l generalizing i with
    | nil => simp [lossFrom, Node.const]
    | cons o l ih =>
      simp only [lossFrom, Node.add, Node.scale, ContinuousLinearMap.add_apply, ContinuousLinearMap.smul_apply,
        smul_eq_mul, ih (i + 1), List.length_cons]
      rw [Fin.sum_univ_succ]
      congr 1
      refine Finset.sum_congr rfl fun k _ => ?_
      have : i + 1 + (k : ℕ) = i + ((k : ℕ) + 1) := by omega
      simp [this]
  simp only [trainingLoss, Node.scale, ContinuousLinearMap.smul_apply, smul_eq_mul, hsum, Nat.zero_add]
  rw [← hlen, one_div, div_eq_inv_mul (∑ k : Fin outs.length, _) (outs.length : ℝ)]
  congr 1
  refine Finset.sum_congr rfl fun k _ => ?_
  by_cases h1 : (k : ℕ) = j ∨ (j ≠ 0 ∧ j ∈ window ctxLen k)
  · rw [if_pos h1]
  · rw [if_neg h1]
    have hz : (frameLoss dist rate wn k outs[k]).der δ = 0 := by
      push Not at h1
      have hks : (k : ℕ) < scenes.length := by rw [← hlen]; exact k.2
      obtain ⟨a, b, _⟩ := C126_reach n ctxLen noise wn scenes k k.2 hks δ hw (hδ k hks h1.1) fun i hi h0 hwi =>
        hδ i hi fun e => h1.2 (e ▸ h0) (e ▸ hwi)
      exact ((Node.Still.pair hw b).apply (dist k)).add (Node.Still.apply rate a)
    rw [hz, mul_zero]

end claims

/-! ### Examples -/

/-- A linear network. -/
def linear {A B : Type} [NormedAddCommGroup A] [NormedSpace ℝ A] [NormedAddCommGroup B] [NormedSpace ℝ B]
    (l : A →L[ℝ] B) : Op A B := ⟨l, fun _ => l⟩

theorem linear_smooth {A B : Type} [NormedAddCommGroup A] [NormedSpace ℝ A] [NormedAddCommGroup B] [NormedSpace ℝ B]
    (l : A →L[ℝ] B) : (linear l).Smooth := fun _ => l.hasFDerivAt

/-- A small model: the predicted mean is the sum of the latents in the context, the "likelihood" is the noised latent
minus the rounded mean, the synthesis gets the transmitted latent. -/
noncomputable def tiny : Nets ℝ ℝ ℝ ℝ ℝ Unit Unit where
  fake := linear 0
  process := linear ((ContinuousLinearMap.proj ()).comp (ContinuousLinearMap.snd ℝ _ _))
  mean := fun k => linear (ContinuousLinearMap.pi fun _ =>
    (∑ i : Fin k, ContinuousLinearMap.proj (R := ℝ) (φ := fun _ : Fin k => ℝ) i).comp
      ((ContinuousLinearMap.fst ℝ _ _).comp (ContinuousLinearMap.snd ℝ _ _)))
  scale := fun _ => linear 0
  features := fun _ => linear 0
  src := id
  dst := id
  scaleIndex := linear 0
  likelihood := linear ((ContinuousLinearMap.proj ()).comp (ContinuousLinearMap.fst ℝ _ _))
  numMeans := 100
  dequantize := linear ((ContinuousLinearMap.proj ()).comp
    ((ContinuousLinearMap.fst ℝ _ _).comp (ContinuousLinearMap.snd ℝ _ _)))

/-- Three frames with one latent each. -/
noncomputable def threeFrames : List (Node (ℝ × ℝ × ℝ) (Unit → ℝ)) :=
  [Node.leaf (ContinuousLinearMap.pi fun _ => ContinuousLinearMap.fst ℝ _ _) (1 / 4, 1 / 3, 1 / 5) true,
    Node.leaf (ContinuousLinearMap.pi fun _ => (ContinuousLinearMap.fst ℝ _ _).comp (ContinuousLinearMap.snd ℝ _ _))
      (1 / 4, 1 / 3, 1 / 5) true,
    Node.leaf (ContinuousLinearMap.pi fun _ => (ContinuousLinearMap.snd ℝ _ _).comp (ContinuousLinearMap.snd ℝ _ _))
      (1 / 4, 1 / 3, 1 / 5) true]

theorem tiny_lik (w : Node V ℝ) (y : Node V (Unit → ℝ)) (a b : Node V ℝ) (δ : V) :
    (codeWith tiny w 0 y [a, b]).likelihood.der δ = y.der δ () - (a.der δ + b.der δ) := by
  simp [codeWith, bottleneck, tiny, linear, gather, Node.apply, Node.pair, Node.sub, Node.add, Node.const, roundSt_der,
    Node.pi, Fin.sum_univ_succ]

theorem tiny_lat (w : Node V ℝ) (y : Node V (Unit → ℝ)) (l : List (Node V ℝ)) :
    (codeWith tiny w 0 y l).latentQ.der = y.der := by
  ext δ
  simp [codeWith, bottleneck, tiny, gather, Node.sub, Node.add, roundSt_der]

/-- **C126, the first frame is an exception.** Both the first and the second frame are in the context of the third.  The
second one learns from it, the first one does not. -/
theorem C126_first_not_taught :
    ∃ (n : Nets ℝ ℝ ℝ ℝ ℝ Unit Unit) (scenes : List (Node (ℝ × ℝ × ℝ) (Unit → ℝ))), Smooth n ∧ window 2 2 = [0, 1] ∧
      let outs := code n (Node.const 0) 2 (fun _ _ => 0) scenes
      ∃ h : outs.length = 3, outs[2].likelihood.der (0, 1, 0) = -1 ∧ outs[2].likelihood.der (1, 0, 0) = 0 ∧
        outs[1].likelihood.der (0, 1, 0) = 1 ∧ outs[1].likelihood.der (1, 0, 0) = 0 ∧
        outs[0].likelihood.der (1, 0, 0) = 1 := by
  refine ⟨tiny, threeFrames, ⟨linear_smooth _, linear_smooth _, fun _ => linear_smooth _, fun _ => linear_smooth _,
    fun _ => linear_smooth _, linear_smooth _, linear_smooth _, linear_smooth _⟩, by decide, ?_⟩
  refine ⟨by simp [(code_get _ _ _ _ _).1, threeFrames], ?_⟩
  let w : Node (ℝ × ℝ × ℝ) ℝ := Node.const 0
  let f : Node (ℝ × ℝ × ℝ) ℝ := (w.pair (w.apply tiny.fake)).apply tiny.process
  let o0 := codeWith tiny w 0 threeFrames[0] [f, f]
  let p0 := (w.pair o0.latentQ.detach).apply tiny.process
  let o1 := codeWith tiny w 0 threeFrames[1] [p0, p0]
  let p1 := (w.pair o1.latentQ).apply tiny.process
  let o2 := codeWith tiny w 0 threeFrames[2] [p0, p1]
  have e : code tiny (Node.const 0) 2 (fun _ _ => 0) threeFrames = [o0, o1, o2] := rfl
  have hf : ∀ δ, f.der δ = 0 := fun δ => by simp [f, w, tiny, linear, Node.apply, Node.pair, Node.const]
  have h0 : ∀ δ, p0.der δ = 0 := fun δ => by simp [p0, w, tiny, linear, Node.apply, Node.pair, Node.const, Node.detach]
  have h1 : ∀ δ, p1.der δ = threeFrames[1].der δ () := fun δ => by
    have : o1.latentQ.der = threeFrames[1].der := tiny_lat _ _ _
    simp [p1, w, tiny, linear, Node.apply, Node.pair, Node.const, this]
  have l0 : ∀ δ, o0.likelihood.der δ = threeFrames[0].der δ () - (f.der δ + f.der δ) := tiny_lik _ _ _ _
  have l1 : ∀ δ, o1.likelihood.der δ = threeFrames[1].der δ () - (p0.der δ + p0.der δ) := tiny_lik _ _ _ _
  have l2 : ∀ δ, o2.likelihood.der δ = threeFrames[2].der δ () - (p0.der δ + p1.der δ) := tiny_lik _ _ _ _
  simp only [e, List.getElem_cons_succ, List.getElem_cons_zero, l0, l1, l2, hf, h0, h1]
  simp [threeFrames, Node.leaf]

/-- Non-vacuity of `C126_gradient`: three frames of the small model, with latents that are not integers. -/
example :
    let outs := code tiny (Node.const 0) 2 (fun _ _ => 0) threeFrames
    outs.length = 3 ∧ ∀ k (h : k < outs.length), ∀ δ, outs[k].latentQ.der δ = (threeFrames[k]?.elim 0 (·.der)) δ := by
  intro outs
  obtain ⟨hl, hg⟩ := C126_gradient tiny 2 (fun _ _ => 0) (Node.const 0) threeFrames
    ⟨linear_smooth _, linear_smooth _, fun _ => linear_smooth _, fun _ => linear_smooth _, fun _ => linear_smooth _,
      linear_smooth _, linear_smooth _, linear_smooth _⟩ (fun _ => rfl) (v₀ := (1 / 4, 1 / 3, 1 / 5))
    (Node.Tracks.const 0)
    (fun k => ⇑(threeFrames[k]?.elim (0 : (ℝ × ℝ × ℝ) →L[ℝ] (Unit → ℝ)) (·.der)))
    (fun k h => by
      rw [List.getElem?_eq_getElem h]
      refine ⟨?_, ContinuousLinearMap.hasFDerivAt _⟩
      have : k = 0 ∨ k = 1 ∨ k = 2 := by simp [threeFrames] at h; omega
      rcases this with rfl | rfl | rfl <;> simp [threeFrames, Node.leaf])
  exact ⟨hl, fun k h δ => congrArg (fun f : (ℝ × ℝ × ℝ) →L[ℝ] (Unit → ℝ) => f δ)
    ((hg k h).2.1.unique (ContinuousLinearMap.hasFDerivAt _))⟩

end Verif.Vct.Grad
