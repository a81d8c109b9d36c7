import Verif.Models.Restore
import Mathlib.Data.List.Induction
import Mathlib.Tactic.Common
import Mathlib.Tactic.Linarith

/-!
C152: a model that was saved can be restored in a newly built model.
-/

namespace Verif.Models.Restore

variable {P V : Type}

/-- What the settings of a model must satisfy: there is a layer, each layer has a buffer, and computed tables have one
tensor for each buffer, none of them empty. -/
structure Arch.Sound (a : Arch P V) : Prop where
  some_layer : a.names ≠ []
  some_buf : ∀ n ∈ a.names, 0 < n
  build_len : ∀ i n, a.names[i]? = some n → ∀ p, (a.build i p).length = n
  build_full : ∀ i p, ∀ b ∈ a.build i p, 0 < b.numel

/-- The tables were computed at some time. -/
def Updated (h : List (Step P)) : Prop := ∃ f, Step.update f ∈ h

/-! ### Lemmas -/

theorem run_append (a : Arch P V) (p : P) (h : List (Step P)) (s : Step P) :
    a.run p (h ++ [s]) = a.step (a.run p h) s := by
  simp [Arch.run]

theorem updateLayer_fresh (a : Arch P V) (f : Bool) (t : Layer V) {n : ℕ} (hn : 0 < n) :
    updateLayer f t (List.replicate n a.empty) = t := by
  obtain ⟨k, rfl⟩ := Nat.exists_eq_succ_of_ne_zero (by omega : n ≠ 0)
  simp [updateLayer, List.replicate_succ, Buf.numel, Arch.empty]

theorem updateLayer_full (t own : Layer V) (h0 : own ≠ []) (hf : ∀ b ∈ own, 0 < b.numel) :
    updateLayer false t own = own := by
  cases own with
  | nil => exact absurd rfl h0
  | cons o os => simp [updateLayer, hf o (by simp)]

theorem updateLayer_true (t own : Layer V) : updateLayer true t own = t := by
  cases own <;> simp [updateLayer]

/-- A model as histories leave it: all layers are empty, or all hold tables computed from some parameters. -/
theorem run_shape (a : Arch P V) (ha : a.Sound) (p : P) (h : List (Step P)) :
    (¬ Updated h ∧ (a.run p h).layers = (a.fresh p).layers) ∨
      (Updated h ∧ ∃ q, (a.run p h).layers = (List.range a.names.length).map fun i => a.build i q) := by
  induction h using List.reverseRecOn with
  | nil => left; exact ⟨by rintro ⟨f, hf⟩; simp at hf, rfl⟩
  | append_singleton h s ih =>
    rw [run_append]
    cases s with
    | train q =>
      have hU : Updated (h ++ [Step.train q]) ↔ Updated h := by simp [Updated]
      rw [hU]; exact ih
    | update f =>
      right
      refine ⟨⟨f, by simp⟩, ?_⟩
      rcases ih with ⟨_, e⟩ | ⟨_, q, e⟩
      · refine ⟨(a.run p h).params, ?_⟩
        simp only [Arch.step, Arch.update, e, Arch.fresh]
        apply List.ext_getElem (by simp)
        intro i h1 h2
        simp only [List.length_mapIdx, List.length_map] at h1
        simp only [List.getElem_mapIdx, List.getElem_map, List.getElem_range]
        exact updateLayer_fresh a f _ (ha.some_buf _ (List.getElem_mem h1))
      · cases f with
        | true =>
          refine ⟨(a.run p h).params, ?_⟩
          simp only [Arch.step, Arch.update, e]
          apply List.ext_getElem (by simp)
          intro i h1 h2
          simp [updateLayer_true]
        | false =>
          refine ⟨q, ?_⟩
          simp only [Arch.step, Arch.update, e]
          apply List.ext_getElem (by simp)
          intro i h1 h2
          simp only [List.length_mapIdx, List.length_map, List.length_range] at h1
          simp only [List.getElem_mapIdx, List.getElem_map, List.getElem_range]
          refine updateLayer_full _ _ ?_ (ha.build_full i q)
          have := ha.build_len i _ (List.getElem?_eq_getElem h1) q
          have := ha.some_buf _ (List.getElem_mem h1)
          intro h0; simp [h0] at *; omega

/-- The number of layers and of their buffers never changes. -/
theorem run_lens (a : Arch P V) (ha : a.Sound) (p : P) (h : List (Step P)) :
    (a.run p h).layers.map List.length = a.names := by
  rcases run_shape a ha p h with ⟨_, e⟩ | ⟨_, q, e⟩
  · simp [e, Arch.fresh, Function.comp_def]
  · rw [e]
    apply List.ext_getElem (by simp)
    intro i h1 h2
    simp only [List.map_map, List.getElem_map, List.getElem_range, Function.comp]
    exact ha.build_len i _ (List.getElem?_eq_getElem h2) q

theorem Loader.buf_exact (l : Loader) (o s : Buf V) (h : (l.buf o s).2 = false) : (l.buf o s).1 = s := by
  cases l <;> simp only [Loader.buf, loadBuf] at * <;> split at h <;> simp_all

theorem Loader.layer_exact (l : Loader) : ∀ (o s : Layer V), o.length = s.length → (l.layer o s).2 = false →
    (l.layer o s).1 = s
  | [], [], _, _ => rfl
  | x :: o, y :: s, hl, h => by
    simp only [Loader.layer, List.zipWith_cons_cons, List.any_cons, Bool.or_eq_false_iff, id] at h ⊢
    rw [l.buf_exact x y h.1]
    have := Loader.layer_exact l o s (by simpa using hl) h.2
    simp only [Loader.layer] at this
    rw [this]

theorem zip_exact (l : Loader) : ∀ (m f : List (Layer V)), m.map List.length = f.map List.length →
    (List.zipWith (fun o s => (l.layer o s).2) m f).any id = false →
    List.zipWith (fun o s => (l.layer o s).1) m f = f
  | [], [], _, _ => rfl
  | x :: m, y :: f, hl, h => by
    simp only [List.zipWith_cons_cons, List.any_cons, Bool.or_eq_false_iff, id, List.map_cons, List.cons.injEq] at *
    rw [l.layer_exact x y hl.1 h.1, zip_exact l m f hl.2 h.2]
    exact ⟨rfl, rfl⟩

/-! ### The theorems -/

/-- **C152**, no silent mixture: if loading does not raise, the model is the saved one, its parameters and all of its
tables, whatever was in the model before. -/
theorem C152_exact (a : Arch P V) (ha : a.Sound) (l : Loader) (p q : P) (h g : List (Step P))
    (ok : (l.load (a.run q g) (a.run p h)).2 = false) : (l.load (a.run q g) (a.run p h)).1 = a.run p h := by
  have := zip_exact l _ _ ((run_lens a ha q g).trans (run_lens a ha p h).symm) ok
  simp only [Loader.load, this]

theorem buf_resizing_empty (a : Arch P V) (s : Buf V) : Loader.resizing.buf a.empty s = (s, false) := by
  simp [Loader.buf, resizeIfEmpty, Buf.numel, Arch.empty, loadBuf]

theorem layer_resizing_empty (a : Arch P V) : ∀ (s : Layer V),
    Loader.resizing.layer (List.replicate s.length a.empty) s = (s, false)
  | [] => rfl
  | y :: s => by
    have := layer_resizing_empty a s
    simp only [Loader.layer, Prod.mk.injEq] at this
    simp [Loader.layer, List.replicate_succ, buf_resizing_empty, this.1, this.2]

theorem zip_resizing_empty (a : Arch P V) : ∀ (f : List (Layer V)),
    List.zipWith (fun o s => Loader.resizing.layer o s)
      ((f.map List.length).map fun n => List.replicate n a.empty) f = f.map fun s => (s, false)
  | [] => rfl
  | y :: f => by
    have := zip_resizing_empty a f
    simp only [List.map_cons, List.zipWith_cons_cons, layer_resizing_empty, this]

/-- **C152** for the autoencoders: whatever was done with a model before it was saved (training, computing the tables
once, many times or never), a newly built model loads the file, and is then the saved model. -/
theorem C152_autoencoder (a : Arch P V) (ha : a.Sound) (p q : P) (h : List (Step P)) :
    Loader.resizing.load (a.fresh q) (a.run p h) = (a.run p h, false) := by
  have e := zip_resizing_empty a (a.run p h).layers
  rw [run_lens a ha] at e
  have e1 := congrArg (List.map Prod.fst) e
  have e2 := congrArg (List.map Prod.snd) e
  simp only [List.map_zipWith, List.map_map, Function.comp_def, List.map_id'] at e1 e2
  simp only [Loader.load, Arch.fresh, e1, e2]
  simp

theorem layer_plain_empty (a : Arch P V) : ∀ (s : Layer V), s ≠ [] → (∀ b ∈ s, 0 < b.numel) →
    Loader.plain.layer (List.replicate s.length a.empty) s = (List.replicate s.length a.empty, true) := by
  have hb : ∀ b : Buf V, 0 < b.numel → Loader.plain.buf a.empty b = (a.empty, true) := by
    intro b hb
    have : ([0] : List ℕ) ≠ b.size := by
      intro e; simp [Buf.numel, ← e] at hb
    simp [Loader.buf, loadBuf, Arch.empty, this]
  have h1 : ∀ s : Layer V, (∀ b ∈ s, 0 < b.numel) →
      List.zipWith (fun o s => (Loader.plain.buf o s).1) (List.replicate s.length a.empty) s =
        List.replicate s.length a.empty := by
    intro s
    induction s with
    | nil => intro _; rfl
    | cons y s ih =>
      intro h
      simp [List.replicate_succ, hb y (h y (by simp)), ih (fun b hb => h b (by simp [hb]))]
  intro s h0 h
  cases s with
  | nil => exact absurd rfl h0
  | cons y s =>
    simp only [Loader.layer, List.length_cons, List.replicate_succ, List.zipWith_cons_cons, hb y (h y (by simp))]
    simp [h1 s fun b hb => h b (by simp [hb])]

theorem layer_same (l : Loader) (o s : Layer V) (h : o.map Buf.size = s.map Buf.size) :
    l.layer o s = (s, false) := by
  have hb : ∀ o s : Buf V, o.size = s.size → l.buf o s = (s, false) := by
    intro o s h
    cases l with
    | plain => simp [Loader.buf, loadBuf, h]
    | resizing =>
      simp only [Loader.buf, resizeIfEmpty]
      split <;> simp [loadBuf, h]
  induction o generalizing s with
  | nil => cases s with
    | nil => rfl
    | cons => simp at h
  | cons x o ih => cases s with
    | nil => simp at h
    | cons y s =>
      simp only [List.map_cons, List.cons.injEq] at h
      have := ih s h.2
      simp only [Loader.layer, Prod.mk.injEq] at this
      simp [Loader.layer, hb x y h.1, this.1, this.2]

theorem load_same (l : Loader) (m f : Model P V)
    (h : m.layers.map (List.map Buf.size) = f.layers.map (List.map Buf.size)) : l.load m f = (f, false) := by
  have : ∀ m f : List (Layer V), m.map (List.map Buf.size) = f.map (List.map Buf.size) →
      List.zipWith (fun o s => (l.layer o s).1) m f = f ∧
        (List.zipWith (fun o s => (l.layer o s).2) m f).any id = false := by
    intro m
    induction m with
    | nil => intro f h; cases f with
      | nil => simp
      | cons => simp at h
    | cons x m ih => intro f h; cases f with
      | nil => simp at h
      | cons y f =>
        simp only [List.map_cons, List.cons.injEq] at h
        have := ih f h.2
        simp [layer_same l x y h.1, this.1, this.2]
  have := this _ _ h
  simp only [Loader.load, this.1, this.2]

/-- The tables of a model that was updated, loaded plainly in a new one: nothing fits. -/
theorem load_plain_full (a : Arch P V) (ha : a.Sound) (p q r : P) (m : Model P V)
    (e : m.layers = (List.range a.names.length).map fun i => a.build i q) (hp : m.params = p) :
    Loader.plain.load (a.fresh r) m = (a.fresh p, true) := by
  have hl : ∀ i (hi : i < a.names.length),
      Loader.plain.layer (List.replicate a.names[i] a.empty) (a.build i q) =
        (List.replicate a.names[i] a.empty, true) := by
    intro i hi
    have hlen := ha.build_len i _ (List.getElem?_eq_getElem hi) q
    have := layer_plain_empty a (a.build i q) (by
      intro h0
      have := ha.some_buf _ (List.getElem_mem hi)
      simp [h0] at hlen; omega) (ha.build_full i q)
    rwa [hlen] at this
  simp only [Loader.load, Arch.fresh, e, hp, Prod.mk.injEq, Model.mk.injEq, true_and]
  constructor
  · apply List.ext_getElem (by simp)
    intro i h1 h2
    simp only [List.length_map] at h2
    simp [hl i h2]
  · rw [List.any_eq_true]
    refine ⟨true, ?_, rfl⟩
    have h0 : 0 < a.names.length := List.length_pos_iff.mpr ha.some_layer
    rw [List.mem_iff_getElem]
    refine ⟨0, by simpa using h0, ?_⟩
    simp [hl 0 h0]

theorem fresh_params (a : Arch P V) (p q : P) : (a.fresh p).layers = (a.fresh q).layers := rfl

/-- **C152** for `DVC` and `VCTPipeline`, as far as it holds: a model whose tables were never computed is restored in a
newly built model. **Missing:** models that were saved with their tables (`C152_violated`). -/
theorem C152_plain_partial (a : Arch P V) (ha : a.Sound) (p q : P) (h : List (Step P)) (hU : ¬ Updated h) :
    Loader.plain.load (a.fresh q) (a.run p h) = (a.run p h, false) := by
  rcases run_shape a ha p h with ⟨_, e⟩ | ⟨h', _⟩
  · exact load_same _ _ _ (by rw [e]; rfl)
  · exact absurd h' hU

/-- **C152 is false** for `DVC` and `VCTPipeline`: no model that computed its tables before it was saved can be loaded
in a newly built model. The call raises, and it leaves the parameters of the file with empty tables. -/
theorem C152_violated (a : Arch P V) (ha : a.Sound) (p q : P) (h : List (Step P)) (hU : Updated h) :
    Loader.plain.load (a.fresh q) (a.run p h) = (a.fresh (a.run p h).params, true) := by
  rcases run_shape a ha p h with ⟨h', _⟩ | ⟨_, r, e⟩
  · exact absurd hU h'
  · exact load_plain_full a ha _ r q _ e rfl

theorem update_fresh (a : Arch P V) (ha : a.Sound) (f : Bool) (m n : Model P V) (hm : m.layers = (a.fresh m.params).layers)
    (hp : m.params = n.params) (hn : n.layers.length = a.names.length) : a.update f m = a.update true n := by
  simp only [Arch.update]
  rw [hp]
  have : m = ⟨n.params, (a.fresh n.params).layers⟩ := by
    cases m; simp only at *; subst hp; rw [hm]
  subst this
  cases n with
  | mk np nl =>
    simp only [Model.mk.injEq, true_and] at *
    apply List.ext_getElem (by simp [Arch.fresh, hn])
    intro i h1 h2
    simp only [List.length_mapIdx, Arch.fresh, List.length_map] at h1
    simp only [List.getElem_mapIdx, Arch.fresh, List.getElem_map, updateLayer_true]
    exact updateLayer_fresh a f _ (ha.some_buf _ (List.getElem_mem h1))

/-- **C152**, the way out: a new `DVC` or `VCTPipeline` that loaded a file, with or without an error, has after
`update`, forced or not, the tables that belong to the saved parameters. -/
theorem C152_recover (a : Arch P V) (ha : a.Sound) (p q : P) (h : List (Step P)) (f : Bool) :
    a.update f (Loader.plain.load (a.fresh q) (a.run p h)).1 = a.update true (a.run p h) := by
  have hl : (a.run p h).layers.length = a.names.length := by
    rw [← run_lens a ha p h]; simp
  by_cases hU : Updated h
  · rw [C152_violated a ha p q h hU]
    exact update_fresh a ha f _ _ rfl rfl hl
  · rw [C152_plain_partial a ha p q h hU]
    refine update_fresh a ha f _ _ ?_ rfl hl
    rcases run_shape a ha p h with ⟨_, e⟩ | ⟨h', _⟩
    · exact e
    · exact absurd h' hU

/-- **C152** for the loader of `VCTPipeline` checkpoints: it returns the saved model with the tables of its parameters
if the tables were not computed before saving, and raises otherwise. -/
theorem C152_checkpoint (a : Arch P V) (ha : a.Sound) (p q : P) (h : List (Step P)) :
    (¬ Updated h → a.loadCheckpoint q (a.run p h) = some (a.update true (a.run p h))) ∧
      (Updated h → a.loadCheckpoint q (a.run p h) = none) := by
  constructor
  · intro hU
    have := C152_recover a ha p q h false
    rw [C152_plain_partial a ha p q h hU] at this
    simp only [Arch.loadCheckpoint, C152_plain_partial a ha p q h hU]
    rw [this]
  · intro hU
    simp only [Arch.loadCheckpoint, C152_violated a ha p q h hU]

/-- **C152**, between models that have tables: if the sizes of the tables do not depend on the parameters (as in
`VCTPipeline`, where they follow from the settings), a file with tables is loaded by every model with tables. -/
theorem C152_prepared (a : Arch P V) (ha : a.Sound)
    (hs : ∀ i p q, (a.build i p).map Buf.size = (a.build i q).map Buf.size) (l : Loader) (p q : P)
    (h g : List (Step P)) (hh : Updated h) (hg : Updated g) :
    l.load (a.run q g) (a.run p h) = (a.run p h, false) := by
  rcases run_shape a ha p h with ⟨h', _⟩ | ⟨_, r, e⟩
  · exact absurd hh h'
  rcases run_shape a ha q g with ⟨h', _⟩ | ⟨_, s, e'⟩
  · exact absurd hg h'
  refine load_same _ _ _ ?_
  rw [e, e']
  simp only [List.map_map]
  exact List.map_congr_left fun i _ => hs i s r

theorem buf_full (l : Loader) (o s : Buf V) (h : 0 < o.numel) :
    l.buf o s = if o.size = s.size then (s, false) else (o, true) := by
  cases l with
  | plain => rfl
  | resizing => simp [Loader.buf, resizeIfEmpty, Nat.ne_of_gt h, loadBuf]

/-- **C152**, loading in a model that has tables (every kind of model): each buffer is that of the file if the sizes
agree and the model's own old one otherwise, the parameters are those of the file, and the call raises if and only if
some sizes differ. -/
theorem C152_loaded (a : Arch P V) (ha : a.Sound) (l : Loader) (p q : P) (h g : List (Step P)) (hg : Updated g) :
    let m := a.run q g
    let file := a.run p h
    (l.load m file).1.params = file.params ∧
      (∀ (i j : ℕ) (lm lf : Layer V) (o s : Buf V), m.layers[i]? = some lm → file.layers[i]? = some lf →
        lm[j]? = some o → lf[j]? = some s →
        ∃ lr, (l.load m file).1.layers[i]? = some lr ∧ lr[j]? = some (if o.size = s.size then s else o)) ∧
      ((l.load m file).2 = true ↔ m.layers.map (List.map Buf.size) ≠ file.layers.map (List.map Buf.size)) := by
  intro m file
  have hfull : ∀ lm ∈ m.layers, ∀ b ∈ lm, 0 < b.numel := by
    rcases run_shape a ha q g with ⟨h', _⟩ | ⟨_, s, e⟩
    · exact absurd hg h'
    intro lm hlm b hb
    rw [show m.layers = _ from e, List.mem_map] at hlm
    obtain ⟨i, _, rfl⟩ := hlm
    exact ha.build_full i s b hb
  refine ⟨rfl, ?_, ?_⟩
  · intro i j lm lf o s h1 h2 h3 h4
    refine ⟨(l.layer lm lf).1, ?_, ?_⟩
    · simp [Loader.load, List.getElem?_zipWith, h1, h2]
    · have := hfull lm (List.mem_of_getElem? h1) o (List.mem_of_getElem? h3)
      simp only [Loader.layer, List.getElem?_zipWith, h3, h4, buf_full l o s this]
      split <;> rfl
  · constructor
    · intro hr e
      have := load_same l m file e
      rw [this] at hr; exact absurd hr (by simp)
    · intro hne
      by_contra hc
      have hok : (l.load m file).2 = false := by simpa using hc
      apply hne
      have hlay : ∀ (x y : Layer V), x.length = y.length → (∀ b ∈ x, 0 < b.numel) → (l.layer x y).2 = false →
          x.map Buf.size = y.map Buf.size := by
        intro x
        induction x with
        | nil => intro y hy _ _; cases y with
          | nil => rfl
          | cons => simp at hy
        | cons b x ih => intro y hy hb hf; cases y with
          | nil => simp at hy
          | cons c y =>
            simp only [Loader.layer, List.zipWith_cons_cons, List.any_cons, Bool.or_eq_false_iff, id,
              buf_full l b c (hb b (by simp))] at hf
            have := ih y (by simpa using hy) (fun d hd => hb d (by simp [hd])) hf.2
            have h1 : b.size = c.size := by
              by_contra hn; simp [hn] at hf
            simp [this, h1]
      have hlen : m.layers.map List.length = file.layers.map List.length :=
        (run_lens a ha q g).trans (run_lens a ha p h).symm
      have hok' : (List.zipWith (fun o s => (l.layer o s).2) m.layers file.layers).any id = false := hok
      clear hok hc hne
      generalize m.layers = x at *
      generalize file.layers = y at *
      induction x generalizing y with
      | nil => cases y with
        | nil => rfl
        | cons => simp at hlen
      | cons b x ih => cases y with
        | nil => simp at hlen
        | cons c y =>
          simp only [List.map_cons, List.cons.injEq, List.zipWith_cons_cons, List.any_cons, Bool.or_eq_false_iff,
            id] at *
          exact ⟨hlay b c hlen.1 (hfull b (by simp)) hok'.1,
            ih (fun d hd => hfull d (by simp [hd])) y hlen.2 hok'.2⟩

/-- **C152**, after loading in a model that had tables: an unforced `update` changes nothing, so what did not fit stays
as it was; a forced one computes the tables of the saved parameters. -/
theorem C152_repair (a : Arch P V) (ha : a.Sound) (l : Loader) (p q : P) (h g : List (Step P)) (hg : Updated g)
    (hh : Updated h) :
    a.update false (l.load (a.run q g) (a.run p h)).1 = (l.load (a.run q g) (a.run p h)).1 ∧
      a.update true (l.load (a.run q g) (a.run p h)).1 = a.update true (a.run p h) := by
  rcases run_shape a ha p h with ⟨h', _⟩ | ⟨_, r, e⟩
  · exact absurd hh h'
  rcases run_shape a ha q g with ⟨h', _⟩ | ⟨_, s, e'⟩
  · exact absurd hg h'
  have hlen : (l.load (a.run q g) (a.run p h)).1.layers.length = a.names.length := by
    simp [Loader.load, e, e']
  constructor
  · simp only [Arch.update]
    generalize hL : l.load (a.run q g) (a.run p h) = L at *
    cases L with
    | mk L b =>
      cases L with
      | mk lp ll =>
        simp only [Model.mk.injEq, true_and] at *
        apply List.ext_getElem (by simp)
        intro i h1 h2
        simp only [List.getElem_mapIdx]
        have hi : i < a.names.length := by omega
        have hll : ll[i] = (l.layer (a.build i s) (a.build i r)).1 := by
          have : ll = List.zipWith (fun o s => (l.layer o s).1) (a.run q g).layers (a.run p h).layers := by
            have := congrArg (fun x => x.1.layers) hL
            exact this.symm
          subst this
          simp [e, e']
        have hlr := ha.build_len i _ (List.getElem?_eq_getElem hi) r
        have hls := ha.build_len i _ (List.getElem?_eq_getElem hi) s
        have hpos := ha.some_buf _ (List.getElem_mem hi)
        refine updateLayer_full _ _ ?_ ?_
        · rw [hll]
          intro h0
          have := congrArg List.length h0
          simp [Loader.layer, hlr, hls] at this
          omega
        · rw [hll]
          intro b hb
          simp only [Loader.layer] at hb
          rw [List.mem_iff_getElem] at hb
          obtain ⟨j, hj, rfl⟩ := hb
          simp only [List.length_zipWith] at hj
          rw [List.getElem_zipWith]
          have h1 := ha.build_full i s ((a.build i s)[j]'(by omega)) (List.getElem_mem _)
          have h2 := ha.build_full i r ((a.build i r)[j]'(by omega)) (List.getElem_mem _)
          rw [buf_full l _ _ h1]
          split
          · exact h2
          · exact h1
  · have hp : (l.load (a.run q g) (a.run p h)).1.params = (a.run p h).params := rfl
    simp only [Arch.update, hp, Model.mk.injEq, true_and]
    apply List.ext_getElem (by simp [hlen, e])
    intro i h1 h2
    simp [updateLayer_true]

/-- A model with one layer of two buffers: the offsets, of a fixed size, and the distributions, as long as the
parameter says. -/
def twoBufs : Arch ℕ ℕ := ⟨[2], fun _ p => [⟨[1], p⟩, ⟨[1, p + 3], p⟩], 0⟩

theorem twoBufs_sound : twoBufs.Sound where
  some_layer := by simp [twoBufs]
  some_buf := by simp [twoBufs]
  build_len := by
    intro i n h p
    have : i = 0 ∨ 1 ≤ i := by omega
    rcases this with rfl | h'
    · simpa [twoBufs] using h
    · rw [List.getElem?_eq_none (by simpa [twoBufs] using h')] at h; cases h
  build_full := by simp [twoBufs, Buf.numel]

/-- **C152 is false**, a mixture: after a failed load in a model with tables, followed by `update`, the model has the
parameters and the offsets of the file with its own old distributions; this is neither the saved model nor the old one,
and the tables are not those of any parameters. -/
theorem C152_violated_mixture (l : Loader) :
    let m := twoBufs.run 4 [.update true]
    let file := twoBufs.run 7 [.update true]
    (l.load m file).2 = true ∧
      (twoBufs.update false (l.load m file).1).params = 7 ∧
      (twoBufs.update false (l.load m file).1).layers = [[⟨[1], 7⟩, ⟨[1, 7], 4⟩]] ∧
      ∀ p, (twoBufs.update false (l.load m file).1).layers ≠ (twoBufs.update true (twoBufs.fresh p)).layers := by
  have h1 : (twoBufs.update false (l.load (twoBufs.run 4 [.update true]) (twoBufs.run 7 [.update true])).1).layers =
      [[⟨[1], 7⟩, ⟨[1, 7], 4⟩]] := by
    cases l <;> decide
  refine ⟨by cases l <;> decide, by cases l <;> rfl, h1, ?_⟩
  intro p hp
  rw [h1] at hp
  simp [twoBufs, Arch.update, Arch.fresh, updateLayer_true] at hp
  omega

/-- The hypotheses are met: training, computing the tables and training again. -/
example : twoBufs.Sound ∧ Updated [Step.train 5, .update false, .train 6] ∧
    (twoBufs.run 4 [.train 5, .update false, .train 6]).layers = [[⟨[1], 5⟩, ⟨[1, 8], 5⟩]] ∧
    Loader.resizing.load (twoBufs.fresh 0) (twoBufs.run 4 [.train 5, .update false, .train 6]) =
      (twoBufs.run 4 [.train 5, .update false, .train 6], false) ∧
    (Loader.plain.load (twoBufs.fresh 0) (twoBufs.run 4 [.train 5, .update false, .train 6])).2 = true :=
  ⟨twoBufs_sound, ⟨false, by simp⟩, by decide, C152_autoencoder _ twoBufs_sound _ _ _, by decide⟩

end Verif.Models.Restore
