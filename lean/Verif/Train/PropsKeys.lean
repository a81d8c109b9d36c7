import Verif.Train.Keys

/-!
C94: the weights of a model are recovered from the checkpoint of its training module.
-/

namespace Verif.Train.Keys

variable {V : Type}

/-- Attribute names: PyTorch rejects names with a dot, and attributes are distinct. -/
structure Named (m : Module V) : Prop where
  own : ∀ kv ∈ m.own, '.' ∉ kv.1
  children : ∀ c ∈ m.children, '.' ∉ c.1
  distinct : (m.children.map Prod.fst).Nodup

theorem take_ne_of_nodot (name k : Key) (h : '.' ∉ name) (hne : name ≠ "model".toList) :
    (name ++ '.' :: k).take modelPrefix.length ≠ modelPrefix := by
  intro e
  have hm : modelPrefix = "model".toList ++ ['.'] := by decide
  have hp : modelPrefix <+: name ++ '.' :: k := by
    rw [← e]
    exact List.take_prefix _ _
  rw [hm] at hp
  -- compare the two names up to their first dot
  have key : ∀ (a b s t : Key), '.' ∉ a → '.' ∉ b → a ++ '.' :: s = b ++ '.' :: t → a = b := by
    intro a
    induction a with
    | nil =>
      intro b s t _ hb e
      cases b with
      | nil => rfl
      | cons x b =>
        simp only [List.nil_append, List.cons_append, List.cons.injEq] at e
        exact absurd (by rw [← e.1]; exact List.mem_cons_self) hb
    | cons y a ih =>
      intro b s t ha hb e
      cases b with
      | nil =>
        simp only [List.nil_append, List.cons_append, List.cons.injEq] at e
        exact absurd (by rw [e.1]; exact List.mem_cons_self) ha
      | cons x b =>
        simp only [List.cons_append, List.cons.injEq] at e
        rw [e.1, ih b s t (fun h => ha (List.mem_cons_of_mem _ h)) (fun h => hb (List.mem_cons_of_mem _ h)) e.2]
  obtain ⟨r, hr⟩ := hp
  have := key "model".toList name r k (by decide) h (by simpa using hr)
  exact hne this.symm

theorem strip_append (pre : Key) (a b : List (Key × V)) : strip pre (a ++ b) = strip pre a ++ strip pre b := by
  simp [strip]

theorem strip_nil_of (pre : Key) (a : List (Key × V)) (h : ∀ kv ∈ a, kv.1.take pre.length ≠ pre) : strip pre a = [] := by
  unfold strip
  rw [List.filter_eq_nil_iff.2 (fun kv hkv => by simpa using h kv hkv)]
  rfl

theorem strip_own (m : Module V) (h : Named m) : strip modelPrefix m.own = [] := by
  apply strip_nil_of
  intro kv hkv e
  apply h.own kv hkv
  have : '.' ∈ kv.1.take modelPrefix.length := by
    rw [e]
    decide
  exact List.mem_of_mem_take this

theorem strip_model (sd : List (Key × V)) :
    strip modelPrefix (sd.map fun kv => ("model".toList ++ '.' :: kv.1, kv.2)) = sd := by
  have hm : modelPrefix = "model".toList ++ ['.'] := by decide
  have e : ∀ k : Key, "model".toList ++ '.' :: k = modelPrefix ++ k := fun k => by rw [hm]; simp
  unfold strip
  rw [List.filter_eq_self.2]
  · rw [List.map_map]
    conv_rhs => rw [← List.map_id sd]
    apply List.map_congr_left
    intro kv _
    simp only [Function.comp_apply, e, List.drop_left, id]
  · intro kv hkv
    obtain ⟨kv', -, rfl⟩ := List.mem_map.1 hkv
    simp only [e, List.take_left, decide_true]

theorem strip_other (name : Key) (hd : '.' ∉ name) (hne : name ≠ "model".toList) (sd : List (Key × V)) :
    strip modelPrefix (sd.map fun kv => (name ++ '.' :: kv.1, kv.2)) = [] := by
  apply strip_nil_of
  intro kv hkv
  obtain ⟨kv', -, rfl⟩ := List.mem_map.1 hkv
  exact take_ne_of_nodot name kv'.1 hd hne

/-- **C94, recovery.** For every training module with a submodule `model`, whatever its other submodules, parameters and
keys: taking the keys that begin with `model.` and removing this gives the state dict of the model, in order. -/
theorem C94_strip (m : Module V) (h : Named m) (sd : List (Key × V)) (hsd : ("model".toList, sd) ∈ m.children) :
    strip modelPrefix m.stateDict = sd := by
  unfold Module.stateDict
  rw [strip_append, strip_own m h, List.nil_append]
  have hd := h.distinct
  have hc := h.children
  generalize m.children = cs at hd hc hsd
  induction cs with
  | nil => cases hsd
  | cons c cs ih =>
    rw [List.flatMap_cons, strip_append]
    rw [List.map_cons, List.nodup_cons] at hd
    rcases List.mem_cons.1 hsd with e | hmem
    · have hrest : ∀ ds : List (Key × List (Key × V)), (∀ d ∈ ds, '.' ∉ d.1) → "model".toList ∉ ds.map Prod.fst →
          strip modelPrefix (ds.flatMap fun c => c.2.map fun kv => (c.1 ++ '.' :: kv.1, kv.2)) = [] := by
        intro ds
        induction ds with
        | nil => intro _ _; rfl
        | cons d ds ih' =>
          intro h1 h2
          rw [List.flatMap_cons, strip_append, ih' (fun d hd => h1 d (List.mem_cons_of_mem _ hd))
            (fun h' => h2 (List.mem_cons_of_mem _ h')), strip_other d.1 (h1 d List.mem_cons_self)
            (fun e => h2 (by rw [List.map_cons, e]; exact List.mem_cons_self))]
          rfl
      rw [← e] at hd ⊢
      rw [hrest cs (fun d hd => hc d (List.mem_cons_of_mem _ hd)) hd.1, List.append_nil]
      exact strip_model sd
    · have hne : c.1 ≠ "model".toList := fun e => hd.1 (by
        rw [e]
        exact List.mem_map.2 ⟨_, hmem, rfl⟩)
      rw [strip_other c.1 (hc c List.mem_cons_self) hne, List.nil_append]
      exact ih hd.2 (fun d hd => hc d (List.mem_cons_of_mem _ hd)) hmem

theorem loadStrict_ok (keys : List Key) (sd : List (Key × V)) (h : sd.map Prod.fst = keys) : loadStrict keys sd = .ok sd := by
  unfold loadStrict
  rw [if_pos]
  rw [h]
  exact ⟨fun k hk => hk, fun k hk => hk⟩

/-- **C94, loading.** Both functions load exactly the model's state dict from the trainer's checkpoint; in the video
project the copy of the checkpoint loads the same. -/
theorem C94_load (m : Module V) (h : Named m) (sd : List (Key × V)) (hsd : ("model".toList, sd) ∈ m.children) :
    loadIllm (sd.map Prod.fst) (.checkpoint m.stateDict) = .ok sd ∧
      loadVct (sd.map Prod.fst) (.checkpoint m.stateDict) = .ok sd ∧
      loadVct (sd.map Prod.fst) (savedCopy (.checkpoint m.stateDict)) = .ok sd ∧
      loadVct (sd.map Prod.fst) (savedCopy (savedCopy (.checkpoint m.stateDict))) = .ok sd := by
  have e := C94_strip m h sd hsd
  have hl := loadStrict_ok (sd.map Prod.fst) sd rfl
  refine ⟨?_, ?_, ?_, ?_⟩
  · show loadStrict (sd.map Prod.fst) (strip modelPrefix m.stateDict) = _
    rw [e, hl]
  all_goals
    show loadStrict (sd.map Prod.fst) (strip modelPrefix m.stateDict) = _
    rw [e, hl]

/-- **C94, foreign files.** A model with at least one key never loads weights from a file without `model.` keys: the
state dict of another module, or of the model itself without the prefix, raises. -/
theorem C94_foreign (keys : List Key) (hk : keys ≠ []) (sd : List (Key × V))
    (h : ∀ kv ∈ sd, kv.1.take modelPrefix.length ≠ modelPrefix) (f : File V) (hf : f = .checkpoint sd ∨ f = .plain sd) :
    (∃ e, loadIllm keys f = .error e) ∧ loadVct keys f = .error .runtime := by
  have hs : loadStrict keys (strip modelPrefix sd) = .error .runtime := by
    rw [strip_nil_of _ _ h]
    unfold loadStrict
    rw [if_neg]
    rintro ⟨h1, -⟩
    cases keys with
    | nil => exact hk rfl
    | cons k ks => exact absurd (h1 k List.mem_cons_self) (by simp)
  rcases hf with rfl | rfl
  · exact ⟨⟨_, hs⟩, hs⟩
  · exact ⟨⟨.key, rfl⟩, hs⟩

/-- **C94, nothing is loaded by halves.** If either function returns, the keys of what it loaded are the model's keys. -/
theorem C94_complete (keys : List Key) (f : File V) (sd : List (Key × V))
    (h : loadIllm keys f = .ok sd ∨ loadVct keys f = .ok sd) : ∀ k, k ∈ keys ↔ k ∈ sd.map Prod.fst := by
  have key : ∀ l : List (Key × V), loadStrict keys l = .ok sd → ∀ k, k ∈ keys ↔ k ∈ sd.map Prod.fst := by
    intro l hl
    unfold loadStrict at hl
    by_cases hc : (∀ k ∈ keys, k ∈ l.map Prod.fst) ∧ ∀ k ∈ l.map Prod.fst, k ∈ keys
    · rw [if_pos hc] at hl
      have := Except.ok.inj hl
      subst this
      exact fun k => ⟨hc.1 k, hc.2 k⟩
    · rw [if_neg hc] at hl
      cases hl
  rcases h with h | h
  · cases f with
    | checkpoint l => exact key _ h
    | plain l => cases h
  · exact key _ h

/-- A training module with a model that itself has a submodule `model`, another submodule whose name begins with `model`,
and a metric: the hypotheses hold. -/
example : Named (⟨[], [("model".toList, [("model.w".toList, 1), ("b".toList, 2)]), ("model_ema".toList, [("w".toList, 3)]),
    ("train_psnr".toList, [])]⟩ : Module ℕ) :=
  ⟨by simp, by decide, by decide⟩

example : strip modelPrefix (⟨[], [("model_ema".toList, [("w".toList, 3)]),
    ("model".toList, [("model.w".toList, 1), ("b".toList, 2)])]⟩ : Module ℕ).stateDict =
    [("model.w".toList, 1), ("b".toList, 2)] := by decide +kernel

end Verif.Train.Keys
