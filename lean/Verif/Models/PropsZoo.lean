import Verif.Models.Zoo
import Mathlib.Data.List.Nodup
import Mathlib.Tactic.NormNum

/-!
C107: pretrained models.
-/

namespace Verif.Models.Zoo

/-! ### Specification -/

/-- The models that `hubconf.py` and the table of `projects/illm/README.md` document: the name in the hub, whether the model was trained
with a discriminator, and the target rate in units of 0.00001 bits per pixel. -/
def documented : List (String × Bool × ℕ) := [
  ("msillm_quality_vlo1", true, 218), ("msillm_quality_vlo2", true, 438),
  ("msillm_quality_1", true, 3500), ("msillm_quality_2", true, 7000), ("msillm_quality_3", true, 14000),
  ("msillm_quality_4", true, 30000), ("msillm_quality_5", true, 45000), ("msillm_quality_6", true, 90000),
  ("noganms_quality_1", false, 3500), ("noganms_quality_2", false, 7000), ("noganms_quality_3", false, 14000),
  ("noganms_quality_4", false, 30000), ("noganms_quality_5", false, 45000), ("noganms_quality_6", false, 90000)]

/-- The `k` decimal digits of a number. -/
def digits : ℕ → ℕ → List Char
  | 0, _ => []
  | k + 1, n => digits k (n / 10) ++ [Char.ofNat (48 + n % 10)]

/-- A rate below one as text: a zero, a point, the five digits without the zeros at the end. -/
def rateText (n : ℕ) : List Char := ['0', '.'] ++ ((digits 5 n).reverse.dropWhile (· = '0')).reverse

/-- Where the weights of a model are published. -/
def published (gan : Bool) (rate : ℕ) : List Char :=
  "https://dl.fbaipublicfiles.com/NeuralCompression/2023-muckley-msillm/".toList ++
    (if gan then "msillm".toList else "noganms".toList) ++ "_target_".toList ++ rateText rate ++ "bpp.ckpt".toList

/-- Where the weights of the VQ-VAE are published. -/
def publishedVq : List Char :=
  "https://dl.fbaipublicfiles.com/NeuralCompression/2023-muckley-msillm/vqvae_xcit_p8_ch64_cb1024_h8.ckpt".toList

/-- `Names via name u a`: by the documentation, `name` is a model with architecture `a` whose weights are published at `u`. -/
inductive Names : Via → String → List Char → Arch → Prop
  | image (via : Via) (name : String) (gan : Bool) (rate : ℕ) (h : (name, gan, rate) ∈ documented) :
      Names via name (published gan rate) .hific
  | vqHub : Names .hub "msillm_vqvae_xcit_p8_ch64_cb1024_h8" publishedVq .vqvae
  | vqZoo : Names .zoo "vqvae_xcit_p8_ch64_cb1024_h8" publishedVq .vqvae

/-- The caller asks for pretrained weights: the hub gives them by default, the zoo does not. -/
def Asked (via : Via) (pretrained : Option Py) : Prop :=
  pretrained = some (.bool true) ∨ (via = .hub ∧ pretrained = none)

/-- The caller asks for a new model. -/
def AskedNew (via : Via) (pretrained : Option Py) : Prop :=
  pretrained = some (.bool false) ∨ (via = .zoo ∧ pretrained = none)

/-- Nothing is published during the history and no connection is closed early. -/
def Quiet {W : Type} : Event W → Prop
  | .call _ _ _ _ net => net ≠ .short
  | .publish _ _ => False
  | .remove _ => True

/-! ### Tables -/

/-- The table of the zoo by position: name, place of publication, architecture. -/
def rows : List (String × List Char × Arch) :=
  documented.map (fun d => (d.1, published d.2.1 d.2.2, Arch.hific)) ++
    [("vqvae_xcit_p8_ch64_cb1024_h8", publishedVq, .vqvae)]

theorem zoo_rows : ∀ r ∈ rows, ∃ f s, zoo.lookup r.1 = some (f, s) ∧ s ∈ f.valid ∧ url f s = r.2.1 ∧ f.arch = r.2.2 := by
  have key : ∀ r ∈ rows, (match zoo.lookup r.1 with
      | none => false
      | some (f, s) => decide (s ∈ f.valid ∧ url f s = r.2.1 ∧ f.arch = r.2.2)) = true := by decide +kernel
  intro r hr
  have := key r hr
  cases h : zoo.lookup r.1 with
  | none => rw [h] at this; simp at this
  | some p =>
    obtain ⟨f, s⟩ := p
    rw [h] at this
    exact ⟨f, s, rfl, by simpa using this⟩

theorem hub_rows : ∀ d ∈ documented, hub.lookup d.1 = some d.1 := by decide +kernel

theorem hub_vq : hub.lookup "msillm_vqvae_xcit_p8_ch64_cb1024_h8" = some "vqvae_xcit_p8_ch64_cb1024_h8" := by decide +kernel

theorem names_pairwise : (rows.map fun r => r.2.1).Nodup ∧ (rows.map fun r => baseName r.2.1).Nodup := by decide +kernel

/-- The URLs that the zoo uses. -/
theorem zoo_urls : ∀ e ∈ zoo, url e.2.1 e.2.2 ∈ rows.map fun r => r.2.1 := by decide +kernel

theorem base_inj {u v : List Char} (hu : u ∈ rows.map fun r => r.2.1) (hv : v ∈ rows.map fun r => r.2.1)
    (h : baseName u = baseName v) : u = v := by
  have hn := names_pairwise.2
  rw [← Function.comp_def, ← List.map_map] at hn
  exact List.inj_on_of_nodup_map hn hu hv h

variable {W : Type}

/-- A call by a documented name that asks for weights is a build with the documented place and architecture. -/
theorem call_asked (fits : Arch → W → Bool) (w : World W) {via : Via} {name : String} {u : List Char} {a : Arch}
    (hn : Names via name u a) {pretrained : Option Py} (ha : Asked via pretrained) (kwargs : List (String × Py))
    (net : Net) :
    u ∈ (rows.map fun r => r.2.1) ∧ call fits w via name pretrained kwargs net =
      (match fetch w net u with
        | (w', .error e) => (w', .error e)
        | (w', .ok x) => (w', if fits a x then .ok ⟨a, some x⟩ else .error .mismatch)) := by
  have zooCall : ∀ r ∈ rows, ∀ p, p = some (Py.bool true) → callZoo fits w net r.1 p kwargs =
      (match fetch w net r.2.1 with
        | (w', .error e) => (w', .error e)
        | (w', .ok x) => (w', if fits r.2.2 x then .ok ⟨r.2.2, some x⟩ else .error .mismatch)) := by
    intro r hr p hp
    obtain ⟨f, s, h1, h2, h3, h4⟩ := zoo_rows r hr
    unfold callZoo
    rw [h1, hp]
    simp only [Option.getD_some, if_true]
    unfold build
    simp only [h2, not_true_eq_false, if_false, h3, h4]
    rfl
  have hpy : pretrained.getD (.bool true) = .bool true := by
    rcases ha with rfl | ⟨-, rfl⟩ <;> rfl
  have hz : via = .zoo → pretrained = some (.bool true) := by
    rintro rfl
    rcases ha with h | ⟨h, -⟩
    · exact h
    · cases h
  cases hn with
  | image _ _ gan rate h =>
    have hr : (name, published gan rate, Arch.hific) ∈ rows :=
      List.mem_append_left _ (List.mem_map.2 ⟨_, h, rfl⟩)
    refine ⟨List.mem_map.2 ⟨_, hr, rfl⟩, ?_⟩
    cases via with
    | zoo => exact zooCall _ hr _ (hz rfl)
    | hub =>
      show callHub fits w net name pretrained kwargs = _
      unfold callHub
      rw [hub_rows _ h]
      exact zooCall _ hr _ (by rw [hpy])
  | vqHub =>
    have hr : ("vqvae_xcit_p8_ch64_cb1024_h8", publishedVq, Arch.vqvae) ∈ rows := List.mem_append_right _ (by simp)
    refine ⟨List.mem_map.2 ⟨_, hr, rfl⟩, ?_⟩
    show callHub fits w net "msillm_vqvae_xcit_p8_ch64_cb1024_h8" pretrained kwargs = _
    unfold callHub
    rw [hub_vq]
    exact zooCall _ hr _ (by rw [hpy])
  | vqZoo =>
    have hr : ("vqvae_xcit_p8_ch64_cb1024_h8", publishedVq, Arch.vqvae) ∈ rows := List.mem_append_right _ (by simp)
    exact ⟨List.mem_map.2 ⟨_, hr, rfl⟩, zooCall _ hr _ (hz rfl)⟩

/-- Whatever is called, the world changes as in a fetch of one of the published files, or not at all. -/
theorem call_world (fits : Arch → W → Bool) (w : World W) (via : Via) (name : String) (pretrained : Option Py)
    (kwargs : List (String × Py)) (net : Net) :
    (call fits w via name pretrained kwargs net).1 = w ∨
      ∃ u ∈ (rows.map fun r => r.2.1), (call fits w via name pretrained kwargs net).1 = (fetch w net u).1 := by
  have hz : ∀ name p, (callZoo fits w net name p kwargs).1 = w ∨
      ∃ u ∈ (rows.map fun r => r.2.1), (callZoo fits w net name p kwargs).1 = (fetch w net u).1 := by
    intro name p
    unfold callZoo
    cases h : zoo.lookup name with
    | none => exact .inl rfl
    | some fs =>
      obtain ⟨f, s⟩ := fs
      have hmem : ∃ e ∈ zoo, e.2 = (f, s) := by
        have : ∀ l : List (String × Family × String), l.lookup name = some (f, s) → ∃ e ∈ l, e.2 = (f, s) := by
          intro l
          induction l with
          | nil => intro h; simp at h
          | cons a l ih =>
            intro h
            rw [List.lookup_cons] at h
            cases hc : name == a.1 with
            | true => rw [hc] at h; exact ⟨a, by simp, by simpa using h⟩
            | false =>
              rw [hc] at h
              obtain ⟨e, he, h2⟩ := ih h
              exact ⟨e, by simp [he], h2⟩
        exact this _ h
      obtain ⟨e, he, h2⟩ := hmem
      have hu := zoo_urls e he
      rw [h2] at hu
      dsimp only
      unfold build
      split
      · exact .inl rfl
      · rename_i s' hs
        have : s' = s := by
          split_ifs at hs
          exact (Option.some.inj hs).symm
        subst this
        by_cases hv : s' ∈ f.valid
        · rw [if_neg (not_not.2 hv)]
          refine .inr ⟨_, hu, ?_⟩
          dsimp only
          rcases fetch w net (url f s') with ⟨w', e | x⟩ <;> rfl
        · rw [if_pos hv]
          exact .inl rfl
  cases via with
  | zoo => exact hz _ _
  | hub =>
    show (callHub fits w net name pretrained kwargs).1 = w ∨ _
    unfold call callHub
    cases h : hub.lookup name with
    | none => exact .inl rfl
    | some z => exact hz _ _

/-! ### Histories -/

/-- What holds of the cache: each published file that is there is the published one. -/
def Good (server : List Char → Option W) (w : World W) : Prop :=
  w.server = server ∧ ∀ u ∈ (rows.map fun r => r.2.1), ∀ f, w.cache (baseName u) = some f →
    ∃ x, f = .complete x ∧ server u = some x

theorem fetch_good {server : List Char → Option W} {w : World W} (hw : Good server w) {net : Net} (hnet : net ≠ .short)
    {u : List Char} (hu : u ∈ rows.map fun r => r.2.1) :
    Good server (fetch w net u).1 ∧ ∀ x, (fetch w net u).2 = .ok x → server u = some x ∧
      (fetch w net u).1.cache (baseName u) = some (.complete x) := by
  unfold fetch
  cases hc : w.cache (baseName u) with
  | some f =>
    obtain ⟨x, rfl, hx⟩ := hw.2 u hu f hc
    refine ⟨hw, ?_⟩
    rintro y ⟨⟩
    exact ⟨hx, hc⟩
  | none =>
    cases hs : w.server u with
    | none => cases net <;> exact ⟨hw, by rintro x ⟨⟩⟩
    | some x =>
      cases net with
      | down => exact ⟨hw, by rintro x ⟨⟩⟩
      | interrupted => exact ⟨hw, by rintro x ⟨⟩⟩
      | short => exact absurd rfl hnet
      | complete =>
        have hx : server u = some x := by rw [← hw.1]; exact hs
        refine ⟨⟨hw.1, ?_⟩, ?_⟩
        · intro v hv f hf
          by_cases e : baseName v = baseName u
          · have := base_inj hv hu e
            subst this
            simp only [World.put, Function.update_self, Option.some.injEq] at hf
            exact ⟨x, hf.symm, hx⟩
          · simp only [World.put, Function.update_of_ne e] at hf
            exact hw.2 v hv f hf
        · rintro y ⟨⟩
          exact ⟨hx, by simp [World.put]⟩

theorem step_good {fits : Arch → W → Bool} {server : List Char → Option W} {w : World W} (hw : Good server w) {e : Event W}
    (he : Quiet e) : Good server (step fits w e) := by
  cases e with
  | call via name pretrained kwargs net =>
    rcases call_world fits w via name pretrained kwargs net with h | ⟨u, hu, h⟩
    · show Good server (call fits w via name pretrained kwargs net).1
      rw [h]; exact hw
    · show Good server (call fits w via name pretrained kwargs net).1
      rw [h]; exact (fetch_good hw he hu).1
  | publish u x => exact he.elim
  | remove name =>
    refine ⟨hw.1, ?_⟩
    intro u hu f hf
    by_cases hn : baseName u = name
    · simp [step, hn] at hf
    · simp only [step, Function.update_of_ne hn] at hf
      exact hw.2 u hu f hf

theorem after_good {fits : Arch → W → Bool} {server : List Char → Option W} {w : World W} (hw : Good server w)
    {h : List (Event W)} (hq : ∀ e ∈ h, Quiet e) : Good server (after fits w h) := by
  induction h generalizing w with
  | nil => exact hw
  | cons e h ih => exact ih (step_good hw (hq e (by simp))) fun e he => hq e (by simp [he])

/-- The world of a user who has downloaded nothing. -/
def fresh (server : List Char → Option W) : World W := ⟨server, fun _ => none⟩

theorem fresh_good (server : List Char → Option W) : Good server (fresh server) := ⟨rfl, by simp [fresh]⟩

/-- **C107, weights.** After any history of calls, interrupted transfers and removed files (nothing is published meanwhile and
no connection is closed early), a documented call that asks for pretrained weights and returns gives a model of the
documented architecture with exactly the weights that are published for its documented rate. -/
theorem C107_weights_partial (fits : Arch → W → Bool) (server : List Char → Option W) (h : List (Event W))
    (hq : ∀ e ∈ h, Quiet e) {via : Via} {name : String} {u : List Char} {a : Arch} (hn : Names via name u a)
    {pretrained : Option Py} (ha : Asked via pretrained) (kwargs : List (String × Py)) {net : Net} (hnet : net ≠ .short)
    {m : Model W} (hm : (call fits (after fits (fresh server) h) via name pretrained kwargs net).2 = .ok m) :
    m.arch = a ∧ ∃ x, server u = some x ∧ m.weights = some x ∧ fits a x = true := by
  obtain ⟨hu, hc⟩ := call_asked fits (after fits (fresh server) h) hn ha kwargs net
  rw [hc] at hm
  have hg := (fetch_good (after_good (fits := fits) (fresh_good server) hq) hnet hu).2
  rcases hf : fetch (after fits (fresh server) h) net u with ⟨w', e | x⟩
  · rw [hf] at hm
    cases hm
  · rw [hf] at hm hg
    by_cases hfit : fits a x = true
    · simp only [hfit, if_true, Except.ok.injEq] at hm
      subst hm
      exact ⟨rfl, x, (hg x rfl).1, rfl, hfit⟩
    · simp only [hfit] at hm
      cases hm

/-- **C107, it returns.** After such a history, the call returns if the transfer is complete, provided that the weights are published
and fit.  Once it has returned, it returns the same model without a connection, whatever else is called in
between, until the file is removed. -/
theorem C107_returns_partial (fits : Arch → W → Bool) (server : List Char → Option W) (h : List (Event W))
    (hq : ∀ e ∈ h, Quiet e) {via : Via} {name : String} {u : List Char} {a : Arch} (hn : Names via name u a)
    {pretrained : Option Py} (ha : Asked via pretrained) (kwargs : List (String × Py)) (x : W) (hx : server u = some x)
    (hfit : fits a x = true) :
    (call fits (after fits (fresh server) h) via name pretrained kwargs .complete).2 = .ok ⟨a, some x⟩ ∧
    ∀ (h' : List (Event W)) (net : Net), (∀ e ∈ h', Quiet e ∧ e ≠ .remove (baseName u)) →
      (call fits (after fits (fresh server) (h ++ .call via name pretrained kwargs .complete :: h')) via name pretrained
        kwargs net).2 = .ok ⟨a, some x⟩ := by
  obtain ⟨hu, -⟩ := call_asked fits (fresh server) hn ha kwargs .complete
  have hg := after_good (fits := fits) (fresh_good server) hq
  have hfetch : ∃ w', fetch (after fits (fresh server) h) .complete u = (w', .ok x) ∧
      w'.cache (baseName u) = some (.complete x) := by
    have h2 := (fetch_good hg (net := .complete) (by decide) hu).2
    have : ∃ y, (fetch (after fits (fresh server) h) .complete u).2 = .ok y := by
      unfold fetch
      cases hc : (after fits (fresh server) h).cache (baseName u) with
      | some f =>
        obtain ⟨y, rfl, -⟩ := hg.2 u hu f hc
        exact ⟨y, rfl⟩
      | none =>
        have : (after fits (fresh server) h).server u = some x := by rw [hg.1]; exact hx
        simp only [this]
        exact ⟨x, rfl⟩
    obtain ⟨y, hy⟩ := this
    obtain ⟨h3, h4⟩ := h2 y hy
    rw [hx] at h3
    cases h3
    exact ⟨_, Prod.ext rfl hy, h4⟩
  obtain ⟨w', hw', hcache⟩ := hfetch
  constructor
  · rw [(call_asked fits (after fits (fresh server) h) hn ha kwargs .complete).2, hw']
    simp only [hfit, if_true]
  · intro h' net hh'
    have hstep : step fits (after fits (fresh server) h) (.call via name pretrained kwargs .complete) = w' := by
      show (call fits (after fits (fresh server) h) via name pretrained kwargs .complete).1 = w'
      rw [(call_asked fits (after fits (fresh server) h) hn ha kwargs .complete).2, hw']
    have hkeep : ∀ (l : List (Event W)) (w : World W), (∀ e ∈ l, Quiet e ∧ e ≠ .remove (baseName u)) →
        w.cache (baseName u) = some (.complete x) → (after fits w l).cache (baseName u) = some (.complete x) := by
      intro l
      induction l with
      | nil => exact fun w _ h => h
      | cons e l ih =>
        intro w hl hw
        refine ih (step fits w e) (fun e he => hl e (by simp [he])) ?_
        have he := hl e (by simp)
        cases e with
        | publish v y => exact hw
        | remove n =>
          have : baseName u ≠ n := fun e => he.2 (by rw [e])
          simpa only [step, Function.update_of_ne this] using hw
        | call via' name' pre' kw' net' =>
          show (call fits w via' name' pre' kw' net').1.cache (baseName u) = _
          rcases call_world fits w via' name' pre' kw' net' with h1 | ⟨v, hv, h1⟩
          · rw [h1]; exact hw
          · rw [h1]
            unfold fetch
            by_cases e : baseName v = baseName u
            · rw [e, hw]; exact hw
            · have e' : baseName u ≠ baseName v := fun h => e h.symm
              cases hc : w.cache (baseName v) with
              | some f => cases f <;> exact hw
              | none =>
                cases hs : w.server v with
                | none => cases net' <;> exact hw
                | some y =>
                  cases net' <;> first | exact hw | (simp only [World.put, Function.update_of_ne e']; exact hw)
    have hc : (after fits (fresh server) (h ++ .call via name pretrained kwargs .complete :: h')).cache (baseName u) =
        some (.complete x) := by
      unfold after
      rw [List.foldl_append, List.foldl_cons]
      show (after fits (step fits (after fits (fresh server) h) (.call via name pretrained kwargs .complete)) h').cache _ = _
      rw [hstep]
      exact hkeep h' w' hh' hcache
    rw [(call_asked fits _ hn ha kwargs net).2]
    unfold fetch
    simp only [hc, hfit, if_true]

/-- **C107, new models.** A documented call that asks for a new model returns one of the documented architecture without loading
anything, whatever the state of server, cache and connection, and changes nothing. -/
theorem C107_new (fits : Arch → W → Bool) (w : World W) {via : Via} {name : String} {u : List Char} {a : Arch}
    (hn : Names via name u a) {pretrained : Option Py} (ha : AskedNew via pretrained) (kwargs : List (String × Py))
    (net : Net) : call fits w via name pretrained kwargs net = (w, .ok ⟨a, none⟩) := by
  have zooCall : ∀ r ∈ rows, ∀ p : Option Py, p.getD (.bool false) = .bool false →
      callZoo fits w net r.1 p kwargs = (w, .ok ⟨r.2.2, none⟩) := by
    intro r hr p hp
    obtain ⟨f, s, h1, -, -, h4⟩ := zoo_rows r hr
    unfold callZoo
    rw [h1, ← h4]
    simp only [hp]
    rfl
  have hz : pretrained.getD (.bool false) = .bool false := by
    rcases ha with rfl | ⟨-, rfl⟩ <;> rfl
  have hh : via = .hub → pretrained = some (.bool false) := by
    rintro rfl
    rcases ha with h | ⟨h, -⟩
    · exact h
    · cases h
  cases hn with
  | image _ _ gan rate h =>
    have hr : (name, published gan rate, Arch.hific) ∈ rows :=
      List.mem_append_left _ (List.mem_map.2 ⟨_, h, rfl⟩)
    cases via with
    | zoo => exact zooCall _ hr _ hz
    | hub =>
      show callHub fits w net name pretrained kwargs = _
      unfold callHub
      rw [hub_rows _ h]
      exact zooCall _ hr _ (by rw [hh rfl]; rfl)
  | vqHub =>
    have hr : ("vqvae_xcit_p8_ch64_cb1024_h8", publishedVq, Arch.vqvae) ∈ rows := List.mem_append_right _ (by simp)
    show callHub fits w net "msillm_vqvae_xcit_p8_ch64_cb1024_h8" pretrained kwargs = _
    unfold callHub
    rw [hub_vq]
    exact zooCall _ hr _ (by rw [hh rfl]; rfl)
  | vqZoo =>
    have hr : ("vqvae_xcit_p8_ch64_cb1024_h8", publishedVq, Arch.vqvae) ∈ rows := List.mem_append_right _ (by simp)
    exact zooCall _ hr _ hz

/-- **C107, names.** Different documented models have different places of publication and different files in the cache; and the
text of a rate is what it should be. -/
theorem C107_files {via via' : Via} {name name' : String} {u u' : List Char} {a a' : Arch} (h : Names via name u a)
    (h' : Names via' name' u' a') :
    (baseName u = baseName u' → u = u' ∧ a = a') ∧ (via = via' → u = u' → name = name') := by
  have hrow : ∀ {v n u a}, Names v n u a → ∃ n', (n', u, a) ∈ rows ∧
      (n' = n ∨ (v = .hub ∧ n = "msillm_vqvae_xcit_p8_ch64_cb1024_h8" ∧ n' = "vqvae_xcit_p8_ch64_cb1024_h8")) := by
    intro v n u a h
    cases h with
    | image _ _ gan rate h => exact ⟨n, List.mem_append_left _ (List.mem_map.2 ⟨_, h, rfl⟩), .inl rfl⟩
    | vqHub => exact ⟨_, List.mem_append_right _ (by simp), .inr ⟨rfl, rfl, rfl⟩⟩
    | vqZoo => exact ⟨_, List.mem_append_right _ (by simp), .inl rfl⟩
  obtain ⟨n1, hr1, hn1⟩ := hrow h
  obtain ⟨n2, hr2, hn2⟩ := hrow h'
  have hu := List.mem_map_of_mem (f := fun r : String × List Char × Arch => r.2.1) hr1
  have hu' := List.mem_map_of_mem (f := fun r : String × List Char × Arch => r.2.1) hr2
  have same : u = u' → (n1, u, a) = (n2, u', a') := fun e => List.inj_on_of_nodup_map names_pairwise.1 hr1 hr2 e
  constructor
  · intro e
    have e := base_inj hu hu' e
    have := same e
    simp only [Prod.mk.injEq] at this
    exact ⟨this.2.1, this.2.2⟩
  · intro hv e
    have := same e
    simp only [Prod.mk.injEq] at this
    have hnot : ∀ {v n u a}, Names v n u a → v = .hub → n ≠ "vqvae_xcit_p8_ch64_cb1024_h8" := by
      intro v n u a h hv
      cases h with
      | image _ _ gan rate h =>
        rintro rfl
        revert h
        have : ∀ d ∈ documented, d.1 ≠ "vqvae_xcit_p8_ch64_cb1024_h8" := by decide +kernel
        exact fun h => this _ h rfl
      | vqHub => decide
      | vqZoo => cases hv
    rcases hn1 with rfl | ⟨v1, rfl, rfl⟩
    · rcases hn2 with rfl | ⟨v2, rfl, rfl⟩
      · exact this.1
      · exact absurd this.1 (hnot h (hv.trans v2))
    · rcases hn2 with rfl | ⟨v2, rfl, rfl⟩
      · exact absurd this.1.symm (hnot h' (hv.symm.trans v1))
      · rfl

/-- The specification on examples. -/
example : rateText 14000 = "0.14".toList ∧ rateText 218 = "0.00218".toList ∧ rateText 3500 = "0.035".toList ∧
    rateText 90000 = "0.9".toList ∧ baseName (published true 14000) = "msillm_target_0.14bpp.ckpt".toList := by
  decide +kernel

/-- Values that Python takes for true in a condition. -/
def Truthy : Py → Prop
  | .none => False
  | .bool b => b = true
  | .int n => n ≠ 0
  | .str s => s ≠ ""

/-- **C107 is violated.** (1) A value for `pretrained` that Python takes for true but that is not `True` itself gives a model
with random weights and no error, for every documented model.  (2) Other arguments are ignored, whatever they
are.  (3) After a connection that was closed early, the call raises for every state of server and connection, until the file
is removed by hand.  (4) After new weights are published, users with a cached file keep getting the old ones. -/
theorem C107_violated (fits : Arch → W → Bool) {via : Via} {name : String} {u : List Char} {a : Arch}
    (hn : Names via name u a) :
    (∀ (w : World W) (v : Py) (kwargs : List (String × Py)) (net : Net), Truthy v → v ≠ .bool true →
      (call fits w via name (some v) kwargs net).2 = .ok ⟨a, none⟩) ∧
    (∀ (w : World W) (p : Option Py) (kwargs kwargs' : List (String × Py)) (net : Net),
      call fits w via name p kwargs net = call fits w via name p kwargs' net) ∧
    (∀ (server : List Char → Option W) (x : W) (h : List (Event W)) (net : Net), server u = some x →
      (∀ e ∈ h, e ≠ .remove (baseName u)) →
      (call fits (after fits (fresh server) (.call via name (some (.bool true)) [] .short :: h)) via name
        (some (.bool true)) [] net).2 = .error .unreadable) ∧
    ∀ (server : List Char → Option W) (x y : W) (net : Net), server u = some x → fits a x = true →
      (call fits (after fits (fresh server) [.call via name (some (.bool true)) [] .complete, .publish u y]) via name
        (some (.bool true)) [] net).2 = .ok ⟨a, some x⟩ := by
  have ha : Asked via (some (.bool true)) := .inl rfl
  refine ⟨?_, ?_, ?_, ?_⟩
  · intro w v kwargs net _ hv
    have zooCall : ∀ r ∈ rows, callZoo fits w net r.1 (some v) kwargs = (w, .ok ⟨r.2.2, none⟩) := by
      intro r hr
      obtain ⟨f, s, h1, -, -, h4⟩ := zoo_rows r hr
      unfold callZoo
      rw [h1, ← h4]
      simp only [Option.getD_some, if_neg hv]
      rfl
    cases hn with
    | image _ _ gan rate h =>
      have hr : (name, published gan rate, Arch.hific) ∈ rows :=
        List.mem_append_left _ (List.mem_map.2 ⟨_, h, rfl⟩)
      cases via with
      | zoo => exact congrArg Prod.snd (zooCall _ hr)
      | hub =>
        show (callHub fits w net name (some v) kwargs).2 = _
        unfold callHub
        rw [hub_rows _ h]
        exact congrArg Prod.snd (zooCall _ hr)
    | vqHub =>
      have hr : ("vqvae_xcit_p8_ch64_cb1024_h8", publishedVq, Arch.vqvae) ∈ rows := List.mem_append_right _ (by simp)
      show (callHub fits w net "msillm_vqvae_xcit_p8_ch64_cb1024_h8" (some v) kwargs).2 = _
      unfold callHub
      rw [hub_vq]
      exact congrArg Prod.snd (zooCall _ hr)
    | vqZoo =>
      have hr : ("vqvae_xcit_p8_ch64_cb1024_h8", publishedVq, Arch.vqvae) ∈ rows := List.mem_append_right _ (by simp)
      exact congrArg Prod.snd (zooCall _ hr)
  · intro w p kwargs kwargs' net
    cases via <;> rfl
  · intro server x h net hx hh
    have key : ∀ (l : List (Event W)) (w : World W), (∀ e ∈ l, e ≠ .remove (baseName u)) →
        w.cache (baseName u) = some .torn → (after fits w l).cache (baseName u) = some .torn := by
      intro l
      induction l with
      | nil => exact fun w _ h => h
      | cons e l ih =>
        intro w hl hw
        refine ih (step fits w e) (fun e he => hl e (by simp [he])) ?_
        have he := hl e (by simp)
        cases e with
        | publish v y => exact hw
        | remove n =>
          have : baseName u ≠ n := fun e => he (by rw [e])
          simpa only [step, Function.update_of_ne this] using hw
        | call via' name' pre' kw' net' =>
          show (call fits w via' name' pre' kw' net').1.cache (baseName u) = _
          rcases call_world fits w via' name' pre' kw' net' with h1 | ⟨v, hv, h1⟩
          · rw [h1]; exact hw
          · rw [h1]
            unfold fetch
            by_cases e : baseName v = baseName u
            · rw [e, hw]; exact hw
            · have e' : baseName u ≠ baseName v := fun h => e h.symm
              cases hc : w.cache (baseName v) with
              | some f => cases f <;> exact hw
              | none =>
                cases hs : w.server v with
                | none => cases net' <;> exact hw
                | some y =>
                  cases net' <;> first | exact hw | (simp only [World.put, Function.update_of_ne e']; exact hw)
    have h0 : (step fits (fresh server) (.call via name (some (.bool true)) [] .short)).cache (baseName u) = some .torn := by
      show (call fits (fresh server) via name (some (.bool true)) [] .short).1.cache (baseName u) = _
      rw [(call_asked fits _ hn ha [] .short).2]
      simp [fetch, fresh, hx, World.put]
    have hc := key h _ hh h0
    have : after fits (fresh server) (.call via name (some (.bool true)) [] .short :: h) =
        after fits (step fits (fresh server) (.call via name (some (.bool true)) [] .short)) h := rfl
    rw [this, (call_asked fits _ hn ha [] net).2]
    unfold fetch
    simp only [hc]
  · intro server x y net hx hfit
    have hw : step fits (fresh server) (.call via name (some (.bool true)) [] .complete) =
        (fresh server).put (baseName u) (.complete x) := by
      show (call fits (fresh server) via name (some (.bool true)) [] .complete).1 = _
      rw [(call_asked fits _ hn ha [] .complete).2]
      simp [fetch, fresh, hx]
    have : after fits (fresh server) [.call via name (some (.bool true)) [] .complete, .publish u y] =
        step fits (step fits (fresh server) (.call via name (some (.bool true)) [] .complete)) (.publish u y) := rfl
    rw [this, (call_asked fits _ hn ha [] net).2, hw]
    simp [fetch, step, World.put, hfit]

/-- The hypotheses are met: the README's model is documented, `pretrained=1` is a value that Python takes for true, and a history
with an interrupted transfer is quiet. -/
example : Names .hub "msillm_quality_3" (published true 14000) .hific ∧ Truthy (.int 1) ∧
    ∀ e ∈ ([.call .hub "noganms_quality_3" none [] .interrupted, .call .zoo "msillm_quality_6" none [] .down,
      .remove "x".toList] : List (Event ℕ)), Quiet e := by
  refine ⟨.image _ _ _ _ (by decide +kernel), by simp [Truthy], ?_⟩
  intro e he
  simp at he
  rcases he with rfl | rfl | rfl <;> simp [Quiet]

end Verif.Models.Zoo
