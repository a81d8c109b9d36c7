import Verif.Functional.Lpips
import Mathlib.Tactic.Linarith
import Mathlib.Tactic.NormNum
import Mathlib.Tactic.Ring
import Mathlib.Tactic.Positivity
import Mathlib.Tactic.FieldSimp
import Mathlib.Algebra.BigOperators.Field

/-!
C129: the functional LPIPS.
-/

namespace Verif.Functional.Lpips

open scoped BigOperators

open Verif.Functional.MsSsim (Out reduce)

variable {Img : Type}

/-! ### Specification -/

/-- The documented networks, versions and reductions. -/
def networks : List String := ["alex", "vgg", "squeeze"]
def versions : List String := ["0.0", "0.1"]
def reductions : List String := ["none", "mean", "sum"]

/-- The squared distance of the directions of two features. -/
noncomputable def gap {C : ℕ} (w : ℕ → ℝ) (a b : Fin C → ℝ) : ℝ :=
  ∑ c : Fin C, w c * (a c / (√(∑ j, a j ^ 2) + 1e-10) - b c / (√(∑ j, b j ^ 2) + 1e-10)) ^ 2

/-- The distance of two images in one layer: the mean over the positions. -/
noncomputable def layerDistance (l : Layer Img) (w : ℕ → ℝ) (x y : Img) : ℝ :=
  (∑ p, gap w (l.feat x p) (l.feat y p)) / l.P

/-- The documented distance of two images in `[-1, 1]`: with calibration the sum over the layers with the weights of the
version, without it the mean over the layers. -/
noncomputable def documented (pkg : Package Img) (net version : String) (calibrated : Bool) (x y : Img) : ℝ :=
  let L := pkg.layers net
  if calibrated then (L.zipIdx.map fun l => layerDistance l.1 (pkg.lin net version l.2) x y).sum
  else (L.map fun l => layerDistance l (fun _ => 1) x y).sum / L.length

/-! ### C129 -/

/-- **C129, arguments.** A call on the CPU with batches of one size is refused, with `ValueError`, exactly if the
network, the version or the reduction is not a documented one. -/
theorem C129_arguments (pkg : Package Img) (xs ys : List Img) (net : String) (cal : Bool) (version : String)
    (normalize : Bool) (red : String) (hlen : xs.length = ys.length) :
    (lpips pkg xs ys net cal version normalize red = .error .value ↔
      net ∉ networks ∨ version ∉ versions ∨ red ∉ reductions) ∧
    lpips pkg xs ys net cal version normalize red ≠ .error .runtime := by
  unfold lpips networks versions reductions
  by_cases h1 : net ∈ ["alex", "vgg", "squeeze"]
  · by_cases h2 : version ∈ ["0.0", "0.1"]
    · rw [if_neg (not_not.2 h1), if_neg (not_not.2 h2), if_neg (by simp)]
      simp only [pairs, hlen, if_true]
      unfold reduce
      by_cases m : red = "mean"
      · subst m; simp [h1, h2]
      · by_cases s : red = "sum"
        · subst s; simp [h1, h2]
        · by_cases n : red = "none"
          · subst n; simp [h1, h2]
          · simp [m, s, n]
    · rw [if_neg (not_not.2 h1), if_pos h2]
      simp [h2]
  · rw [if_pos h1]
    simp [h1]

theorem lpips_ok (pkg : Package Img) (ps : List (Img × Img)) (net : String) (cal : Bool) (version : String)
    (normalize : Bool) (hn : net ∈ networks) (hv : version ∈ versions) (red : String) :
    lpips pkg (ps.map Prod.fst) (ps.map Prod.snd) net cal version normalize red =
      match reduce red (ps.map fun p => forward pkg net version cal normalize p.1 p.2) with
      | .error _ => .error .value
      | .ok r => .ok r := by
  unfold networks at hn
  unfold versions at hv
  unfold lpips
  rw [if_neg (not_not.2 hn), if_neg (not_not.2 hv), if_neg (by simp)]
  have : pairs (ps.map Prod.fst) (ps.map Prod.snd) = .ok ps := by
    unfold pairs
    rw [if_pos (by simp)]
    congr 1
    induction ps with
    | nil => rfl
    | cons p ps ih => simp [ih]
  rw [this]
  rfl

/-- **C129, reductions.** For documented networks and versions there is one number for every pair of images, that does
not depend on the other pairs: without reduction these numbers are returned, in order, `sum` is their sum, and `mean`
their mean. -/
theorem C129_reductions (pkg : Package Img) (net : String) (cal : Bool) (version : String) (normalize : Bool)
    (hn : net ∈ networks) (hv : version ∈ versions) :
    ∃ d : Img → Img → ℝ, ∀ ps : List (Img × Img),
      let call := fun red => lpips pkg (ps.map Prod.fst) (ps.map Prod.snd) net cal version normalize red
      call "none" = .ok (.perImage (ps.map fun p => d p.1 p.2)) ∧
      call "sum" = .ok (.scalar (ps.map fun p => d p.1 p.2).sum) ∧
      call "mean" = .ok (.scalar ((ps.map fun p => d p.1 p.2).sum / ps.length)) := by
  refine ⟨forward pkg net version cal normalize, fun ps => ?_⟩
  intro call
  simp only [call, lpips_ok pkg ps net cal version normalize hn hv]
  refine ⟨?_, ?_, ?_⟩ <;> simp [reduce]

theorem layerTerm_eq (l : Layer Img) (w : ℕ → ℝ) (x y : Img) : layerTerm l w x y = layerDistance l w x y := rfl

theorem gap_self {C : ℕ} (w : ℕ → ℝ) (a : Fin C → ℝ) : gap w a a = 0 := by simp [gap]

theorem gap_comm {C : ℕ} (w : ℕ → ℝ) (a b : Fin C → ℝ) : gap w a b = gap w b a := by
  unfold gap
  exact Finset.sum_congr rfl fun c _ => by ring

theorem gap_nonneg {C : ℕ} (w : ℕ → ℝ) (h : ∀ c, 0 ≤ w c) (a b : Fin C → ℝ) : 0 ≤ gap w a b :=
  Finset.sum_nonneg fun c _ => mul_nonneg (h c) (sq_nonneg _)

/-- **C129, distance.** The number of a pair is zero for equal images, symmetric, and not negative if the weights of the
linear layers are not (without calibration: always). -/
theorem C129_distance (pkg : Package Img) (net : String) (cal : Bool) (version : String) (normalize : Bool)
    (hn : net ∈ networks) (hv : version ∈ versions) (x y : Img) :
    let call := fun x y => lpips pkg [x] [y] net cal version normalize
    call x x = .ok (.scalar 0) ∧ call x y = call y x ∧
      ((cal = true → ∀ l c, 0 ≤ pkg.lin net version l c) → ∃ d, 0 ≤ d ∧ call x y = .ok (.scalar d)) := by
  have hcall : ∀ x y, lpips pkg [x] [y] net cal version normalize =
      .ok (.scalar (forward pkg net version cal normalize x y)) := by
    intro x y
    have := lpips_ok pkg [(x, y)] net cal version normalize hn hv "mean"
    simpa [reduce] using this
  intro call
  simp only [call, hcall]
  refine ⟨?_, ?_, fun h => ⟨_, ?_, rfl⟩⟩
  · have e : forward pkg net version cal normalize x x = 0 := by
      unfold forward
      refine List.sum_eq_zero fun t ht => ?_
      obtain ⟨l, _, rfl⟩ := List.mem_map.1 ht
      simp only [layerTerm_eq, layerDistance, gap_self]
      simp
    rw [e]
  · have e : forward pkg net version cal normalize x y = forward pkg net version cal normalize y x := by
      unfold forward
      dsimp only
      congr 1
      refine List.map_congr_left fun l _ => ?_
      simp only [layerTerm_eq, layerDistance]
      congr 1
      exact Finset.sum_congr rfl fun p _ => gap_comm _ _ _
    rw [e]
  · unfold forward
    refine List.sum_nonneg fun t ht => ?_
    obtain ⟨l, _, rfl⟩ := List.mem_map.1 ht
    simp only [layerTerm_eq, layerDistance]
    refine div_nonneg (Finset.sum_nonneg fun p _ => gap_nonneg _ (fun c => ?_) _ _) (Nat.cast_nonneg _)
    cases cal
    · simp
    · simpa using h rfl l.2 c

/-- **C129, calibrated: what holds.** With calibration, version "0.0" gives the documented sum for images in `[-1, 1]`,
and version "0.1" gives it for the images after the package's scaling of the channels; `normalize` maps the images from
`[0, 1]` to `[-1, 1]` first. -/
theorem C129_calibrated_partial (pkg : Package Img) (net : String) (normalize : Bool) (hn : net ∈ networks) (x y : Img) :
    let pre := fun z => if normalize then pkg.signed z else z
    lpips pkg [x] [y] net true "0.0" normalize = .ok (.scalar (documented pkg net "0.0" true (pre x) (pre y))) ∧
    lpips pkg [x] [y] net true "0.1" normalize =
      .ok (.scalar (documented pkg net "0.1" true (pkg.scaling (pre x)) (pkg.scaling (pre y)))) := by
  intro pre
  constructor
  · have := lpips_ok pkg [(x, y)] net true "0.0" normalize hn (by simp [versions]) "mean"
    simp only [List.map_cons, List.map_nil, reduce] at this
    rw [this]
    simp [documented, forward, layerTerm_eq, pre]
  · have := lpips_ok pkg [(x, y)] net true "0.1" normalize hn (by simp [versions]) "mean"
    simp only [List.map_cons, List.map_nil, reduce] at this
    rw [this]
    simp [documented, forward, layerTerm_eq, pre]

/-- **C129 is violated: average over the layers.** Without calibration the layers are not averaged but added: the value is
the documented one times the number of layers (5 for AlexNet and VGG, 7 for SqueezeNet). -/
theorem C129_violated_average (pkg : Package Img) (net : String) (hn : net ∈ networks) (hL : pkg.layers net ≠ [])
    (x y : Img) :
    lpips pkg [x] [y] net false "0.0" =
      .ok (.scalar ((pkg.layers net).length * documented pkg net "0.0" false x y)) := by
  have := lpips_ok pkg [(x, y)] net false "0.0" false hn (by simp [versions]) "mean"
  simp only [List.map_cons, List.map_nil, reduce] at this
  rw [this]
  have h0 : ((pkg.layers net).length : ℝ) ≠ 0 := by
    simpa using hL
  have e : (pkg.layers net).zipIdx.map (fun l => layerTerm l.1 (fun _ => 1) x y) =
      (pkg.layers net).map fun l => layerDistance l (fun _ => 1) x y := by
    have : ∀ (L : List (Layer Img)) k, (L.zipIdx k).map (fun l => layerTerm l.1 (fun _ => 1) x y) =
        L.map fun l => layerDistance l (fun _ => 1) x y := by
      intro L
      induction L with
      | nil => intro k; rfl
      | cons a L ih => intro k; rw [List.zipIdx_cons, List.map_cons, List.map_cons, ih]; rfl
    exact this _ 0
  simp only [documented, forward, Bool.false_eq_true, if_false, show ("0.0" : String) ≠ "0.1" by decide, if_true,
    List.sum_cons, List.sum_nil, List.length_singleton, Nat.cast_one, div_one, add_zero, e]
  congr 2
  field_simp

/-- The package with one network of one layer, the red channel of a pixel, and the real scaling of that channel. -/
noncomputable def red : Package ℝ where
  layers := fun _ => [⟨1, 1, fun x _ _ => x⟩]
  lin := fun _ _ _ _ => 1
  scaling := fun x => (x - -0.030) / 0.458
  signed := fun x => 2 * x - 1

theorem red_value (version : String) (x y : ℝ) :
    forward red "alex" version false false x y =
      let s := fun z : ℝ => if version = "0.1" then (z - -0.030) / 0.458 else z
      (s x / (|s x| + 1e-10) - s y / (|s y| + 1e-10)) ^ 2 := by
  by_cases h : version = "0.1"
  · simp [forward, red, layerTerm, normalizeTensor, h, Real.sqrt_sq_eq_abs]
  · simp [forward, red, layerTerm, normalizeTensor, h, Real.sqrt_sq_eq_abs]

/-- **C129 is violated: the version is not ignored.** Without calibration, where the version of the linear weights is said
to be ignored, it changes the value (it also chooses whether the input is scaled), and an unknown version is refused. -/
theorem C129_violated_version :
    (∃ d d', lpips red [-0.030] [0.030] "alex" false "0.0" = .ok (.scalar d) ∧
      lpips red [-0.030] [0.030] "alex" false "0.1" = .ok (.scalar d') ∧ 3 < d ∧ d' < 1) ∧
    ∀ (pkg : Package Img) (xs ys : List Img) (version : String), version ∉ versions →
      lpips pkg xs ys "alex" false version = .error .value := by
  refine ⟨⟨forward red "alex" "0.0" false false (-0.030) 0.030, forward red "alex" "0.1" false false (-0.030) 0.030,
    ?_, ?_, ?_, ?_⟩, ?_⟩
  · have := lpips_ok red [(-0.030, 0.030)] "alex" false "0.0" false (by simp [networks]) (by simp [versions]) "mean"
    simpa [reduce] using this
  · have := lpips_ok red [(-0.030, 0.030)] "alex" false "0.1" false (by simp [networks]) (by simp [versions]) "mean"
    simpa [reduce] using this
  · have := red_value "0.0" (-0.030) 0.030
    simp only [show ("0.0" : String) ≠ "0.1" by decide, if_false] at this
    rw [this, abs_of_neg (by norm_num), abs_of_pos (by norm_num)]
    norm_num
  · have := red_value "0.1" (-0.030) 0.030
    simp only [if_true] at this
    rw [this]
    rw [show ((-0.030 : ℝ) - -0.030) / 0.458 = 0 by norm_num, abs_of_pos (a := ((0.030 : ℝ) - -0.030) / 0.458) (by norm_num)]
    norm_num
  · intro pkg xs ys version hv
    unfold lpips
    unfold versions at hv
    rw [if_neg (by simp), if_pos hv]

/-- **C129 is violated: devices.** The network stays on the CPU: for images on another device every call with valid
arguments raises `RuntimeError`. -/
theorem C129_violated_device (pkg : Package Img) (xs ys : List Img) (net : String) (cal : Bool) (version : String)
    (normalize : Bool) (red : String) (hn : net ∈ networks) (hv : version ∈ versions) :
    lpips pkg xs ys net cal version normalize red .cuda = .error .runtime := by
  unfold networks at hn
  unfold versions at hv
  unfold lpips
  rw [if_neg (not_not.2 hn), if_neg (not_not.2 hv), if_pos (by simp)]

/-- **C129, broadcasting.** A single prediction is compared with all targets, without notice; other batches of different
sizes are refused. -/
theorem C129_broadcast (pkg : Package Img) (x : Img) (ys : List Img) (net : String) (cal : Bool) (version : String)
    (normalize : Bool) (hn : net ∈ networks) (hv : version ∈ versions) :
    lpips pkg [x] ys net cal version normalize "none" =
      lpips pkg (ys.map fun _ => x) ys net cal version normalize "none" ∧
    ∀ xs zs : List Img, xs.length ≠ zs.length → xs.length ≠ 1 → zs.length ≠ 1 →
      lpips pkg xs zs net cal version normalize "none" = .error .runtime := by
  have hp : pairs [x] ys = .ok (ys.map fun y => (x, y)) := by
    unfold pairs
    split_ifs with h
    · match ys, h with
      | [y], _ => rfl
    · rfl
  have hp' : pairs (ys.map fun _ => x) ys = .ok (ys.map fun y => (x, y)) := by
    unfold pairs
    rw [if_pos (by simp)]
    congr 1
    clear hp
    induction ys with
    | nil => rfl
    | cons y ys ih => simpa using ih
  constructor
  · unfold lpips
    rw [hp, hp']
  · intro xs zs h h1 h2
    unfold networks at hn
    unfold versions at hv
    unfold lpips
    rw [if_neg (not_not.2 hn), if_neg (not_not.2 hv), if_neg (by simp)]
    have : pairs xs zs = .error .runtime := by
      unfold pairs
      rw [if_neg h]
      match xs, zs, h1, h2 with
      | [], [], _, _ => rfl
      | [], _ :: _ :: _, _, _ => rfl
      | _ :: _ :: _, [], _, _ => rfl
      | _ :: _ :: _, _ :: _ :: _, _, _ => rfl
    rw [this]

end Verif.Functional.Lpips
