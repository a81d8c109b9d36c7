import Verif.Diffusion.Statistics
import Verif.Diffusion.Props
import Mathlib.Tactic.FieldSimp
import Mathlib.Tactic.Ring
import Mathlib.Algebra.BigOperators.Field

/-!
C64, the reported rates.
-/

namespace Verif.Diffusion

variable {M D R Λ P I : Type}

/-- What happened in a history of calls: the number of data points encoded and decoded, and whether a call found the message
exhausted. -/
structure Outcome where
  encoded : Nat
  decoded : Nat
  exhausted : Bool

/-- Running a history, and what happened. -/
def run (S : Setup M D R Λ P I) (inRange shapeOk : D → Bool) : List (Op D) → State M → Outcome × State M
  | [], s => (⟨0, 0, false⟩, s)
  | .encode d :: ops, s =>
    let r := run S inRange shapeOk ops (encode S inRange shapeOk s d).1
    match (encode S inRange shapeOk s d).2 with
    | .ok _ => ({ r.1 with encoded := r.1.encoded + 1 }, r.2)
    | .error .value => r
    | .error .exhausted => ({ r.1 with exhausted := true }, r.2)
  | .decode :: ops, s =>
    let r := run S inRange shapeOk ops (decode S s).1
    match (decode S s).2 with
    | .ok _ => ({ r.1 with decoded := r.1.decoded + 1 }, r.2)
    | .error .value => r
    | .error .exhausted => ({ r.1 with exhausted := true }, r.2)

theorem run_snd (S : Setup M D R Λ P I) (rg sh : D → Bool) (ops : List (Op D)) (s : State M) :
    (run S rg sh ops s).2 = ops.foldl (applyOp S rg sh) s := by
  induction ops generalizing s with
  | nil => rfl
  | cons op ops ih =>
    cases op with
    | encode d =>
      rw [List.foldl_cons, ← ih]
      rw [run.eq_2]
      dsimp only
      rcases (encode S rg sh s d).2 with (_ | _) | _ <;> rfl
    | decode =>
      rw [List.foldl_cons, ← ih]
      rw [run.eq_3]
      dsimp only
      rcases (decode S s).2 with (_ | _) | _ <;> rfl

theorem decode_error {S : Setup M D R Λ P I} {s s' : State M} {e : Err} (h : decode S s = (s', .error e)) :
    e = .exhausted ∧ s'.message = s.message ∧ s'.dataCount = s.dataCount ∧ s'.initialBytes = s.initialBytes := by
  unfold decode at h
  rcases hp : priorPop S S.steps [] s.counters s.message with ⟨k, _ | ⟨m1, ls⟩⟩
  · rw [hp] at h; simp only [Prod.mk.injEq, Except.error.injEq] at h
    obtain ⟨rfl, rfl⟩ := h
    exact ⟨rfl, rfl, rfl, rfl⟩
  · rw [hp] at h
    dsimp only at h
    rcases hq : trackPop S (likelihood S ls) 0 k m1 with ⟨k1, _ | ⟨m2, d1⟩⟩
    · rw [hq] at h; simp only [Prod.mk.injEq, Except.error.injEq] at h
      obtain ⟨rfl, rfl⟩ := h
      exact ⟨rfl, rfl, rfl, rfl⟩
    · rw [hq] at h; simp at h

theorem encode_error {S : Setup M D R Λ P I} {rg sh : D → Bool} {s s' : State M} {d : D} {e : Err}
    (h : encode S rg sh s d = (s', .error e)) :
    (e = .value → s' = s) ∧ s'.message = s.message ∧ s'.dataCount = s.dataCount ∧ s'.initialBytes = s.initialBytes := by
  unfold encode at h
  split at h
  · simp only [Prod.mk.injEq] at h; rw [← h.1]; exact ⟨fun _ => rfl, rfl, rfl, rfl⟩
  split at h
  · simp only [Prod.mk.injEq] at h; rw [← h.1]; exact ⟨fun _ => rfl, rfl, rfl, rfl⟩
  unfold encodeCore at h
  rcases hp : posteriorPop S (S.toData d) S.steps [] s.counters s.message with ⟨k, _ | ⟨m1, ls⟩⟩
  · rw [hp] at h; simp only [Prod.mk.injEq, Except.error.injEq] at h
    obtain ⟨rfl, rfl⟩ := h
    exact ⟨fun h => (by cases h), rfl, rfl, rfl⟩
  · rw [hp] at h; simp at h

theorem encode_ok_initial {S : Setup M D R Λ P I} {rg sh : D → Bool} {s s' : State M} {d : D} {m : M}
    (h : encode S rg sh s d = (s', .ok m)) : s'.dataCount = s.dataCount + 1 ∧ s'.initialBytes = s.initialBytes := by
  obtain ⟨-, -, h⟩ := encode_ok h
  obtain ⟨k, m1, ls, hp, hm, hc, hmm, hk, hi, -⟩ := encodeCore_ok h
  exact ⟨hc, hi⟩

/-- The invariant of a history: the count and the initial size, and with tracking the net number of bytes. -/
theorem run_spec (S : Setup M D R Λ P I) (rg sh : D → Bool) (ops : List (Op D)) (s : State M) :
    (run S rg sh ops s).2.dataCount = s.dataCount + (run S rg sh ops s).1.encoded - (run S rg sh ops s).1.decoded ∧
    (run S rg sh ops s).2.initialBytes = s.initialBytes ∧
    (S.track = true → (run S rg sh ops s).1.exhausted = false →
      (total S.steps (run S rg sh ops s).2.counters.push - total S.steps (run S rg sh ops s).2.counters.pop) -
        (total S.steps s.counters.push - total S.steps s.counters.pop) =
        S.nbytes (run S rg sh ops s).2.message - S.nbytes s.message) := by
  induction ops generalizing s with
  | nil => exact ⟨by simp [run], rfl, fun _ _ => by simp [run]⟩
  | cons op ops ih =>
    cases op with
    | encode d =>
      rcases he : encode S rg sh s d with ⟨s', e | m⟩
      · obtain ⟨e0, e1, e2, e3⟩ := encode_error he
        obtain ⟨h1, h2, h3⟩ := ih s'
        cases e with
        | value =>
          obtain rfl := e0 rfl
          have hr : run S rg sh (.encode d :: ops) s' = run S rg sh ops s' := by
            rw [run.eq_2]; simp only [he]
          rw [hr]
          exact ⟨h1, h2, h3⟩
        | exhausted =>
          have hr : run S rg sh (.encode d :: ops) s = ({ (run S rg sh ops s').1 with exhausted := true }, (run S rg sh ops s').2) := by
            rw [run.eq_2]; simp only [he]
          rw [hr]
          exact ⟨by rw [h1, e2], by rw [h2, e3], fun _ h => by cases h⟩
      · obtain ⟨e1, e2⟩ := encode_ok_initial he
        obtain ⟨h1, h2, h3⟩ := ih s'
        have hr : run S rg sh (.encode d :: ops) s =
            ({ (run S rg sh ops s').1 with encoded := (run S rg sh ops s').1.encoded + 1 }, (run S rg sh ops s').2) := by
          rw [run.eq_2]; simp only [he]
        rw [hr]
        refine ⟨?_, by rw [h2, e2], fun ht hx => ?_⟩
        · rw [h1, e1]; push_cast; ring
        · have := (C64_tracking S ht rg sh s s').1 d m he
          have := h3 ht hx
          dsimp only at *
          omega
    | decode =>
      rcases he : decode S s with ⟨s', e | ⟨m, d⟩⟩
      · obtain ⟨e0, e1, e2, e3⟩ := decode_error he
        obtain ⟨h1, h2, h3⟩ := ih s'
        subst e0
        have hr : run S rg sh (.decode :: ops) s = ({ (run S rg sh ops s').1 with exhausted := true }, (run S rg sh ops s').2) := by
          rw [run.eq_3]; simp only [he]
        rw [hr]
        exact ⟨by rw [h1, e2], by rw [h2, e3], fun _ h => by cases h⟩
      · obtain ⟨k, m1, ls, k1, m2, hp, hq, hm, hc, hmm, hk, hi, -⟩ := decode_ok he
        obtain ⟨h1, h2, h3⟩ := ih s'
        have hr : run S rg sh (.decode :: ops) s =
            ({ (run S rg sh ops s').1 with decoded := (run S rg sh ops s').1.decoded + 1 }, (run S rg sh ops s').2) := by
          rw [run.eq_3]; simp only [he]
        rw [hr]
        refine ⟨?_, by rw [h2, hi], fun ht hx => ?_⟩
        · rw [h1, hc]; push_cast; ring
        · have := (C64_tracking S ht rg sh s s').2 d m he
          have := h3 ht hx
          dsimp only at *
          omega

/-- The value of `stats`. -/
def statsValue (S : Setup M D R Λ P I) (b c h w : Nat) (s : State M) : Stats where
  samples := s.dataCount * b
  total := ((8 * S.nbytes s.message : Int) / (s.dataCount * (b * c * h * w) : Int) : ℚ)
  used := ((8 * (S.nbytes s.message - s.initialBytes + s.extraBytes) : Int) / (s.dataCount * (b * c * h * w) : Int) : ℚ)
  effective := ((8 * (S.nbytes s.message - s.initialBytes) : Int) / (s.dataCount * (b * c * h * w) : Int) : ℚ)
  push := if S.track then some fun k => ((8 * s.counters.push k : Int) / (s.dataCount * (b * c * h * w) : Int) : ℚ) else none
  pop := if S.track then some fun k => ((8 * s.counters.pop k : Int) / (s.dataCount * (b * c * h * w) : Int) : ℚ) else none

theorem stats_some (S : Setup M D R Λ P I) (b c h w : Nat) (s : State M) (hz : s.dataCount * (b * c * h * w : Int) ≠ 0) :
    stats S b c h w s = some (statsValue S b c h w s) := by
  have e : ∀ n, bytesToBpd s.dataCount (b * c * h * w) n = some ((8 * n : Int) / (s.dataCount * (b * c * h * w) : Int) : ℚ) :=
    fun n => if_neg hz
  unfold stats
  simp only [e, statistics]
  rfl

/-- **C64, the rates.** For a codec for data of shape `[b, c, h, w]` that was started with the message `m0`, after every history of
calls (of which some may have raised): `statistics` raises exactly if as many data points were decoded as encoded (or the
shape is empty).  Otherwise `samples` is the number of images that are in the message, the total rate times the number of
values of all these images is the number of bits of the message, and the effective rate that of the bits added to `m0`.
If tracking is on and no call found the message exhausted, the rates of all steps, pushed minus popped, add up to the
effective rate. -/
theorem C64_rates (S : Setup M D R Λ P I) (rg sh : D → Bool) (b c h w : Nat) (m0 : M) (ops : List (Op D)) :
    let o := (run S rg sh ops (fresh S m0)).1
    let s := ops.foldl (applyOp S rg sh) (fresh S m0)
    let values : ℚ := ((o.encoded : ℚ) - o.decoded) * b * (c * h * w)
    (stats S b c h w s = none ↔ o.encoded = o.decoded ∨ b * c * h * w = 0) ∧
    ∀ r, stats S b c h w s = some r →
      r.samples = ((o.encoded : Int) - o.decoded) * b ∧
      r.total * values = 8 * S.nbytes s.message ∧
      r.effective * values = 8 * ((S.nbytes s.message : ℚ) - S.nbytes m0) ∧
      (S.track = false → r.push = none ∧ r.pop = none) ∧
      (S.track = true → ∃ push pop, r.push = some push ∧ r.pop = some pop ∧
        (o.exhausted = false →
          (∑ k ∈ Finset.range (S.steps + 1), push k) - ∑ k ∈ Finset.range (S.steps + 1), pop k = r.effective)) := by
  intro o s values
  obtain ⟨h1, h2, h3⟩ := run_spec S rg sh ops (fresh S m0)
  rw [run_snd] at h1 h2 h3
  change s.dataCount = 0 + (o.encoded : Int) - o.decoded at h1
  change s.initialBytes = (S.nbytes m0 : Int) at h2
  rw [zero_add] at h1
  by_cases hz : s.dataCount * (b * c * h * w : Int) = 0
  · have hn : stats S b c h w s = none := by
      unfold stats bytesToBpd
      simp [hz]
    refine ⟨⟨fun _ => ?_, fun _ => hn⟩, fun r hr => by rw [hn] at hr; cases hr⟩
    rcases mul_eq_zero.1 hz with hz | hz
    · left; omega
    · right; exact_mod_cast hz
  · have hs := hz
    rw [← ne_eq] at hs
    have hsome := stats_some S b c h w s hs
    refine ⟨⟨fun hn => (by rw [hsome] at hn; cases hn), fun hn => ?_⟩, fun r hr => ?_⟩
    · exfalso
      apply hz
      rcases hn with hn | hn
      · rw [h1, hn, sub_self, zero_mul]
      · have : (b * c * h * w : Int) = 0 := by exact_mod_cast hn
        rw [this, mul_zero]
    · rw [hsome] at hr
      injection hr with hr
      subst hr
      have hv : ((s.dataCount * (b * c * h * w : Int) : Int) : ℚ) = values := by
        rw [h1]; push_cast; ring
      have hv0 : values ≠ 0 := by rw [← hv]; exact_mod_cast hz
      simp only [statsValue, hv]
      refine ⟨by rw [h1], by field_simp; push_cast; ring, by rw [h2]; field_simp; push_cast; ring,
        fun ht => by simp [ht], fun ht => ⟨_, _, if_pos ht, if_pos ht, fun hx => ?_⟩⟩
      have h4 := h3 ht hx
      have z : total S.steps (fresh S m0).counters.push = 0 ∧ total S.steps (fresh S m0).counters.pop = 0 := by
        constructor <;> simp [total, fresh]
      rw [z.1, z.2] at h4
      change _ = (S.nbytes s.message : Int) - S.nbytes m0 at h4
      rw [← Finset.sum_div, ← Finset.sum_div, ← sub_div]
      congr 1
      rw [h2]
      unfold total at h4
      have h5 := congrArg (Int.cast (R := ℚ)) h4
      push_cast at h5 ⊢
      rw [← Finset.mul_sum, ← Finset.mul_sum]
      linarith

/-- **C64, the used rate.** After encoding one or more data points, with nothing decoded meanwhile, the used rate counts the bits beyond
those that were left of the initial message when the latents of the first data point had been taken from it. -/
theorem C64_used (S : Setup M D R Λ P I) (rg sh : D → Bool) (b c h w : Nat) (m0 : M) (d : D) (ds : List D) (s : State M)
    (he : encodeAll S rg sh (d :: ds) (fresh S m0) = (s, .ok ())) (hpos : b * c * h * w ≠ 0) :
    ∃ k m1 ls r, posteriorPop S (S.toData d) S.steps [] ⟨fun _ => 0, fun _ => 0⟩ m0 = (k, some (m1, ls)) ∧
      stats S b c h w s = some r ∧
      r.used * (((ds.length : ℚ) + 1) * b * (c * h * w)) = 8 * ((S.nbytes s.message : ℚ) - S.nbytes m1) := by
  unfold encodeAll at he
  rcases h0 : encode S rg sh (fresh S m0) d with ⟨s1, e | m⟩
  · rw [h0] at he; simp at he
  rw [h0] at he
  dsimp only at he
  obtain ⟨-, -, h0'⟩ := encode_ok h0
  obtain ⟨k, m1, ls, hp, hm, hc, hmm, hk, hi, hx⟩ := encodeCore_ok h0'
  have key : ∀ (ds : List D) (t : State M), 0 < t.dataCount → encodeAll S rg sh ds t = (s, .ok ()) →
      s.dataCount = t.dataCount + ds.length ∧ s.initialBytes = t.initialBytes ∧ s.extraBytes = t.extraBytes := by
    intro ds
    induction ds with
    | nil =>
      intro t _ h
      simp only [encodeAll, Prod.mk.injEq, and_true] at h
      subst h
      simp
    | cons d ds ih =>
      intro t ht h
      unfold encodeAll at h
      rcases h1 : encode S rg sh t d with ⟨t1, e | m⟩
      · rw [h1] at h; simp at h
      rw [h1] at h
      dsimp only at h
      obtain ⟨-, -, h1'⟩ := encode_ok h1
      obtain ⟨_, _, _, _, _, hc1, _, _, hi1, hx1⟩ := encodeCore_ok h1'
      obtain ⟨a1, a2, a3⟩ := ih t1 (by omega) h
      refine ⟨by rw [a1, hc1, List.length_cons]; push_cast; ring, a2.trans hi1, a3.trans ?_⟩
      rw [hx1, if_neg (by omega)]
  have hc0 : s1.dataCount = 1 := by rw [hc]; rfl
  obtain ⟨a1, a2, a3⟩ := key ds s1 (by omega) he
  have hcnt : s.dataCount = (ds.length : Int) + 1 := by rw [a1, hc0]; ring
  have hex : s.extraBytes = (S.nbytes m0 : Int) - S.nbytes m1 := by
    rw [a3, hx]; rfl
  have hin : s.initialBytes = (S.nbytes m0 : Int) := by rw [a2, hi]; rfl
  have hs : s.dataCount * (b * c * h * w : Int) ≠ 0 := by
    rw [hcnt]
    refine mul_ne_zero (by omega) (by exact_mod_cast hpos)
  refine ⟨k, m1, ls, _, hp, stats_some S b c h w s hs, ?_⟩
  · have hq : ((b : ℚ) * c * h * w) ≠ 0 := by exact_mod_cast hpos
    have hl : (ds.length : ℚ) + 1 ≠ 0 := by positivity
    show ((_ : Int) : ℚ) / ((_ : Int) : ℚ) * _ = _
    rw [hcnt, hin, hex]
    have : ((((ds.length : Int) + 1) * (b * c * h * w : Int) : Int) : ℚ) = ((ds.length : ℚ) + 1) * b * (c * h * w) := by
      push_cast; ring
    rw [this]
    have hne : ((ds.length : ℚ) + 1) * b * (c * h * w) ≠ 0 := by
      rw [show ((ds.length : ℚ) + 1) * b * (c * h * w) = ((ds.length : ℚ) + 1) * (b * c * h * w) by ring]
      exact mul_ne_zero hl hq
    rw [div_mul_cancel₀ _ hne]
    push_cast
    ring

/-- A coder whose message is a number of bytes: latents take two bytes from the message when they are popped from the posterior, and
one byte is added when they are pushed with the prior. -/
def counting : Setup Nat Unit Unit Unit Unit Unit where
  steps := 2
  infer := id
  generate _ _ _ := ()
  toData := id
  std := ()
  toLatent _ := ()
  prior := ⟨fun m _ => m + 1, fun m => if m < 1 then none else some (m - 1, ())⟩
  post _ _ := ⟨fun m _ => m + 2, fun m => if m < 2 then none else some (m - 2, ())⟩
  obs _ := ⟨fun m _ => m + 3, fun m => if m < 3 then none else some (m - 3, ())⟩
  nbytes := id
  track := true

/-- The hypotheses of C64 are met, and the values are what one expects: from 5 bytes, two data points need 4 bytes of the
initial message; the message has 7 bytes afterwards. -/
example : ∃ r, stats counting 1 1 2 2 ([.encode (), .encode ()].foldl (applyOp counting (fun _ => true) fun _ => true)
    (fresh counting 5)) = some r ∧ r.samples = 2 ∧ r.total = 7 ∧ r.effective = 2 ∧ r.used = 6 := by
  refine ⟨_, rfl, ?_⟩
  decide +kernel

/-- A decoder that got 7 bytes and decoded one data point. -/
example : ∃ r, stats counting 1 1 2 2 ((List.replicate 1 .decode).foldl (applyOp counting (fun _ => true) fun _ => true)
    (fresh counting 7)) = some r ∧ r.samples = -1 ∧ r.used ≠ 0 := by
  refine ⟨_, rfl, ?_⟩
  decide +kernel

/-- **C64, the used rate of a decoder.** If a codec has only decoded, however many calls raised, nothing of the initial message was
used for latents: the used rate is the effective rate. -/
theorem C64_used_decoder (S : Setup M D R Λ P I) (rg sh : D → Bool) (b c h w : Nat) (m0 : M) (n : Nat) (r : Stats)
    (hr : stats S b c h w ((List.replicate n (.decode : Op D)).foldl (applyOp S rg sh) (fresh S m0)) = some r) :
    r.used = r.effective := by
  have key : ∀ n (s : State M), ((List.replicate n (.decode : Op D)).foldl (applyOp S rg sh) s).extraBytes = s.extraBytes := by
    intro n
    induction n with
    | zero => intro s; rfl
    | succ n ih =>
      intro s
      rw [List.replicate_succ, List.foldl_cons, ih]
      rcases hd : decode S s with ⟨s', e | ⟨m, d⟩⟩
      · simp only [applyOp, hd]
        unfold decode at hd
        rcases hp : priorPop S S.steps [] s.counters s.message with ⟨k, _ | ⟨m1, ls⟩⟩
        · rw [hp] at hd
          simp only [Prod.mk.injEq] at hd
          rw [← hd.1]
        · rw [hp] at hd
          simp only at hd
          rcases hq : trackPop S (likelihood S ls) 0 k m1 with ⟨k1, _ | ⟨m2, d1⟩⟩
          · rw [hq] at hd
            simp only [Prod.mk.injEq] at hd
            rw [← hd.1]
          · rw [hq] at hd
            simp at hd
      · simp only [applyOp, hd]
        exact (decode_ok hd).choose_spec.choose_spec.choose_spec.choose_spec.choose_spec.2.2.2.2.2.2.2
  have hz : ((List.replicate n (.decode : Op D)).foldl (applyOp S rg sh) (fresh S m0)).dataCount * (b * c * h * w : Int) ≠ 0 := by
    intro hz
    unfold stats bytesToBpd at hr
    simp [hz] at hr
  rw [stats_some _ _ _ _ _ _ hz] at hr
  injection hr with hr
  subst hr
  simp only [statsValue, key]
  simp [fresh]

/-- **C64, its limit.** A call that finds the message exhausted leaves the counters of the steps that succeeded before it: the message is
unchanged, but the rates of the steps do not add up to the effective rate any more.  Here the second call of `encode` fails
after one step. -/
theorem C64_exhausted_limit :
    ∃ (S : Setup Nat Unit Unit Unit Unit Unit) (r : Stats) (push pop : Nat → ℚ), S.track = true ∧
      stats S 1 1 2 2 ([.encode (), .encode ()].foldl (applyOp S (fun _ => true) fun _ => true) (fresh S 5)) = some r ∧
      r.samples = 1 ∧ r.push = some push ∧ r.pop = some pop ∧
      (∑ k ∈ Finset.range (S.steps + 1), push k) - ∑ k ∈ Finset.range (S.steps + 1), pop k ≠ r.effective := by
  refine ⟨{ counting with obs := fun _ => ⟨fun m _ => m, fun m => some (m, ())⟩ }, _, _, _, rfl, rfl, ?_, rfl, rfl, ?_⟩ <;>
    decide +kernel

end Verif.Diffusion
