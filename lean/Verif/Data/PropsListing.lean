import Verif.Data.Listing
import Mathlib.Data.List.Permutation
import Mathlib.Data.Nat.Digits.Lemmas
import Mathlib.Tactic.Ring

/-!
# C141: directory listings and the concurrent download of the CLIC videos

Specification: the order of names by code points is `List.Lex`; a data set that is well defined is the same for all permutations
of the listing.
-/

namespace Verif.Data.Listing

/-- `a` comes before `b` in the order of code points. -/
def Before (a b : Name) : Prop := List.Lex (fun x y : Char => x.toNat < y.toNat) a b

theorem leName_iff : ∀ a b : Name, leName a b = true ↔ a = b ∨ Before a b := by
  intro a
  induction a with
  | nil =>
    intro b
    cases b with
    | nil => simp [leName]
    | cons b bs => simp [leName, Before]
  | cons a as ih =>
    intro b
    cases b with
    | nil => simp [leName, Before]
    | cons b bs =>
      simp only [leName, Bool.or_eq_true, Bool.and_eq_true, decide_eq_true_eq, ih bs, Before, List.cons_lex_cons_iff]
      constructor
      · rintro (h | ⟨h, h' | h'⟩)
        · exact Or.inr (Or.inl h)
        · have : a = b := Char.toNat_inj.1 h
          left; rw [this, h']
        · have : a = b := Char.toNat_inj.1 h
          exact Or.inr (Or.inr ⟨this, h'⟩)
      · rintro (h | h | ⟨rfl, h⟩)
        · cases h
          exact Or.inr ⟨rfl, Or.inl rfl⟩
        · exact Or.inl h
        · exact Or.inr ⟨rfl, Or.inr h⟩

theorem leName_total : ∀ a b : Name, leName a b = true ∨ leName b a = true := by
  intro a
  induction a with
  | nil => intro b; exact Or.inl (by cases b <;> rfl)
  | cons a as ih =>
    intro b
    cases b with
    | nil => exact Or.inr rfl
    | cons b bs =>
      simp only [leName, Bool.or_eq_true, Bool.and_eq_true, decide_eq_true_eq]
      rcases lt_trichotomy a.toNat b.toNat with h | h | h
      · exact Or.inl (Or.inl h)
      · rcases ih bs with h' | h'
        · exact Or.inl (Or.inr ⟨h, h'⟩)
        · exact Or.inr (Or.inr ⟨h.symm, h'⟩)
      · exact Or.inr (Or.inl h)

theorem leName_trans : ∀ a b c : Name, leName a b = true → leName b c = true → leName a c = true := by
  intro a
  induction a with
  | nil => intro b c _ _; cases c <;> rfl
  | cons a as ih =>
    intro b c
    cases b with
    | nil => intro h; simp [leName] at h
    | cons b bs =>
      cases c with
      | nil => intro _ h; simp [leName] at h
      | cons c cs =>
        simp only [leName, Bool.or_eq_true, Bool.and_eq_true, decide_eq_true_eq]
        rintro (h | ⟨h, h'⟩) (g | ⟨g, g'⟩)
        · exact Or.inl (by omega)
        · exact Or.inl (by omega)
        · exact Or.inl (by omega)
        · exact Or.inr ⟨by omega, ih bs cs h' g'⟩

theorem leName_antisymm : ∀ a b : Name, leName a b = true → leName b a = true → a = b := by
  intro a
  induction a with
  | nil => intro b; cases b with
    | nil => intro _ _; rfl
    | cons b bs => intro _ h; simp [leName] at h
  | cons a as ih =>
    intro b
    cases b with
    | nil => intro h; simp [leName] at h
    | cons b bs =>
      simp only [leName, Bool.or_eq_true, Bool.and_eq_true, decide_eq_true_eq]
      rintro (h | ⟨h, h'⟩) (g | ⟨g, g'⟩)
      · omega
      · omega
      · omega
      · rw [Char.toNat_inj.1 h, ih bs h' g']

theorem isMatch_suffix (suf n : Name) : isMatch [] suf n = true ↔ suf <:+ n := by
  unfold isMatch
  simp only [List.isPrefixOf_nil_left, Bool.true_and, Bool.and_eq_true, List.isSuffixOf_iff_suffix, decide_eq_true_eq,
    List.length_nil, Nat.zero_add]
  exact ⟨fun h => h.1, fun h => ⟨h, h.length_le⟩⟩

/-- **C141, images.** The paths of CLIC2020Image and DIV2K are all names of the directory that end in `.png`, each once, in
the order of code points, whatever the order of the listing; so `dataset[i]` and `len(dataset)` are the same on every file
system, for every `i`, and `dataset[i]` raises exactly if `i` is outside `-len ≤ i < len`. -/
theorem C141_images (listing : List Name) (hn : listing.Nodup) :
    (imagePaths listing).Pairwise Before ∧ (∀ n, n ∈ imagePaths listing ↔ n ∈ listing ∧ ['.', 'p', 'n', 'g'] <:+ n) ∧
    (∀ listing' : List Name, listing.Perm listing' → imagePaths listing' = imagePaths listing ∧
      ∀ {Img : Type} (content : Name → Img) (i : ℤ), imageItem content listing' i = imageItem content listing i) ∧
    ∀ {Img : Type} (content : Name → Img) (i : ℤ), (imageItem content listing i).isNone = true ↔
      i < -((imagePaths listing).length : ℤ) ∨ ((imagePaths listing).length : ℤ) ≤ i := by
  have hsort : ∀ l : List Name, (imagePaths l).Pairwise (fun a b => leName a b = true) := by
    intro l
    have : Std.Total (fun a b : Name => leName a b = true) := ⟨leName_total⟩
    have : IsTrans Name (fun a b : Name => leName a b = true) := ⟨leName_trans⟩
    exact List.pairwise_insertionSort _ _
  have hperm : ∀ l : List Name, (imagePaths l).Perm (glob [] ['.', 'p', 'n', 'g'] l) := fun l => List.perm_insertionSort _ _
  have heq : ∀ listing' : List Name, listing.Perm listing' → imagePaths listing' = imagePaths listing := by
    intro listing' hp
    refine List.Perm.eq_of_pairwise (fun a b _ _ h h' => leName_antisymm a b h h') (hsort _) (hsort _) ?_
    exact (hperm listing').trans (((hp.filter _).symm).trans (hperm listing).symm)
  refine ⟨?_, ?_, fun listing' hp => ⟨heq listing' hp, fun content i => by rw [imageItem, imageItem, heq listing' hp]⟩, ?_⟩
  · have hnd : (imagePaths listing).Nodup := ((hperm listing).nodup_iff).2 (hn.filter _)
    refine ((hsort listing).and hnd).imp ?_
    rintro a b ⟨h, hne⟩
    rcases (leName_iff a b).1 h with h | h
    · exact absurd h hne
    · exact h
  · intro n
    rw [(hperm listing).mem_iff, glob, List.mem_filter, isMatch_suffix]
  · intro Img content i
    unfold imageItem pyIndex
    rw [Option.isNone_map]
    by_cases h0 : 0 ≤ i
    · rw [if_pos h0, Option.isNone_iff_eq_none, List.getElem?_eq_none_iff]
      omega
    · rw [if_neg h0]
      by_cases h1 : -i ≤ ((imagePaths listing).length : ℤ)
      · rw [if_pos h1, Option.isNone_iff_eq_none, List.getElem?_eq_none_iff]
        omega
      · rw [if_neg h1]
        simp only [Option.isNone_none, true_iff]
        omega

/-! ### Frames of a video -/

/-- **C141, frames: what holds.** The frames of a CLIC video are all its `*_y.png` files, each once; if the file system happens to
list them in the order of their names, then a clip with increasing numbers has its frames in this order. -/
theorem C141_frames_partial (listing : List Name) (hn : listing.Nodup) :
    (framePaths listing).Nodup ∧ (∀ n, n ∈ framePaths listing ↔ n ∈ listing ∧ ['_', 'y', '.', 'p', 'n', 'g'] <:+ n) ∧
    (listing.Pairwise Before → ∀ (frames : List ℕ) (c : List Name), frames.Pairwise (· < ·) → clip listing frames = some c →
      c.Pairwise Before) := by
  refine ⟨hn.filter _, fun n => by rw [framePaths, glob, List.mem_filter, isMatch_suffix], ?_⟩
  intro hl frames c hf hc
  have hp : (framePaths listing).Pairwise Before := hl.filter _
  have key : ∀ (frames : List ℕ) (c : List Name), frames.Pairwise (· < ·) → clip listing frames = some c →
      c.Pairwise Before ∧ ∀ n ∈ c, ∃ i ∈ frames, (framePaths listing)[i]? = some n := by
    intro frames
    induction frames with
    | nil =>
      intro c _ h
      simp only [clip, List.mapM_nil, Option.pure_def, Option.some.injEq] at h
      subst h
      simp
    | cons i is ih =>
      intro c hf h
      rw [clip, List.mapM_cons] at h
      rcases h1 : (framePaths listing)[i]? with _ | n
      · rw [h1] at h; simp at h
      · rw [h1] at h
        rcases h2 : (is.mapM fun i => (framePaths listing)[i]?) with _ | c'
        · rw [h2] at h; simp at h
        · rw [h2] at h
          simp only [Option.bind_eq_bind, Option.bind_some, Option.pure_def, Option.some.injEq] at h
          subst h
          rw [List.pairwise_cons] at hf
          obtain ⟨g1, g2⟩ := ih c' hf.2 h2
          refine ⟨List.pairwise_cons.2 ⟨?_, g1⟩, ?_⟩
          · intro n' hn'
            obtain ⟨j, hj, ej⟩ := g2 n' hn'
            obtain ⟨hi, rfl⟩ := List.getElem?_eq_some_iff.1 h1
            obtain ⟨hj', rfl⟩ := List.getElem?_eq_some_iff.1 ej
            exact List.pairwise_iff_getElem.1 hp i j hi hj' (hf.1 j hj)
          · intro n' hn'
            rcases List.mem_cons.1 hn' with rfl | hn'
            · exact ⟨i, by simp, h1⟩
            · obtain ⟨j, hj, ej⟩ := g2 n' hn'
              exact ⟨j, by simp [hj], ej⟩
  exact (key frames c hf hc).1

/-- **C141 is violated for the frames of a video**: for every video with two frames or more there is an order of the listing in
which a clip shows a later frame before an earlier one. -/
theorem C141_violated_frames (listing : List Name) (a b : Name) (ha : a ∈ framePaths listing) (hb : b ∈ framePaths listing)
    (hab : Before a b) : ∃ listing' : List Name, listing.Perm listing' ∧ clip listing' [0, 1] = some [b, a] := by
  have hne : a ≠ b := by
    rintro rfl
    exact List.lex_irrefl (r := fun x y : Char => x.toNat < y.toNat) (fun x => lt_irrefl x.toNat) _ hab
  have ma := (List.mem_filter.1 ha)
  have mb := (List.mem_filter.1 hb)
  have mab : a ∈ listing.erase b := (List.mem_erase_of_ne hne).2 ma.1
  refine ⟨b :: a :: (listing.erase b).erase a,
    (List.perm_cons_erase mb.1).trans ((List.perm_cons_erase mab).cons b), ?_⟩
  have e : framePaths (b :: a :: (listing.erase b).erase a) = b :: a :: framePaths ((listing.erase b).erase a) := by
    unfold framePaths glob
    rw [List.filter_cons_of_pos mb.2, List.filter_cons_of_pos ma.2]
  unfold clip
  rw [e]
  rfl

/-! ### The newest checkpoint -/

theorem maxLoop_spec (key : Name → Option ℕ) : ∀ (ns : List Name) (best : Name × ℕ), (∀ n ∈ ns, (key n).isSome = true) →
    ∃ b, maxLoop key best ns = some b ∧ (b = best ∨ (b.1 ∈ ns ∧ key b.1 = some b.2)) ∧ best.2 ≤ b.2 ∧
      ∀ n ∈ ns, ∀ k, key n = some k → k ≤ b.2
  | [], best, _ => ⟨best, rfl, Or.inl rfl, le_refl _, by simp⟩
  | n :: ns, best, h => by
    obtain ⟨k, hk⟩ := Option.isSome_iff_exists.1 (h n (by simp))
    obtain ⟨b, h1, h2, h3, h4⟩ := maxLoop_spec key ns (if best.2 < k then (n, k) else best) fun m hm => h m (by simp [hm])
    refine ⟨b, by rw [maxLoop, hk]; exact h1, ?_, ?_, ?_⟩
    · rcases h2 with h2 | ⟨h2, h2'⟩
      · by_cases hc : best.2 < k
        · rw [if_pos hc] at h2
          subst h2
          exact Or.inr ⟨by simp, hk⟩
        · rw [if_neg hc] at h2
          exact Or.inl h2
      · exact Or.inr ⟨by simp [h2], h2'⟩
    · refine le_trans ?_ h3
      split <;> omega
    · intro m hm k' hk'
      rcases List.mem_cons.1 hm with rfl | hm
      · rw [hk] at hk'
        cases hk'
        refine le_trans ?_ h3
        split <;> omega
      · exact h4 m hm k' hk'

theorem maxLoop_none (key : Name → Option ℕ) : ∀ (ns : List Name) (best : Name × ℕ) (n : Name), n ∈ ns → key n = none →
    maxLoop key best ns = none
  | m :: ns, best, n, hn, hk => by
    rw [maxLoop]
    rcases hm : key m with _ | k
    · rfl
    · rcases List.mem_cons.1 hn with rfl | hn
      · rw [hk] at hm; cases hm
      · exact maxLoop_none key ns _ n hn hk

/-- What `newest` finds: nothing without files, an exception if a name has no number, or else a file with the largest number. -/
theorem newest_spec (pre suf : Name) (listing : List Name) :
    (glob pre ('.' :: suf) listing = [] ∧ newest pre suf listing = some none) ∨
    ((∃ n ∈ glob pre ('.' :: suf) listing, resumeStep n = none) ∧ newest pre suf listing = none) ∨
    ∃ n k, newest pre suf listing = some (some n) ∧ n ∈ glob pre ('.' :: suf) listing ∧ resumeStep n = some k ∧
      ∀ m ∈ glob pre ('.' :: suf) listing, ∃ j, resumeStep m = some j ∧ j ≤ k := by
  unfold newest
  rcases hg : glob pre ('.' :: suf) listing with _ | ⟨n, ns⟩
  · exact Or.inl ⟨rfl, rfl⟩
  · right
    by_cases hall : ∀ m ∈ n :: ns, (resumeStep m).isSome = true
    · right
      obtain ⟨k, hk⟩ := Option.isSome_iff_exists.1 (hall n (by simp))
      obtain ⟨b, h1, h2, h3, h4⟩ := maxLoop_spec resumeStep ns (n, k) fun m hm => hall m (by simp [hm])
      refine ⟨b.1, b.2, by simp only [hk, h1]; rfl, ?_, ?_, ?_⟩
      · rcases h2 with rfl | ⟨h2, -⟩
        · simp
        · simp [h2]
      · rcases h2 with rfl | ⟨-, h2⟩
        · exact hk
        · exact h2
      · intro m hm
        obtain ⟨j, hj⟩ := Option.isSome_iff_exists.1 (hall m hm)
        refine ⟨j, hj, ?_⟩
        rcases List.mem_cons.1 hm with rfl | hm
        · rw [hk] at hj
          cases hj
          exact h3
        · exact h4 m hm j hj
    · left
      simp only [not_forall, Bool.not_eq_true, Option.isSome_eq_false_iff, Option.isNone_iff_eq_none] at hall
      obtain ⟨m, hm, hmn⟩ := hall
      refine ⟨⟨m, hm, hmn⟩, ?_⟩
      dsimp only
      rcases hk : resumeStep n with _ | k
      · rfl
      · rcases List.mem_cons.1 hm with rfl | hm
        · rw [hmn] at hk; cases hk
        · dsimp only
          rw [maxLoop_none resumeStep ns (n, k) m hm hmn, Option.map_none]

/-- **C141, checkpoints: what holds.** If no two checkpoints have the same number, the checkpoint that is found does not depend on
the order of the listing: it is the one with the largest number. -/
theorem C141_newest_partial (pre suf : Name) (listing listing' : List Name) (hp : listing.Perm listing')
    (hd : ∀ m ∈ glob pre ('.' :: suf) listing, ∀ n ∈ glob pre ('.' :: suf) listing, resumeStep m = resumeStep n → m = n) :
    newest pre suf listing' = newest pre suf listing := by
  have hg : (glob pre ('.' :: suf) listing).Perm (glob pre ('.' :: suf) listing') := hp.filter _
  rcases newest_spec pre suf listing with ⟨h1, h2⟩ | ⟨⟨n, hn, hk⟩, h2⟩ | ⟨n, k, h2, hn, hk, hmax⟩ <;>
    rcases newest_spec pre suf listing' with ⟨g1, g2⟩ | ⟨⟨n', hn', hk'⟩, g2⟩ | ⟨n', k', g2, hn', hk', hmax'⟩
  · rw [h2, g2]
  · rw [← hg.mem_iff, h1] at hn'; simp at hn'
  · rw [← hg.mem_iff, h1] at hn'; simp at hn'
  · rw [hg.mem_iff, g1] at hn; simp at hn
  · rw [h2, g2]
  · obtain ⟨j, hj, -⟩ := hmax' n (hg.mem_iff.1 hn)
    rw [hk] at hj; cases hj
  · rw [hg.mem_iff, g1] at hn; simp at hn
  · obtain ⟨j, hj, -⟩ := hmax n' (hg.mem_iff.2 hn')
    rw [hk'] at hj; cases hj
  · obtain ⟨j, hj, hjk⟩ := hmax n' (hg.mem_iff.2 hn')
    obtain ⟨i, hi, hik⟩ := hmax' n (hg.mem_iff.1 hn)
    rw [hk'] at hj
    rw [hk] at hi
    cases hj
    cases hi
    have : k = k' := le_antisymm hik hjk
    subst this
    rw [h2, g2, hd n' (hg.mem_iff.2 hn') n hn (by rw [hk, hk'])]

theorem dropWhile_ne (l r : Name) (h : '.' ∉ l) : (l ++ '.' :: r).dropWhile (· ≠ '.') = '.' :: r := by
  induction l with
  | nil => simp
  | cons a l ih =>
    have ha : a ≠ '.' := fun e => h (by simp [e])
    rw [List.cons_append, List.dropWhile_cons_of_pos (by simpa using ha)]
    exact ih fun hm => h (by simp [hm])

theorem stem_dot (n suf : Name) (h : '.' ∉ suf) : stem (n ++ '.' :: suf) = n := by
  unfold stem
  rw [List.reverse_append, List.reverse_cons, List.append_assoc, List.singleton_append, dropWhile_ne _ _ (by simpa using h)]
  simp

theorem digit_char : ∀ d < 10, digit? (Nat.digitChar d) = some d := by decide

theorem digits_char : ∀ ds : List ℕ, (∀ d ∈ ds, d < 10) → (ds.map Nat.digitChar).mapM digit? = some ds
  | [], _ => rfl
  | d :: ds, h => by
    simp [List.mapM_cons, digit_char d (h d (by simp)), digits_char ds fun x hx => h x (by simp [hx])]

theorem foldl_digits : ∀ (ds : List ℕ) (a : ℕ),
    ds.foldl (fun a d => 10 * a + d) a = a * 10 ^ ds.length + Nat.ofDigits 10 ds.reverse
  | [], a => by simp
  | d :: ds, a => by
    rw [List.foldl_cons, foldl_digits ds, List.reverse_cons, Nat.ofDigits_append, Nat.ofDigits_singleton, List.length_reverse,
      List.length_cons]
    ring

/-- **C141, numbers of checkpoints.** The number of a file is that of the last six digits of its name, whatever precedes them. -/
theorem C141_number (pre suf : Name) (hs : '.' ∉ suf) (ds : List ℕ) (h6 : ds.length = 6) (hd : ∀ d ∈ ds, d < 10) :
    resumeStep (pre ++ ds.map Nat.digitChar ++ '.' :: suf) = some (Nat.ofDigits 10 ds.reverse) := by
  have hl : (pre ++ ds.map Nat.digitChar).length - 6 = pre.length := by simp [h6]
  have hne : ds ≠ [] := by rintro rfl; simp at h6
  rw [resumeStep, stem_dot _ _ hs, hl, List.drop_left, digits_char ds hd, Option.bind_some, if_neg hne, foldl_digits]
  simp

/-- The second million is not seen. -/
example : resumeStep ['m', 'o', 'd', 'e', 'l', '2', '0', '1', '0', '0', '0', '0', '.', 'p', 't'] = some 10000 :=
  C141_number ['m', 'o', 'd', 'e', 'l', '2'] ['p', 't'] (by decide) [0, 1, 0, 0, 0, 0] rfl (by decide)

/-- `ema_0.9999_010000.pt` and `ema_0.999_010000.pt`: averages with two rates, saved at the same step. -/
def emaSlow : Name := ['e', 'm', 'a', '_', '0', '.', '9', '9', '9', '9', '_', '0', '1', '0', '0', '0', '0', '.', 'p', 't']

/-- See `emaSlow`. -/
def emaFast : Name := ['e', 'm', 'a', '_', '0', '.', '9', '9', '9', '_', '0', '1', '0', '0', '0', '0', '.', 'p', 't']

/-- **C141 is violated for checkpoints**: with two rates of the moving average, evaluation takes the model with the one or the
other, as the file system lists them. -/
theorem C141_violated_newest : resumeStep emaSlow = some 10000 ∧ resumeStep emaFast = some 10000 ∧
    newest ['e', 'm', 'a'] ['p', 't'] [emaSlow, emaFast] = some (some emaSlow) ∧
    newest ['e', 'm', 'a'] ['p', 't'] [emaFast, emaSlow] = some (some emaFast) := by
  decide +kernel

/-- The files of a training run with one rate: the newest is found in every order. -/
example : ∀ l ∈ ([emaSlow, ['e', 'm', 'a', '_', '0', '.', '9', '9', '9', '9', '_', '0', '2', '0', '0', '0', '0', '.', 'p', 't'],
    ['l', 'o', 'g', '.', 'p', 't']]).permutations, newest ['e', 'm', 'a'] ['p', 't'] l =
      some (some ['e', 'm', 'a', '_', '0', '.', '9', '9', '9', '9', '_', '0', '2', '0', '0', '0', '0', '.', 'p', 't']) := by
  intro l hl
  rw [C141_newest_partial _ _ _ l (List.mem_permutations.1 hl).symm (by decide +kernel)]
  decide +kernel

/-- A directory with two images and another file. -/
example : imagePaths [['b', '.', 'p', 'n', 'g'], ['c', '.', 't', 'x', 't'], ['1', '0', '.', 'p', 'n', 'g'], ['9', '.', 'p', 'n', 'g']] =
    [['1', '0', '.', 'p', 'n', 'g'], ['9', '.', 'p', 'n', 'g'], ['b', '.', 'p', 'n', 'g']] := by
  decide +kernel

end Verif.Data.Listing
