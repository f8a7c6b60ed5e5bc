import Verif.Props.InitConfig
import Verif.Lemmas.SmartlogText

/-! C92: the version of Git, and examples for `init`. -/

namespace Verif.Props

open Verif Verif.Spec

/-! ### the version -/

theorem splitChar_prefix {c : Char} {v : Text} (h : c ∉ v) (r : Text) :
    ∃ p ps, splitChar c r = p :: ps ∧ splitChar c (v ++ r) = (v ++ p) :: ps := by
  cases hr : splitChar c r with
  | nil => exact absurd hr (splitChar_ne_nil c r)
  | cons p ps =>
    refine ⟨p, ps, rfl, ?_⟩
    induction v with
    | nil => exact hr
    | cons x v ih =>
      simp only [List.mem_cons, not_or] at h
      rw [List.cons_append, splitChar, if_neg (Ne.symm h.1), ih h.2]
      rfl

theorem splitChar_head {c x : Char} (h : x ≠ c) (r : Text) : ∃ p ps, splitChar c (x :: r) = (x :: p) :: ps := by
  simp only [splitChar, if_neg h]
  cases hr : splitChar c r with
  | nil => exact absurd hr (splitChar_ne_nil c r)
  | cons p ps => exact ⟨p, ps, rfl⟩

theorem digit_facts {n : Nat} {c : Char} (h : c ∈ natToText n) :
    c ≠ ' ' ∧ c ≠ '-' ∧ c ≠ '.' ∧ c ≠ '+' ∧ isSpace c = false := by
  obtain ⟨d, hd, rfl⟩ := mem_natToText h
  clear h
  revert d
  decide

theorem parseIsize_nat {n : Nat} (h : (n : Int) < 2 ^ 63) : parseIsize (natToText n) = some (n : Int) := by
  have hn : inIsize (n : Int) := ⟨le_trans (by decide : -(2 : Int) ^ 63 ≤ 0) (Int.natCast_nonneg n), h⟩
  have := parseIsize_intToText hn
  unfold intToText at this
  rw [if_neg (by omega)] at this
  exact this

/-- What `git version` prints for the version with these numbers. -/
def versionText (a b c : Nat) (rest : Text) : Text :=
  t!"git version " ++ natToText a ++ ['.'] ++ natToText b ++ ['.'] ++ natToText c ++ rest

/-- What may follow after the numbers: white space, or anything which is separated from the numbers. -/
def VersionRest (rest : Text) : Prop :=
  (∀ ch ∈ rest, isSpace ch = true) ∨ ∃ ch r, rest = ch :: r ∧ (ch = '.' ∨ ch = ' ' ∨ ch = '-')

theorem trimEnd_append {a : Text} {x : Char} (h : isSpace x = false) (b : Text) :
    trimEnd (a ++ x :: b) = a ++ x :: trimEnd b := by
  unfold trimEnd
  rw [List.reverse_append, List.reverse_cons, List.append_assoc, List.dropWhile_append]
  by_cases hb : (b.reverse.dropWhile isSpace).isEmpty = true
  · rw [if_pos hb]
    have : b.reverse.dropWhile isSpace = [] := by simpa using hb
    rw [this]
    simp [h]
  · rw [if_neg hb]
    simp

theorem trimEnd_rest {rest : Text} (h : VersionRest rest) : VersionRest (trimEnd rest) ∧
    (trimEnd rest = [] ∨ ∃ ch r, trimEnd rest = ch :: r ∧ (ch = '.' ∨ ch = ' ' ∨ ch = '-')) := by
  have key : trimEnd rest = [] ∨ ∃ ch r, trimEnd rest = ch :: r ∧ (ch = '.' ∨ ch = ' ' ∨ ch = '-') := by
    rcases h with h | ⟨ch, r, rfl, hc⟩
    · left
      unfold trimEnd
      have : rest.reverse.dropWhile isSpace = [] := by
        rw [List.dropWhile_eq_nil_iff]
        intro c hc
        exact h c (List.mem_reverse.1 hc)
      rw [this]
      rfl
    · have hp : trimEnd (ch :: r) <+: ch :: r := by
        unfold trimEnd
        have := List.dropWhile_suffix (l := (ch :: r).reverse) isSpace
        rw [← List.reverse_prefix] at this
        simpa using this
      cases ht : trimEnd (ch :: r) with
      | nil => exact .inl rfl
      | cons y ys =>
        rw [ht] at hp
        obtain ⟨u, hu⟩ := hp
        simp only [List.cons_append, List.cons.injEq] at hu
        exact .inr ⟨y, ys, rfl, hu.1 ▸ hc⟩
  refine ⟨?_, key⟩
  rcases key with h | ⟨ch, r, h, hc⟩
  · left
    rw [h]
    simp
  · exact .inr ⟨ch, r, h, hc⟩

theorem trim_version (a b c : Nat) (rest : Text) : trim (versionText a b c rest) = versionText a b c (trimEnd rest) := by
  have h1 : trimStart (versionText a b c rest) = versionText a b c rest := rfl
  unfold trim
  rw [h1]
  unfold versionText
  have hne := natToText_ne_nil c
  obtain ⟨ds, d, hd⟩ : ∃ ds d, natToText c = ds ++ [d] := by
    refine ⟨(natToText c).dropLast, (natToText c).getLast hne, ?_⟩
    exact (List.dropLast_append_getLast hne).symm
  have hs : isSpace d = false := (digit_facts (n := c) (by rw [hd]; simp)).2.2.2.2
  rw [hd]
  have key : ∀ t : Text, t!"git version " ++ natToText a ++ ['.'] ++ natToText b ++ ['.'] ++ (ds ++ [d]) ++ t =
    (t!"git version " ++ natToText a ++ ['.'] ++ natToText b ++ ['.'] ++ ds) ++ d :: t := fun t => by simp
  rw [key, key, trimEnd_append hs]

theorem parse_versionText (a b c : Nat) (rest : Text)
    (hr : rest = [] ∨ ∃ ch r, rest = ch :: r ∧ (ch = '.' ∨ ch = ' ' ∨ ch = '-'))
    (ha : (a : Int) < 2 ^ 63) (hb : (b : Int) < 2 ^ 63) (hc : (c : Int) < 2 ^ 63) :
    ∃ w ws, splitWords (versionText a b c rest) = t!"git" :: t!"version" :: w :: ws ∧
      parseVersionParts (splitChar '.' w) = some ((a : Int), (b : Int), (c : Int)) := by
  -- the numbers
  obtain ⟨v, hv⟩ : ∃ v, v = natToText a ++ ['.'] ++ natToText b ++ ['.'] ++ natToText c := ⟨_, rfl⟩
  have hmem : ∀ x ∈ v, x ≠ ' ' ∧ x ≠ '-' := by
    intro x hx
    rw [hv] at hx
    simp only [List.append_assoc, List.mem_append, List.mem_singleton] at hx
    rcases hx with h | rfl | h | rfl | h
    · exact ⟨(digit_facts h).1, (digit_facts h).2.1⟩
    · decide
    · exact ⟨(digit_facts h).1, (digit_facts h).2.1⟩
    · decide
    · exact ⟨(digit_facts h).1, (digit_facts h).2.1⟩
  have ht : versionText a b c rest = t!"git" ++ ' ' :: (t!"version" ++ ' ' :: (v ++ rest)) := by
    rw [hv]
    simp [versionText]
  obtain ⟨p, ps, hp, hs⟩ := splitChar_prefix (c := ' ') (v := v) (fun h => (hmem _ h).1 rfl) rest
  obtain ⟨q, qs, hq, hs2⟩ := splitChar_prefix (c := '-') (v := v) (fun h => (hmem _ h).2 rfl) p
  refine ⟨v ++ q, qs ++ ps.flatMap (splitChar '-'), ?_, ?_⟩
  · unfold splitWords
    rw [ht, splitChar_append_sep (by decide), splitChar_append_sep (by decide), hs]
    simp only [List.flatMap_cons]
    rw [hs2]
    rfl
  · -- what follows the numbers in the word
    have hq' : q = [] ∨ ∃ r, q = '.' :: r := by
      rcases hr with rfl | ⟨ch, r, rfl, rfl | rfl | rfl⟩
      · simp only [splitChar, List.cons.injEq] at hp
        rw [← hp.1] at hq
        simp only [splitChar, List.cons.injEq] at hq
        exact .inl hq.1.symm
      · obtain ⟨p', ps', hp'⟩ := splitChar_head (c := ' ') (x := '.') (by decide) r
        rw [hp'] at hp
        simp only [List.cons.injEq] at hp
        obtain ⟨q', qs', hq'⟩ := splitChar_head (c := '-') (x := '.') (by decide) p'
        rw [← hp.1, hq'] at hq
        simp only [List.cons.injEq] at hq
        exact .inr ⟨q', hq.1.symm⟩
      · simp only [splitChar, if_true, List.cons.injEq] at hp
        rw [← hp.1] at hq
        simp only [splitChar, List.cons.injEq] at hq
        exact .inl hq.1.symm
      · obtain ⟨p', ps', hp'⟩ := splitChar_head (c := ' ') (x := '-') (by decide) r
        rw [hp'] at hp
        simp only [List.cons.injEq] at hp
        rw [← hp.1] at hq
        simp only [splitChar, if_true, List.cons.injEq] at hq
        exact .inl hq.1.symm
    have hdot : ∀ n : Nat, '.' ∉ natToText n := fun n h => (digit_facts h).2.2.1 rfl
    have hsplit : ∃ more, splitChar '.' (v ++ q) = natToText a :: natToText b :: natToText c :: more := by
      rw [hv, show natToText a ++ ['.'] ++ natToText b ++ ['.'] ++ natToText c ++ q =
        natToText a ++ '.' :: (natToText b ++ '.' :: (natToText c ++ q)) by simp,
        splitChar_append_sep (hdot a), splitChar_append_sep (hdot b)]
      rcases hq' with rfl | ⟨r, rfl⟩
      · rw [List.append_nil, splitChar_of_not_mem (hdot c)]
        exact ⟨[], rfl⟩
      · rw [splitChar_append_sep (hdot c)]
        exact ⟨_, rfl⟩
    obtain ⟨more, hm⟩ := hsplit
    rw [hm]
    simp only [parseVersionParts, parseIsize_nat ha, parseIsize_nat hb, parseIsize_nat hc, Option.getD_some]

/-- C92: the version of Git is found in what `git version` prints, whatever follows after it. -/
theorem git_version_found (a b c : Nat) (rest : Text) (hr : VersionRest rest)
    (ha : (a : Int) < 2 ^ 63) (hb : (b : Int) < 2 ^ 63) (hc : (c : Int) < 2 ^ 63) :
    parseGitVersion (trim (versionText a b c rest)) = some ((a : Int), (b : Int), (c : Int)) := by
  rw [trim_version]
  obtain ⟨h1, _⟩ := trimEnd_rest hr
  obtain ⟨_, h2⟩ := trimEnd_rest h1
  unfold parseGitVersion
  rw [trim_version]
  obtain ⟨w, ws, hw, hp⟩ := parse_versionText a b c _ h2 ha hb hc
  rw [hw]
  exact hp

/-- C92: the user is warned exactly if the version of Git is older than 2.29. -/
theorem old_git_warned (env : InitCommandEnv) (given : Option Text) (s s' : InitFiles) (w : Bool)
    (a b c : Nat) (rest : Text) (hv : env.gitVersion = some (versionText a b c rest)) (hr : VersionRest rest)
    (ha : (a : Int) < 2 ^ 63) (hb : (b : Int) < 2 ^ 63) (hc : (c : Int) < 2 ^ 63)
    (h : commandInit env given s = (s', .done w)) : w = true ↔ a < 2 ∨ (a = 2 ∧ b < 29) := by
  obtain ⟨_, _, _, v, _, _, _, _, _, _, h7, _, h9⟩ := commandInit_done h
  rw [hv, Option.bind_some, git_version_found a b c rest hr ha hb hc] at h7
  cases h7
  rw [h9]
  simp only [versionLt, Bool.or_eq_true, Bool.and_eq_true, decide_eq_true_eq]
  omega

end Verif.Props
