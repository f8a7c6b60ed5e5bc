import Verif.Lemmas.Reword
import Mathlib.Data.List.DropRight

/-! Lemmas about the clean-up of messages, and about reading the sections. -/

namespace Verif.Spec

open Verif

/-! ### lines -/

theorem splitChar_append (c : Char) (a b : Text) :
    splitChar c (a ++ c :: b) = splitChar c a ++ splitChar c b := by
  induction a with
  | nil => simp [splitChar]
  | cons x a ih =>
    simp only [List.cons_append, splitChar]
    split
    · simp [ih]
    · rw [ih]
      cases h : splitChar c a with
      | nil => exact absurd h (splitChar_ne_nil c a)
      | cons p ps => simp

theorem splitChar_unlines (ls : List Text) (h : ∀ l ∈ ls, '\n' ∉ l) : splitChar '\n' (unlines ls) = ls ++ [[]] := by
  unfold unlines
  induction ls with
  | nil => rfl
  | cons l ls ih =>
    rw [List.flatMap_cons, List.append_assoc, List.singleton_append,
      splitChar_append_sep (h l (by simp)), ih fun l hl => h l (by simp [hl])]
    rfl

theorem unlines_append (a b : List Text) : unlines (a ++ b) = unlines a ++ unlines b := by simp [unlines]

theorem rtrim_prefix (l : Text) : rtrim l <+: l := by
  unfold rtrim
  have := List.dropWhile_suffix gitSpace (l := l.reverse)
  have := List.reverse_prefix.2 this
  rwa [List.reverse_reverse] at this

theorem rtrim_rtrim (l : Text) : rtrim (rtrim l) = rtrim l := by
  unfold rtrim
  rw [List.reverse_reverse, List.dropWhile_idempotent]

theorem rtrim_of_last {l : Text} {c : Char} (h : l.getLast? = some c) (hc : gitSpace c = false) : rtrim l = l := by
  unfold rtrim
  have h2 : l.reverse.head? = some c := by rw [List.head?_reverse, h]
  cases h3 : l.reverse with
  | nil => rw [h3] at h2; simp at h2
  | cons x r =>
    rw [h3] at h2
    simp only [List.head?_cons, Option.some.injEq] at h2
    subst h2
    rw [List.dropWhile_cons, hc]
    simp only [Bool.false_eq_true, if_false]
    rw [← h3, List.reverse_reverse]

theorem isComment_rtrim (comment : Option Char) (l : Text) (h : rtrim l ≠ []) :
    isComment comment (rtrim l) = isComment comment l := by
  obtain ⟨t, ht⟩ := rtrim_prefix l
  cases hr : rtrim l with
  | nil => exact absurd hr h
  | cons x r =>
    rw [hr] at ht
    rw [← ht]
    cases comment <;> rfl

/-! ### prettify -/

/-- The state after some lines. -/
def stateAfter (comment : Option Char) : Bool → Bool → List Text → Bool × Bool
  | s, b, [] => (s, b)
  | s, b, l :: rest =>
    if isComment comment l then stateAfter comment s b rest
    else if rtrim l = [] then stateAfter comment s true rest
    else stateAfter comment true false rest

theorem prettifyLines_append (comment : Option Char) (s b : Bool) (a rest : List Text) :
    prettifyLines comment s b (a ++ rest) =
      prettifyLines comment s b a ++
        prettifyLines comment (stateAfter comment s b a).1 (stateAfter comment s b a).2 rest := by
  induction a generalizing s b with
  | nil => rfl
  | cons l a ih =>
    simp only [List.cons_append, prettifyLines, stateAfter]
    split
    · exact ih s b
    · split
      · exact ih s true
      · rw [ih true false]; simp

theorem stateAfter_append (comment : Option Char) (s b : Bool) (a rest : List Text) :
    stateAfter comment s b (a ++ rest) =
      stateAfter comment (stateAfter comment s b a).1 (stateAfter comment s b a).2 rest := by
  induction a generalizing s b with
  | nil => rfl
  | cons l a ih =>
    simp only [List.cons_append, stateAfter]
    split
    · exact ih s b
    · split
      · exact ih s true
      · exact ih true false

theorem stateAfter_started (comment : Option Char) (b : Bool) (a : List Text) :
    (stateAfter comment true b a).1 = true := by
  induction a generalizing b with
  | nil => rfl
  | cons l a ih =>
    simp only [stateAfter]
    split
    · exact ih b
    · split
      · exact ih true
      · exact ih false

theorem isComment_nil (comment : Option Char) : isComment comment [] = false := by
  cases comment <;> rfl

theorem stateAfter_blank (comment : Option Char) (s b : Bool) : stateAfter comment s b [[]] = (s, true) := by
  simp [stateAfter, isComment_nil, rtrim]

theorem prettifyLines_blank (comment : Option Char) (s b : Bool) (ls : List Text) :
    prettifyLines comment s b (ls ++ [[]]) = prettifyLines comment s b ls := by
  rw [prettifyLines_append]
  simp [prettifyLines, isComment_nil, rtrim]

theorem prettifyLines_comments (comment : Option Char) (s b : Bool) {ls : List Text}
    (h : ∀ l ∈ ls, isComment comment l = true) : prettifyLines comment s b ls = [] := by
  induction ls with
  | nil => rfl
  | cons l ls ih =>
    simp only [prettifyLines]
    rw [if_pos (h l (by simp)), ih fun l hl => h l (by simp [hl])]

theorem prettifyLines_twice (comment : Option Char) (s1 b1 b : Bool) (ls : List Text) :
    prettifyLines comment s1 b1 (prettifyLines comment true b ls) = prettifyLines comment s1 (b1 || b) ls := by
  induction ls generalizing s1 b1 b with
  | nil => rfl
  | cons l ls ih =>
    by_cases hc : isComment comment l = true
    · simp only [prettifyLines, hc, if_true]
      exact ih s1 b1 b
    by_cases hb : rtrim l = []
    · simp only [prettifyLines, hc, hb, if_true]
      simpa using ih s1 b1 true
    · have hc2 : isComment comment (rtrim l) = false := by
        rw [isComment_rtrim comment l hb]; simpa using hc
      have hn : rtrim ([] : Text) = [] := rfl
      cases b with
      | true =>
        simp [prettifyLines, hc, hb, hc2, rtrim_rtrim, isComment_nil, hn, ih]
      | false =>
        simp [prettifyLines, hc, hb, hc2, rtrim_rtrim, ih]

theorem prettifyLines_once (comment : Option Char) (b1 b b2 : Bool) (ls : List Text) :
    prettifyLines comment false b1 (prettifyLines comment false b ls) = prettifyLines comment false b2 ls := by
  induction ls generalizing b1 b b2 with
  | nil => rfl
  | cons l ls ih =>
    by_cases hc : isComment comment l = true
    · simp only [prettifyLines, hc, if_true]
      exact ih b1 b b2
    by_cases hb : rtrim l = []
    · simp only [prettifyLines, hc, hb, if_true]
      simpa using ih b1 true true
    · have hc2 : isComment comment (rtrim l) = false := by
        rw [isComment_rtrim comment l hb]; simpa using hc
      simp [prettifyLines, hc, hb, hc2, rtrim_rtrim, prettifyLines_twice]

/-- Each line of the result is empty, or one of the lines which are not comments, without its trailing spaces. -/
theorem mem_prettifyLines_kept {comment : Option Char} {s b : Bool} {ls : List Text} {l : Text}
    (h : l ∈ prettifyLines comment s b ls) : l = [] ∨ ∃ l' ∈ ls, isComment comment l' = false ∧ l = rtrim l' := by
  induction ls generalizing s b with
  | nil => simp [prettifyLines] at h
  | cons x ls ih =>
    simp only [prettifyLines] at h
    split at h
    · rcases ih h with h | ⟨l', h1, h2⟩
      · exact .inl h
      · exact .inr ⟨l', by simp [h1], h2⟩
    · rename_i hx
      split at h
      · rcases ih h with h | ⟨l', h1, h2⟩
        · exact .inl h
        · exact .inr ⟨l', by simp [h1], h2⟩
      · rw [List.mem_append, List.mem_append] at h
        rcases h with (h | h) | h
        · left
          split at h
          · simpa using h
          · simp at h
        · right
          exact ⟨x, by simp, by simpa using hx, by simpa using h⟩
        · rcases ih h with h | ⟨l', h1, h2⟩
          · exact .inl h
          · exact .inr ⟨l', by simp [h1], h2⟩

theorem mem_prettifyLines {comment : Option Char} {s b : Bool} {ls : List Text} {l : Text}
    (h : l ∈ prettifyLines comment s b ls) : l = [] ∨ ∃ l' ∈ ls, l = rtrim l' :=
  (mem_prettifyLines_kept h).imp_right fun ⟨l', h1, _, h2⟩ => ⟨l', h1, h2⟩

theorem line_infix {t l : Text} (h : l ∈ splitChar '\n' t) : l <:+: t := by
  have h2 := (splitChar_spec '\n' t).2
  rw [← h2]
  obtain ⟨a, b, hab⟩ := List.append_of_mem h
  rw [hab]
  clear h2 h hab
  induction a with
  | nil =>
    cases b with
    | nil => simp [List.intercalate]
    | cons y b => rw [List.nil_append, intercalate_cons_cons]; exact (List.prefix_append _ _).isInfix
  | cons x a ih =>
    cases hab2 : a ++ l :: b with
    | nil => simp at hab2
    | cons y r =>
      rw [List.cons_append, hab2, intercalate_cons_cons]
      rw [hab2] at ih
      rw [← List.append_assoc]
      exact ih.trans (List.suffix_append _ _).isInfix

theorem prettifyLines_no_newline {comment : Option Char} {s b : Bool} {t : Text} :
    ∀ l ∈ prettifyLines comment s b (splitChar '\n' t), '\n' ∉ l := by
  intro l hl
  rcases mem_prettifyLines hl with rfl | ⟨l', h1, rfl⟩
  · simp
  · exact fun h => (splitChar_spec '\n' t).1 l' h1 ((rtrim_prefix l').subset h)

/-- The lines of the result of `messagePrettify`. -/
def pretty (comment : Option Char) (t : Text) : Text :=
  unlines (prettifyLines comment false false (splitChar '\n' t))

theorem messagePrettify_eq {comment : Option Char} {t : Text} (hc : ∀ c, comment = some c → c.toNat < 256)
    (ht : '\x00' ∉ t) : messagePrettify t comment = .ok (pretty comment t) := by
  unfold messagePrettify
  rw [if_neg, if_neg ht]
  · rfl
  · cases comment with
    | none => simp
    | some c => simp [hc c rfl]

theorem messagePrettify_ok {comment : Option Char} {t p : Text} (h : messagePrettify t comment = .ok p) :
    (∀ c, comment = some c → c.toNat < 256) ∧ '\x00' ∉ t ∧ p = pretty comment t := by
  unfold messagePrettify at h
  split at h
  · simp at h
  rename_i h1
  split at h
  · simp at h
  rename_i h2
  refine ⟨?_, h2, ?_⟩
  · rintro c rfl
    simpa using h1
  · simpa [pretty] using h.symm

theorem mem_pretty {comment : Option Char} {t : Text} {x : Char} (h : x ∈ pretty comment t) : x = '\n' ∨ x ∈ t := by
  unfold pretty unlines at h
  rw [List.mem_flatMap] at h
  obtain ⟨l, h1, h2⟩ := h
  rw [List.mem_append] at h2
  rcases h2 with h2 | h2
  · rcases mem_prettifyLines h1 with rfl | ⟨l', h3, rfl⟩
    · simp at h2
    · exact .inr ((line_infix h3).subset ((rtrim_prefix l').subset h2))
  · exact .inl (by simpa using h2)

theorem pretty_pretty (comment : Option Char) (t : Text) : pretty comment (pretty comment t) = pretty comment t := by
  conv => lhs; unfold pretty
  rw [splitChar_unlines _ prettifyLines_no_newline, prettifyLines_blank, prettifyLines_once comment false false false]
  rfl

/-! ### trim -/

theorem trim_eq_nil {t : Text} : trim t = [] ↔ ∀ c ∈ t, isSpace c = true := by
  unfold trim trimEnd trimStart
  rw [List.reverse_eq_nil_iff, List.dropWhile_eq_nil_iff]
  constructor
  · intro h
    have h1 : t.dropWhile isSpace = [] := by
      cases hd : t.dropWhile isSpace with
      | nil => rfl
      | cons x r =>
        have hx : isSpace x = true := h x (by rw [hd]; simp)
        have := List.head?_dropWhile_not isSpace t
        rw [hd] at this
        simp [hx] at this
    exact List.dropWhile_eq_nil_iff.1 h1
  · intro h x hx
    exact h x ((List.dropWhile_suffix _).subset (List.mem_reverse.1 hx))

theorem mem_intercalate {sep : Text} {ts : List Text} {c : Char} (h : c ∈ List.intercalate sep ts) :
    c ∈ sep ∨ ∃ t ∈ ts, c ∈ t := by
  induction ts with
  | nil => simp [List.intercalate] at h
  | cons a l ih =>
    cases l with
    | nil => right; exact ⟨a, by simp, by simpa [List.intercalate] using h⟩
    | cons b l =>
      rw [intercalate_cons_cons, List.mem_append, List.mem_append] at h
      rcases h with h | h | h
      · exact .inr ⟨a, by simp, h⟩
      · exact .inl h
      · rcases ih h with h | ⟨t, h1, h2⟩
        · exact .inl h
        · exact .inr ⟨t, by simp [h1], h2⟩

theorem mem_intercalate_of {sep : Text} {ts : List Text} {c : Char} {t : Text} (ht : t ∈ ts) (hc : c ∈ t) :
    c ∈ List.intercalate sep ts := by
  induction ts with
  | nil => simp at ht
  | cons a l ih =>
    cases l with
    | nil =>
      simp only [List.mem_singleton] at ht
      subst ht
      simpa [List.intercalate] using hc
    | cons b l =>
      rw [intercalate_cons_cons, List.mem_append, List.mem_append]
      rcases List.mem_cons.1 ht with rfl | ht
      · exact .inl hc
      · exact .inr (.inr (ih ht))

/-! ### sections -/

theorem mem_section {text : Text} {s : Text × Text} (h : s ∈ bulkSections text) {x : Char} (hx : x ∈ s.2) :
    x ∈ text := by
  unfold bulkSections at h
  rw [List.mem_map] at h
  obtain ⟨r, h1, rfl⟩ := h
  rw [List.mem_filterMap] at h1
  obtain ⟨c, h2, h3⟩ := h1
  have h4 := (splitOnce_some (a := r.1) (b := r.2)).1 h3
  have h5 := (splitText_spec text).2.1
  rw [h5]
  apply mem_intercalate_of h2
  rw [h4.1]
  simp only at hx
  simp [hx]

/-- A word which starts with a character that is not in the first part is in the second part. -/
theorem infix_append_right {s a b : Text} {x : Char} (hs : s.head? = some x) (ha : x ∉ a) :
    s <:+: a ++ b ↔ s <:+: b := by
  constructor
  · intro h
    induction a with
    | nil => simpa using h
    | cons y a ih =>
      simp only [List.mem_cons, not_or] at ha
      rw [List.cons_append] at h
      rcases List.infix_cons_iff.1 h with h | h
      · cases s with
        | nil => simp at hs
        | cons z s =>
          simp only [List.head?_cons, Option.some.injEq] at hs
          subst hs
          have := (List.cons_prefix_cons.1 h).1
          exact absurd this ha.1
      · exact ih ha.2 h
  · exact fun h => h.trans (List.suffix_append _ _).isInfix

theorem ShortName.no_plus {s : Text} (h : ShortName s) : '+' ∉ s := by
  intro h'
  exact absurd (h.2 _ h') (by decide)

theorem ShortName.no_newline {s : Text} (h : ShortName s) : '\n' ∉ s := by
  intro h'
  exact absurd (h.2 _ h') (by decide)

theorem ShortName.not_space {s : Text} (h : ShortName s) {c : Char} (hc : c ∈ s) :
    isSpace c = false ∧ gitSpace c = false := by
  have : ∀ c ∈ t!"0123456789abcdef", isSpace c = false ∧ gitSpace c = false := by decide
  exact this c (h.2 c hc)

theorem ShortName.trim_space {s : Text} (h : ShortName s) : trim (' ' :: s) = s := by
  have h1 : trim (' ' :: s) = trim s := by
    unfold trim trimStart
    rw [List.dropWhile_cons]
    rw [if_pos (by decide)]
  rw [h1]
  apply trim_of_no_space
  · intro c hc
    exact (h.not_space (List.mem_of_mem_head? hc)).1
  · intro c hc
    exact (h.not_space (List.mem_of_getLast? hc)).1

/-- One commit, and a text without a marker. -/
theorem sections_single {short text : Text} (hs : ShortName short) (ht : ¬ rewordMarker <:+: text) :
    bulkSections (rewordMarker ++ [' '] ++ short ++ ['\n'] ++ text) = [(short, text)] := by
  have hcut : CutAtMarkers (rewordMarker ++ [' '] ++ short ++ ['\n'] ++ text) [[], ' ' :: short ++ '\n' :: text] := by
    refine ⟨by simp, ?_, ?_⟩
    · rw [intercalate_cons_cons]
      simp [List.intercalate, rewordMarker]
    · intro c hc
      simp only [List.mem_cons, List.not_mem_nil, or_false] at hc
      rcases hc with rfl | rfl
      · intro h
        exact absurd (List.infix_nil.1 h) (by decide)
      · intro h
        apply ht
        have h' : t!"++ reword" <:+: (' ' :: short ++ ['\n']) ++ text := by simpa using h
        refine (infix_append_right (x := '+') (by decide) ?_).1 h'
        simp only [List.cons_append, List.mem_cons, List.mem_append, List.not_mem_nil, or_false, not_or]
        exact ⟨by decide, hs.no_plus, by decide⟩
  apply (hasSections_iff _ _).1
  refine ⟨_, hcut, .skip (by simp) (.take ⟨' ' :: short, rfl, ?_, ?_⟩ .nil)⟩
  · simp only [List.mem_cons, not_or]
    exact ⟨by decide, hs.no_newline⟩
  · exact hs.trim_space.symm

theorem saysMessages_iff {commits : List RewordCommit} (hn : ∀ c ∈ commits, ShortName c.short) (text : Text)
    (sections : List (Text × Text)) :
    SaysMessages commits text sections ↔ bulkSections (markedText text commits) = sections := by
  unfold SaysMessages
  change (∃ c, commits = [c] ∧ ¬ rewordMarker <:+: text ∧ _) ∨ (¬ (_ ∧ ¬ rewordMarker <:+: text) ∧ _) ↔ _
  by_cases h1 : ∃ c, commits = [c]
  · obtain ⟨c, rfl⟩ := h1
    simp only [markedText]
    by_cases h2 : rewordMarker <:+: text
    · rw [if_pos h2, ← hasSections_iff]
      constructor
      · rintro (⟨c', _, h3, _⟩ | ⟨_, h3⟩)
        · exact absurd h2 h3
        · exact h3
      · exact fun h => .inr ⟨fun h4 => h4.2 h2, h⟩
    · rw [if_neg h2, sections_single (hn c (by simp)) h2]
      constructor
      · rintro (⟨c', h3, _, h4⟩ | ⟨h3, _⟩)
        · simp only [List.cons.injEq, and_true] at h3
          subst h3
          exact h4.symm
        · exact absurd ⟨rfl, h2⟩ h3
      · rintro rfl
        exact .inl ⟨c, rfl, h2, rfl⟩
  · have : markedText text commits = text := by
      unfold markedText
      split
      · rename_i c
        exact absurd ⟨c, rfl⟩ h1
      · rfl
    rw [this, ← hasSections_iff]
    constructor
    · rintro (⟨c, h2, _⟩ | ⟨_, h2⟩)
      · exact absurd ⟨c, h2⟩ h1
      · exact h2
    · intro h
      refine .inr ⟨fun h2 => h1 ?_, h⟩
      exact List.length_eq_one_iff.1 h2.1

/-! ### the loop -/

theorem shortOids_get? {commits : List RewordCommit} (h : (commits.map (·.short)).Nodup) (name : Text) (o : Oid) :
    AMap.get? (shortOids commits) name = some o ↔ ∃ c ∈ commits, c.short = name ∧ c.oid = o := by
  unfold shortOids
  have key : ∀ (l : List RewordCommit) (m : AMap Text Oid), (l.map (·.short)).Nodup →
      (AMap.get? (l.foldl (fun m c => AMap.insert m c.short c.oid) m) name = some o ↔
        (∃ c ∈ l, c.short = name ∧ c.oid = o) ∨ (name ∉ l.map (·.short) ∧ AMap.get? m name = some o)) := by
    intro l
    induction l with
    | nil => simp
    | cons c l ih =>
      intro m hn
      rw [List.map_cons, List.nodup_cons] at hn
      rw [List.foldl_cons, ih _ hn.2, AMap.get?_insert]
      constructor
      · rintro (⟨c', h1, h2⟩ | ⟨h1, h2⟩)
        · exact .inl ⟨c', by simp [h1], h2⟩
        · split at h2
          · rename_i h3
            exact .inl ⟨c, by simp, h3, by simpa using h2⟩
          · rename_i h3
            refine .inr ⟨?_, h2⟩
            simp only [List.map_cons, List.mem_cons, not_or]
            exact ⟨fun e => h3 e.symm, h1⟩
      · rintro (⟨c', h1, h2, h3⟩ | ⟨h1, h2⟩)
        · rcases List.mem_cons.1 h1 with rfl | h1
          · refine .inr ⟨h2 ▸ hn.1, ?_⟩
            rw [if_pos h2, h3]
          · exact .inl ⟨c', h1, h2, h3⟩
        · simp only [List.map_cons, List.mem_cons, not_or] at h1
          refine .inr ⟨h1.2, ?_⟩
          rw [if_neg (fun e => h1.1 e.symm), h2]
  rw [key _ _ h]
  simp

/-- What the loop does. -/
theorem parseSections_exact {oids : AMap Text Oid} {comment : Char}
    (hinj : ∀ h1 h2 o, AMap.get? oids h1 = some o → AMap.get? oids h2 = some o → h1 = h2)
    (sections : List (Text × Text))
    (hok : ∀ s ∈ sections, messagePrettify s.2 (some comment) = .ok (pretty (some comment) s.2))
    (r : ParsedMessages) :
    ∃ r', parseSections oids comment r sections = .ok r' ∧
      r'.unexpected = r.unexpected ++ (sections.map (·.1)).filter (fun h => (AMap.get? oids h).isNone) ∧
      (∀ h o, AMap.get? oids h = some o →
        AMap.get? r'.messages o = (AMap.get? r.messages o).or
          ((sections.find? (fun s => decide (s.1 = h))).map fun s => pretty (some comment) s.2)) ∧
      (∀ o, (∀ h, AMap.get? oids h ≠ some o) → AMap.get? r'.messages o = AMap.get? r.messages o) ∧
      (∀ h o, AMap.get? oids h = some o →
        r'.duplicates.count h = r.duplicates.count h +
          ((sections.map (·.1)).count h - if (AMap.get? r.messages o).isSome then 0 else 1)) ∧
      (∀ h, AMap.get? oids h = none → r'.duplicates.count h = r.duplicates.count h) := by
  induction sections generalizing r with
  | nil => exact ⟨r, rfl, by simp, by simp, by simp, by simp, by simp⟩
  | cons s rest ih =>
    obtain ⟨hash, msg⟩ := s
    have hok' := fun s hs => hok s (List.mem_cons_of_mem _ hs)
    simp only [parseSections]
    cases hh : AMap.get? oids hash with
    | none =>
      obtain ⟨r', h1, h2, h3, h4, h5, h6⟩ := ih hok' { r with unexpected := r.unexpected ++ [hash] }
      refine ⟨r', h1, ?_, ?_, h4, ?_, h6⟩
      · rw [h2]
        simp [List.filter_cons, hh]
      · intro h o ho
        rw [h3 h o ho]
        have : hash ≠ h := by rintro rfl; rw [hh] at ho; simp at ho
        simp [List.find?_cons, this]
      · intro h o ho
        rw [h5 h o ho]
        have : hash ≠ h := by rintro rfl; rw [hh] at ho; simp at ho
        simp only [List.map_cons, List.count_cons_of_ne this]
    | some oid =>
      simp only
      by_cases hm : (AMap.get? r.messages oid).isSome = true
      · rw [if_pos hm]
        obtain ⟨r', h1, h2, h3, h4, h5, h6⟩ := ih hok' { r with duplicates := r.duplicates ++ [hash] }
        refine ⟨r', h1, ?_, ?_, h4, ?_, ?_⟩
        · rw [h2]
          simp [List.filter_cons, hh]
        · intro h o ho
          rw [h3 h o ho]
          by_cases he : hash = h
          · subst he
            rw [hh] at ho
            simp only [Option.some.injEq] at ho
            subst ho
            obtain ⟨m, hm⟩ := Option.isSome_iff_exists.1 hm
            simp [hm]
          · simp [List.find?_cons, he]
        · intro h o ho
          rw [h5 h o ho]
          by_cases he : hash = h
          · subst he
            rw [hh] at ho
            simp only [Option.some.injEq] at ho
            subst ho
            simp only [hm, if_true, List.map_cons, List.count_cons_self, List.count_append, List.count_nil]
            omega
          · simp only [List.map_cons, List.count_cons_of_ne he, List.count_append, List.count_nil]
            omega
        · intro h ho
          rw [h6 h ho]
          have : hash ≠ h := by rintro rfl; rw [hh] at ho; simp at ho
          simp [List.count_append, List.count_cons_of_ne this]
      · rw [if_neg hm]
        have hm0 : AMap.get? r.messages oid = none := by simpa using hm
        rw [hok (hash, msg) (by simp)]
        simp only
        obtain ⟨r', h1, h2, h3, h4, h5, h6⟩ :=
          ih hok' { r with messages := AMap.insert r.messages oid (pretty (some comment) msg) }
        refine ⟨r', h1, ?_, ?_, ?_, ?_, h6⟩
        · rw [h2]
          simp [List.filter_cons, hh]
        · intro h o ho
          rw [h3 h o ho]
          by_cases he : hash = h
          · subst he
            rw [hh] at ho
            simp only [Option.some.injEq] at ho
            subst ho
            simp [AMap.get?_insert, hm0, List.find?_cons]
          · have : oid ≠ o := by
              rintro rfl
              exact he (hinj _ _ _ hh ho)
            simp [AMap.get?_insert, List.find?_cons, he, this]
        · intro o ho
          rw [h4 o ho]
          have : oid ≠ o := by
            rintro rfl
            exact ho _ hh
          simp [AMap.get?_insert, this]
        · intro h o ho
          rw [h5 h o ho]
          by_cases he : hash = h
          · subst he
            rw [hh] at ho
            simp only [Option.some.injEq] at ho
            subst ho
            simp [AMap.get?_insert, hm0]
          · have : oid ≠ o := by
              rintro rfl
              exact he (hinj _ _ _ hh ho)
            simp [AMap.get?_insert, List.count_cons_of_ne he, this]

/-! ### the text comes back -/

theorem infix_split {s a b : Text} {x : Char} (h : s <:+: a ++ x :: b) (hx : x ∉ s) : s <:+: a ∨ s <:+: b := by
  obtain ⟨u, v, h⟩ := h
  rw [List.append_assoc] at h
  rcases List.append_eq_append_iff.1 h with ⟨a', h1, h2⟩ | ⟨c, h1, h2⟩
  · rcases List.append_eq_append_iff.1 h2 with ⟨a'', h3, _⟩ | ⟨c, h3, h4⟩
    · left
      rw [h1, h3]
      exact ⟨u, a'', by simp⟩
    · cases c with
      | nil =>
        left
        rw [h1, h3]
        exact ⟨u, [], by simp⟩
      | cons y c =>
        simp only [List.cons_append, List.cons.injEq] at h4
        exact absurd (by rw [h3, h4.1]; simp) hx
  · cases c with
    | nil =>
      cases s with
      | nil => exact .inl List.nil_infix
      | cons y s =>
        simp only [List.nil_append, List.cons_append, List.cons.injEq] at h2
        exact absurd (by rw [h2.1]; simp) hx
    | cons y c =>
      simp only [List.cons_append, List.cons.injEq] at h2
      exact .inr ⟨c, v, by simp [h2.2]⟩

theorem infix_unlines {s : Text} {ls : List Text} (hs : s ≠ []) (hn : '\n' ∉ s) (h : s <:+: unlines ls) :
    ∃ l ∈ ls, s <:+: l := by
  induction ls with
  | nil => exact absurd (List.infix_nil.1 h) hs
  | cons l ls ih =>
    have h' : s <:+: l ++ '\n' :: unlines ls := by simpa [unlines] using h
    rcases infix_split h' hn with h | h
    · exact ⟨l, by simp, h⟩
    · obtain ⟨l', h1, h2⟩ := ih h
      exact ⟨l', by simp [h1], h2⟩

theorem marker_not_in_lines {comment : Option Char} {s b : Bool} {t : Text} (ht : ¬ rewordMarker <:+: t) :
    ∀ l ∈ prettifyLines comment s b (splitChar '\n' t), ¬ rewordMarker <:+: l := by
  intro l hl h
  rcases mem_prettifyLines hl with rfl | ⟨l', h1, rfl⟩
  · exact absurd (List.infix_nil.1 h) (by decide)
  · exact ht ((h.trans (rtrim_prefix l').isInfix).trans (line_infix h1))

/-- The lines of the message of a commit, as they are after the first clean-up. -/
def outLines (comment : Char) (new : Text) : List Text :=
  prettifyLines (some comment) true false (splitChar '\n' new)

/-- The pieces of the cleaned-up text. -/
def roundChunks (comment : Char) (new : RewordCommit → Text) : List RewordCommit → List Text
  | [] => []
  | [c] => [' ' :: c.short ++ '\n' :: unlines (outLines comment (new c))]
  | c :: c' :: cs =>
    (' ' :: c.short ++ '\n' :: unlines (outLines comment (new c) ++ [[]])) :: roundChunks comment new (c' :: cs)

/-- The sections of the cleaned-up text. -/
def roundSections (comment : Char) (new : RewordCommit → Text) : List RewordCommit → List (Text × Text)
  | [] => []
  | [c] => [(c.short, unlines (outLines comment (new c)))]
  | c :: c' :: cs =>
    (c.short, unlines (outLines comment (new c) ++ [[]])) :: roundSections comment new (c' :: cs)

theorem roundSections_names (comment : Char) (new : RewordCommit → Text) (cs : List RewordCommit) :
    (roundSections comment new cs).map (·.1) = cs.map (·.short) := by
  induction cs with
  | nil => rfl
  | cons c cs ih =>
    cases cs with
    | nil => rfl
    | cons c' cs => simpa [roundSections] using ih

theorem mem_roundSections {comment : Char} {new : RewordCommit → Text} {cs : List RewordCommit} {c : RewordCommit}
    (h : c ∈ cs) : ∃ e, (e = [] ∨ e = [[]]) ∧
      (c.short, unlines (outLines comment (new c) ++ e)) ∈ roundSections comment new cs := by
  induction cs with
  | nil => simp at h
  | cons c1 cs ih =>
    cases cs with
    | nil =>
      simp only [List.mem_singleton] at h
      subst h
      exact ⟨[], .inl rfl, by simp [roundSections]⟩
    | cons c' cs =>
      rcases List.mem_cons.1 h with rfl | h
      · exact ⟨[[]], .inr rfl, by simp [roundSections]⟩
      · obtain ⟨e, h1, h2⟩ := ih h
        exact ⟨e, h1, by simp only [roundSections]; exact List.mem_cons_of_mem _ h2⟩

theorem roundChunks_sections (comment : Char) (new : RewordCommit → Text) (cs : List RewordCommit)
    (hn : ∀ c ∈ cs, ShortName c.short) : SectionsOf (roundChunks comment new cs) (roundSections comment new cs) := by
  have key : ∀ c ∈ cs, ∀ body, IsSection (' ' :: c.short ++ '\n' :: body) c.short body := by
    intro c hc body
    refine ⟨' ' :: c.short, rfl, ?_, (hn c hc).trim_space.symm⟩
    simp only [List.mem_cons, not_or]
    exact ⟨by decide, (hn c hc).no_newline⟩
  induction cs with
  | nil => exact .nil
  | cons c cs ih =>
    cases cs with
    | nil => exact .take (key c (by simp) _) .nil
    | cons c' cs =>
      exact .take (key c (by simp) _) (ih (fun c hc => hn c (List.mem_cons_of_mem _ hc))
        fun c hc => key c (List.mem_cons_of_mem _ hc))

theorem roundChunks_no_marker (comment : Char) (new : RewordCommit → Text) (cs : List RewordCommit)
    (hn : ∀ c ∈ cs, ShortName c.short) (hm : ∀ c ∈ cs, ¬ rewordMarker <:+: new c) :
    ∀ t ∈ roundChunks comment new cs, ¬ rewordMarker <:+: t := by
  have key : ∀ c ∈ cs, ∀ e, (e = [] ∨ e = [[]]) →
      ¬ rewordMarker <:+: ' ' :: c.short ++ '\n' :: unlines (outLines comment (new c) ++ e) := by
    intro c hc e he h
    have h' : rewordMarker <:+: (' ' :: c.short ++ ['\n']) ++ unlines (outLines comment (new c) ++ e) := by
      simpa using h
    have h2 := (infix_append_right (x := '+') (by decide) (by
      simp only [List.cons_append, List.mem_cons, List.mem_append, List.not_mem_nil, or_false, not_or]
      exact ⟨by decide, (hn c hc).no_plus, by decide⟩)).1 h'
    obtain ⟨l, h3, h4⟩ := infix_unlines (by decide) (by decide) h2
    rw [List.mem_append] at h3
    rcases h3 with h3 | h3
    · exact marker_not_in_lines (hm c hc) l h3 h4
    · have : l = [] := by
        rcases he with rfl | rfl
        · simp at h3
        · simpa using h3
      subst this
      exact absurd (List.infix_nil.1 h4) (by decide)
  induction cs with
  | nil => simp [roundChunks]
  | cons c cs ih =>
    cases cs with
    | nil =>
      intro t ht
      simp only [roundChunks, List.mem_singleton] at ht
      subst ht
      have := key c (by simp) [] (.inl rfl)
      rwa [List.append_nil] at this
    | cons c' cs =>
      intro t ht
      simp only [roundChunks] at ht
      rcases List.mem_cons.1 ht with rfl | ht
      · exact key c (by simp) [[]] (.inr rfl)
      · exact ih (fun c hc => hn c (List.mem_cons_of_mem _ hc)) (fun c hc => hm c (List.mem_cons_of_mem _ hc))
          (fun c hc => key c (List.mem_cons_of_mem _ hc)) t ht

/-- The line which names a commit. -/
def headerLine (c : RewordCommit) : Text := rewordMarker ++ [' '] ++ c.short

/-- The parts of the text, for several commits. -/
def partsText (new : RewordCommit → Text) (cs : List RewordCommit) : Text :=
  cs.flatMap fun c => rewordMarker ++ [' '] ++ c.short ++ ['\n'] ++ new c ++ ['\n', '\n']

theorem splitChar_parts (new : RewordCommit → Text) (cs : List RewordCommit) (hn : ∀ c ∈ cs, ShortName c.short)
    (footer : Text) :
    splitChar '\n' (partsText new cs ++ footer) =
      (cs.flatMap fun c => headerLine c :: (splitChar '\n' (new c) ++ [[]])) ++ splitChar '\n' footer := by
  induction cs with
  | nil => rfl
  | cons c cs ih =>
    have ih := ih fun c hc => hn c (List.mem_cons_of_mem _ hc)
    have hnl : '\n' ∉ headerLine c := by
      unfold headerLine
      simp only [List.mem_append, not_or]
      exact ⟨⟨by decide, by decide⟩, (hn c (by simp)).no_newline⟩
    have : partsText new (c :: cs) ++ footer =
        headerLine c ++ '\n' :: (new c ++ '\n' :: ([] ++ '\n' :: (partsText new cs ++ footer))) := by
      simp [partsText, headerLine]
    rw [this, splitChar_append_sep hnl, splitChar_append, splitChar_append, ih]
    simp [splitChar]

theorem header_kept {comment : Char} (hp : comment ≠ '+') {c : RewordCommit} (hn : ShortName c.short) :
    isComment (some comment) (headerLine c) = false ∧ rtrim (headerLine c) = headerLine c ∧ headerLine c ≠ [] := by
  have hne : headerLine c ≠ [] := by simp [headerLine, rewordMarker]
  refine ⟨?_, ?_, hne⟩
  · unfold headerLine
    simp only [rewordMarker, isComment]
    change (leadByte '+' == comment.toNat) = false
    rw [beq_eq_false_iff_ne]
    intro h
    apply hp
    apply Char.ext
    apply UInt32.toNat_inj.1
    exact h.symm
  · obtain ⟨x, hx⟩ : ∃ x, c.short.getLast? = some x := by
      cases h : c.short.getLast? with
      | none => exact absurd (List.getLast?_eq_none_iff.1 h) hn.1
      | some x => exact ⟨x, rfl⟩
    apply rtrim_of_last (c := x)
    · unfold headerLine
      rw [List.getLast?_append_of_ne_nil _ hn.1, hx]
    · exact (hn.not_space (List.mem_of_getLast? hx)).2

theorem prettify_message (comment : Option Char) (a rest : List Text) :
    prettifyLines comment true false (a ++ [] :: rest) =
      prettifyLines comment true false a ++ prettifyLines comment true true rest := by
  have : a ++ [] :: rest = (a ++ [[]]) ++ rest := by simp
  rw [this, prettifyLines_append, prettifyLines_blank, stateAfter_append, stateAfter_started, stateAfter_blank]

theorem prettify_parts {comment : Char} (hp : comment ≠ '+') (new : RewordCommit → Text) {footer : List Text}
    (hf : ∀ l ∈ footer, isComment (some comment) l = true) (cs : List RewordCommit)
    (hn : ∀ c ∈ cs, ShortName c.short) :
    prettifyLines (some comment) true true
      ((cs.flatMap fun c => headerLine c :: (splitChar '\n' (new c) ++ [[]])) ++ footer) =
      cs.flatMap fun c => [] :: headerLine c :: outLines comment (new c) := by
  induction cs with
  | nil => exact prettifyLines_comments _ _ _ hf
  | cons c cs ih =>
    have ih := ih fun c hc => hn c (List.mem_cons_of_mem _ hc)
    obtain ⟨h1, h2, h3⟩ := header_kept hp (hn c (by simp))
    simp only [List.flatMap_cons, List.cons_append, List.append_assoc, prettifyLines, h1, h2, h3,
      Bool.false_eq_true, if_false, Bool.and_self, if_true, List.nil_append]
    rw [prettify_message, ih]
    rfl

theorem pretty_parts {comment : Char} (hp : comment ≠ '+') (new : RewordCommit → Text) {footer : Text}
    (hf : ∀ l ∈ splitChar '\n' footer, isComment (some comment) l = true) (c : RewordCommit) (cs : List RewordCommit)
    (hn : ∀ c' ∈ c :: cs, ShortName c'.short) :
    pretty (some comment) (partsText new (c :: cs) ++ footer) =
      List.intercalate rewordMarker ([] :: roundChunks comment new (c :: cs)) := by
  have hlines : prettifyLines (some comment) false false (splitChar '\n' (partsText new (c :: cs) ++ footer)) =
      headerLine c :: (outLines comment (new c) ++
        cs.flatMap fun c => [] :: headerLine c :: outLines comment (new c)) := by
    rw [splitChar_parts new _ hn]
    obtain ⟨h1, h2, h3⟩ := header_kept hp (hn c (by simp))
    have hrest := prettify_parts hp new hf cs fun c hc => hn c (List.mem_cons_of_mem _ hc)
    simp only [List.flatMap_cons, List.cons_append, List.append_assoc, prettifyLines, h1, h2, h3,
      Bool.false_eq_true, if_false, Bool.and_self, List.nil_append]
    rw [prettify_message, hrest]
    rfl
  unfold pretty
  rw [hlines]
  clear hlines
  induction cs generalizing c with
  | nil => simp [unlines, headerLine, roundChunks, List.intercalate]
  | cons c' cs ih =>
    have ih := ih c' fun c hc => hn c (List.mem_cons_of_mem _ hc)
    have e1 : unlines (headerLine c :: (outLines comment (new c) ++
        (c' :: cs).flatMap fun c => [] :: headerLine c :: outLines comment (new c))) =
        headerLine c ++ '\n' :: (unlines (outLines comment (new c) ++ [[]]) ++
          unlines (headerLine c' :: (outLines comment (new c') ++
            cs.flatMap fun c => [] :: headerLine c :: outLines comment (new c)))) := by
      simp [unlines]
    rw [e1, ih]
    simp only [roundChunks]
    cases hr : roundChunks comment new (c' :: cs) with
    | nil => cases cs <;> simp [roundChunks] at hr
    | cons r rs =>
      simp [List.intercalate, headerLine, List.intersperse_cons₂]

/-- The text with the given messages says just these messages. -/
theorem parts_say {comment : Char} (hp : comment ≠ '+') (new : RewordCommit → Text) {footer : Text}
    (hf : ∀ l ∈ splitChar '\n' footer, isComment (some comment) l = true) {cs : List RewordCommit}
    (hlen : 2 ≤ cs.length) (hn : ∀ c ∈ cs, ShortName c.short) (hm : ∀ c ∈ cs, ¬ rewordMarker <:+: new c) :
    SaysMessages cs (pretty (some comment) (partsText new cs ++ footer)) (roundSections comment new cs) := by
  right
  refine ⟨fun h => by omega, ?_⟩
  cases cs with
  | nil => simp at hlen
  | cons c cs =>
    refine ⟨[] :: roundChunks comment new (c :: cs), ⟨by simp, pretty_parts hp new hf c cs hn, ?_⟩,
      .skip (by simp) (roundChunks_sections comment new _ hn)⟩
    intro t ht
    rcases List.mem_cons.1 ht with rfl | ht
    · intro h
      exact absurd (List.infix_nil.1 h) (by decide)
    · exact roundChunks_no_marker comment new _ hn hm t ht

theorem pretty_outLines (comment : Char) (new : Text) {e : List Text} (he : e = [] ∨ e = [[]]) :
    pretty (some comment) (unlines (outLines comment new ++ e)) = pretty (some comment) new := by
  have hnl : ∀ l ∈ outLines comment new ++ e, '\n' ∉ l := by
    intro l hl
    rw [List.mem_append] at hl
    rcases hl with hl | hl
    · exact prettifyLines_no_newline l hl
    · rcases he with rfl | rfl
      · simp at hl
      · simp only [List.mem_singleton] at hl
        subst hl
        simp
  conv => lhs; unfold pretty
  rw [splitChar_unlines _ hnl, prettifyLines_blank]
  have : prettifyLines (some comment) false false (outLines comment new ++ e) =
      prettifyLines (some comment) false false (splitChar '\n' new) := by
    have h0 : prettifyLines (some comment) false false (outLines comment new) =
        prettifyLines (some comment) false false (splitChar '\n' new) := by
      unfold outLines
      rw [prettifyLines_twice]
      rfl
    rcases he with rfl | rfl
    · rw [List.append_nil, h0]
    · rw [prettifyLines_blank, h0]
  rw [this]
  rfl

theorem natDigits_no_newline (n : Nat) : '\n' ∉ natToText n := by
  have key : ∀ (fuel n : Nat) (acc : Text), '\n' ∉ acc → '\n' ∉ decDigitsAux fuel n acc := by
    intro fuel
    induction fuel with
    | zero => exact fun n acc h => h
    | succ fuel ih =>
      intro n acc h
      have hd : '\n' ∉ Char.ofNat (48 + n % 10) :: acc := by
        simp only [List.mem_cons, not_or]
        refine ⟨?_, h⟩
        have : ∀ m < 10, '\n' ≠ Char.ofNat (48 + m) := by decide
        exact this _ (Nat.mod_lt _ (by decide))
      simp only [decDigitsAux]
      split
      · exact hd
      · exact ih _ _ hd
  exact key _ _ _ (by simp)

/-- Each line of the explanation is a comment. -/
theorem footer_comments {comment : Char} (hc : comment.toNat < 128) (hnl : comment ≠ '\n') (n : Nat) :
    ∀ l ∈ splitChar '\n' (rewordFooter comment n), isComment (some comment) l = true := by
  have hstart : ∀ l : Text, isComment (some comment) (comment :: l) = true := by
    intro l
    simp [isComment, leadByte, hc]
  have key : ∀ a b : Text, '\n' ∉ a → (∀ l ∈ splitChar '\n' b, isComment (some comment) l = true) →
      ∀ l ∈ splitChar '\n' ((comment :: a) ++ '\n' :: b), isComment (some comment) l = true := by
    intro a b ha hb l hl
    rw [splitChar_append_sep (by simp only [List.mem_cons, not_or]; exact ⟨fun e => hnl e.symm, ha⟩)] at hl
    rcases List.mem_cons.1 hl with rfl | hl
    · exact hstart _
    · exact hb l hl
  have hlast : ∀ l ∈ splitChar '\n' (comment :: t!" rewording."), isComment (some comment) l = true := by
    intro l hl
    rw [splitChar_of_not_mem (by simp only [List.mem_cons, not_or]; exact ⟨fun e => hnl e.symm, by decide⟩)] at hl
    simp only [List.mem_singleton] at hl
    subst hl
    exact hstart _
  have h2 := key (t!" Lines starting with '" ++ [comment] ++ t!"' will be ignored, and an empty message aborts")
    (comment :: t!" rewording.") (by
      simp only [List.mem_append, List.mem_singleton, not_or]
      exact ⟨⟨by decide, fun e => hnl e.symm⟩, by decide⟩) hlast
  have h1 := key (t!" Rewording: Please enter the commit " ++ (if n = 1 then t!"message" else t!"messages") ++
    t!" to apply to " ++ (if n = 1 then t!"this 1 commit" else t!"these " ++ natToText n ++ t!" commits") ++ t!".")
    _ (by
      simp only [List.mem_append, not_or]
      refine ⟨⟨⟨⟨by decide, ?_⟩, by decide⟩, ?_⟩, by decide⟩
      · split <;> decide
      · split
        · decide
        · simp only [List.mem_append, not_or]
          exact ⟨⟨by decide, natDigits_no_newline n⟩, by decide⟩) h2
  intro l hl
  apply h1 l
  have : rewordFooter comment n = (comment :: (t!" Rewording: Please enter the commit " ++
      (if n = 1 then t!"message" else t!"messages") ++
      t!" to apply to " ++ (if n = 1 then t!"this 1 commit" else t!"these " ++ natToText n ++ t!" commits") ++ t!".")) ++
      '\n' :: ((comment :: (t!" Lines starting with '" ++ [comment] ++
        t!"' will be ignored, and an empty message aborts")) ++ '\n' :: (comment :: t!" rewording.")) := by
    unfold rewordFooter
    generalize (if n = 1 then t!"message" else t!"messages") = a
    generalize (if n = 1 then t!"this 1 commit" else t!"these " ++ natToText n ++ t!" commits") = b
    simp
  rw [← this]
  exact hl

end Verif.Spec
