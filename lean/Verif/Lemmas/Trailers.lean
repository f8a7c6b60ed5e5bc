import Verif.Model.Trailers

/-!
Lemmas about the trailers of commit messages.
-/

namespace Verif.Spec

open Verif

/-! ### lines -/

theorem keepLines_flatten (s : Text) : (keepLines s).flatten = s := by
  induction s with
  | nil => rfl
  | cons c s ih =>
    rw [keepLines]
    split
    · rw [List.flatten_cons, ih]; rfl
    · split
      · rename_i h
        rw [h] at ih
        rw [← ih]; rfl
      · rename_i l ls h
        rw [h] at ih
        rw [← ih]; rfl

theorem keepLines_line (l s : Text) (h : '\n' ∉ l) :
    keepLines (l ++ '\n' :: s) = (l ++ ['\n']) :: keepLines s := by
  induction l with
  | nil => simp [keepLines]
  | cons c l ih =>
    have h1 : c ≠ '\n' := fun e => h (by simp [e])
    rw [List.cons_append, keepLines, if_neg h1, ih (fun hm => h (List.mem_cons_of_mem _ hm))]
    rfl

/-- Every line but the last one ends with a newline. -/
theorem keepLines_split (s : Text) (a b : List Text) (h : keepLines s = a ++ b) (hb : b ≠ []) :
    a.flatten = [] ∨ a.flatten.getLast? = some '\n' := by
  induction s generalizing a with
  | nil =>
    rw [keepLines] at h
    exact absurd (List.append_eq_nil_iff.1 h.symm).2 hb
  | cons c s ih =>
    cases a with
    | nil => exact .inl rfl
    | cons x a =>
      right
      rw [keepLines] at h
      split at h
      · rename_i hc
        rw [List.cons_append, List.cons.injEq] at h
        obtain ⟨rfl, h⟩ := h
        rcases ih a h with h1 | h1
        · rw [List.flatten_cons, h1]; simp [hc]
        · rw [List.flatten_cons, List.getLast?_append, h1]; rfl
      · split at h
        · rename_i hn
          rw [List.cons_append, List.cons.injEq] at h
          exact absurd (List.append_eq_nil_iff.1 h.2.symm).2 hb
        · rename_i l ls hl
          rw [List.cons_append, List.cons.injEq] at h
          obtain ⟨rfl, h⟩ := h
          have := ih (l :: a) (by rw [hl, h]; rfl)
          rcases this with h1 | h1
          · exfalso
            -- a line is not empty
            have hne : ∀ s : Text, ∀ l ∈ keepLines s, l ≠ [] := by
              intro s
              induction s with
              | nil => intro l hl; simp [keepLines] at hl
              | cons d s ih2 =>
                intro l hl
                rw [keepLines] at hl
                split at hl
                · rcases List.mem_cons.1 hl with rfl | hl
                  · simp
                  · exact ih2 l hl
                · split at hl
                  · rcases List.mem_cons.1 hl with rfl | hl
                    · simp
                    · simp at hl
                  · rename_i h0
                    rcases List.mem_cons.1 hl with rfl | hl
                    · simp
                    · exact ih2 l (by rw [h0]; exact List.mem_cons_of_mem _ hl)
            rw [List.flatten_cons, List.append_eq_nil_iff] at h1
            exact hne s l (by rw [hl]; simp) h1.1
          · rw [List.flatten_cons, List.cons_append, List.getLast?_cons, ← List.flatten_cons, h1]
            rfl

/-! ### keys are at the start of lines -/

/-- A text begins at the start of a line. -/
def AtLineStart (marker t : Text) : Prop :=
  ∃ pre post, t = pre ++ marker ++ post ∧ (pre = [] ∨ pre.getLast? = some '\n')

/-- What is known while reading: what was read so far, and the state. -/
def TrailerInv (pre : Text) : TrailerState → Prop
  | .key k => ∃ a, pre = a ++ k ∧ (a = [] ∨ a.getLast? = some '\n')
  | .keyWs k | .sepWs k | .value k _ => AtLineStart k pre
  | .valueNl k _ => AtLineStart k pre ∧ pre.getLast? = some '\n'
  | .ignore => True

theorem AtLineStart.append {m t : Text} (h : AtLineStart m t) (s : Text) : AtLineStart m (t ++ s) := by
  obtain ⟨a, b, rfl, h⟩ := h
  exact ⟨a, b ++ s, by simp, h⟩

theorem atLineStart_of_key {pre k : Text} (h : TrailerInv pre (.key k)) : AtLineStart k pre := by
  obtain ⟨a, rfl, h⟩ := h
  exact ⟨a, [], by simp, h⟩

theorem afterIgnored_inv (pre : Text) (c : Char) : TrailerInv (pre ++ [c]) (afterIgnored c) := by
  unfold afterIgnored
  split
  · rename_i h
    subst h
    exact ⟨pre ++ ['\n'], by simp, .inr (by simp)⟩
  · trivial

theorem keyStep_inv {pre k : Text} (c : Char) (h : TrailerInv pre (.key k)) :
    TrailerInv (pre ++ [c]) (keyStep k c) := by
  unfold keyStep
  split
  · obtain ⟨a, rfl, h⟩ := h
    exact ⟨a, by simp, h⟩
  · split
    · exact (atLineStart_of_key h).append _
    · split
      · exact (atLineStart_of_key h).append _
      · exact afterIgnored_inv _ _

theorem parseTrailers_keys (rest pre : Text) (s : TrailerState) (h : TrailerInv pre s) :
    ∀ e ∈ parseTrailers s rest, AtLineStart e.1 (pre ++ rest) := by
  induction rest generalizing pre s with
  | nil =>
    intro e he
    rw [parseTrailers] at he
    rw [List.append_nil]
    cases s with
    | value k v =>
      simp only [trailerEnd, List.mem_singleton] at he
      rw [he]; exact h
    | valueNl k v =>
      simp only [trailerEnd, List.mem_singleton] at he
      rw [he]; exact h.1
    | _ => simp [trailerEnd] at he
  | cons c rest ih =>
    intro e he
    rw [parseTrailers, List.mem_append] at he
    have hstep : TrailerInv (pre ++ [c]) (trailerStep s c).2 ∧
        ∀ e ∈ (trailerStep s c).1, AtLineStart e.1 pre := by
      cases s with
      | key k => exact ⟨keyStep_inv c h, by simp [trailerStep]⟩
      | keyWs k =>
        refine ⟨?_, by simp [trailerStep]⟩
        simp only [trailerStep]
        split
        · exact AtLineStart.append h _
        · split
          · exact AtLineStart.append h _
          · exact afterIgnored_inv _ _
      | sepWs k =>
        refine ⟨?_, by simp [trailerStep]⟩
        simp only [trailerStep]
        split
        · exact AtLineStart.append h _
        · exact AtLineStart.append h _
      | value k v =>
        refine ⟨?_, by simp [trailerStep]⟩
        simp only [trailerStep]
        split
        · rename_i hc
          exact ⟨AtLineStart.append h _, by simp [hc]⟩
        · exact AtLineStart.append h _
      | valueNl k v =>
        simp only [trailerStep]
        split
        · exact ⟨AtLineStart.append h.1 _, by simp⟩
        · refine ⟨keyStep_inv c ⟨pre, by simp, .inr h.2⟩, ?_⟩
          simp only [Option.mem_def, Option.some.injEq]
          rintro e rfl
          exact h.1
      | ignore => exact ⟨afterIgnored_inv _ _, by simp [trailerStep]⟩
    rcases he with he | he
    · have := (hstep.2 e (by simpa using he)).append (c :: rest)
      exact this
    · have := ih (pre ++ [c]) _ hstep.1 e he
      simpa using this

theorem takeWhile_prefix' {α : Type} (p : α → Bool) (l : List α) : ∃ b, l = l.takeWhile p ++ b :=
  ⟨l.dropWhile p, (List.takeWhile_append_dropWhile).symm⟩

theorem takeWhile_all {α : Type} (p : α → Bool) (l : List α) (h : ∀ x ∈ l, p x = true) :
    l.takeWhile p = l := by
  induction l with
  | nil => rfl
  | cons x l ih =>
    rw [List.takeWhile_cons, if_pos (h x List.mem_cons_self), ih (fun y hy => h y (List.mem_cons_of_mem _ hy))]

/-- The keys of trailers are at the start of lines of the message. -/
theorem getTrailers_keys {message : Text} {ts : List (Text × Text)} (h : getTrailers message = some ts) :
    ∀ e ∈ ts, e.1 = [] ∨ AtLineStart e.1 message := by
  unfold getTrailers at h
  split at h
  · cases h
  · cases h
    intro e he
    have h1 := parseTrailers_keys _ [] (.key []) ⟨[], rfl, .inl rfl⟩ e he
    rw [List.nil_append] at h1
    by_cases hk : e.1 = []
    · exact .inl hk
    right
    unfold trailerBlock at h1
    simp only at h1
    split at h1
    · obtain ⟨a, b, hab, -⟩ := h1
      have := List.append_eq_nil_iff.1 hab.symm
      exact absurd (List.append_eq_nil_iff.1 this.1).2 hk
    · rename_i n hn
      clear hn
      revert h1
      generalize hL : (keepLines message).takeWhile (fun l => !isPatchStart l) = L
      generalize findTrailerEnd L = m
      intro h1
      obtain ⟨B, hB⟩ := takeWhile_prefix' (fun l => !isPatchStart l) (keepLines message)
      rw [hL] at hB
      -- the lines: before the block, the block, after it
      have hsplit : keepLines message = (L.take m).take n ++ ((L.take m).drop n ++ (L.drop m ++ B)) := by
        rw [← List.append_assoc, List.take_append_drop, ← List.append_assoc, List.take_append_drop]
        exact hB
      obtain ⟨a, b, hab, ha⟩ := h1
      have hne : (L.take m).drop n ++ (L.drop m ++ B) ≠ [] := by
        intro h0
        rw [(List.append_eq_nil_iff.1 h0).1] at hab
        have := List.append_eq_nil_iff.1 hab.symm
        exact hk (List.append_eq_nil_iff.1 this.1).2
      have hpre := keepLines_split _ _ _ hsplit hne
      refine ⟨((L.take m).take n).flatten ++ a, b ++ (L.drop m ++ B).flatten, ?_, ?_⟩
      · have h2 := keepLines_flatten message
        rw [hsplit, List.flatten_append, List.flatten_append, hab] at h2
        rw [← h2]
        simp
      · rcases ha with rfl | ha
        · rw [List.append_nil]; exact hpre
        · right; rw [List.getLast?_append, ha]; rfl

/-! ### reading what was written -/

/-- A character of a key. -/
def isKeyChar (c : Char) : Bool := isAlnumC c || c = '-'

/-- A trailer which can be read again: the key has letters, digits and dashes; the value is not empty,
does not begin with a blank, and is one line. -/
structure GoodTrailer (e : Text × Text) : Prop where
  key : e.1 ≠ []
  chars : ∀ c ∈ e.1, isKeyChar c = true
  value : e.2 ≠ []
  first : e.2.head? ≠ some ' ' ∧ e.2.head? ≠ some '\t'
  line : '\n' ∉ e.2

/-- The line of a trailer. -/
def trailerLine (e : Text × Text) : Text := e.1 ++ t!": " ++ e.2 ++ ['\n']

theorem keyChar_props {c : Char} (h : isKeyChar c = true) :
    c ≠ '\n' ∧ c ≠ ' ' ∧ c ≠ '\t' ∧ c ≠ ':' ∧ c ≠ '#' ∧ isSpaceC c = false := by
  have hn : ∀ d : Char, isKeyChar d = false → c ≠ d := by
    rintro d hd rfl
    rw [h] at hd; cases hd
  refine ⟨hn _ (by decide), hn _ (by decide), hn _ (by decide), hn _ (by decide), hn _ (by decide), ?_⟩
  unfold isSpaceC
  have h1 := hn ' ' (by decide)
  have h2 := hn '\t' (by decide)
  have h3 := hn '\n' (by decide)
  have h4 := hn '\x0c' (by decide)
  have h5 := hn '\r' (by decide)
  have h6 := hn '\x0b' (by decide)
  simp [h1, h2, h3, h4, h5, h6]

theorem parse_key (k : Text) (hk : ∀ c ∈ k, isKeyChar c = true) (k0 s : Text) :
    parseTrailers (.key k0) (k ++ s) = parseTrailers (.key (k0 ++ k)) s := by
  induction k generalizing k0 with
  | nil => simp
  | cons c k ih =>
    rw [List.cons_append, parseTrailers]
    have hc : (isAlnumC c || decide (c = '-')) = true := hk c List.mem_cons_self
    simp only [trailerStep, keyStep, hc, if_true, Option.toList_none, List.nil_append]
    rw [ih (fun c hc => hk c (List.mem_cons_of_mem _ hc))]
    simp

theorem parse_value (k : Text) (v : Text) (hv : '\n' ∉ v) (v0 s : Text) :
    parseTrailers (.value k v0) (v ++ s) = parseTrailers (.value k (v0 ++ v)) s := by
  induction v generalizing v0 with
  | nil => simp
  | cons c v ih =>
    rw [List.cons_append, parseTrailers]
    have hc : c ≠ '\n' := fun e => hv (by simp [e])
    simp only [trailerStep, hc, if_false, Option.toList_none, List.nil_append]
    rw [ih (fun h => hv (List.mem_cons_of_mem _ h))]
    simp

theorem parse_line {e : Text × Text} (he : GoodTrailer e) (s : Text)
    (hs : s = [] ∨ ∃ c t, s = c :: t ∧ c ≠ ' ') :
    parseTrailers (.key []) (trailerLine e ++ s) = e :: parseTrailers (.key []) s := by
  obtain ⟨k, v⟩ := e
  have hv := he.value
  have hf := he.first
  have hl := he.line
  simp only at hv hf hl
  cases v with
  | nil => exact absurd rfl hv
  | cons c v =>
    unfold trailerLine
    simp only [List.append_assoc]
    rw [parse_key k he.chars [] _]
    simp only [List.nil_append, List.cons_append]
    rw [parseTrailers, parseTrailers, parseTrailers]
    have h1 : c ≠ ' ' := fun e => hf.1 (by simp [e])
    have h2 : c ≠ '\t' := fun e => hf.2 (by simp [e])
    have hk1 : keyStep k ':' = .sepWs k := by
      unfold keyStep
      rw [if_neg (by decide), if_neg (by decide), if_pos rfl]
    simp only [trailerStep, hk1, h1, h2, Option.toList_none, List.nil_append, decide_true, decide_false,
      Bool.or_false, Bool.true_or, if_true, Bool.false_eq_true, if_false]
    rw [parse_value k v (fun h => hl (List.mem_cons_of_mem _ h)) [c] _, List.singleton_append, parseTrailers]
    simp only [trailerStep, if_true, Option.toList_none, List.nil_append]
    rcases hs with rfl | ⟨d, t, rfl, hd⟩
    · rfl
    · rw [parseTrailers, parseTrailers]
      simp only [trailerStep, hd, if_false, Option.toList_some, List.singleton_append, List.cons_append,
        List.nil_append, Option.toList_none]

theorem parse_lines {ts : List (Text × Text)} (h : ∀ e ∈ ts, GoodTrailer e) :
    parseTrailers (.key []) (ts.map trailerLine).flatten = ts := by
  induction ts with
  | nil => rfl
  | cons e ts ih =>
    have hts := fun e he => h e (List.mem_cons_of_mem _ he)
    rw [List.map_cons, List.flatten_cons, parse_line (h e List.mem_cons_self), ih hts]
    cases ts with
    | nil => exact .inl rfl
    | cons f ts =>
      right
      have hf := hts f List.mem_cons_self
      obtain ⟨k, v⟩ := f
      have hk := hf.key
      cases k with
      | nil => exact absurd rfl hk
      | cons c k =>
        exact ⟨c, _, rfl, (keyChar_props (hf.chars c List.mem_cons_self)).2.1⟩

theorem findSeparator_key (k s : Text) (hk : ∀ c ∈ k, isKeyChar c = true) (b : Bool) :
    findSeparator false b (k ++ ':' :: s) = some k.length := by
  induction k generalizing b with
  | nil => simp [findSeparator]
  | cons c k ih =>
    have hc := hk c List.mem_cons_self
    rw [List.cons_append, findSeparator, if_neg (keyChar_props hc).2.2.2.1]
    have : (isAlnumC c || decide (c = '-')) = true := hc
    simp only [this, Bool.not_false, Bool.true_and, if_true,
      ih (fun c hc => hk c (List.mem_cons_of_mem _ hc)), Option.map_some, List.length_cons]

/-- A line of a trailer, for the search of the block. -/
theorem trailerLine_props {e : Text × Text} (he : GoodTrailer e) :
    isCommentLine (trailerLine e) = false ∧ isBlankLine (trailerLine e) = false ∧
    startsWithSpace (trailerLine e) = false ∧ (trailerLine e).head? ≠ some '\n' ∧
    (trailerLine e).head? ≠ some '\t' ∧
    ((findSeparator false true (trailerLine e)).getD 0 ≥ 1) := by
  obtain ⟨k, v⟩ := e
  have hk := he.key
  have hc := he.chars
  simp only at hk hc
  have hsep : findSeparator false true (trailerLine (k, v)) = some k.length := by
    have := findSeparator_key k (' ' :: (v ++ ['\n'])) hc true
    rw [← this]
    simp [trailerLine]
  cases k with
  | nil => exact absurd rfl hk
  | cons c k =>
    obtain ⟨h1, h2, h3, h4, h5, h6⟩ := keyChar_props (hc c List.mem_cons_self)
    refine ⟨?_, ?_, ?_, ?_, ?_, ?_⟩
    · simp [isCommentLine, trailerLine, h5]
    · simp [isBlankLine, trailerLine, h6]
    · simp [startsWithSpace, trailerLine, h6]
    · simp [trailerLine, h1]
    · simp [trailerLine, h3]
    · rw [hsep]; simp

theorem numberLines_append (n : Nat) (a b : List Text) :
    numberLines n (a ++ b) = numberLines n a ++ numberLines (n + a.length) b := by
  induction a generalizing n with
  | nil => simp [numberLines]
  | cons x a ih =>
    simp only [List.cons_append, numberLines, ih, List.length_cons]
    rw [show n + 1 + a.length = n + (a.length + 1) by omega]

theorem mem_numberLines {n m : Nat} {l : Text} {ls : List Text} (h : (m, l) ∈ numberLines n ls) :
    n ≤ m ∧ l ∈ ls := by
  induction ls generalizing n with
  | nil => simp [numberLines] at h
  | cons x ls ih =>
    rw [numberLines, List.mem_cons] at h
    rcases h with h | h
    · cases h; simp
    · obtain ⟨h1, h2⟩ := ih h
      exact ⟨by omega, List.mem_cons_of_mem _ h2⟩

/-- The loop over lines of trailers, from the last one. -/
theorem startLoop_trailers (xs : List (Nat × Text)) (n : Nat)
    (hx : ∀ x ∈ xs, ∃ e, GoodTrailer e ∧ x.2 = trailerLine e) (s : StartScan) (hs : s.others = 0)
    (hc : s.continuations = 0) (ho : xs ≠ [] ∨ (s.onlySpaces = false ∧ s.trailers ≠ 0))
    (rest : List (Nat × Text)) :
    startLoop s (xs ++ (n, ['\n']) :: rest) = some (n + 1) := by
  induction xs generalizing s with
  | nil =>
    rcases ho with h | ⟨h1, h2⟩
    · exact absurd rfl h
    · rw [List.nil_append, startLoop]
      have e1 : isCommentLine ['\n'] = false := by decide
      have e2 : isBlankLine ['\n'] = true := by decide
      simp only [e1, e2, Bool.false_eq_true, if_false, if_true, h1, hs, hc]
      split
      · rfl
      · simp [h2]
  | cons x xs ih =>
    obtain ⟨m, l⟩ := x
    obtain ⟨e, he, hl⟩ := hx _ List.mem_cons_self
    simp only at hl
    subst hl
    obtain ⟨h1, h2, h3, -, -, h6⟩ := trailerLine_props he
    rw [List.cons_append, startLoop]
    simp only [h1, h2, h3, Bool.false_eq_true, if_false, Bool.not_false, Bool.and_true]
    have hxs := fun x hx' => hx x (List.mem_cons_of_mem _ hx')
    split
    · exact ih hxs _ hs rfl (.inr ⟨rfl, by simp⟩)
    · rw [if_pos (by simpa using h6)]
      exact ih hxs _ hs rfl (.inr ⟨rfl, by simp⟩)

theorem endStep_trailers (xs : List (Nat × Text))
    (hx : ∀ x ∈ xs, ∃ e, GoodTrailer e ∧ x.2 = trailerLine e) (s : EndScan) (hs : s.conflicts = false)
    (h0 : xs ≠ [] ∨ s.boc = 0) : (xs.foldl endStep s).boc = 0 := by
  induction xs generalizing s with
  | nil =>
    rcases h0 with h | h
    · exact absurd rfl h
    · exact h
  | cons x xs ih =>
    obtain ⟨m, l⟩ := x
    obtain ⟨e, he, hl⟩ := hx _ List.mem_cons_self
    simp only at hl
    subst hl
    obtain ⟨h1, -, -, h4, h5, -⟩ := trailerLine_props he
    rw [List.foldl_cons]
    have hne : trailerLine e ≠ t!"Conflicts:\n" := by
      -- there is a blank after the colon
      intro heq
      obtain ⟨k, v⟩ := e
      have hc := he.chars
      simp only at hc
      have h7 := findSeparator_key k (' ' :: (v ++ ['\n'])) hc true
      have h8 : findSeparator false true (trailerLine (k, v)) = some k.length := by
        rw [← h7]; simp [trailerLine]
      rw [heq] at h8
      have h9 : findSeparator false true t!"Conflicts:\n" = some 9 := by decide
      rw [h9] at h8
      have hk : k.length = 9 := by simpa using h8.symm
      have h10 := congrArg (fun t : Text => t[10]?) heq
      simp [trailerLine, List.getElem?_append, hk] at h10
    have hstep : (endStep s (m, trailerLine e)).conflicts = false ∧
        (endStep s (m, trailerLine e)).boc = 0 := by
      unfold endStep
      simp only [h1, h4, hne, hs, decide_false, Bool.or_false, Bool.false_eq_true, if_false,
        Bool.false_and]
      split
      · exact ⟨rfl, rfl⟩
      · rename_i hb
        exact ⟨hs, Classical.not_not.1 hb⟩
    exact ih (fun x hx' => hx x (List.mem_cons_of_mem _ hx')) _ hstep.1 (.inr hstep.2)

theorem trailerLine_no_inner {e : Text × Text} (he : GoodTrailer e) : '\n' ∉ e.1 ++ t!": " ++ e.2 := by
  simp only [List.mem_append, not_or]
  refine ⟨⟨fun h => ?_, by decide⟩, he.line⟩
  exact (keyChar_props (he.chars _ h)).1 rfl

theorem keepLines_trailers {ts : List (Text × Text)} (h : ∀ e ∈ ts, GoodTrailer e) :
    keepLines (ts.map trailerLine).flatten = ts.map trailerLine := by
  induction ts with
  | nil => rfl
  | cons e ts ih =>
    rw [List.map_cons, List.flatten_cons]
    have : trailerLine e ++ (ts.map trailerLine).flatten =
        (e.1 ++ t!": " ++ e.2) ++ '\n' :: (ts.map trailerLine).flatten := by
      simp [trailerLine]
    rw [this, keepLines_line _ _ (trailerLine_no_inner (h e List.mem_cons_self)),
      ih (fun e he => h e (List.mem_cons_of_mem _ he))]
    rfl

theorem trailerLine_not_patch {e : Text × Text} (he : GoodTrailer e)
    (hd : e.1.head? ≠ some '-') : isPatchStart (trailerLine e) = false := by
  obtain ⟨k, v⟩ := e
  have hk := he.key
  cases k with
  | nil => exact absurd rfl hk
  | cons c k =>
    unfold isPatchStart
    split
    · rename_i h
      simp only [trailerLine, List.cons_append, List.cons.injEq] at h
      exact absurd (by simp [h.1]) hd
    · rfl

/-- A message with a title and a paragraph of trailers. -/
theorem getTrailers_message {title : Text} {ts : List (Text × Text)} (ht : '\n' ∉ title)
    (hb : isBlankLine (title ++ ['\n']) = false) (hc : isCommentLine (title ++ ['\n']) = false)
    (hp : isPatchStart (title ++ ['\n']) = false) (hcf : title ≠ t!"Conflicts:")
    (h : ∀ e ∈ ts, GoodTrailer e) (hd : ∀ e ∈ ts, e.1.head? ≠ some '-') (hne : ts ≠ [])
    (hnul : '\x00' ∉ title ++ '\n' :: '\n' :: (ts.map trailerLine).flatten) :
    getTrailers (title ++ '\n' :: '\n' :: (ts.map trailerLine).flatten) = some ts := by
  unfold getTrailers
  rw [if_neg hnul]
  have hlines : keepLines (title ++ '\n' :: '\n' :: (ts.map trailerLine).flatten) =
      (title ++ ['\n']) :: ['\n'] :: ts.map trailerLine := by
    rw [keepLines_line _ _ ht]
    have := keepLines_line [] (ts.map trailerLine).flatten (by simp)
    rw [List.nil_append, List.nil_append] at this
    rw [this, keepLines_trailers h]
  have hblock : trailerBlock (title ++ '\n' :: '\n' :: (ts.map trailerLine).flatten) =
      (ts.map trailerLine).flatten := by
    unfold trailerBlock
    rw [hlines]
    have htw : ((title ++ ['\n']) :: ['\n'] :: ts.map trailerLine).takeWhile (fun l => !isPatchStart l) =
        (title ++ ['\n']) :: ['\n'] :: ts.map trailerLine := by
      refine takeWhile_all _ _ ?_
      intro l hl
      rcases List.mem_cons.1 hl with rfl | hl
      · rw [hp]; rfl
      · rcases List.mem_cons.1 hl with rfl | hl
        · decide
        · obtain ⟨e, he, rfl⟩ := List.mem_map.1 hl
          rw [trailerLine_not_patch (h e he) (hd e he)]; rfl
    simp only [htw]
    have hmem : ∀ n, ∀ x ∈ numberLines n (ts.map trailerLine), ∃ e, GoodTrailer e ∧ x.2 = trailerLine e := by
      rintro n ⟨m, l⟩ hx
      obtain ⟨-, h2⟩ := mem_numberLines hx
      obtain ⟨e, he, rfl⟩ := List.mem_map.1 h2
      exact ⟨e, h e he, rfl⟩
    have hnn : ∀ n, numberLines n (ts.map trailerLine) ≠ [] := by
      intro n
      cases ts with
      | nil => exact absurd rfl hne
      | cons e ts => simp [numberLines]
    have hend : findTrailerEnd ((title ++ ['\n']) :: ['\n'] :: ts.map trailerLine) =
        ((title ++ ['\n']) :: ['\n'] :: ts.map trailerLine).length := by
      have hif : ∀ (n m : Nat), n = 0 → (if n ≠ 0 then n else m) = m := by
        rintro n m rfl; rfl
      unfold findTrailerEnd
      refine hif _ _ ?_
      simp only [numberLines, List.foldl_cons]
      have h1 : endStep ⟨0, false⟩ (0, title ++ ['\n']) = ⟨0, false⟩ := by
        unfold endStep
        have hh : (title ++ ['\n']).head? ≠ some '\n' := by
          cases title with
          | nil => simp [isBlankLine, isSpaceC] at hb
          | cons c t =>
            have : c ≠ '\n' := fun e => ht (by simp [e])
            simp [this]
        have hcf' : title ++ ['\n'] ≠ t!"Conflicts:\n" := by
          intro e
          apply hcf
          have : title ++ ['\n'] = t!"Conflicts:" ++ ['\n'] := e
          exact List.append_cancel_right this
        simp only [hc, hh, hcf', decide_false, Bool.or_false, Bool.false_eq_true, if_false,
          Bool.false_and, ne_eq, not_true_eq_false]
      have h2 : (endStep ⟨0, false⟩ (0 + 1, ['\n'])).conflicts = false := by decide
      rw [h1]
      exact endStep_trailers _ (hmem _) _ h2 (.inl (hnn _))
    rw [hend, List.take_length]
    have hstart : findTrailerStart ((title ++ ['\n']) :: ['\n'] :: ts.map trailerLine) = some 2 := by
      unfold findTrailerStart
      have heot : endOfTitle ((title ++ ['\n']) :: ['\n'] :: ts.map trailerLine) = 1 := by
        rw [endOfTitle]
        simp only [hc, hb, Bool.false_eq_true, if_false]
        rw [endOfTitle]
        have e1 : isCommentLine ['\n'] = false := by decide
        have e2 : isBlankLine ['\n'] = true := by decide
        simp [e1, e2]
      rw [heot]
      have hseen : seenBackwards (numberLines 0 ((title ++ ['\n']) :: ['\n'] :: ts.map trailerLine)) =
          numberLines 0 ((title ++ ['\n']) :: ['\n'] :: ts.map trailerLine) := by
        unfold seenBackwards
        split
        · rename_i heq
          simp only [numberLines, List.cons.injEq, Prod.mk.injEq, true_and] at heq
          exfalso
          have h1 : title ++ ['\n'] = ['\n'] := heq.1
          rw [h1] at hb
          exact absurd hb (by decide)
        · rfl
      simp only [hseen]
      simp only [numberLines]
      have hfil : (numberLines (0 + 1 + 1) (ts.map trailerLine)).filter (fun e => decide (1 ≤ e.1)) =
          numberLines (0 + 1 + 1) (ts.map trailerLine) := by
        rw [List.filter_eq_self]
        rintro ⟨m, l⟩ hx
        have := (mem_numberLines hx).1
        simp only [decide_eq_true_eq]
        omega
      rw [List.filter_cons, if_neg (by simp), List.filter_cons, if_pos (by simp), hfil,
        List.reverse_cons]
      exact startLoop_trailers _ 1 (fun x hx => hmem _ x (List.mem_reverse.1 hx)) _ rfl rfl
        (.inl (by simpa using hnn _)) []
    rw [hstart]
    rfl
  rw [hblock, parse_lines h]

end Verif.Spec
