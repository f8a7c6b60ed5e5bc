import Verif.Spec.EditMessage
import Verif.Lemmas.Prettify
import Mathlib.Tactic.Common

namespace Verif.Props

open Verif Verif.Spec

theorem shellWordsAux_single {t : Text} (h : '\'' ∉ t) (word rest : Text) :
    shellWordsAux .single word (t ++ '\'' :: rest) = shellWordsAux .unquoted (t.reverse ++ word) rest := by
  induction t generalizing word with
  | nil => simp [shellWordsAux]
  | cons c t ih =>
    simp only [List.mem_cons, not_or] at h
    simp only [List.cons_append, shellWordsAux]
    rw [if_neg (fun e => h.1 e.symm), ih h.2]
    simp

theorem shellWordsAux_double {t : Text} (h : ∀ c ∈ t, c ∉ t!"\"\\$`!") (word rest : Text) :
    shellWordsAux .double word (t ++ '"' :: rest) = shellWordsAux .unquoted (t.reverse ++ word) rest := by
  induction t generalizing word with
  | nil => simp [shellWordsAux]
  | cons c t ih =>
    have hc := h c (by simp)
    simp only [List.mem_cons, not_or] at hc
    simp only [List.cons_append, shellWordsAux]
    rw [if_neg hc.1, if_neg hc.2.1, ih fun c hc => h c (by simp [hc])]
    simp

theorem ShellPiece.next {s v : Text} (h : ShellPiece s v) {st : WordState} (hst : st = .delimiter ∨ st = .unquoted)
    (word rest : Text) : shellWordsAux st word (s ++ rest) = shellWordsAux .unquoted (v.reverse ++ word) rest := by
  cases h with
  | @char c h =>
    unfold OrdinaryChar at h
    simp only [List.mem_cons, not_or] at h
    obtain ⟨h1, h2, h3, h4, h5, h6, _, _, h7, _⟩ := h
    rcases hst with rfl | rfl <;>
      simp [shellWordsAux, h1, h2, h3, h4, h5, h6, h7]
  | @escaped c h =>
    rcases hst with rfl | rfl <;> simp [shellWordsAux, h]
  | @single t h =>
    have := shellWordsAux_single h word rest
    rcases hst with rfl | rfl <;> simpa [shellWordsAux] using this
  | @double t h =>
    have := shellWordsAux_double h word rest
    rcases hst with rfl | rfl <;> simpa [shellWordsAux] using this

theorem ShellWord.next {s v : Text} (h : ShellWord s v) {st : WordState} (hst : st = .delimiter ∨ st = .unquoted)
    (word rest : Text) : shellWordsAux st word (s ++ rest) = shellWordsAux .unquoted (v.reverse ++ word) rest := by
  induction h generalizing st word with
  | one h => exact ShellPiece.next h hst word rest
  | more h _ ih =>
    rw [List.append_assoc, ShellPiece.next h hst, ih (.inr rfl)]
    simp

theorem shellWordsAux_gap {gap : Text} (hg : ∀ c ∈ gap, c = ' ' ∨ c = '\t') (word rest : Text) :
    shellWordsAux .delimiter word (gap ++ rest) = shellWordsAux .delimiter word rest := by
  induction gap with
  | nil => rfl
  | cons c gap ih =>
    have := hg c (by simp)
    have ih := ih fun c hc => hg c (by simp [hc])
    rcases this with rfl | rfl <;> simpa [shellWordsAux] using ih

theorem ShellCommand.words {s : Text} {vs : List Text} (h : ShellCommand s vs) : shellWords s = some vs := by
  unfold shellWords
  induction h with
  | @one s v h =>
    have := ShellWord.next h (.inl rfl) [] []
    rw [List.append_nil] at this
    rw [this]
    simp [shellWordsAux]
  | @more s v gap rest vs h hne hg _ ih =>
    rw [List.append_assoc, ShellWord.next h (.inl rfl)]
    cases gap with
    | nil => exact absurd rfl hne
    | cons c gap =>
      have hc := hg c (by simp)
      have := shellWordsAux_gap (fun c hc => hg c (by simp [hc])) [] rest (gap := gap)
      rcases hc with rfl | rfl <;> simp [shellWordsAux, this, ih]

theorem shellWords_blank {t : Text} (h : ∀ c ∈ t, c = ' ' ∨ c = '\t') : shellWords t = some [] := by
  have := shellWordsAux_gap h [] []
  rw [List.append_nil] at this
  unfold shellWords
  rw [this]
  rfl

/-- A text without blanks, quotes and backslashes is one word. -/
theorem shellWords_plain {t : Text} (h : ∀ c ∈ t, c ∉ t!" \t\n'\"\\") (hne : t ≠ []) (hc : t.head? ≠ some '#') :
    shellWords t = some [t] := by
  have aux : ∀ (t word : Text), (∀ c ∈ t, c ∉ t!" \t\n'\"\\") →
      shellWordsAux .unquoted word t = some [word.reverse ++ t] := by
    intro t
    induction t with
    | nil => intro word _; simp [shellWordsAux]
    | cons c t ih =>
      intro word h
      have h1 := h c (by simp)
      simp only [List.mem_cons, not_or] at h1
      obtain ⟨h1, h2, h3, h4, h5, h6, _⟩ := h1
      simp [shellWordsAux, h1, h2, h3, h4, h5, h6, ih _ fun c hc => h c (by simp [hc])]
  cases t with
  | nil => exact absurd rfl hne
  | cons c t =>
    have h1 := h c (by simp)
    simp only [List.mem_cons, not_or] at h1
    obtain ⟨h1, h2, h3, h4, h5, h6, _⟩ := h1
    have h7 : c ≠ '#' := by simpa using hc
    simp [shellWords, shellWordsAux, h1, h2, h3, h4, h5, h6, h7, aux t [c] fun c hc => h c (by simp [hc])]

theorem trimNewlines_eq {t breaks : Text} (hb : LineBreaks breaks)
    (ht : ∀ c, t.getLast? = some c → c ≠ '\n' ∧ c ≠ '\r') : trimNewlines (t ++ breaks) = t := by
  unfold trimNewlines
  rw [List.reverse_append]
  have h1 : (breaks.reverse ++ t.reverse).dropWhile (fun c => decide (c = '\n' ∨ c = '\r')) =
      t.reverse.dropWhile fun c => decide (c = '\n' ∨ c = '\r') := by
    apply List.dropWhile_append_of_pos
    intro c hc
    simpa using hb c (List.mem_reverse.1 hc)
  rw [h1]
  cases hr : t.reverse with
  | nil => simpa using hr.symm
  | cons c r =>
    have : t.getLast? = some c := by
      rw [← List.head?_reverse, hr]; rfl
    have := ht c this
    rw [List.dropWhile_cons_of_neg (by simp [this.1, this.2]), ← hr, List.reverse_reverse]

theorem trimEnd_break {t : Text} (ht : ∀ c, t.getLast? = some c → isSpace c = false) :
    trimEnd (t ++ t!"\n") = t := by
  unfold trimEnd
  rw [List.reverse_append]
  have : ([('\n' : Char)].reverse ++ t.reverse).dropWhile isSpace = t.reverse.dropWhile isSpace := by
    apply List.dropWhile_append_of_pos
    intro c hc
    simp only [List.reverse_cons, List.reverse_nil, List.nil_append, List.mem_singleton] at hc
    subst hc
    decide
  rw [this]
  cases hr : t.reverse with
  | nil => simpa using hr.symm
  | cons c r =>
    have h1 : t.getLast? = some c := by
      rw [← List.head?_reverse, hr]; rfl
    rw [List.dropWhile_cons_of_neg (by simp [ht c h1]), ← hr, List.reverse_reverse]

theorem flatMap_last {α : Type} {f : α → Text} {x : Char} (hf : ∀ a, (f a).getLast? = some x) {l : List α}
    (hl : l ≠ []) : (l.flatMap f).getLast? = some x := by
  induction l with
  | nil => exact absurd rfl hl
  | cons a l ih =>
    rw [List.flatMap_cons, List.getLast?_append]
    cases l with
    | nil => simp [hf]
    | cons b l => rw [ih (by simp)]; rfl

theorem editorText_last {comment : Char} {start shown : Text} {discard : Bool} {commits : List RewordCommit}
    (h : editorText comment start discard commits = .ok shown) : shown.getLast? = some '.' := by
  unfold editorText at h
  simp only at h
  split at h
  · simp at h
  · simp only [Except.ok.injEq] at h
    rw [← h]
    unfold rewordFooter
    rw [List.getLast?_append, List.getLast?_append]
    rfl

/-- Everything which was read has been cleaned up. -/
theorem parseSections_pretty {oids : AMap Text Oid} {comment : Char} {r r' : ParsedMessages}
    {sections : List (Text × Text)} (h : parseSections oids comment r sections = .ok r')
    (hr : ∀ o m, AMap.get? r.messages o = some m → ∃ t, messagePrettify t (some comment) = .ok m) :
    ∀ o m, AMap.get? r'.messages o = some m → ∃ t, messagePrettify t (some comment) = .ok m := by
  induction sections generalizing r with
  | nil =>
    simp only [parseSections, Except.ok.injEq] at h
    subst h
    exact hr
  | cons s sections ih =>
    obtain ⟨hash, msg⟩ := s
    simp only [parseSections] at h
    split at h
    · exact ih h hr
    · split at h
      · exact ih h hr
      · split at h
        · simp at h
        · rename_i oid _ _ m hm
          refine ih h ?_
          intro o m' hom
          simp only at hom
          rw [AMap.get?_insert] at hom
          split at hom
          · simp only [Option.some.injEq] at hom
            subst hom
            exact ⟨_, hm⟩
          · exact hr o m' hom

/-- A cleaned text has no comment line. -/
theorem pretty_no_comment {comment : Char} (hc : comment.toNat < 128) {t m : Text}
    (h : messagePrettify t (some comment) = .ok m) : ∀ l ∈ splitChar '\n' m, l.head? ≠ some comment := by
  intro l hl hhead
  rw [(messagePrettify_ok h).2.2] at hl
  unfold pretty at hl
  rw [splitChar_unlines _ prettifyLines_no_newline, List.mem_append, List.mem_singleton] at hl
  rcases hl with hl | rfl
  · rcases mem_prettifyLines_kept hl with rfl | ⟨l', _, h2, rfl⟩
    · simp at hhead
    · obtain ⟨rest, hr⟩ := rtrim_prefix l'
      cases hrt : rtrim l' with
      | nil => rw [hrt] at hhead; simp at hhead
      | cons x xs =>
        rw [hrt] at hhead hr
        simp only [List.head?_cons, Option.some.injEq] at hhead
        subst hhead
        rw [← hr] at h2
        simp only [isComment, List.cons_append, leadByte, beq_eq_false_iff_ne, ne_eq] at h2
        apply h2
        rw [if_pos hc]
  · simp at hhead

end Verif.Props
