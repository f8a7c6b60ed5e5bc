import Verif.Model.Lines
import Verif.Lemmas.Text

/-! Lemmas about splitting text. -/

namespace Verif

theorem splitChar_ne_nil (c : Char) (t : Text) : splitChar c t ≠ [] := by
  cases t with
  | nil => simp [splitChar]
  | cons x xs =>
    simp only [splitChar]
    split
    · simp
    · split <;> simp

theorem splitChar_of_not_mem {c : Char} {t : Text} (h : c ∉ t) : splitChar c t = [t] := by
  induction t with
  | nil => rfl
  | cons x xs ih =>
    simp only [List.mem_cons, not_or] at h
    simp [splitChar, Ne.symm h.1, ih h.2]

theorem splitChar_append_sep {c : Char} {t : Text} (h : c ∉ t) (rest : Text) :
    splitChar c (t ++ c :: rest) = t :: splitChar c rest := by
  induction t with
  | nil => simp [splitChar]
  | cons x xs ih =>
    simp only [List.mem_cons, not_or] at h
    simp [splitChar, Ne.symm h.1, ih h.2]

/-- The pieces contain no separator, and joining them gives back the text. -/
theorem splitChar_spec (c : Char) (t : Text) :
    (∀ p ∈ splitChar c t, c ∉ p) ∧ List.intercalate [c] (splitChar c t) = t := by
  induction t with
  | nil => simp [splitChar, List.intercalate]
  | cons x xs ih =>
    simp only [splitChar]
    split
    · rename_i hx
      refine ⟨by simpa using ih.1, ?_⟩
      have := ih.2
      cases h : splitChar c xs with
      | nil => exact absurd h (splitChar_ne_nil c xs)
      | cons p ps =>
        rw [h] at this
        simp only [List.intercalate, List.intersperse_cons₂, List.flatten_cons] at this ⊢
        simp [hx, this]
    · rename_i hx
      cases h : splitChar c xs with
      | nil => exact absurd h (splitChar_ne_nil c xs)
      | cons p ps =>
        rw [h] at ih
        refine ⟨?_, ?_⟩
        · intro q hq
          rcases List.mem_cons.1 hq with rfl | hq
          · simp only [List.mem_cons, not_or]
            exact ⟨fun e => hx e.symm, ih.1 p (by simp)⟩
          · exact ih.1 q (by simp [hq])
        · have := ih.2
          cases ps with
          | nil => simpa [List.intercalate] using this
          | cons q qs =>
            simp only [List.intercalate, List.intersperse_cons₂, List.flatten_cons] at this ⊢
            simp [← this]

theorem splitChar_injective {c : Char} {a b : Text} (h : splitChar c a = splitChar c b) : a = b := by
  rw [← (splitChar_spec c a).2, h, (splitChar_spec c b).2]

/-- Splitting a text of terminated lines. -/
theorem splitTerminated_lines (ls : List Text) (h : ∀ l ∈ ls, '\n' ∉ l) :
    splitTerminated (ls.flatMap fun l => l ++ ['\n']) = ls := by
  have key : splitChar '\n' (ls.flatMap fun l => l ++ ['\n']) = ls ++ [[]] := by
    induction ls with
    | nil => rfl
    | cons l ls ih =>
      rw [List.flatMap_cons, List.append_assoc, List.singleton_append,
        splitChar_append_sep (h l (by simp)), ih fun l hl => h l (by simp [hl])]
      rfl
  unfold splitTerminated
  simp only [key]
  simp

theorem textLines_lines (ls : List Text) (h : ∀ l ∈ ls, '\n' ∉ l ∧ l.getLast? ≠ some '\r') :
    textLines (ls.flatMap fun l => l ++ ['\n']) = ls := by
  unfold textLines
  rw [splitTerminated_lines ls fun l hl => (h l hl).1]
  conv => rhs; rw [← List.map_id ls]
  apply List.map_congr_left
  intro l hl
  simp [stripCr, (h l hl).2]

theorem not_mem_splitTerminated {t l : Text} (h : l ∈ splitTerminated t) : '\n' ∉ l := by
  unfold splitTerminated at h
  simp only at h
  split at h
  · exact (splitChar_spec '\n' t).1 l ((List.dropLast_sublist _).subset h)
  · exact (splitChar_spec '\n' t).1 l h

theorem trim_of_no_space {t : Text} (h1 : ∀ c, t.head? = some c → isSpace c = false)
    (h2 : ∀ c, t.getLast? = some c → isSpace c = false) : trim t = t := by
  have hs : trimStart t = t := by
    unfold trimStart
    cases t with
    | nil => rfl
    | cons c t => simp [List.dropWhile_cons, h1 c rfl]
  unfold trim
  rw [hs]
  unfold trimEnd
  have : t.reverse.dropWhile isSpace = t.reverse := by
    cases h : t.reverse with
    | nil => rfl
    | cons c r =>
      have : t.getLast? = some c := by
        rw [← List.head?_reverse, h]; rfl
      simp [List.dropWhile_cons, h2 c this]
  rw [this, List.reverse_reverse]

theorem hexDigit_not_space {d : Nat} (h : d < 16) : isSpace (hexDigit d) = false := by
  revert d; decide

end Verif
