import Verif.Spec.Reword
import Verif.Lemmas.Lines

/-! Lemmas about splitting the edited text. -/

namespace Verif.Spec

open Verif

theorem splitTextAux_ne_nil (sep : Text) (k : Nat) (t : Text) : splitTextAux sep k t ≠ [] := by
  induction t generalizing k with
  | nil => simp [splitTextAux]
  | cons c t ih =>
    cases k with
    | succ k => simp only [splitTextAux]; exact ih k
    | zero =>
      simp only [splitTextAux]
      split
      · simp
      · split <;> simp

theorem splitTextAux_drop (sep : Text) (k : Nat) (t : Text) (h : k ≤ t.length) :
    splitTextAux sep k t = splitTextAux sep 0 (t.drop k) := by
  induction t generalizing k with
  | nil => simp at h; subst h; rfl
  | cons c t ih =>
    cases k with
    | zero => rfl
    | succ k =>
      simp only [splitTextAux, List.drop_succ_cons]
      exact ih k (by simpa using h)

theorem splitText_sep {sep : Text} (hs : sep ≠ []) (t : Text) : splitText sep (sep ++ t) = [] :: splitText sep t := by
  unfold splitText
  cases sep with
  | nil => exact absurd rfl hs
  | cons c sep =>
    rw [List.cons_append]
    simp only [splitTextAux]
    rw [if_pos (by rw [List.isPrefixOf_iff_prefix]; exact ⟨t, rfl⟩)]
    rw [splitTextAux_drop _ _ _ (by simp)]
    simp

/-- Nothing of the separator is at both its ends. -/
def NoBorder (sep : Text) : Prop := ∀ x y z, sep = x ++ y → sep = y ++ z → x ≠ [] → y ≠ [] → False

theorem noBorder_marker : NoBorder rewordMarker := by
  intro x y z h1 h2 hx hy
  have hlen : x.length + y.length = 9 := by
    have := congrArg List.length h1
    rw [List.length_append] at this
    exact this.symm
  have hy2 : y = rewordMarker.drop x.length := by rw [h1]; simp
  have hy3 : y = rewordMarker.take y.length := by rw [h2]; simp
  have hx0 : x.length ≠ 0 := by simpa using hx
  have hy0 : y.length ≠ 0 := by simpa using hy
  generalize x.length = n at *
  generalize y.length = m at *
  have hm : m = 9 - n := by omega
  subst hm
  rw [hy2] at hy3
  have : n < 9 := by omega
  have : n = 1 ∨ n = 2 ∨ n = 3 ∨ n = 4 ∨ n = 5 ∨ n = 6 ∨ n = 7 ∨ n = 8 := by omega
  rcases this with rfl | rfl | rfl | rfl | rfl | rfl | rfl | rfl <;> exact absurd hy3 (by decide)

theorem not_prefix_of_cut {sep a rest : Text} (hb : NoBorder sep) (ha : ¬ sep <:+: a) (hne : a ≠ []) :
    ¬ sep <+: a ++ (sep ++ rest) := by
  intro h
  rcases Nat.le_total sep.length a.length with hl | hl
  · exact ha (List.IsPrefix.isInfix (List.prefix_of_prefix_length_le h (List.prefix_append _ _) hl))
  · have h1 : a <+: sep := List.prefix_of_prefix_length_le (List.prefix_append _ _) h hl
    obtain ⟨y, hy⟩ := h1
    have h2 : y <+: sep ++ rest := by
      have h' : a ++ y <+: a ++ (sep ++ rest) := by rw [hy]; exact h
      exact (List.prefix_append_right_inj a).1 h'
    have h3 : y <+: sep := by
      apply List.prefix_of_prefix_length_le h2 (List.prefix_append _ _)
      rw [← hy]
      simp
    obtain ⟨z, hz⟩ := h3
    by_cases hy0 : y = []
    · subst hy0
      rw [List.append_nil] at hy
      subst hy
      exact ha ⟨[], [], by simp⟩
    · exact hb a y z hy.symm hz.symm hne hy0

theorem not_infix_tail {sep a : Text} {c : Char} (h : ¬ sep <:+: c :: a) : ¬ sep <:+: a :=
  fun h' => h (h'.trans (List.suffix_cons c a).isInfix)

theorem splitText_cut {sep : Text} (hs : sep ≠ []) (hb : NoBorder sep) {a : Text} (ha : ¬ sep <:+: a) (rest : Text) :
    splitText sep (a ++ (sep ++ rest)) = a :: splitText sep rest := by
  induction a with
  | nil => exact splitText_sep hs rest
  | cons c a ih =>
    have hnp := not_prefix_of_cut (rest := rest) hb ha (by simp)
    have ih := ih (not_infix_tail ha)
    unfold splitText at ih ⊢
    rw [List.cons_append]
    simp only [splitTextAux]
    rw [if_neg (by rw [List.isPrefixOf_iff_prefix]; exact hnp), ih]

theorem splitText_no {sep : Text} (hs : sep ≠ []) {a : Text} (ha : ¬ sep <:+: a) : splitText sep a = [a] := by
  induction a with
  | nil => rfl
  | cons c a ih =>
    have ih := ih (not_infix_tail ha)
    unfold splitText at ih ⊢
    simp only [splitTextAux]
    rw [if_neg (by rw [List.isPrefixOf_iff_prefix]; exact fun h => ha h.isInfix), ih]

theorem intercalate_cons_cons (sep a b : Text) (l : List Text) :
    List.intercalate sep (a :: b :: l) = a ++ (sep ++ List.intercalate sep (b :: l)) := by
  simp [List.intercalate, List.intersperse_cons₂]

/-- There is one way to cut a text. -/
theorem splitText_of_cut {text : Text} {chunks : List Text} (h : CutAtMarkers text chunks) :
    splitText rewordMarker text = chunks := by
  obtain ⟨h1, h2, h3⟩ := h
  subst h2
  induction chunks with
  | nil => exact absurd rfl h1
  | cons a l ih =>
    cases l with
    | nil =>
      simp only [List.intercalate, List.intersperse_singleton, List.flatten_cons, List.flatten_nil,
        List.append_nil]
      exact splitText_no (by decide) (h3 a (by simp))
    | cons b l =>
      rw [intercalate_cons_cons]
      change splitText rewordMarker (a ++ (rewordMarker ++ _)) = _
      rw [splitText_cut (by decide) noBorder_marker (h3 a (by simp)),
        ih (by simp) fun c hc => h3 c (List.mem_cons_of_mem _ hc)]

/-- The text can be cut. -/
theorem cut_exists (sep : Text) (hs : sep ≠ []) : ∀ (n : Nat) (text : Text), text.length ≤ n →
    ∃ chunks, chunks ≠ [] ∧ text = List.intercalate sep chunks ∧ ∀ c ∈ chunks, ¬ sep <:+: c := by
  intro n
  induction n with
  | zero =>
    intro text h
    have : text = [] := by simpa using h
    subst this
    refine ⟨[[]], by simp, by simp [List.intercalate], ?_⟩
    intro c hc
    simp only [List.mem_singleton] at hc
    subst hc
    intro h
    exact hs (List.infix_nil.1 h)
  | succ n ih =>
    intro text h
    by_cases hin : sep <:+: text
    · -- the first occurrence
      have key : ∀ t : Text, sep <:+: t → ∃ a rest, t = a ++ (sep ++ rest) ∧ ¬ sep <:+: a := by
        intro t
        induction t with
        | nil => intro h; exact absurd (List.infix_nil.1 h) hs
        | cons c t iht =>
          intro h
          by_cases hp : sep <+: c :: t
          · obtain ⟨rest, hr⟩ := hp
            exact ⟨[], rest, by simp [hr], fun h => hs (List.infix_nil.1 h)⟩
          · have ht : sep <:+: t := by
              rcases List.infix_cons_iff.1 h with h | h
              · exact absurd h hp
              · exact h
            obtain ⟨a, rest, h1, h2⟩ := iht ht
            refine ⟨c :: a, rest, by simp [h1], fun h3 => ?_⟩
            rcases List.infix_cons_iff.1 h3 with h3 | h3
            · apply hp
              rw [h1]
              exact h3.trans ((List.prefix_append (c :: a) _))
            · exact h2 h3
      obtain ⟨a, rest, h1, h2⟩ := key text hin
      have hlen : rest.length ≤ n := by
        have := congrArg List.length h1
        have h0 : sep.length ≠ 0 := by simpa using hs
        simp only [List.length_append] at this
        omega
      obtain ⟨chunks, g1, g2, g3⟩ := ih rest hlen
      cases chunks with
      | nil => exact absurd rfl g1
      | cons b l =>
        refine ⟨a :: b :: l, by simp, ?_, ?_⟩
        · rw [intercalate_cons_cons, ← g2, h1]
        · intro c hc
          rcases List.mem_cons.1 hc with rfl | hc
          · exact h2
          · exact g3 c hc
    · refine ⟨[text], by simp, by simp [List.intercalate], ?_⟩
      intro c hc
      simp only [List.mem_singleton] at hc
      subst hc
      exact hin

theorem splitText_spec (text : Text) : CutAtMarkers text (splitText rewordMarker text) := by
  obtain ⟨chunks, h⟩ := cut_exists rewordMarker (by decide) _ text (Nat.le_refl _)
  have : CutAtMarkers text chunks := h
  rw [splitText_of_cut this]
  exact this

theorem splitOnce_none {c : Char} {t : Text} : splitOnce c t = none ↔ c ∉ t := by
  induction t with
  | nil => simp [splitOnce]
  | cons x t ih =>
    simp only [splitOnce, List.mem_cons, not_or]
    split
    · rename_i h
      simp [h]
    · rename_i h
      simp only [Option.map_eq_none_iff, ih]
      exact ⟨fun h1 => ⟨fun h2 => h h2.symm, h1⟩, fun h1 => h1.2⟩

theorem splitOnce_some {c : Char} {t a b : Text} :
    splitOnce c t = some (a, b) ↔ t = a ++ c :: b ∧ c ∉ a := by
  induction t generalizing a with
  | nil => simp [splitOnce]
  | cons x t ih =>
    simp only [splitOnce]
    split
    · rename_i h
      subst h
      constructor
      · intro h
        simp only [Option.some.injEq, Prod.mk.injEq] at h
        obtain ⟨rfl, rfl⟩ := h
        simp
      · rintro ⟨h1, h2⟩
        cases a with
        | nil => simpa using h1
        | cons y a =>
          simp only [List.cons_append, List.cons.injEq] at h1
          exact absurd (by rw [← h1.1]; simp) h2
    · rename_i h
      cases a with
      | nil =>
        simp only [Option.map_eq_some_iff, Prod.mk.injEq, List.cons_ne_nil, false_and, and_false, exists_false,
          List.nil_append, List.cons.injEq, false_iff, not_and]
        exact fun h1 => absurd h1.1 h
      | cons y a =>
        simp only [Option.map_eq_some_iff, Prod.mk.injEq, List.cons.injEq, List.cons_append, List.mem_cons, not_or]
        constructor
        · rintro ⟨⟨a', b'⟩, h1, ⟨rfl, rfl⟩, rfl⟩
          obtain ⟨h2, h3⟩ := ih.1 h1
          exact ⟨⟨rfl, h2⟩, fun e => h e.symm, h3⟩
        · rintro ⟨⟨rfl, h1⟩, h2, h3⟩
          exact ⟨(a, b), ih.2 ⟨h1, h3⟩, ⟨rfl, rfl⟩, rfl⟩

theorem sectionsOf_iff (chunks : List Text) (sections : List (Text × Text)) :
    SectionsOf chunks sections ↔
      (chunks.filterMap (splitOnce '\n')).map (fun s => (trim s.1, s.2)) = sections := by
  induction chunks generalizing sections with
  | nil =>
    constructor
    · intro h; cases h; rfl
    · rintro rfl; exact .nil
  | cons c l ih =>
    cases hc : splitOnce '\n' c with
    | none =>
      rw [List.filterMap_cons_none hc]
      have hn := splitOnce_none.1 hc
      rw [← ih]
      constructor
      · intro h
        cases h with
        | take h1 h2 =>
          obtain ⟨line, h3, _⟩ := h1
          exact absurd (by rw [h3]; simp) hn
        | skip _ h => exact h
      · exact fun h => .skip hn h
    | some r =>
      obtain ⟨line, body⟩ := r
      rw [List.filterMap_cons_some hc, List.map_cons]
      obtain ⟨h1, h2⟩ := splitOnce_some.1 hc
      constructor
      · intro h
        cases h with
        | take h3 h4 =>
          obtain ⟨line', e1, e2, e3⟩ := h3
          have := splitOnce_some.2 ⟨e1, e2⟩
          rw [hc] at this
          simp only [Option.some.injEq, Prod.mk.injEq] at this
          obtain ⟨rfl, rfl⟩ := this
          rw [e3, (ih _).1 h4]
        | skip h3 _ => exact absurd (by rw [h1]; simp) h3
      · rintro rfl
        exact .take ⟨line, h1, h2, rfl⟩ ((ih _).2 rfl)

/-- The sections of the model are the ones of the specification. -/
theorem hasSections_iff (text : Text) (sections : List (Text × Text)) :
    HasSections text sections ↔ bulkSections text = sections := by
  unfold HasSections bulkSections
  constructor
  · rintro ⟨chunks, h1, h2⟩
    rw [splitText_of_cut h1]
    exact (sectionsOf_iff _ _).1 h2
  · intro h
    exact ⟨_, splitText_spec text, (sectionsOf_iff _ _).2 h⟩

end Verif.Spec
