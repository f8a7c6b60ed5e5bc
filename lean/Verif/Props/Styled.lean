import Verif.Spec.Styled
import Mathlib.Data.List.Induction

/-!
# C102: what is seen in a terminal
-/

namespace Verif.Props

open Verif Verif.Spec

theorem terminal_text {t : Text} (ht : Char.ofNat 27 ∉ t) (look : Look) (rest : Text) :
    terminal .normal look (t ++ rest) =
      (t.map (fun c => (c, look)) ++ (terminal .normal look rest).1, (terminal .normal look rest).2) := by
  induction t with
  | nil => rfl
  | cons c t ih =>
    have h1 : c ≠ Char.ofNat 27 := fun h => ht (by rw [h]; exact List.mem_cons_self ..)
    have h2 := ih fun h => ht (List.mem_cons_of_mem _ h)
    have h3 : terminal .normal look (c :: (t ++ rest)) =
        ((c, look) :: (terminal .normal look (t ++ rest)).1, (terminal .normal look (t ++ rest)).2) := by
      rw [terminal, if_neg h1]
    rw [List.cons_append, h3, h2]
    rfl

theorem terminal_color (s : ConsoleStyle) (look : Look) (rest : Text) :
    terminal .normal look (s.colorCode ++ rest) = terminal .normal
      (match s.fg with
        | none => look
        | some c => { look with color := some (if s.bright then c.ansiNum + 8 else c.ansiNum) }) rest := by
  obtain ⟨fg, bright, attrs⟩ := s
  cases fg with
  | none => rfl
  | some c => cases c <;> cases bright <;> rfl

/-- An attribute is switched on. -/
def withAttr (look : Look) : TermAttr → Look
  | .bold => { look with bold := true }
  | .dim => { look with dim := true }
  | .italic => { look with italic := true }
  | .underlined => { look with underlined := true }
  | .blink => { look with blink := true }
  | .reverse => { look with reverse := true }

theorem terminal_attrs (l : List TermAttr) (look : Look) (rest : Text) :
    terminal .normal look ((l.flatMap fun a => ansiCode (natToText a.ansiNum)) ++ rest) =
      terminal .normal (l.foldl withAttr look) rest := by
  induction l generalizing look with
  | nil => rfl
  | cons a l ih =>
    rw [List.flatMap_cons, List.append_assoc, List.foldl_cons, ← ih]
    cases a <;> rfl

/-- How the text looks for console. -/
def consoleLook (s : ConsoleStyle) : Look where
  color := s.fg.map fun c => if s.bright then c.ansiNum + 8 else c.ansiNum
  bold := s.attrs.contains .bold
  dim := s.attrs.contains .dim
  italic := s.attrs.contains .italic
  underlined := s.attrs.contains .underlined
  blink := s.attrs.contains .blink
  reverse := s.attrs.contains .reverse

theorem foldl_attrs (p : TermAttr → Bool) (color : Option Nat) :
    (allAttrs.filter p).foldl withAttr { color := color } =
      { color := color, bold := p .bold, dim := p .dim, italic := p .italic, underlined := p .underlined,
        blink := p .blink, reverse := p .reverse } := by
  unfold allAttrs
  cases h1 : p .bold <;> cases h2 : p .dim <;> cases h3 : p .italic <;> cases h4 : p .underlined <;>
    cases h5 : p .blink <;> cases h6 : p .reverse <;>
    simp [List.filter_cons, h1, h2, h3, h4, h5, h6, withAttr]

theorem terminal_display (s : ConsoleStyle) {content : Text} (hc : Char.ofNat 27 ∉ content) (rest : Text) :
    terminal .normal {} (s.display content ++ rest) =
      (content.map (fun c => (c, consoleLook s)) ++ (terminal .normal {} rest).1, (terminal .normal {} rest).2) := by
  have hl : ∀ rest, terminal .normal {} (s.colorCode ++ s.attrCodes ++ rest) = terminal .normal (consoleLook s) rest := by
    intro rest
    rw [List.append_assoc, terminal_color, ConsoleStyle.attrCodes, terminal_attrs]
    have : (match s.fg with
        | none => ({} : Look)
        | some c => { ({} : Look) with color := some (if s.bright then c.ansiNum + 8 else c.ansiNum) }) =
        { color := s.fg.map fun c => if s.bright then c.ansiNum + 8 else c.ansiNum } := by
      cases s.fg <;> rfl
    rw [this, foldl_attrs]
    rfl
  unfold ConsoleStyle.display
  simp only
  rw [List.append_assoc, List.append_assoc, hl, terminal_text hc]
  split
  · rename_i h
    have h0 := hl []
    rw [List.isEmpty_iff.1 h] at h0
    have h1 : consoleLook s = {} := by
      have := congrArg (fun x => x.2.2) h0
      exact this.symm
    rw [h1]
    rfl
  · rfl

/-- The attribute for an effect. -/
def attrOf : TextEffect → Option TermAttr
  | .dim => some .dim
  | .reverse => some .reverse
  | .bold => some .bold
  | .italic => some .italic
  | .underline => some .underlined
  | .blink => some .blink
  | _ => none

theorem foldlM_effects (l : List TextEffect) (s : ConsoleStyle) :
    l.foldlM addEffect s = if .strikethrough ∈ l then none
      else some { s with attrs := (l.filterMap attrOf).reverse ++ s.attrs } := by
  induction l generalizing s with
  | nil => simp
  | cons e l ih =>
    rw [List.foldlM_cons]
    cases e <;> simp [addEffect, attrOf, ih, List.filterMap_cons]

theorem mem_allEffects (e : TextEffect) : e ∈ allEffects := by cases e <;> decide

theorem mem_effects (l : List TextEffect) (e : TextEffect) : e ∈ allEffects.filter l.contains ↔ e ∈ l := by
  rw [List.mem_filter, List.contains_iff_mem]
  exact ⟨fun h => h.2, fun h => ⟨mem_allEffects e, h⟩⟩

theorem consoleColor_none (c : StyleColor) : consoleColor c = none ↔ c = .palette ∨ c = .rgb := by
  cases c <;> simp [consoleColor]

theorem consoleColor_some {c : StyleColor} {s : ConsoleStyle} (h : consoleColor c = some s) :
    s.attrs = [] ∧ (s.fg.map fun c => if s.bright then c.ansiNum + 8 else c.ansiNum) = paletteNumber c := by
  cases c with
  | palette => cases h
  | rgb => cases h
  | inherit => cases h; exact ⟨rfl, rfl⟩
  | terminalDefault => cases h; exact ⟨rfl, rfl⟩
  | light c => cases h; cases c <;> exact ⟨rfl, rfl⟩
  | dark c => cases h; cases c <;> exact ⟨rfl, rfl⟩

theorem attr_iff (l : List TextEffect) (a : TermAttr) (e : TextEffect) (he : attrOf e = some a)
    (hu : ∀ e', attrOf e' = some a → e' = e) :
    ((l.filterMap attrOf).reverse ++ ([] : List TermAttr)).contains a = decide (e ∈ l) := by
  rw [List.append_nil, List.contains_eq_mem]
  congr 1
  rw [List.mem_reverse, List.mem_filterMap]
  exact propext ⟨fun ⟨e', h1, h2⟩ => hu e' h2 ▸ h1, fun h => ⟨e, h, he⟩⟩

theorem renderAnsi_eq (content : Text) (style : TextStyle) :
    (renderAnsi content style = none ↔ ¬ Printable style) ∧ ∀ t, renderAnsi content style = some t →
      ∃ s, t = s.display content ∧ consoleLook s = lookOf style := by
  unfold renderAnsi Printable
  cases hc : consoleColor style.front with
  | none =>
    have := (consoleColor_none _).1 hc
    refine ⟨?_, fun t h => by cases h⟩
    simp only [true_iff]
    rintro ⟨h1, h2, -⟩
    exact this.elim h1 h2
  | some s =>
    have h1 : ¬ (style.front = .palette ∨ style.front = .rgb) := by
      rw [← consoleColor_none, hc]; simp
    obtain ⟨h2, h3⟩ := consoleColor_some hc
    simp only [foldlM_effects, mem_effects]
    by_cases hs : .strikethrough ∈ style.effects
    · rw [if_pos hs]
      refine ⟨?_, fun t h => by cases h⟩
      simp [hs]
    · rw [if_neg hs]
      constructor
      · simp only [Option.map_some, reduceCtorEq, false_iff, not_not]
        exact ⟨fun h => h1 (.inl h), fun h => h1 (.inr h), hs⟩
      · intro t h
        simp only [Option.map_some, Option.some.injEq] at h
        refine ⟨_, h.symm, ?_⟩
        have key := attr_iff (allEffects.filter style.effects.contains)
        simp only [mem_effects] at key
        unfold consoleLook lookOf
        simp only [h2, h3]
        rw [key .bold .bold rfl (by intro e; cases e <;> simp [attrOf]), key .dim .dim rfl (by intro e; cases e <;> simp [attrOf]),
          key .italic .italic rfl (by intro e; cases e <;> simp [attrOf]),
          key .underlined .underline rfl (by intro e; cases e <;> simp [attrOf]),
          key .blink .blink rfl (by intro e; cases e <;> simp [attrOf]),
          key .reverse .reverse rfl (by intro e; cases e <;> simp [attrOf])]

/-- C102: with colours, each character is seen in the terminal as its style says; nothing else is seen, and the text which follows is
not affected. -/
theorem seen_as_styled {s : StyledText} (hs : NoEscapes s) {out : Text} (h : renderStyled true s = some out) (rest : Text) :
    terminal .normal {} (out ++ rest) =
      (seenAs s ++ (terminal .normal {} rest).1, (terminal .normal {} rest).2) := by
  induction s generalizing out with
  | nil =>
    cases h
    rfl
  | cons x s ih =>
    obtain ⟨content, style⟩ := x
    unfold renderStyled at h
    simp only [if_true] at h
    cases h1 : renderAnsi content style with
    | none => rw [h1] at h; cases h
    | some t =>
      rw [h1] at h
      cases h2 : renderStyled true s with
      | none => rw [h2] at h; cases h
      | some out' =>
        rw [h2] at h
        cases h
        obtain ⟨k, rfl, hk⟩ := (renderAnsi_eq content style).2 t h1
        rw [List.append_assoc, terminal_display k (hs (content, style) (List.mem_cons_self ..)),
          ih (fun x hx => hs x (List.mem_cons_of_mem _ hx)) h2, hk]
        unfold seenAs
        rw [List.flatMap_cons, List.append_assoc]

/-- C102: without colours, the output is the text. -/
theorem plain_is_text (s : StyledText) : renderStyled false s = some (s.flatMap Prod.fst) := by
  induction s with
  | nil => rfl
  | cons x s ih =>
    unfold renderStyled
    simp [ih]

/-- C102: printing fails exactly if there is a style with a colour of the palette of cursive or an RGB colour, or one which is struck
through. -/
theorem render_fails_iff (s : StyledText) : renderStyled true s = none ↔ ∃ x ∈ s, ¬ Printable x.2 := by
  induction s with
  | nil => simp [renderStyled]
  | cons x s ih =>
    obtain ⟨content, style⟩ := x
    have h := (renderAnsi_eq content style).1
    unfold renderStyled
    have he : (∃ x ∈ (content, style) :: s, ¬ Printable x.2) ↔ ¬ Printable style ∨ ∃ x ∈ s, ¬ Printable x.2 := by
      simp only [List.mem_cons, exists_eq_or_imp]
    simp only [if_true]
    rw [he, ← ih, ← h]
    cases renderAnsi content style with
    | none => simp
    | some t => simp

/-! ### putting texts together -/

theorem buildStyled_eq (l : List StyledText) : buildStyled l = l.flatten := by
  have : ∀ (l : List StyledText) acc, l.foldl (· ++ ·) acc = acc ++ l.flatten := by
    intro l
    induction l with
    | nil => simp
    | cons a l ih => intro acc; simp [ih]
  unfold buildStyled
  rw [this]; rfl

theorem seenAs_append (a b : StyledText) : seenAs (a ++ b) = seenAs a ++ seenAs b := by
  unfold seenAs; rw [List.flatMap_append]

theorem seenAs_flatten (l : List StyledText) : seenAs l.flatten = (l.map seenAs).flatten := by
  induction l with
  | nil => rfl
  | cons a l ih => rw [List.flatten_cons, seenAs_append, ih]; rfl

theorem seenAs_plain (t : Text) : seenAs [(t, plainStyle)] = t.map fun c => (c, {}) := by
  unfold seenAs
  simp only [List.flatMap_cons, List.flatMap_nil, List.append_nil]
  rfl

/-- C102: joined texts are seen one after the other, with the plain delimiter between them. -/
theorem join_seen (delimiter : Text) (strings : List StyledText) :
    seenAs (joinStyled delimiter strings) =
      ((strings.map seenAs).intersperse (delimiter.map fun c => (c, {}))).flatten := by
  have h : ∀ (l : List StyledText) (acc : List StyledText),
      (l.foldl (fun (acc : List StyledText × Bool) s =>
        (if acc.2 then acc.1 ++ [s] else acc.1 ++ [[(delimiter, plainStyle)], s], false)) (acc, false)).1 =
      acc ++ l.flatMap fun s => [[(delimiter, plainStyle)], s] := by
    intro l
    induction l with
    | nil => simp
    | cons a l ih => intro acc; simp [ih]
  unfold joinStyled
  rw [buildStyled_eq, seenAs_flatten]
  cases strings with
  | nil => rfl
  | cons a l =>
    rw [List.foldl_cons]
    simp only [if_true, List.nil_append]
    rw [h]
    clear h
    induction l generalizing a with
    | nil => simp
    | cons b l ih =>
      have := ih b
      simp only [List.map_append, List.flatten_append, List.map_cons, List.map_nil, List.flatten_cons, List.flatten_nil,
        List.append_nil] at this
      simp only [List.flatMap_cons, List.map_append, List.flatten_append, List.map_cons, List.map_nil, List.flatten_cons,
        List.flatten_nil, List.append_nil, List.intersperse_cons₂, seenAs_plain, List.append_assoc]
      rw [this]

/-- C102: of lines each is seen, with a line break at the end. -/
theorem lines_seen (lines : List StyledText) :
    seenAs (linesStyled lines) = (lines.map fun l => seenAs l ++ [('\n', ({} : Look))]).flatten := by
  have h : ∀ (l : List StyledText) (acc : List StyledText),
      l.foldl (fun acc l => acc ++ [l, [(t!"\n", plainStyle)]]) acc =
      acc ++ l.flatMap fun s => [s, [(t!"\n", plainStyle)]] := by
    intro l
    induction l with
    | nil => simp
    | cons a l ih => intro acc; simp [ih]
  unfold linesStyled
  rw [h, buildStyled_eq, seenAs_flatten, List.nil_append]
  induction lines with
  | nil => rfl
  | cons a l ih =>
    rw [List.flatMap_cons, List.map_append, List.flatten_append, ih]
    simp [seenAs_plain]

/-- C102: setting an effect does not change the text; all of it gets the effect, and keeps how it looked. -/
theorem set_effect_seen (s : StyledText) :
    seenAs (setEffect s .bold) = (seenAs s).map (fun x => (x.1, { x.2 with bold := true })) ∧
    seenAs (setEffect s .dim) = (seenAs s).map (fun x => (x.1, { x.2 with dim := true })) := by
  unfold seenAs setEffect
  constructor <;>
  · rw [List.flatMap_map, List.map_flatMap]
    congr 1
    funext x
    rw [List.map_map]
    congr 1
    funext c
    simp [lookOf]

/-- Violation of C102: the background of a style is not printed. -/
theorem background_lost (content : Text) (front back : StyleColor) (effects : List TextEffect) :
    renderAnsi content ⟨front, back, effects⟩ = renderAnsi content ⟨front, .inherit, effects⟩ := rfl

end Verif.Props
