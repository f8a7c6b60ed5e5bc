import Verif.Lemmas.Grammar
import Verif.Lemmas.Lexer

/-!
C56: the revset parser accepts exactly the grammar, which is unambiguous; printed expressions are read back.
C37: the strings which string literals denote.
-/

namespace Verif.Props

open Verif Verif.Spec

/-! ### C56 -/

/-- The lexer cuts a text as the rule of the longest match says. -/
theorem lex_exact (s : Text) (ts : List Tok) : lex s = some ts ↔ Lexes s ts :=
  ⟨lexFuel_sound _ s ts, fun h => lexFuel_complete h _ (Nat.lt_succ_self _)⟩

/-- The parser accepts the grammar. -/
theorem parse_tokens_exact (ts : List Tok) (e : Expr) : parseTokens ts = some e ↔ Derives 1 ts e := by
  unfold parseTokens
  constructor
  · intro h
    split at h
    · rename_i e' h1
      simp only [Option.some.injEq] at h
      subst h
      obtain ⟨t, ht, d⟩ := (parse_sound _).1 _ _ _ _ h1
      rw [ht, List.append_nil]
      exact d
    · cases h
  · intro d
    have := d.reads.stop (rest := []) (f := parseFuel ts) rfl (by simp [opLevel]) (by omega)
      (by simp [parseFuel])
    rw [List.append_nil] at this
    rw [this]

/-- The parser accepts a text as an expression exactly if its tokens can be read as that expression with the rules
of the grammar. -/
theorem parse_exact (s : Text) (e : Expr) :
    parseRevset s = some e ↔ ∃ ts, Lexes s ts ∧ Derives 1 ts e := by
  unfold parseRevset
  rw [Option.bind_eq_some_iff]
  simp only [lex_exact, parse_tokens_exact]

/-- The grammar is unambiguous. -/
theorem grammar_unambiguous {ts : List Tok} {e e' : Expr} (h : Derives 1 ts e) (h' : Derives 1 ts e') : e = e' := by
  have := (parse_tokens_exact ts e).2 h
  rw [(parse_tokens_exact ts e').2 h'] at this
  exact (Option.some.inj this).symm

/-- So is the cutting into tokens. -/
theorem tokens_unambiguous {s : Text} {ts ts' : List Tok} (h : Lexes s ts) (h' : Lexes s ts') : ts = ts' := by
  have := (lex_exact s ts).2 h
  rw [(lex_exact s ts').2 h'] at this
  exact (Option.some.inj this).symm

mutual
/-- The tokens of a printed expression. -/
def exprToks : Expr → List Tok
  | .name n => [.ident n]
  | .call f args => .ident f :: .sym .lpar :: (exprsToks args ++ [.sym .rpar])
/-- The same for arguments. -/
def exprsToks : List Expr → List Tok
  | [] => []
  | [e] => exprToks e
  | e :: e' :: es => exprToks e ++ .sym .comma :: exprsToks (e' :: es)
end

mutual
theorem derives_toks : ∀ e : Expr, Derives 5 (exprToks e) e
  | .name n => by rw [exprToks]; exact .name rfl
  | .call f args => by rw [exprToks]; exact .call rfl (derives_toks_args args)
theorem derives_toks_args : ∀ es : List Expr, DerivesArgs (exprsToks es) es
  | [] => by rw [exprsToks]; exact .nil
  | [e] => by rw [exprsToks]; exact .last (.up1 (.up2 (.up3 (.up4 (derives_toks e)))))
  | e :: e' :: es => by
    rw [exprsToks]
    exact .cons (.up1 (.up2 (.up3 (.up4 (derives_toks e))))) (derives_toks_args (e' :: es))
end

/-- Characters which can follow a name in a printed expression. -/
def Stops (s : Text) : Prop := s = [] ∨ ∃ c r, s = c :: r ∧ (c = '(' ∨ c = ',' ∨ c = ')')

theorem nameStar_all {t : Text} (h : NameStar t) : ∀ c ∈ t, NameChar c ∨ c = '.' := by
  induction h with
  | nil => simp
  | char hc _ ih => simpa [hc] using ih
  | dot hc _ ih => simpa [hc] using ih

theorem nameText_all {t : Text} (h : NameText t) : ∀ c ∈ t, NameChar c ∨ c = '.' := by
  rcases h with ⟨h, _⟩ | rfl
  · exact nameStar_all h
  · simp

theorem first_name {n rest : Text} (hn : PlainName n) (hr : Stops rest) :
    FirstTok (n ++ rest) (.ident n) n.length := by
  have ht : (n ++ rest).take n.length = n := by simp
  refine ⟨?_, ⟨by simp, ⟨.ident n, ?_⟩, ?_⟩, ?_⟩
  · rw [ht]; exact ⟨rfl, hn.1⟩
  · rw [ht]; exact ⟨rfl, hn.1⟩
  · rintro m hm ⟨x, hx⟩
    refine Nat.le_of_not_lt fun hlt => ?_
    rcases hr with rfl | ⟨c, r, rfl, hc⟩
    · simp at hm; omega
    · obtain ⟨k, rfl⟩ : ∃ k, m = n.length + (k + 1) := ⟨m - n.length - 1, by omega⟩
      rw [List.take_length_add_append, List.take_succ_cons] at hx
      have hcn : ¬ NameChar c ∧ c ≠ '.' := by
        rcases hc with rfl | rfl | rfl <;> exact ⟨by rw [nameChar_iff]; decide, by decide⟩
      have hne : n ≠ [] := tokText_ne_nil (x := .ident n) ⟨rfl, hn.1⟩
      cases x with
      | sym y =>
        have hx : n ++ c :: List.take k r = y.text := hx
        have : c ∈ y.text.tail := by
          rw [← hx]
          cases n with
          | nil => exact absurd rfl hne
          | cons d n => simp
        revert this
        rcases hc with rfl | rfl | rfl <;> cases y <;> decide
      | ident u =>
        obtain ⟨h1, h2⟩ := hx
        exact (nameText_all h2 c (by rw [← h1]; simp)).elim hcn.1 hcn.2
      | quoted u =>
        obtain ⟨rfl, q, body, hq, _, he⟩ := hx
        cases n with
        | nil => exact absurd rfl hne
        | cons d n =>
          simp only [List.cons_append, List.cons.injEq] at he
          have hd := nameText_all hn.1 d (by simp)
          rw [he.1, nameChar_iff] at hd
          rcases hq with rfl | rfl <;> revert hd <;> decide
  · rw [ht]
    rintro ⟨y, hy⟩
    have hy : n = y.text := hy
    have := hn
    rw [hy] at this
    obtain ⟨h1, h2, h3, h4⟩ := this
    exfalso
    have hall := nameText_all h1
    have hdots : y ≠ .dots := by
      rintro rfl
      rcases h1 with ⟨h1, _⟩ | h1
      · rw [show Sym.dots.text = ['.', '.'] from rfl] at h1
        generalize he : (['.', '.'] : Text) = s at h1
        cases h1 with
        | nil => cases he
        | char h _ => rw [← (List.cons.inj he).1] at h; exact dot_not_nameChar h
        | dot h _ =>
          have := (List.cons.inj (List.cons.inj he).2).1
          rw [← this] at h
          exact dot_not_nameChar h
      · revert h1; decide
    cases y <;> first
      | exact h2 rfl
      | exact h3 rfl
      | exact h4 rfl
      | exact hdots rfl
      | (have := hall _ (List.mem_cons_self ..)
         rw [nameChar_iff] at this
         revert this; decide)

theorem first_sym {c : Char} {r : Text} {y : Sym} (hy : y.text = [c]) (hc : c = '(' ∨ c = ',' ∨ c = ')') :
    FirstTok (c :: r) (.sym y) 1 := by
  refine ⟨hy.symm, ⟨by simp, ⟨.sym y, hy.symm⟩, ?_⟩, fun _ => ⟨y, rfl⟩⟩
  rintro m hm ⟨x, hx⟩
  cases m with
  | zero => omega
  | succ m =>
    rw [List.take_succ_cons] at hx
    have hcn : ¬ NameChar c ∧ c ≠ '.' := by
      rcases hc with rfl | rfl | rfl <;> exact ⟨by rw [nameChar_iff]; decide, by decide⟩
    cases x with
    | sym y' =>
      have hx : c :: r.take m = y'.text := hx
      have hl : (c :: r.take m).length = y'.text.length := by rw [hx]
      simp only [List.length_cons, List.length_take] at hl
      have h1 : y'.text.length = 1 := by
        have : y'.text.head? = some c := by rw [← hx]; rfl
        rcases hc with rfl | rfl | rfl <;> revert this <;> cases y' <;> decide
      simp only [List.length_cons] at hm
      omega
    | ident u =>
      obtain ⟨h1, h2⟩ := hx
      exact absurd (nameText_all h2 c (by rw [← h1]; simp)) (by simp [hcn.1, hcn.2])
    | quoted u =>
      obtain ⟨rfl, q, body, hq, _, he⟩ := hx
      simp only [List.cons.injEq] at he
      exfalso
      rcases hc with rfl | rfl | rfl <;> rcases hq with rfl | rfl <;> exact absurd he.1 (by decide)

mutual
theorem lexes_display : ∀ (e : Expr), PlainExpr e → ∀ rest ts, Stops rest → Lexes rest ts →
    Lexes (e.display ++ rest) (exprToks e ++ ts)
  | .name n, hp, rest, ts, hr, ht => by
    cases hp with
    | name hn =>
      rw [Expr.display, exprToks]
      exact .tok (first_name hn hr) (by simpa using ht)
  | .call f args, hp, rest, ts, hr, ht => by
    cases hp with
    | call hf ha =>
      rw [Expr.display, exprToks]
      simp only [List.append_assoc, List.cons_append, List.nil_append]
      refine .tok (first_name hf (.inr ⟨_, _, rfl, .inl rfl⟩)) ?_
      rw [List.drop_left]
      refine .tok (first_sym rfl (.inl rfl)) ?_
      refine lexes_displayArgs args ha _ _ ⟨_, rfl⟩ ?_
      exact .tok (n := 1) (first_sym rfl (.inr (.inr rfl))) ht
theorem lexes_displayArgs : ∀ (es : List Expr), (∀ e ∈ es, PlainExpr e) → ∀ rest ts, (∃ r, rest = ')' :: r) →
    Lexes rest ts → Lexes (Expr.displayArgs es ++ rest) (exprsToks es ++ ts)
  | [], _, rest, ts, _, ht => by
    rw [Expr.displayArgs, exprsToks]; exact ht
  | [e], hp, rest, ts, ⟨r, hr⟩, ht => by
    rw [Expr.displayArgs, exprsToks]
    exact lexes_display e (hp e (by simp)) rest ts (.inr ⟨_, r, hr, .inr (.inr rfl)⟩) ht
  | e :: e' :: es, hp, rest, ts, hr, ht => by
    rw [Expr.displayArgs, exprsToks, List.append_assoc, List.append_assoc, List.cons_append, List.cons_append,
      List.cons_append]
    refine lexes_display e (hp e (by simp)) _ _ (.inr ⟨_, _, rfl, .inr (.inl rfl)⟩) ?_
    refine .tok (n := 1) (first_sym rfl (.inr (.inl rfl))) ?_
    exact .space rfl (lexes_displayArgs (e' :: es) (fun x hx => hp x (by simp at hx ⊢; exact .inr hx)) rest ts hr ht)
end

/-- A printed expression, all of whose names can be written without quotes, is read back as itself. -/
theorem display_parses (e : Expr) (h : PlainExpr e) : parseRevset e.display = some e := by
  rw [parse_exact]
  refine ⟨exprToks e, ?_, .up1 (.up2 (.up3 (.up4 (derives_toks e))))⟩
  have := lexes_display e h [] [] (.inl rfl) .nil
  simpa using this

/-- Without that condition it need not be: the printed form does not quote names. -/
theorem display_not_quoted :
    parseRevset t!"message('a or b')" = some (.call t!"message" [.name t!"a or b"]) ∧
    parseRevset (Expr.display (.call t!"message" [.name t!"a or b"])) =
      some (.call t!"message" [.call t!"union" [.name t!"a", .name t!"b"]]) := by
  decide +kernel

example : parseRevset t!"a - b..c^2 | :(d + 'e f')" = some (.call t!"union" [
    .call t!"difference" [.name t!"a",
      .call t!"only" [.call t!"parents.nth" [.name t!"c", .name t!"2"], .name t!"b"]],
    .call t!"ancestors" [.call t!"union" [.name t!"d", .name t!"e f"]]]) := by
  decide +kernel

example : PlainExpr (.call t!"union" [.name t!"origin/main", .call t!"parents.nth" [.name t!"@", .name t!"2"]]) := by
  have nm : ∀ n : Text, n ≠ [] → n.all isNameChar = true → NameStar n := by
    intro n
    induction n with
    | nil => intro _ _; exact .nil
    | cons c n ih =>
      intro _ h
      simp only [List.all_cons, Bool.and_eq_true] at h
      refine .char ((nameChar_iff c).2 h.1) ?_
      cases n with
      | nil => exact .nil
      | cons d n => exact ih (by simp) h.2
  have plain : ∀ n : Text, n ≠ [] → n.all isNameChar = true → n ≠ t!"or" → n ≠ t!"and" → n ≠ t!"-" → PlainName n :=
    fun n h1 h2 h3 h4 h5 => ⟨.inl ⟨nm n h1 h2, h1⟩, h3, h4, h5⟩
  refine .call (plain _ (by decide) (by decide) (by decide) (by decide) (by decide)) ?_
  intro e he
  simp only [List.mem_cons, List.not_mem_nil, or_false] at he
  rcases he with rfl | rfl
  · exact .name (plain _ (by decide) (by decide) (by decide) (by decide) (by decide))
  · refine .call ⟨.inl ⟨?_, by decide⟩, by decide, by decide, by decide⟩ ?_
    · have h1 : NameStar t!"nth" := nm _ (by decide) (by decide)
      refine .char (.inl rfl) (.char (.inl rfl) (.char (.inl rfl) (.char (.inl rfl) (.char (.inl rfl)
        (.char (.inl rfl) (.char (.inl rfl) ?_))))))
      exact .dot (.inl rfl) (.char (.inl rfl) (.char (.inl rfl) .nil))
    · intro e he
      simp only [List.mem_cons, List.not_mem_nil, or_false] at he
      rcases he with rfl | rfl <;>
        exact .name (plain _ (by decide) (by decide) (by decide) (by decide) (by decide))

/-! ### C37 -/

theorem unquote_foldl_raw {b : Text} : ∀ (r : Text), (b.foldl unquoteStep (r, true)) = (r ++ b.map escaped, true) := by
  induction b with
  | nil => intro r; simp
  | cons c b ih =>
    intro r
    rw [List.foldl_cons, unquoteStep, if_pos rfl, ih]
    simp [escaped]

theorem unquote_foldl_plain {a : Text} (h : '\\' ∉ a) : ∀ (r : Text),
    (a.foldl unquoteStep (r, false)) = (r ++ a, false) := by
  induction a with
  | nil => intro r; simp
  | cons c a ih =>
    intro r
    simp only [List.mem_cons, not_or] at h
    rw [List.foldl_cons, unquoteStep, if_neg (by simp), if_neg (fun hc => h.1 hc.symm), ih h.2]
    simp

/-- The value of a literal without backslash is the text between the quotes. -/
theorem literal_without_backslash {q : Char} {body : Text} (hq : q ≠ '\\') (h : '\\' ∉ body) :
    unquote (q :: (body ++ [q])) = body := by
  unfold unquote
  rw [List.drop_succ_cons, List.drop_zero, unquote_foldl_plain (by simp [h]; exact fun h => hq h.symm)]
  simp

/-- The value of a literal with a backslash: after the first backslash, *every* character is read as if it came
after a backslash. -/
theorem literal_with_backslash {q : Char} {a b : Text} (h : '\\' ∉ a) :
    unquote (q :: (a ++ '\\' :: b ++ [q])) = a ++ b.map escaped := by
  unfold unquote
  rw [List.drop_succ_cons, List.drop_zero, List.append_assoc, List.foldl_append, unquote_foldl_plain h,
    List.cons_append, List.foldl_cons, unquoteStep, if_neg (by simp), if_pos rfl, unquote_foldl_raw]
  simp [← List.append_assoc]

theorem means_plain {a : Text} (h : '\\' ∉ a) {b v : Text} : Means (a ++ b) v ↔ ∃ w, v = a ++ w ∧ Means b w := by
  induction a generalizing v with
  | nil => simp
  | cons c a ih =>
    simp only [List.mem_cons, not_or] at h
    constructor
    · intro hm
      generalize hs : c :: a ++ b = s at hm
      cases hm with
      | nil => cases hs
      | char hc hm =>
        simp only [List.cons_append, List.cons.injEq] at hs
        obtain ⟨rfl, rfl⟩ := hs
        obtain ⟨w, rfl, hw⟩ := (ih h.2).1 hm
        exact ⟨w, rfl, hw⟩
      | escape hm =>
        simp only [List.cons_append, List.cons.injEq] at hs
        exact absurd hs.1.symm h.1
    · rintro ⟨w, rfl, hw⟩
      exact .char (fun hc => h.1 hc.symm) ((ih h.2).2 ⟨w, rfl, hw⟩)

theorem means_length {b v : Text} (h : Means b v) : v.length ≤ b.length := by
  induction h with
  | nil => simp
  | char _ _ ih => simpa using ih
  | escape _ ih => simp; omega

theorem means_map_iff {b v : Text} (h : Means b v) :
    b.map escaped = v ↔ ∀ c ∈ b, c ≠ '\\' ∧ c ≠ 'n' ∧ c ≠ 'r' ∧ c ≠ 't' := by
  induction h with
  | nil => simp
  | @char c t v hc _ ih =>
    rw [List.map_cons, List.cons.injEq, ih]
    simp only [List.mem_cons, forall_eq_or_imp]
    refine and_congr_left fun _ => ?_
    unfold escaped
    constructor
    · intro h
      refine ⟨hc, ?_, ?_, ?_⟩ <;> rintro rfl <;> revert h <;> decide
    · rintro ⟨_, h1, h2, h3⟩
      rw [if_neg h1, if_neg h2, if_neg h3]
  | @escape c t v hm _ =>
    constructor
    · intro h
      have h1 := means_length hm
      have h2 := congrArg List.length h
      simp at h2
      omega
    · intro h
      exact absurd rfl (h '\\' (by simp)).1

/-- **C37**, as far as it holds: the value of a literal is the string it means exactly if after its first escape it
contains no backslash and none of the characters `n`, `r`, `t`. -/
theorem literal_value_partial {q : Char} {body v : Text} (hq : q ≠ '\\') (hm : Means body v) :
    unquote (q :: (body ++ [q])) = v ↔
      ∀ a c b, body = a ++ '\\' :: c :: b → '\\' ∉ a →
        ∀ x ∈ b, x ≠ '\\' ∧ x ≠ 'n' ∧ x ≠ 'r' ∧ x ≠ 't' := by
  by_cases hb : '\\' ∈ body
  · obtain ⟨a, b, rfl, ha⟩ := List.eq_append_cons_of_mem hb
    rw [literal_with_backslash ha]
    obtain ⟨w, rfl, hw⟩ := (means_plain ha).1 hm
    generalize hs : '\\' :: b = s at hw
    cases hw with
    | nil => cases hs
    | char hc _ => exact absurd (List.cons.inj hs).1.symm hc
    | @escape c t w hw =>
      simp only [List.cons.injEq, true_and] at hs
      subst hs
      rw [List.append_cancel_left_eq, List.map_cons, List.cons.injEq, means_map_iff hw]
      simp only [true_and]
      constructor
      · intro h a' c' b' he ha' x hx
        have : a = a' ∧ '\\' :: c :: t = '\\' :: c' :: b' := by
          have key : ∀ (u u' r r' : Text), '\\' ∉ u → '\\' ∉ u' → u ++ '\\' :: r = u' ++ '\\' :: r' →
              u = u' ∧ r = r' := by
            intro u
            induction u with
            | nil =>
              intro u' r r' _ hu' he
              cases u' with
              | nil => simpa using he
              | cons d u' =>
                simp only [List.nil_append, List.cons_append, List.cons.injEq] at he
                exact absurd (by rw [← he.1]; simp) hu'
            | cons d u ih =>
              intro u' r r' hu hu' he
              cases u' with
              | nil =>
                simp only [List.nil_append, List.cons_append, List.cons.injEq] at he
                exact absurd (by simp [he.1]) hu
              | cons d' u' =>
                simp only [List.cons_append, List.cons.injEq] at he
                obtain ⟨h1, h2⟩ := ih u' r r' (fun h => hu (by simp [h])) (fun h => hu' (by simp [h])) he.2
                exact ⟨by rw [he.1, h1], h2⟩
          obtain ⟨h1, h2⟩ := key _ _ _ _ ha ha' he
          exact ⟨h1, by rw [h2]⟩
        simp only [List.cons.injEq, true_and] at this
        exact h x (this.2.2 ▸ hx)
      · intro h
        exact h a c t rfl ha
  · rw [literal_without_backslash hq hb]
    have h1 := (means_plain (b := []) (v := v) hb).1 (by simpa using hm)
    obtain ⟨w, rfl, hw⟩ := h1
    generalize hs : ([] : Text) = s at hw
    cases hw with
    | nil =>
      constructor
      · rintro _ a c b rfl
        exact absurd (by simp) hb
      · intro _; simp
    | char _ _ => cases hs
    | escape _ => cases hs

example : Means t!"say \\\"hi\\\"" t!"say \"hi\"" :=
  .char (by decide) (.char (by decide) (.char (by decide) (.char (by decide) (.escape (.char (by decide)
    (.char (by decide) (.escape .nil)))))))

/-- A violation: after one escape, the letters `n`, `r` and `t` are read as escapes and backslashes stay. -/
theorem escape_never_ends :
    Means t!"foo\\nbar" t!"foo\nbar" ∧ unquote t!"\"foo\\nbar\"" = t!"foo\nba\r" ∧
    parseRevset t!"\"foo\\nbar\"" = some (.name t!"foo\nba\r") := by
  refine ⟨?_, by decide +kernel, by decide +kernel⟩
  exact .char (by decide) (.char (by decide) (.char (by decide) (.escape (.char (by decide) (.char (by decide)
    (.char (by decide) .nil))))))

/-- Another violation: a literal which ends in an escaped backslash does not end there if another quote follows. The
text is not accepted, though both literals are well formed. -/
theorem escaped_backslash_does_not_end :
    parseRevset t!"message(\"a\\\\\")" = some (.call t!"message" [.name t!"a\\"]) ∧
    parseRevset t!"message(\"b\")" = some (.call t!"message" [.name t!"b"]) ∧
    parseRevset t!"message(\"a\\\\\") | message(\"b\")" = none := by
  decide +kernel

theorem quotable_tail {q : Char} {t : Text} (h : Quotable q t) :
    ∀ a b, t = a ++ q :: b → q ≠ '\\' → ∃ a', a = a' ++ ['\\'] := by
  induction h with
  | nil => intro a b he; simp at he
  | @char c t hc _ ih =>
    intro a b he hq
    cases a with
    | nil =>
      simp only [List.nil_append, List.cons.injEq] at he
      exact absurd he.1 hc
    | cons d a =>
      simp only [List.cons_append, List.cons.injEq] at he
      obtain ⟨a', rfl⟩ := ih a b he.2 hq
      exact ⟨d :: a', rfl⟩
  | @escape c t _ _ ih =>
    intro a b he hq
    match a with
    | [] =>
      simp only [List.nil_append, List.cons.injEq] at he
      exact absurd he.1.symm hq
    | [d] =>
      simp only [List.cons_append, List.nil_append, List.cons.injEq] at he
      exact ⟨[], by rw [← he.1]; rfl⟩
    | d :: d' :: a =>
      simp only [List.cons_append, List.cons.injEq] at he
      obtain ⟨a', rfl⟩ := ih a b he.2.2 hq
      exact ⟨d :: d' :: a', rfl⟩

/-- Not every string can be written as a literal. -/
theorem not_every_string_writable : ¬ ∃ t, QuotedText t ∧ unquote t = t!"''\"\"" := by
  rintro ⟨t, ⟨q, body, hq, hb, rfl⟩, h⟩
  have hq' : q ≠ '\\' := by rcases hq with rfl | rfl <;> decide
  have esc_q : ∀ c, escaped c = '"' ∨ escaped c = '\'' → escaped c = c := by
    intro c h
    unfold escaped at h ⊢
    repeat' split at h <;> first | (rcases h with h | h <;> exact absurd h (by decide)) | skip
    rename_i h1 h2 h3
    rw [if_neg h1, if_neg h2, if_neg h3]
  by_cases hbs : '\\' ∈ body
  · obtain ⟨a, b, rfl, ha⟩ := List.eq_append_cons_of_mem hbs
    rw [literal_with_backslash ha] at h
    have hqa : q ∉ a := by
      intro hqa
      obtain ⟨u, w, rfl⟩ := List.append_of_mem hqa
      obtain ⟨a', ha'⟩ := quotable_tail hb u (w ++ '\\' :: b) (by simp) hq'
      exact ha (by rw [ha']; simp)
    -- two quotes in a row after the first escape
    have two : ∀ u c w, b = u ++ c :: q :: w → escaped c = q → False := by
      intro u c w he hc
      have hc' : c = q := by rw [← hc]; exact (esc_q c (by rw [hc]; exact hq)).symm
      obtain ⟨a', ha'⟩ := quotable_tail hb (a ++ '\\' :: (u ++ [c])) w (by rw [he]; simp) hq'
      have : c = '\\' := by
        have h1 : (a ++ '\\' :: (u ++ [c])).getLast? = some c := by
          rw [show a ++ '\\' :: (u ++ [c]) = (a ++ '\\' :: u) ++ [c] by simp, List.getLast?_concat]
        rw [ha', List.getLast?_concat] at h1
        exact (Option.some.inj h1).symm
      exact hq' (hc' ▸ this)
    have hmap : ∀ c, (escaped c = q) → c = q := fun c hc => by rw [← hc]; exact (esc_q c (by rw [hc]; exact hq)).symm
    rcases hq with rfl | rfl
    · -- double quotes
      match a, b, h with
      | [], [x1, x2, x3, x4], h =>
        simp at h
        exact two [x1, x2] x3 [] (by rw [hmap x4 h.2.2.2]; rfl) h.2.2.1
      | [y1], [x2, x3, x4], h =>
        simp at h
        exact two [x2] x3 [] (by rw [hmap x4 h.2.2.2]; rfl) h.2.2.1
      | [y1, y2], [x3, x4], h =>
        simp at h
        exact two [] x3 [] (by rw [hmap x4 h.2.2.2]; rfl) h.2.2.1
      | y1 :: y2 :: y3 :: r, b, h =>
        simp at h
        exact hqa (by simp [h.2.2.1])
      | [], [], h => simp at h
      | [], [_], h => simp at h
      | [], [_, _], h => simp at h
      | [], [_, _, _], h => simp at h
      | [], _ :: _ :: _ :: _ :: _ :: _, h => simp at h
      | [_], [], h => simp at h
      | [_], [_], h => simp at h
      | [_], [_, _], h => simp at h
      | [_], _ :: _ :: _ :: _ :: _, h => simp at h
      | [_, _], [], h => simp at h
      | [_, _], [_], h => simp at h
      | [_, _], _ :: _ :: _ :: _, h => simp at h
    · match a, b, h with
      | [], x1 :: x2 :: r, h =>
        simp at h
        exact two [] x1 r (by rw [hmap x2 h.2.1]; rfl) h.1
      | y :: a, b, h =>
        simp at h
        exact hqa (by simp [h.1])
      | [], [], h => simp at h
      | [], [_], h => simp at h
  · rw [literal_without_backslash hq' hbs] at h
    have : q ∈ body := by rw [h]; rcases hq with rfl | rfl <;> decide
    obtain ⟨u, w, rfl⟩ := List.append_of_mem this
    obtain ⟨a', rfl⟩ := quotable_tail hb u w rfl hq'
    exact hbs (by simp)

theorem quotable_of_not_mem {q : Char} {t : Text} (h : q ∉ t) : Quotable q t := by
  induction t with
  | nil => exact .nil
  | cons c t ih =>
    simp only [List.mem_cons, not_or] at h
    exact .char (fun hc => h.1 hc.symm) (ih h.2)

/-- A string without backslash which lacks one of the quotes can be written: the literal, as a whole revset, is
read as that name. -/
theorem writable_partial {q : Char} {v : Text} (hq : q = '"' ∨ q = '\'') (h : q ∉ v) (hb : '\\' ∉ v) :
    parseRevset (q :: (v ++ [q])) = some (.name v) := by
  have hq' : q ≠ '\\' := by rcases hq with rfl | rfl <;> decide
  have hQ : QuotedText (q :: (v ++ [q])) := ⟨q, v, hq, quotable_of_not_mem h, rfl⟩
  have htake : (q :: (v ++ [q])).take (v.length + 2) = q :: (v ++ [q]) := by
    rw [List.take_of_length_le]; simp
  rw [parse_exact]
  refine ⟨[.quoted (q :: (v ++ [q]))], .tok (n := v.length + 2) ⟨?_, ⟨?_, ⟨.quoted (q :: (v ++ [q])), ?_⟩, ?_⟩, ?_⟩ ?_, ?_⟩
  · rw [htake]; exact ⟨rfl, hQ⟩
  · simp
  · rw [htake]; exact ⟨rfl, hQ⟩
  · rintro m hm _
    simpa using hm
  · rw [htake]
    rintro ⟨y, hy⟩
    have hy : q :: (v ++ [q]) = y.text := hy
    exfalso
    have : y.text.head? = some q := by rw [← hy]; rfl
    revert this
    rcases hq with rfl | rfl <;> cases y <;> decide
  · rw [List.drop_of_length_le (by simp)]
    exact .nil
  · refine .up1 (.up2 (.up3 (.up4 (.name ?_))))
    rw [Tok.nameOf, literal_without_backslash hq' hb]

example : parseRevset t!"'a \"quoted\" word'" = some (.name t!"a \"quoted\" word") :=
  writable_partial (q := '\'') (v := t!"a \"quoted\" word") (.inr rfl) (by decide) (by decide)

end Verif.Props
