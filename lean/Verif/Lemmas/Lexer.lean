import Verif.Spec.Lexer

/-!
The lexer cuts a text into tokens as the rule says.
-/

namespace Verif.Spec

open Verif

theorem nameChar_iff (c : Char) : NameChar c ↔ isNameChar c = true := by
  simp [NameChar, isNameChar, Char.isAlphanum, or_assoc]

theorem dot_not_nameChar : ¬ NameChar '.' := by
  rw [nameChar_iff]; decide

/-! ### names -/

theorem nameStar_take (s : Text) : NameStar (s.take (nameLen s)) ∧ nameLen s ≤ s.length := by
  induction s using nameLen.induct with
  | case1 => exact ⟨.nil, Nat.le_refl _⟩
  | case2 c h =>
    rw [nameLen, if_pos h]
    exact ⟨.char ((nameChar_iff c).2 h) .nil, Nat.le_refl _⟩
  | case3 c h =>
    rw [nameLen, if_neg h]
    exact ⟨.nil, by simp⟩
  | case4 c d cs h ih =>
    rw [nameLen, if_pos h]
    exact ⟨.char ((nameChar_iff c).2 h) ih.1, by simp at ih ⊢; omega⟩
  | case5 c d cs h h2 ih =>
    rw [nameLen, if_neg h, if_pos h2]
    simp only [Bool.and_eq_true, decide_eq_true_eq] at h2
    obtain ⟨rfl, h2⟩ := h2
    exact ⟨.dot ((nameChar_iff d).2 h2) ih.1, by simp at ih ⊢; omega⟩
  | case6 c d cs h h2 =>
    rw [nameLen, if_neg h, if_neg h2]
    exact ⟨.nil, by simp⟩

theorem nameStar_longest {t : Text} (h : NameStar t) : ∀ r, t.length ≤ nameLen (t ++ r) := by
  induction h with
  | nil => intro r; simp
  | @char c t hc _ ih =>
    intro r
    have := (nameChar_iff c).1 hc
    rw [List.cons_append]
    cases hr : t ++ r with
    | nil =>
      have : t = [] := by cases t <;> simp_all
      subst this
      simp [nameLen, *]
    | cons d cs =>
      rw [nameLen, if_pos this, ← hr]
      have := ih r
      simp; omega
  | @dot c t hc _ ih =>
    intro r
    have := (nameChar_iff c).1 hc
    rw [List.cons_append, List.cons_append, nameLen, if_neg (by decide), if_pos (by simp [this])]
    have := ih r
    simp; omega

theorem identLen_some {s : Text} {n : Nat} (h : identLen s = some n) : Longest NameText s n := by
  unfold identLen at h
  have hs := nameStar_take s
  split at h
  · rename_i h0
    simp only [Option.some.injEq] at h
    subst h
    refine ⟨hs.2, .inl ⟨hs.1, ?_⟩, ?_⟩
    · intro he
      have := congrArg List.length he
      simp at this
      rcases this with h | h
      · exact h0 h
      · subst h; simp [nameLen] at h0
    · intro m hm hP
      rcases hP with ⟨hP, _⟩ | hP
      · have := nameStar_longest hP (s.drop m)
        rw [List.take_append_drop] at this
        simp at this
        omega
      · have := congrArg List.length hP
        simp at this
        omega
  · rename_i h0
    simp only [ne_eq, Decidable.not_not] at h0
    split at h
    · rename_i hd
      simp only [Option.some.injEq] at h
      subst h
      cases s with
      | nil => cases hd
      | cons c cs =>
        simp only [List.head?_cons, Option.some.injEq] at hd
        subst hd
        refine ⟨by simp, .inr rfl, ?_⟩
        intro m hm hP
        rcases hP with ⟨hP, _⟩ | hP
        · have := nameStar_longest hP (('.' :: cs).drop m)
          rw [List.take_append_drop] at this
          simp only [List.length_take] at this
          omega
        · have := congrArg List.length hP
          simp at this hm
          omega
    · cases h

theorem identLen_none {s : Text} (h : identLen s = none) (m : Nat) : ¬ NameText (s.take m) := by
  unfold identLen at h
  split at h
  · cases h
  · rename_i h0
    simp only [ne_eq, Decidable.not_not] at h0
    split at h
    · cases h
    · rename_i hd
      rintro (⟨hP, hne⟩ | hP)
      · have := nameStar_longest hP (s.drop m)
        rw [List.take_append_drop, h0] at this
        exact hne (List.length_eq_zero_iff.1 (by omega))
      · cases s with
        | nil => simp at hP
        | cons c cs =>
          cases m with
          | zero => simp at hP
          | succ m =>
            simp only [List.take_succ_cons, List.cons.injEq] at hP
            exact hd (by simp [hP.1])

/-! ### quoted strings -/

/-- A text which ends a string, from the states which the text so far allows. -/
def Ends (q : Char) (a b : Bool) (t : Text) : Prop :=
  ∃ body, t = body ++ [q] ∧
    ((a = true ∧ Quotable q body) ∨ (b = true ∧ ∃ c body', body = c :: body' ∧ c ≠ '\n' ∧ Quotable q body'))

theorem ends_nil {q : Char} {a b : Bool} : ¬ Ends q a b [] := by
  rintro ⟨body, h, _⟩
  cases body <;> cases h

theorem ends_one {q c : Char} {a b : Bool} : Ends q a b [c] ↔ a = true ∧ c = q := by
  constructor
  · rintro ⟨body, h, h'⟩
    cases body with
    | nil =>
      simp only [List.nil_append, List.cons.injEq, and_true] at h
      rcases h' with h' | ⟨_, c, body', h', _⟩
      · exact ⟨h'.1, h⟩
      · cases h'
    | cons x body => simp at h
  · rintro ⟨ha, rfl⟩
    exact ⟨[], rfl, .inl ⟨ha, .nil⟩⟩

theorem ends_cons {q c d : Char} {a b : Bool} {t : Text} :
    Ends q a b (c :: d :: t) ↔
      Ends q ((a && c ≠ q) || (b && c ≠ '\n')) (a && c = '\\') (d :: t) := by
  constructor
  · rintro ⟨body, h, h'⟩
    cases body with
    | nil => simp at h
    | cons x body =>
      simp only [List.cons_append, List.cons.injEq] at h
      obtain ⟨rfl, h⟩ := h
      refine ⟨body, h, ?_⟩
      rcases h' with ⟨ha, hq⟩ | ⟨hb, c', body', he, hc', hq⟩
      · cases hq with
        | char hc hq => exact .inl ⟨by simp [ha, hc], hq⟩
        | escape hc hq => exact .inr ⟨by simp [ha], _, _, rfl, hc, hq⟩
      · simp only [List.cons.injEq] at he
        obtain ⟨rfl, rfl⟩ := he
        exact .inl ⟨by simp [hb, hc'], hq⟩
  · rintro ⟨body, h, h'⟩
    refine ⟨c :: body, by rw [h]; rfl, ?_⟩
    rcases h' with ⟨hab, hq⟩ | ⟨ha, c', body', he, hc', hq⟩
    · simp only [ne_eq, Bool.or_eq_true, Bool.and_eq_true, decide_eq_true_eq] at hab
      rcases hab with ⟨ha, hc⟩ | ⟨hb, hc⟩
      · exact .inl ⟨ha, .char hc hq⟩
      · exact .inr ⟨hb, c, body, rfl, hc, hq⟩
    · simp only [Bool.and_eq_true, decide_eq_true_eq] at ha
      obtain ⟨ha, rfl⟩ := ha
      subst he
      exact .inl ⟨ha, .escape hc' hq⟩

theorem quotedLenFrom_spec (q : Char) : ∀ (s : Text) (a b : Bool),
    match quotedLenFrom q a b s with
    | some n => Longest (Ends q a b) s n
    | none => ∀ m, ¬ Ends q a b (s.take m) := by
  intro s
  induction s with
  | nil =>
    intro a b
    simp only [quotedLenFrom, List.take_nil]
    exact fun _ => ends_nil
  | cons c cs ih =>
    intro a b
    rw [quotedLenFrom]
    have ih' := ih ((a && c ≠ q) || (b && c ≠ '\n')) (a && c = '\\')
    have step : ∀ m, Ends q a b ((c :: cs).take (m + 2)) ↔
        Ends q ((a && c ≠ q) || (b && c ≠ '\n')) (a && c = '\\') (cs.take (m + 1)) ∨
          (cs = [] ∧ a = true ∧ c = q) := by
      intro m
      cases cs with
      | nil =>
        simp only [List.take_succ_cons, List.take_nil]
        rw [ends_one]
        simp [ends_nil]
      | cons d cs =>
        simp only [List.take_succ_cons]
        rw [ends_cons]
        simp
    cases hr : quotedLenFrom q ((a && c ≠ q) || (b && c ≠ '\n')) (a && c = '\\') cs with
    | some n =>
      rw [hr] at ih'
      simp only at ih' ⊢
      obtain ⟨h1, h2, h3⟩ := ih'
      cases n with
      | zero => exact absurd h2 (by simpa using ends_nil)
      | succ n =>
        refine ⟨by simp; omega, (step n).2 (.inl h2), ?_⟩
        intro m hm hP
        match m with
        | 0 => omega
        | 1 => omega
        | m + 2 =>
          rcases (step m).1 hP with h | ⟨h, _⟩
          · have := h3 (m + 1) (by simpa using hm) h
            omega
          · subst h; simp at h1
    | none =>
      rw [hr] at ih'
      simp only at ih' ⊢
      split
      · rename_i h
        split at h
        · rename_i hc
          simp only [Option.some.injEq] at h
          subst h
          simp only [Bool.and_eq_true, decide_eq_true_eq] at hc
          refine ⟨by simp, by simpa using ends_one.2 hc, ?_⟩
          intro m hm hP
          match m with
          | 0 => omega
          | 1 => omega
          | m + 2 =>
            rcases (step m).1 hP with h | ⟨h, _⟩
            · exact absurd h (ih' _)
            · subst h; simp at hm
        · cases h
      · rename_i h
        split at h
        · cases h
        · rename_i hc
          simp only [Bool.and_eq_true, decide_eq_true_eq] at hc
          intro m hP
          match m with
          | 0 => exact ends_nil hP
          | 1 => exact hc (ends_one.1 (by simpa using hP))
          | m + 2 =>
            rcases (step m).1 hP with h | ⟨_, h⟩
            · exact absurd h (ih' _)
            · exact hc h

theorem quotedText_cons {c : Char} {t : Text} :
    QuotedText (c :: t) ↔ (c = '"' ∨ c = '\'') ∧ Ends c true false t := by
  constructor
  · rintro ⟨q, body, hq, hb, he⟩
    simp only [List.cons.injEq] at he
    obtain ⟨rfl, rfl⟩ := he
    exact ⟨hq, body, rfl, .inl ⟨rfl, hb⟩⟩
  · rintro ⟨hq, body, rfl, h | h⟩
    · exact ⟨c, body, hq, h.2, rfl⟩
    · simp at h

theorem quotedLen_some {s : Text} {n : Nat} (h : quotedLen s = some n) : Longest QuotedText s n := by
  cases s with
  | nil => simp [quotedLen] at h
  | cons c cs =>
    simp only [quotedLen] at h
    split at h
    · rename_i hc
      simp only [Option.map_eq_some_iff] at h
      obtain ⟨k, h1, rfl⟩ := h
      have := quotedLenFrom_spec c cs true false
      rw [h1] at this
      obtain ⟨h2, h3, h4⟩ := this
      refine ⟨by simp; omega, ?_, ?_⟩
      · rw [List.take_succ_cons, quotedText_cons]
        exact ⟨hc, h3⟩
      · intro m hm hP
        cases m with
        | zero => omega
        | succ m =>
          rw [List.take_succ_cons, quotedText_cons] at hP
          have := h4 m (by simpa using hm) hP.2
          omega
    · cases h

theorem quotedLen_none {s : Text} (h : quotedLen s = none) (m : Nat) : ¬ QuotedText (s.take m) := by
  have nil : ¬ QuotedText [] := by
    rintro ⟨q, body, _, _, he⟩
    cases he
  cases s with
  | nil => simpa using nil
  | cons c cs =>
    cases m with
    | zero => simpa using nil
    | succ m =>
      rw [List.take_succ_cons, quotedText_cons]
      rintro ⟨hc, hE⟩
      simp only [quotedLen, if_pos hc, Option.map_eq_none_iff] at h
      have := quotedLenFrom_spec c cs true false
      rw [h] at this
      exact this m hE

/-! ### literals -/

theorem symBest_spec (s : Text) : ∀ (l : List Sym) (best : Option (Sym × Nat)),
    (∀ y n, best = some (y, n) → n = y.text.length) →
    match l.foldl betterSym best with
    | some (y, n) => n = y.text.length ∧ (y ∈ l ∨ best = some (y, n)) ∧ (∀ y' ∈ l, y'.text.length ≤ n) ∧
        (∀ y' n', best = some (y', n') → n' ≤ n)
    | none => l = [] ∧ best = none := by
  intro l
  induction l with
  | nil =>
    intro best hb
    simp only [List.foldl_nil]
    cases best with
    | none => simp
    | some p =>
      obtain ⟨y, n⟩ := p
      refine ⟨hb y n rfl, .inr rfl, by simp, ?_⟩
      intro y' n' h
      simp only [Option.some.injEq, Prod.mk.injEq] at h
      omega
  | cons y l ih =>
    intro best hb
    rw [List.foldl_cons, betterSym.eq_def]
    cases best with
    | none =>
      simp only
      have := ih (some (y, y.text.length)) (by intro y' n' h; simp at h; rw [← h.1, h.2])
      revert this
      split
      · rintro ⟨h1, h2, h3, h4⟩
        refine ⟨h1, ?_, ?_, by simp⟩
        · rcases h2 with h2 | h2
          · exact .inl (by simp [h2])
          · simp only [Option.some.injEq, Prod.mk.injEq] at h2
            exact .inl (by simp [h2.1])
        · intro y' hy'
          simp only [List.mem_cons] at hy'
          rcases hy' with rfl | hy'
          · exact h4 _ _ rfl
          · exact h3 _ hy'
      · rintro ⟨_, h⟩; cases h
    | some p =>
      obtain ⟨y0, n0⟩ := p
      have h0 := hb y0 n0 rfl
      simp only
      split
      · rename_i y1 n1 hf
        split at hf
        · rename_i hlt
          have := ih (some (y, y.text.length)) (by intro y' n' h; simp at h; rw [← h.1, h.2])
          rw [hf] at this
          obtain ⟨h1, h2, h3, h4⟩ := this
          have h5 := h4 _ _ rfl
          refine ⟨h1, ?_, ?_, ?_⟩
          · rcases h2 with h2 | h2
            · exact .inl (by simp [h2])
            · simp only [Option.some.injEq, Prod.mk.injEq] at h2
              exact .inl (by simp [h2.1])
          · intro y' hy'
            simp only [List.mem_cons] at hy'
            rcases hy' with rfl | hy'
            · exact h5
            · exact h3 _ hy'
          · intro y' n' h
            simp only [Option.some.injEq, Prod.mk.injEq] at h
            omega
        · rename_i hlt
          have := ih (some (y0, n0)) hb
          rw [hf] at this
          obtain ⟨h1, h2, h3, h4⟩ := this
          have h5 := h4 _ _ rfl
          refine ⟨h1, ?_, ?_, h4⟩
          · rcases h2 with h2 | h2
            · exact .inl (by simp [h2])
            · exact .inr h2
          · intro y' hy'
            simp only [List.mem_cons] at hy'
            rcases hy' with rfl | hy'
            · omega
            · exact h3 _ hy'
      · rename_i hf
        split at hf
        · have := ih (some (y, y.text.length)) (by intro y' n' h; simp at h; rw [← h.1, h.2])
          rw [hf] at this
          cases this.2
        · have := ih (some (y0, n0)) hb
          rw [hf] at this
          cases this.2

theorem sym_mem_all (y : Sym) : y ∈ Sym.all := by
  cases y <;> simp [Sym.all]

theorem symText_inj {y y' : Sym} (h : y.text = y'.text) : y = y' := by
  cases y <;> cases y' <;> first | rfl | (revert h; decide)

theorem symLen_some {s : Text} {y : Sym} {n : Nat} (h : symLen s = some (y, n)) :
    n ≤ s.length ∧ s.take n = y.text ∧ ∀ m y', s.take m = Sym.text y' → m ≤ s.length → m ≤ n := by
  unfold symLen at h
  have := symBest_spec s (Sym.all.filter fun y => y.text.isPrefixOf s) none (by simp)
  rw [h] at this
  obtain ⟨h1, h2, h3, _⟩ := this
  rcases h2 with h2 | h2
  · rw [List.mem_filter, List.isPrefixOf_iff_prefix] at h2
    have hp := h2.2
    refine ⟨h1 ▸ hp.length_le, ?_, ?_⟩
    · rw [h1]
      exact (List.prefix_iff_eq_take.1 hp).symm
    · intro m y' hm hl
      have : m = y'.text.length := by rw [← hm]; simp; omega
      rw [this]
      refine h3 y' ?_
      rw [List.mem_filter, List.isPrefixOf_iff_prefix]
      exact ⟨sym_mem_all y', hm ▸ List.take_prefix m s⟩
  · cases h2

theorem symLen_none {s : Text} (h : symLen s = none) (m : Nat) (y : Sym) : s.take m ≠ y.text := by
  unfold symLen at h
  have := symBest_spec s (Sym.all.filter fun y => y.text.isPrefixOf s) none (by simp)
  rw [h] at this
  intro he
  have hm : y ∈ Sym.all.filter fun y => y.text.isPrefixOf s := by
    rw [List.mem_filter, List.isPrefixOf_iff_prefix]
    exact ⟨sym_mem_all y, he ▸ List.take_prefix m s⟩
  rw [this.1] at hm
  cases hm

/-! ### tokens -/

theorem nameStar_head {c : Char} {t : Text} (h : NameStar (c :: t)) : NameChar c ∨ c = '.' := by
  generalize he : c :: t = s at h
  cases h with
  | nil => cases he
  | char h _ => exact .inl ((List.cons.inj he).1 ▸ h)
  | dot h _ => exact .inr (List.cons.inj he).1

theorem quoted_not_name {t : Text} (h : QuotedText t) : ¬ NameText t := by
  obtain ⟨q, body, hq, _, rfl⟩ := h
  have hc : ¬ NameChar q ∧ q ≠ '.' := by
    rcases hq with rfl | rfl <;> exact ⟨by rw [nameChar_iff]; decide, by decide⟩
  rintro (⟨h, _⟩ | h)
  · exact (nameStar_head h).elim hc.1 hc.2
  · simp only [List.cons.injEq] at h
    exact hc.2 h.1

theorem name_take_not_quoted {s : Text} {m k : Nat} (h : QuotedText (s.take m)) : ¬ NameText (s.take k) := by
  obtain ⟨q, body, hq, _, he⟩ := h
  have hc : ¬ NameChar q ∧ q ≠ '.' := by
    rcases hq with rfl | rfl <;> exact ⟨by rw [nameChar_iff]; decide, by decide⟩
  cases s with
  | nil => simp at he
  | cons c cs =>
    cases m with
    | zero => simp at he
    | succ m =>
      simp only [List.take_succ_cons, List.cons.injEq] at he
      rw [he.1]
      cases k with
      | zero => rintro (⟨_, h⟩ | h) <;> simp at h
      | succ k =>
        rw [List.take_succ_cons]
        rintro (⟨h, _⟩ | h)
        · exact (nameStar_head h).elim hc.1 hc.2
        · simp only [List.cons.injEq] at h
          exact hc.2 h.1

/-- The candidates other than literals. -/
theorem nameTok_spec (s : Text) :
    match nameTok s with
    | some (x, n) => TokText x (s.take n) ∧ n ≤ s.length ∧ (∀ y, x ≠ .sym y) ∧
        ∀ m x', m ≤ s.length → TokText x' (s.take m) → (∀ y, x' ≠ .sym y) → m ≤ n
    | none => ∀ m x', TokText x' (s.take m) → ∃ y, x' = .sym y := by
  unfold nameTok
  cases hq : quotedLen s with
  | some n =>
    obtain ⟨h1, h2, h3⟩ := quotedLen_some hq
    refine ⟨⟨rfl, h2⟩, h1, by simp, ?_⟩
    intro m x' hm hx hy
    cases x' with
    | sym y => exact absurd rfl (hy y)
    | ident x => exact absurd (hx.1 ▸ hx.2) (name_take_not_quoted h2)
    | quoted x => exact h3 m hm (hx.1 ▸ hx.2)
  | none =>
    simp only
    cases hi : identLen s with
    | some n =>
      obtain ⟨h1, h2, h3⟩ := identLen_some hi
      refine ⟨⟨rfl, h2⟩, h1, by simp, ?_⟩
      intro m x' hm hx hy
      cases x' with
      | sym y => exact absurd rfl (hy y)
      | ident x => exact h3 m hm (hx.1 ▸ hx.2)
      | quoted x => exact absurd (hx.1 ▸ hx.2) (quotedLen_none hq m)
    | none =>
      intro m x' hx
      cases x' with
      | sym y => exact ⟨y, rfl⟩
      | ident x => exact absurd (hx.1 ▸ hx.2) (identLen_none hi m)
      | quoted x => exact absurd (hx.1 ▸ hx.2) (quotedLen_none hq m)

theorem nextTok_some {s : Text} {x : Tok} {n : Nat} (h : nextTok s = some (x, n)) : FirstTok s x n := by
  have hn := nameTok_spec s
  unfold nextTok at h
  revert hn h
  generalize nameTok s = nm
  intro h hn
  cases hy : symLen s with
  | none =>
    rw [hy] at h
    simp only at h
    subst h
    simp only at hn
    obtain ⟨h1, h2, h3, h4⟩ := hn
    refine ⟨h1, ⟨h2, ⟨x, h1⟩, ?_⟩, ?_⟩
    · rintro m hm ⟨x', hx'⟩
      refine h4 m x' hm hx' ?_
      rintro y rfl
      exact symLen_none hy m y hx'
    · rintro ⟨y, h⟩
      exact absurd h (symLen_none hy n y)
  | some yn =>
    obtain ⟨y, k⟩ := yn
    obtain ⟨s1, s2, s3⟩ := symLen_some hy
    rw [hy] at h
    cases nm with
    | none =>
      simp only [Option.some.injEq, Prod.mk.injEq] at h
      obtain ⟨rfl, rfl⟩ := h
      refine ⟨s2, ⟨s1, ⟨.sym y, s2⟩, ?_⟩, fun _ => ⟨y, rfl⟩⟩
      rintro m hm ⟨x', hx'⟩
      obtain ⟨y', rfl⟩ := hn m x' hx'
      exact s3 m y' hx' hm
    | some xm =>
      obtain ⟨x0, m0⟩ := xm
      obtain ⟨h1, h2, h3, h4⟩ := hn
      simp only at h
      have up : ∀ m x', m ≤ s.length → TokText x' (s.take m) → m ≤ k ∨ m ≤ m0 := by
        intro m x' hm hx'
        by_cases hsy : ∃ y', x' = .sym y'
        · obtain ⟨y', rfl⟩ := hsy
          exact .inl (s3 m y' hx' hm)
        · exact .inr (h4 m x' hm hx' fun y hy => hsy ⟨y, hy⟩)
      split at h
      · rename_i hlt
        simp only [Option.some.injEq, Prod.mk.injEq] at h
        obtain ⟨rfl, rfl⟩ := h
        refine ⟨h1, ⟨h2, ⟨_, h1⟩, ?_⟩, ?_⟩
        · rintro m hm ⟨x', hx'⟩
          rcases up m x' hm hx' with h | h <;> omega
        · rintro ⟨y', h⟩
          have := s3 m0 y' h h2
          omega
      · rename_i hlt
        simp only [Option.some.injEq, Prod.mk.injEq] at h
        obtain ⟨rfl, rfl⟩ := h
        refine ⟨s2, ⟨s1, ⟨.sym y, s2⟩, ?_⟩, fun _ => ⟨y, rfl⟩⟩
        rintro m hm ⟨x', hx'⟩
        rcases up m x' hm hx' with h | h <;> omega

theorem nextTok_none {s : Text} (h : nextTok s = none) (x : Tok) (n : Nat) : ¬ FirstTok s x n := by
  have hn := nameTok_spec s
  unfold nextTok at h
  revert hn h
  generalize nameTok s = nm
  intro h hn
  rintro ⟨h1, _, _⟩
  cases hy : symLen s with
  | none =>
    rw [hy] at h
    simp only at h
    subst h
    obtain ⟨y, rfl⟩ := hn n x h1
    exact symLen_none hy n y h1
  | some yn =>
    obtain ⟨y, k⟩ := yn
    rw [hy] at h
    cases nm with
    | none => cases h
    | some xm =>
      simp only at h
      split at h <;> cases h

/-- The first token is determined. -/
theorem FirstTok.unique {s : Text} {x x' : Tok} {n n' : Nat} (h : FirstTok s x n) (h' : FirstTok s x' n') :
    x = x' ∧ n = n' := by
  obtain ⟨a1, ⟨a2, _, a3⟩, a4⟩ := h
  obtain ⟨b1, ⟨b2, _, b3⟩, b4⟩ := h'
  have hn : n = n' := Nat.le_antisymm (b3 n a2 ⟨x, a1⟩) (a3 n' b2 ⟨x', b1⟩)
  subst hn
  refine ⟨?_, rfl⟩
  by_cases hs : ∃ y : Sym, TokText (.sym y) (s.take n)
  · obtain ⟨y, rfl⟩ := a4 hs
    obtain ⟨y', rfl⟩ := b4 hs
    rw [symText_inj (a1.symm.trans b1)]
  · cases x with
    | sym y => exact absurd ⟨y, a1⟩ hs
    | ident u =>
      cases x' with
      | sym y => exact absurd ⟨y, b1⟩ hs
      | ident u' => rw [← a1.1, ← b1.1]
      | quoted u' => exact absurd (a1.1 ▸ a1.2) (quoted_not_name (b1.1 ▸ b1.2))
    | quoted u =>
      cases x' with
      | sym y => exact absurd ⟨y, b1⟩ hs
      | ident u' => exact absurd (b1.1 ▸ b1.2) (quoted_not_name (a1.1 ▸ a1.2))
      | quoted u' => rw [← a1.1, ← b1.1]

theorem nextTok_iff {s : Text} {x : Tok} {n : Nat} : nextTok s = some (x, n) ↔ FirstTok s x n := by
  refine ⟨nextTok_some, fun h => ?_⟩
  cases hs : nextTok s with
  | none => exact absurd h (nextTok_none hs x n)
  | some xm =>
    obtain ⟨x', n'⟩ := xm
    obtain ⟨rfl, rfl⟩ := h.unique (nextTok_some hs)
    rfl

theorem tokText_ne_nil {x : Tok} {t : Text} (h : TokText x t) : t ≠ [] := by
  cases x with
  | sym y => rw [show t = y.text from h]; cases y <;> decide
  | ident u =>
    obtain ⟨rfl, h | h⟩ := h
    · exact h.2
    · rw [h]; simp
  | quoted u =>
    obtain ⟨rfl, q, body, _, _, h⟩ := h
    rw [h]; simp

theorem FirstTok.pos {s : Text} {x : Tok} {n : Nat} (h : FirstTok s x n) : 0 < n ∧ n ≤ s.length := by
  refine ⟨?_, h.2.1.1⟩
  rcases Nat.eq_zero_or_pos n with rfl | h'
  · exact absurd (by simp) (tokText_ne_nil h.1)
  · exact h'

/-- No token begins with white space. -/
theorem FirstTok.not_space {c : Char} {s : Text} {x : Tok} {n : Nat} (h : FirstTok (c :: s) x n) :
    isBlank c = false := by
  have hp := h.pos
  obtain ⟨m, rfl⟩ : ∃ m, n = m + 1 := ⟨n - 1, by omega⟩
  have h1 := h.1
  rw [List.take_succ_cons] at h1
  have nm : ∀ {c : Char}, NameChar c → isBlank c = false := by
    intro c hc
    cases hs : isBlank c with
    | false => rfl
    | true =>
      simp only [isBlank, Bool.or_eq_true, decide_eq_true_eq] at hs
      rw [nameChar_iff] at hc
      rcases hs with ((((rfl | rfl) | rfl) | rfl) | rfl) | rfl <;> revert hc <;> decide
  cases x with
  | sym y =>
    have h1 : c :: s.take m = y.text := h1
    cases y <;> simp only [Sym.text, List.cons.injEq] at h1 <;> rw [h1.1] <;> decide
  | ident u =>
    obtain ⟨rfl, h | h⟩ := h1
    · rcases nameStar_head h.1 with h | rfl
      · exact nm h
      · decide
    · simp only [List.cons.injEq] at h
      rw [h.1]; decide
  | quoted u =>
    obtain ⟨rfl, q, body, hq, _, h⟩ := h1
    simp only [List.cons.injEq] at h
    rw [h.1]
    rcases hq with rfl | rfl <;> decide

theorem lexes_spaces {s : Text} {ts : List Tok} (h : Lexes (s.dropWhile isBlank) ts) : Lexes s ts := by
  induction s with
  | nil => exact h
  | cons c s ih =>
    rw [List.dropWhile_cons] at h
    split at h
    · rename_i hc
      exact .space hc (ih h)
    · exact h

theorem lexFuel_sound (f : Nat) : ∀ s ts, lexFuel f s = some ts → Lexes s ts := by
  induction f with
  | zero => intro s ts h; simp [lexFuel] at h
  | succ f ih =>
    intro s ts h
    rw [lexFuel] at h
    refine lexes_spaces ?_
    revert h
    generalize s.dropWhile isBlank = s'
    intro h
    split at h
    · rename_i hs
      simp only [Option.some.injEq] at h
      subst hs; subst h
      exact .nil
    · split at h
      · cases h
      · rename_i x n hx
        simp only [Option.map_eq_some_iff] at h
        obtain ⟨ts', h1, rfl⟩ := h
        exact .tok (nextTok_some hx) (ih _ _ h1)

theorem lexFuel_complete {s : Text} {ts : List Tok} (h : Lexes s ts) :
    ∀ f, s.length < f → lexFuel f s = some ts := by
  induction h with
  | nil =>
    intro f hf
    obtain ⟨f, rfl⟩ : ∃ g, f = g + 1 := ⟨f - 1, by omega⟩
    simp [lexFuel]
  | @space c s ts hc _ ih =>
    intro f hf
    have := ih f (by simp at hf; omega)
    obtain ⟨f, rfl⟩ : ∃ g, f = g + 1 := ⟨f - 1, by omega⟩
    rw [lexFuel] at this ⊢
    rw [List.dropWhile_cons, if_pos hc]
    exact this
  | @tok s x n ts hx _ ih =>
    intro f hf
    obtain ⟨f, rfl⟩ : ∃ g, f = g + 1 := ⟨f - 1, by omega⟩
    have hp := hx.pos
    cases s with
    | nil => simp at hp; omega
    | cons c s =>
      rw [lexFuel]
      have hd : (c :: s).dropWhile isBlank = c :: s := by
        rw [List.dropWhile_cons, hx.not_space]
        rfl
      rw [hd, if_neg (by simp), nextTok_iff.2 hx]
      simp only
      rw [ih f (by simp at hf hp ⊢; omega)]
      rfl

end Verif.Spec
