import Verif.Spec.Grammar

/-!
The parser accepts exactly the grammar.
-/

namespace Verif.Spec

open Verif

/-! ### soundness -/

theorem headSym_some {ts : List Tok} {y : Sym} {r : List Tok} (h : headSym ts = some (y, r)) :
    ts = .sym y :: r := by
  unfold headSym at h
  split at h
  · simp only [Option.some.injEq, Prod.mk.injEq] at h
    rw [h.1, h.2]
  · cases h

theorem headName_some {ts : List Tok} {n : Text} {r : List Tok} (h : headName ts = some (n, r)) :
    ∃ k, ts = k :: r ∧ k.nameOf = some n := by
  cases ts with
  | nil => simp [headName] at h
  | cons t ts =>
    simp only [headName, Option.map_eq_some_iff, Prod.mk.injEq] at h
    obtain ⟨m, h1, h2, h3⟩ := h
    subst h2; subst h3
    exact ⟨t, rfl, h1⟩

theorem head_before {ts : List Tok} {f : Expr → Expr} {r : List Tok}
    (h : ((headSym ts).bind fun y => y.1.before.map fun f => (f, y.2)) = some (f, r)) :
    ∃ y, ts = .sym y :: r ∧ y.before = some f := by
  cases hs : headSym ts with
  | none => rw [hs] at h; cases h
  | some yr =>
    obtain ⟨y, r'⟩ := yr
    rw [hs] at h
    simp only [Option.bind_some, Option.map_eq_some_iff, Prod.mk.injEq] at h
    obtain ⟨g, h1, h2, h3⟩ := h
    subst h2; subst h3
    exact ⟨y, headSym_some hs, h1⟩

theorem head_postfix {ts : List Tok} {f : Text} {r : List Tok}
    (h : ((headSym ts).bind fun y => y.1.postfix.map fun f => (f, y.2)) = some (f, r)) :
    ∃ y, ts = .sym y :: r ∧ y.postfix = some f := by
  cases hs : headSym ts with
  | none => rw [hs] at h; cases h
  | some yr =>
    obtain ⟨y, r'⟩ := yr
    rw [hs] at h
    simp only [Option.bind_some, Option.map_eq_some_iff, Prod.mk.injEq] at h
    obtain ⟨g, h1, h2, h3⟩ := h
    subst h2; subst h3
    exact ⟨y, headSym_some hs, h1⟩

theorem head_binary {ts : List Tok} {f : Nat × Text} {r : List Tok}
    (h : ((headSym ts).bind fun y => y.1.binary.map fun f => (f, y.2)) = some (f, r)) :
    ∃ y, ts = .sym y :: r ∧ y.binary = some f := by
  cases hs : headSym ts with
  | none => rw [hs] at h; cases h
  | some yr =>
    obtain ⟨y, r'⟩ := yr
    rw [hs] at h
    simp only [Option.bind_some, Option.map_eq_some_iff, Prod.mk.injEq] at h
    obtain ⟨g, h1, h2, h3⟩ := h
    subst h2; subst h3
    exact ⟨y, headSym_some hs, h1⟩

theorem Derives.binary {y : Sym} {k : Nat} {f : Text} (h : y.binary = some (k, f)) {l r : List Tok}
    {a b : Expr} (ha : Derives k l a) (hb : Derives (k + 1) r b) :
    Derives k (l ++ .sym y :: r) (.call f [a, b]) := by
  cases y <;> simp only [Sym.binary, Option.some.injEq, Prod.mk.injEq, reduceCtorEq] at h <;>
    obtain ⟨rfl, rfl⟩ := h
  · exact .pipe ha hb
  · exact .plus ha hb
  · exact .or ha hb
  · exact .amp ha hb
  · exact .and ha hb
  · exact .minus ha hb
  · exact .percent ha hb

theorem Derives.between {y : Sym} {f : Expr → Expr → Expr} (h : y.between = some f) {l r : List Tok}
    {a b : Expr} (ha : Derives 3 l a) (hb : Derives 4 r b) : Derives 3 (l ++ .sym y :: r) (f a b) := by
  cases y <;> simp only [Sym.between, Option.some.injEq, reduceCtorEq] at h <;> subst h
  · exact .colon ha hb
  · exact .colons ha hb
  · exact .dots ha hb

theorem Derives.after {y : Sym} {f : Expr → Expr} (h : y.after = some f) {l : List Tok}
    {a : Expr} (ha : Derives 3 l a) : Derives 3 (l ++ [.sym y]) (f a) := by
  cases y <;> simp only [Sym.after, Option.some.injEq, reduceCtorEq] at h <;> subst h
  · exact .afterColon ha
  · exact .afterColons ha
  · exact .afterDots ha

theorem Derives.before {y : Sym} {f : Expr → Expr} (h : y.before = some f) {r : List Tok}
    {b : Expr} (hb : Derives 4 r b) : Derives 3 (.sym y :: r) (f b) := by
  cases y <;> simp only [Sym.before, Option.some.injEq, reduceCtorEq] at h <;> subst h
  · exact .beforeColon hb
  · exact .beforeColons hb
  · exact .beforeDots hb

theorem Derives.postfix {y : Sym} {f : Text} (h : y.postfix = some f) {l : List Tok}
    {a : Expr} (ha : Derives 4 l a) : Derives 4 (l ++ [.sym y]) (.call f [a, .name t!"1"]) := by
  cases y <;> simp only [Sym.postfix, Option.some.injEq, reduceCtorEq] at h <;> subst h
  · exact .caret ha
  · exact .tilde ha

theorem Derives.postfixName {y : Sym} {f : Text} (h : y.postfix = some f) {l : List Tok}
    {a : Expr} (ha : Derives 4 l a) {k : Tok} {n : Text} (hk : k.nameOf = some n) :
    Derives 4 (l ++ [.sym y, k]) (.call f [a, .name n]) := by
  cases y <;> simp only [Sym.postfix, Option.some.injEq, reduceCtorEq] at h <;> subst h
  · exact .caretName ha hk
  · exact .tildeName ha hk

/-- Everything which the parser accepts is in the grammar. -/
theorem parse_sound (f : Nat) :
    (∀ k ts e r, parseExpr f k ts = some (e, r) → ∃ t, ts = t ++ r ∧ Derives k t e) ∧
    (∀ k e ts e' r, parseMore f k e ts = some (e', r) → ∃ t, ts = t ++ r ∧
      ∀ t0, Derives k t0 e → Derives k (t0 ++ t) e') ∧
    (∀ ts es r, parseArgs f ts = some (es, r) → ∃ t, ts = t ++ .sym .rpar :: r ∧ DerivesArgs t es) := by
  induction f with
  | zero =>
    refine ⟨?_, ?_, ?_⟩
    · intro k ts e r h; rw [parseExpr] at h; cases h
    · intro k e ts e' r h; rw [parseMore] at h; cases h
    · intro ts es r h; rw [parseArgs] at h; cases h
  | succ f ih =>
    obtain ⟨ihE, ihM, ihA⟩ := ih
    have comb : ∀ j k ts e r, (match parseExpr f j ts with
        | some (e, r) => parseMore f k e r
        | none => none) = some (e, r) → (∀ t e, Derives j t e → Derives k t e) →
        ∃ t, ts = t ++ r ∧ Derives k t e := by
      intro j k ts e r h up
      cases h1 : parseExpr f j ts with
      | none => rw [h1] at h; cases h
      | some er =>
        obtain ⟨e1, r1⟩ := er
        rw [h1] at h
        obtain ⟨t1, rfl, d1⟩ := ihE _ _ _ _ h1
        obtain ⟨t2, rfl, d2⟩ := ihM _ _ _ _ _ h
        exact ⟨t1 ++ t2, by simp, d2 _ (up _ _ d1)⟩
    refine ⟨?_, ?_, ?_⟩
    · intro k ts e r h
      match k with
      | 0 => simp [parseExpr] at h
      | 1 => rw [parseExpr] at h; exact comb 2 1 ts e r h fun _ _ => .up1
      | 2 => rw [parseExpr] at h; exact comb 3 2 ts e r h fun _ _ => .up2
      | 3 =>
        rw [parseExpr] at h
        split at h
        · rename_i g ts' hg
          obtain ⟨y, rfl, hy⟩ := head_before hg
          cases h1 : parseExpr f 4 ts' with
          | none => rw [h1] at h; cases h
          | some er =>
            obtain ⟨e1, r1⟩ := er
            rw [h1] at h
            obtain ⟨t1, rfl, d1⟩ := ihE _ _ _ _ h1
            obtain ⟨t2, rfl, d2⟩ := ihM _ _ _ _ _ h
            exact ⟨.sym y :: t1 ++ t2, by simp, d2 _ (d1.before hy)⟩
        · exact comb 4 3 ts e r h fun _ _ => .up3
      | 4 => rw [parseExpr] at h; exact comb 5 4 ts e r h fun _ _ => .up4
      | 5 =>
        rw [parseExpr] at h
        split at h
        · rename_i n r1 hn
          obtain ⟨k, rfl, hk⟩ := headName_some hn
          split at h
          · rename_i r2 hr
            have := headSym_some hr
            subst this
            simp only [Option.map_eq_some_iff, Prod.mk.injEq] at h
            obtain ⟨a, ha, rfl, rfl⟩ := h
            obtain ⟨t, rfl, d⟩ := ihA _ _ _ ha
            exact ⟨k :: .sym .lpar :: (t ++ [.sym .rpar]), by simp, .call hk d⟩
          · simp only [Option.some.injEq, Prod.mk.injEq] at h
            obtain ⟨rfl, rfl⟩ := h
            exact ⟨[k], by simp, .name hk⟩
        · split at h
          · rename_i r1 hr
            have := headSym_some hr
            subst this
            split at h
            · rename_i e1 r2 h1
              split at h
              · rename_i r3 hr3
                have := headSym_some hr3
                subst this
                simp only [Option.some.injEq, Prod.mk.injEq] at h
                obtain ⟨rfl, rfl⟩ := h
                obtain ⟨t, rfl, d⟩ := ihE _ _ _ _ h1
                exact ⟨.sym .lpar :: (t ++ [.sym .rpar]), by simp, .paren d⟩
              · cases h
            · cases h
          · cases h
      | n + 6 => simp [parseExpr] at h
    · intro k e ts e' r h
      by_cases h3 : k = 3
      · subst h3
        rw [parseMore] at h
        split at h
        · rename_i y r1 hy
          have := headSym_some hy
          subst this
          split at h
          · rename_i g1 g2 hg1 hg2
            split at h
            · cases h1 : parseExpr f 4 r1 with
              | none => rw [h1] at h; cases h
              | some er =>
                obtain ⟨e1, r2⟩ := er
                rw [h1] at h
                obtain ⟨t1, rfl, d1⟩ := ihE _ _ _ _ h1
                obtain ⟨t2, rfl, d2⟩ := ihM _ _ _ _ _ h
                refine ⟨.sym y :: t1 ++ t2, by simp, fun t0 d0 => ?_⟩
                have := d2 _ (d0.between hg1 d1)
                simpa using this
            · obtain ⟨t2, rfl, d2⟩ := ihM _ _ _ _ _ h
              refine ⟨.sym y :: t2, by simp, fun t0 d0 => ?_⟩
              have := d2 _ (d0.after hg2)
              simpa using this
          · simp only [Option.some.injEq, Prod.mk.injEq] at h
            obtain ⟨rfl, rfl⟩ := h
            exact ⟨[], by simp, fun t0 d0 => by simpa using d0⟩
        · simp only [Option.some.injEq, Prod.mk.injEq] at h
          obtain ⟨rfl, rfl⟩ := h
          exact ⟨[], by simp, fun t0 d0 => by simpa using d0⟩
      · by_cases h4 : k = 4
        · subst h4
          rw [parseMore] at h
          split at h
          · rename_i g r1 hg
            obtain ⟨y, rfl, hy⟩ := head_postfix hg
            split at h
            · rename_i n r2 hn
              obtain ⟨k, rfl, hk⟩ := headName_some hn
              obtain ⟨t2, rfl, d2⟩ := ihM _ _ _ _ _ h
              refine ⟨.sym y :: k :: t2, by simp, fun t0 d0 => ?_⟩
              have := d2 _ (d0.postfixName hy hk)
              simpa using this
            · obtain ⟨t2, rfl, d2⟩ := ihM _ _ _ _ _ h
              refine ⟨.sym y :: t2, by simp, fun t0 d0 => ?_⟩
              have := d2 _ (d0.postfix hy)
              simpa using this
          · simp only [Option.some.injEq, Prod.mk.injEq] at h
            obtain ⟨rfl, rfl⟩ := h
            exact ⟨[], by simp, fun t0 d0 => by simpa using d0⟩
        · rw [parseMore] at h
          · split at h
            · rename_i g r1 hg
              obtain ⟨y, rfl, hy⟩ := head_binary hg
              split at h
              · rename_i hk
                cases h1 : parseExpr f (k + 1) r1 with
                | none => rw [h1] at h; cases h
                | some er =>
                  obtain ⟨e1, r2⟩ := er
                  rw [h1] at h
                  obtain ⟨t1, rfl, d1⟩ := ihE _ _ _ _ h1
                  obtain ⟨t2, rfl, d2⟩ := ihM _ _ _ _ _ h
                  refine ⟨.sym y :: t1 ++ t2, by simp, fun t0 d0 => ?_⟩
                  obtain ⟨k', g'⟩ := g
                  simp only at hk
                  subst hk
                  have := d2 _ (Derives.binary hy d0 d1)
                  simpa using this
              · simp only [Option.some.injEq, Prod.mk.injEq] at h
                obtain ⟨rfl, rfl⟩ := h
                exact ⟨[], by simp, fun t0 d0 => by simpa using d0⟩
            · simp only [Option.some.injEq, Prod.mk.injEq] at h
              obtain ⟨rfl, rfl⟩ := h
              exact ⟨[], by simp, fun t0 d0 => by simpa using d0⟩
          · exact h3
          · exact h4
    · intro ts es r h
      rw [parseArgs] at h
      split at h
      · rename_i r1 hr
        have := headSym_some hr
        subst this
        simp only [Option.some.injEq, Prod.mk.injEq] at h
        obtain ⟨rfl, rfl⟩ := h
        exact ⟨[], by simp, .nil⟩
      · split at h
        · rename_i e1 r1 h1
          obtain ⟨t1, rfl, d1⟩ := ihE _ _ _ _ h1
          split at h
          · rename_i r2 hr
            have := headSym_some hr
            subst this
            simp only [Option.map_eq_some_iff, Prod.mk.injEq] at h
            obtain ⟨a, ha, rfl, rfl⟩ := h
            obtain ⟨t2, rfl, d2⟩ := ihA _ _ _ ha
            exact ⟨t1 ++ .sym .comma :: t2, by simp, .cons d1 d2⟩
          · rename_i r2 hr
            have := headSym_some hr
            subst this
            simp only [Option.some.injEq, Prod.mk.injEq] at h
            obtain ⟨rfl, rfl⟩ := h
            exact ⟨t1, rfl, .last d1⟩
          · cases h
        · cases h

/-! ### completeness -/

/-- How tightly the operator at the beginning binds. -/
def opLevel : List Tok → Nat
  | .sym .pipe :: _ | .sym .plus :: _ | .sym .or :: _ => 1
  | .sym .amp :: _ | .sym .and :: _ | .sym .minus :: _ | .sym .percent :: _ => 2
  | .sym .colon :: _ | .sym .colons :: _ | .sym .dots :: _ => 3
  | .sym .caret :: _ | .sym .tilde :: _ => 4
  | _ => 0

theorem first_tok : ∀ {k t e}, Derives k t e →
    ∃ x t', t = x :: t' ∧ x ≠ .sym .rpar ∧ (4 ≤ k → startsOperand [x] = true) := by
  have left : ∀ {k l} (r : List Tok), (∃ x t', l = x :: t' ∧ x ≠ .sym .rpar ∧
      (4 ≤ k → startsOperand [x] = true)) → ∃ x t', l ++ r = x :: t' ∧ x ≠ .sym .rpar ∧
      (4 ≤ k → startsOperand [x] = true) := by
    rintro k l r ⟨x, t', rfl, h⟩
    exact ⟨x, t' ++ r, rfl, h⟩
  have up : ∀ {k l}, (∃ x t', l = x :: t' ∧ x ≠ .sym .rpar ∧
      (4 ≤ k + 1 → startsOperand [x] = true)) → ∃ x t', l = x :: t' ∧ x ≠ .sym .rpar ∧
      (4 ≤ k → startsOperand [x] = true) := by
    rintro k l ⟨x, t', rfl, h, h'⟩
    exact ⟨x, t', rfl, h, fun hk => h' (by omega)⟩
  have nm : ∀ {k : Tok} {n}, k.nameOf = some n → k ≠ .sym .rpar ∧ startsOperand [k] = true := by
    intro k n h
    cases k with
    | sym y => cases h
    | ident y => exact ⟨by simp, rfl⟩
    | quoted y => exact ⟨by simp, rfl⟩
  intro k t e h
  induction h using Derives.rec (motive_2 := fun _ _ _ => True) with
  | pipe _ _ ih _ | plus _ _ ih _ | or _ _ ih _ | amp _ _ ih _ | and _ _ ih _ | minus _ _ ih _
  | percent _ _ ih _ | colon _ _ ih _ | colons _ _ ih _ | dots _ _ ih _ => exact left _ ih
  | afterColon _ ih | afterColons _ ih | afterDots _ ih | caret _ ih | tilde _ ih
  | caretName _ _ ih | tildeName _ _ ih => exact left _ ih
  | beforeColon _ _ | beforeColons _ _ | beforeDots _ _ => exact ⟨_, _, rfl, by simp, by omega⟩
  | up1 _ ih | up2 _ ih | up3 _ ih | up4 _ ih => exact up ih
  | paren _ _ => exact ⟨_, _, rfl, by simp, fun _ => rfl⟩
  | call h _ _ => exact ⟨_, _, rfl, (nm h).1, fun _ => (nm h).2⟩
  | name h => exact ⟨_, _, rfl, (nm h).1, fun _ => (nm h).2⟩
  | nil => trivial
  | last _ _ => trivial
  | cons _ _ _ _ => trivial

theorem parseMore_binary {f k : Nat} {e : Expr} {y : Sym} {ts : List Tok} {g : Text}
    (h : y.binary = some (k, g)) : parseMore (f + 1) k e (.sym y :: ts) =
      match parseExpr f (k + 1) ts with
      | some (e', r') => parseMore f k (.call g [e, e']) r'
      | none => none := by
  have : k ≠ 3 ∧ k ≠ 4 := by
    cases y <;> simp only [Sym.binary, Option.some.injEq, Prod.mk.injEq, reduceCtorEq] at h <;> omega
  rw [parseMore]
  · simp [headSym, h]
    rfl
  · exact this.1
  · exact this.2

/-- An expression ends before an operator which binds less. -/
theorem parseMore_stop (f k : Nat) (e : Expr) (rest : List Tok) (h : opLevel rest < k) :
    parseMore (f + 1) k e rest = some (e, rest) := by
  have hy : ∀ y r, rest = .sym y :: r → (k = 3 → y.between = none) ∧ (k = 4 → y.postfix = none) ∧
      (∀ g, y.binary = some g → g.1 ≠ k) := by
    intro y r hr
    subst hr
    cases y <;> simp only [opLevel] at h <;> refine ⟨?_, ?_, ?_⟩ <;>
      simp only [Sym.between, Sym.postfix, Sym.binary, reduceCtorEq, imp_false, implies_true, Option.some.injEq,
        forall_eq', ne_eq, false_imp_iff] <;> first | trivial | omega
  by_cases h3 : k = 3
  · subst h3
    rw [parseMore]
    cases hs : headSym rest with
    | none => rfl
    | some yr =>
      obtain ⟨y, r⟩ := yr
      have := (hy y r (headSym_some hs)).1 rfl
      simp [this]
  · by_cases h4 : k = 4
    · subst h4
      rw [parseMore]
      cases hs : headSym rest with
      | none => rfl
      | some yr =>
        obtain ⟨y, r⟩ := yr
        have := (hy y r (headSym_some hs)).2.1 rfl
        simp [this]
    · rw [parseMore]
      · cases hs : headSym rest with
        | none => rfl
        | some yr =>
          obtain ⟨y, r⟩ := yr
          have := (hy y r (headSym_some hs)).2.2
          simp only [Option.bind_some]
          cases hb : y.binary with
          | none => rfl
          | some g => simp [this g hb]
      · exact h3
      · exact h4

/-- What completeness says of tokens which can be read as `e` by the nonterminal `k`: the parser reads them, if
the tokens which follow cannot continue the expression. -/
def Reads (k : Nat) (t : List Tok) (e : Expr) : Prop :=
  ∀ rest, startsOperand rest = false → opLevel rest ≤ k →
    (k = 5 → ∀ f, 8 * (t ++ rest).length + 1 ≤ f → parseExpr f 5 (t ++ rest) = some (e, rest)) ∧
    (k ≤ 4 → ∀ x, (∀ f, 8 * rest.length + 1 ≤ f → parseMore f k e rest = some x) →
      ∀ f, 8 * (t ++ rest).length + 6 ≤ f + k → parseExpr f k (t ++ rest) = some x)

/-- The same for arguments. -/
def ReadsArgs (t : List Tok) (es : List Expr) : Prop :=
  ∀ rest f, 8 * (t ++ .sym .rpar :: rest).length + 6 ≤ f →
    parseArgs f (t ++ .sym .rpar :: rest) = some (es, rest)

/-- The operand of an operator of a lower level. -/
theorem Reads.stop {k t e} (h : Reads k t e) {rest : List Tok} (hr : startsOperand rest = false)
    (hl : opLevel rest < k) (hk : k ≤ 5) {f : Nat} (hf : 8 * (t ++ rest).length + 6 ≤ f + k) :
    parseExpr f k (t ++ rest) = some (e, rest) := by
  have := h rest hr (by omega)
  by_cases h5 : k = 5
  · subst h5
    exact this.1 rfl f (by omega)
  · refine this.2 (by omega) _ (fun g hg => ?_) f hf
    obtain ⟨g, rfl⟩ : ∃ g', g = g' + 1 := ⟨g - 1, by omega⟩
    exact parseMore_stop g k e rest hl

theorem Reads.binary {y : Sym} {k : Nat} {g : Text} (h : y.binary = some (k, g)) {l r : List Tok}
    {a b : Expr} (ha : Reads k l a) (hb : Reads (k + 1) r b) :
    Reads k (l ++ .sym y :: r) (.call g [a, b]) := by
  have hy : startsOperand (.sym y :: r) = false ∧ opLevel (.sym y :: r) = k ∧ k ≤ 2 ∧
      ∀ rest, startsOperand (.sym y :: (r ++ rest)) = false ∧ opLevel (.sym y :: (r ++ rest)) = k := by
    cases y <;> simp only [Sym.binary, Option.some.injEq, Prod.mk.injEq, reduceCtorEq] at h <;>
      obtain ⟨rfl, rfl⟩ := h <;> exact ⟨rfl, rfl, by omega, fun _ => ⟨rfl, rfl⟩⟩
  intro rest hr hl
  refine ⟨fun h5 => by omega, fun _ x hx f hf => ?_⟩
  rw [List.append_assoc, List.cons_append]
  refine (ha (.sym y :: (r ++ rest)) (hy.2.2.2 rest).1 (by rw [(hy.2.2.2 rest).2]; exact Nat.le_refl _)).2 (by omega) x ?_ f
    (by simp at hf ⊢; omega)
  intro f' hf'
  obtain ⟨f', rfl⟩ : ∃ g', f' = g' + 1 := ⟨f' - 1, by omega⟩
  simp only [List.length_cons, List.length_append] at hf'
  rw [parseMore_binary h, hb.stop hr (by omega) (by omega) (by simp; omega)]
  exact hx f' (by omega)

theorem Reads.between {y : Sym} {g : Expr → Expr → Expr} (h : y.between = some g) {l r : List Tok}
    {a b : Expr} (hs : ∀ rest, startsOperand (r ++ rest) = true)
    (ha : Reads 3 l a) (hb : Reads 4 r b) : Reads 3 (l ++ .sym y :: r) (g a b) := by
  have hy : (∃ g', y.after = some g') ∧
      ∀ rest, startsOperand (.sym y :: (r ++ rest)) = false ∧ opLevel (.sym y :: (r ++ rest)) = 3 := by
    cases y <;> simp only [Sym.between, reduceCtorEq] at h <;> exact ⟨⟨_, rfl⟩, fun _ => ⟨rfl, rfl⟩⟩
  obtain ⟨⟨g', hg'⟩, hy⟩ := hy
  intro rest hr hl
  refine ⟨fun h5 => by omega, fun _ x hx f hf => ?_⟩
  rw [List.append_assoc, List.cons_append]
  refine (ha (.sym y :: (r ++ rest)) (hy rest).1 (by rw [(hy rest).2]; exact Nat.le_refl _)).2 (by omega) x ?_ f
    (by simp at hf ⊢; omega)
  intro f' hf'
  obtain ⟨f', rfl⟩ : ∃ g', f' = g' + 1 := ⟨f' - 1, by omega⟩
  simp only [List.length_cons, List.length_append] at hf'
  rw [parseMore]
  simp only [headSym, h, hg', hs, if_true]
  rw [hb.stop hr (by omega) (by omega) (by simp; omega)]
  exact hx f' (by omega)

theorem Reads.after {y : Sym} {g : Expr → Expr} (h : y.after = some g) {l : List Tok}
    {a : Expr} (ha : Reads 3 l a) : Reads 3 (l ++ [.sym y]) (g a) := by
  have hy : (∃ g', y.between = some g') ∧
      ∀ rest, startsOperand (.sym y :: rest) = false ∧ opLevel (.sym y :: rest) = 3 := by
    cases y <;> simp only [Sym.after, reduceCtorEq] at h <;> exact ⟨⟨_, rfl⟩, fun _ => ⟨rfl, rfl⟩⟩
  obtain ⟨⟨g', hg'⟩, hy⟩ := hy
  intro rest hr hl
  refine ⟨fun h5 => by omega, fun _ x hx f hf => ?_⟩
  rw [List.append_assoc, List.cons_append, List.nil_append]
  refine (ha (.sym y :: rest) (hy rest).1 (by rw [(hy rest).2]; exact Nat.le_refl _)).2 (by omega) x ?_ f
    (by simp at hf ⊢; omega)
  intro f' hf'
  obtain ⟨f', rfl⟩ : ∃ g', f' = g' + 1 := ⟨f' - 1, by omega⟩
  simp only [List.length_cons] at hf'
  rw [parseMore]
  simp only [headSym, h, hg', hr, Bool.false_eq_true, if_false]
  exact hx f' (by omega)

theorem Reads.before {y : Sym} {g : Expr → Expr} (h : y.before = some g) {r : List Tok}
    {b : Expr} (hb : Reads 4 r b) : Reads 3 (.sym y :: r) (g b) := by
  intro rest hr hl
  refine ⟨fun h5 => by omega, fun _ x hx f hf => ?_⟩
  obtain ⟨f, rfl⟩ : ∃ g', f = g' + 1 := ⟨f - 1, by simp at hf; omega⟩
  simp only [List.length_cons, List.length_append, List.cons_append] at hf
  rw [List.cons_append, parseExpr]
  simp only [headSym, Option.bind_some, h, Option.map_some]
  rw [hb.stop hr (by omega) (by omega) (by simp; omega)]
  exact hx f (by omega)

theorem Reads.postfix {y : Sym} {g : Text} (h : y.postfix = some g) {l : List Tok}
    {a : Expr} (ha : Reads 4 l a) : Reads 4 (l ++ [.sym y]) (.call g [a, .name t!"1"]) := by
  have hy : ∀ rest, startsOperand (.sym y :: rest) = false ∧ opLevel (.sym y :: rest) = 4 := by
    cases y <;> simp only [Sym.postfix, reduceCtorEq] at h <;> exact fun _ => ⟨rfl, rfl⟩
  intro rest hr hl
  refine ⟨fun h5 => by omega, fun _ x hx f hf => ?_⟩
  rw [List.append_assoc, List.cons_append, List.nil_append]
  refine (ha (.sym y :: rest) (hy rest).1 (by rw [(hy rest).2]; exact Nat.le_refl _)).2 (by omega) x ?_ f
    (by simp at hf ⊢; omega)
  intro f' hf'
  obtain ⟨f', rfl⟩ : ∃ g', f' = g' + 1 := ⟨f' - 1, by omega⟩
  simp only [List.length_cons] at hf'
  have hn : headName rest = none := by
    cases rest with
    | nil => rfl
    | cons t rest =>
      cases t with
      | sym _ => rfl
      | ident _ => simp [startsOperand] at hr
      | quoted _ => simp [startsOperand] at hr
  rw [parseMore]
  simp only [headSym, Option.bind_some, h, Option.map_some, hn]
  exact hx f' (by omega)

theorem Reads.postfixName {y : Sym} {g : Text} (h : y.postfix = some g) {l : List Tok}
    {a : Expr} (ha : Reads 4 l a) {k : Tok} {n : Text} (hk : k.nameOf = some n) :
    Reads 4 (l ++ [.sym y, k]) (.call g [a, .name n]) := by
  have hy : ∀ rest, startsOperand (.sym y :: rest) = false ∧ opLevel (.sym y :: rest) = 4 := by
    cases y <;> simp only [Sym.postfix, reduceCtorEq] at h <;> exact fun _ => ⟨rfl, rfl⟩
  intro rest hr hl
  refine ⟨fun h5 => by omega, fun _ x hx f hf => ?_⟩
  rw [List.append_assoc, List.cons_append, List.cons_append, List.nil_append]
  refine (ha (.sym y :: k :: rest) (hy _).1 (by rw [(hy _).2]; exact Nat.le_refl _)).2 (by omega) x ?_ f
    (by simp at hf ⊢; omega)
  intro f' hf'
  obtain ⟨f', rfl⟩ : ∃ g', f' = g' + 1 := ⟨f' - 1, by omega⟩
  simp only [List.length_cons] at hf'
  rw [parseMore]
  simp only [headSym, Option.bind_some, h, Option.map_some, headName, hk]
  exact hx f' (by omega)

theorem Reads.paren {t : List Tok} {e : Expr} (h : Reads 1 t e) :
    Reads 5 (.sym .lpar :: (t ++ [.sym .rpar])) e := by
  intro rest hr hl
  refine ⟨fun _ f hf => ?_, fun h4 => by omega⟩
  obtain ⟨f, rfl⟩ : ∃ g', f = g' + 1 := ⟨f - 1, by omega⟩
  simp only [List.length_cons, List.length_append, List.cons_append, List.length_nil] at hf
  rw [List.cons_append, List.append_assoc, List.cons_append, List.nil_append, parseExpr]
  simp only [headName, Tok.nameOf, Option.map_none, headSym]
  rw [h.stop (rest := .sym .rpar :: rest) rfl (by simp [opLevel]) (by omega) (by simp; omega)]

theorem Reads.call {k : Tok} {n : Text} (hk : k.nameOf = some n) {t : List Tok} {es : List Expr}
    (h : ReadsArgs t es) : Reads 5 (k :: .sym .lpar :: (t ++ [.sym .rpar])) (.call n es) := by
  intro rest hr hl
  refine ⟨fun _ f hf => ?_, fun h4 => by omega⟩
  obtain ⟨f, rfl⟩ : ∃ g', f = g' + 1 := ⟨f - 1, by omega⟩
  simp only [List.length_cons, List.length_append, List.cons_append, List.length_nil] at hf
  rw [List.cons_append, List.cons_append, List.append_assoc, List.cons_append, List.nil_append, parseExpr]
  simp only [headName, hk, Option.map_some, headSym]
  rw [h rest f (by simp; omega)]
  rfl

theorem Reads.name {k : Tok} {n : Text} (hk : k.nameOf = some n) : Reads 5 [k] (.name n) := by
  intro rest hr hl
  refine ⟨fun _ f hf => ?_, fun h4 => by omega⟩
  obtain ⟨f, rfl⟩ : ∃ g', f = g' + 1 := ⟨f - 1, by omega⟩
  rw [List.cons_append, List.nil_append, parseExpr]
  simp only [headName, hk, Option.map_some]
  cases hs : headSym rest with
  | none => rfl
  | some yr =>
    obtain ⟨y, r⟩ := yr
    have := headSym_some hs
    subst this
    cases y <;> first | rfl | simp [startsOperand] at hr

theorem Reads.up {k : Nat} {t : List Tok} {e : Expr} (hk : k = 1 ∨ k = 2 ∨ k = 4) (h : Reads (k + 1) t e) :
    Reads k t e := by
  intro rest hr hl
  refine ⟨fun h5 => by omega, fun _ x hx f hf => ?_⟩
  have hlen : rest.length ≤ (t ++ rest).length := by simp
  obtain ⟨f, rfl⟩ : ∃ g', f = g' + 1 := ⟨f - 1, by omega⟩
  have h1 := h.stop hr (by omega) (by omega) (f := f) (by omega)
  have h2 := hx f (by omega)
  rcases hk with rfl | rfl | rfl <;> rw [parseExpr, h1] <;> exact h2

theorem Reads.up3 {t : List Tok} {e : Expr} (hs : ∀ rest, startsOperand (t ++ rest) = true)
    (h : Reads 4 t e) : Reads 3 t e := by
  intro rest hr hl
  refine ⟨fun h5 => by omega, fun _ x hx f hf => ?_⟩
  have hlen : rest.length ≤ (t ++ rest).length := by simp
  obtain ⟨f, rfl⟩ : ∃ g', f = g' + 1 := ⟨f - 1, by omega⟩
  have h1 := h.stop hr (by omega) (by omega) (f := f) (by omega)
  have h2 := hx f (by omega)
  have hb : ((headSym (t ++ rest)).bind fun y => y.1.before.map fun f => (f, y.2)) = none := by
    cases hy : headSym (t ++ rest) with
    | none => rfl
    | some yr =>
      obtain ⟨y, r⟩ := yr
      have h3 := hs rest
      rw [headSym_some hy] at h3
      cases y <;> first | rfl | simp [startsOperand] at h3
  rw [parseExpr]
  rw [hb]
  simp only [h1, h2]

theorem startsOperand_left {x : Tok} {t rest : List Tok} (h : startsOperand [x] = true) :
    startsOperand (x :: t ++ rest) = true := by
  cases x with
  | sym y => cases y <;> simp [startsOperand] at h ⊢
  | ident _ => rfl
  | quoted _ => rfl

theorem Derives.operand {t : List Tok} {e : Expr} (h : Derives 4 t e) (rest : List Tok) :
    startsOperand (t ++ rest) = true := by
  obtain ⟨x, t', rfl, _, h2⟩ := first_tok h
  exact startsOperand_left (h2 (by omega))

/-- The parser reads everything which is in the grammar. -/
theorem Derives.reads {k : Nat} {t : List Tok} {e : Expr} (h : Derives k t e) : Reads k t e := by
  induction h using Derives.rec (motive_2 := fun t es _ => ReadsArgs t es) with
  | pipe _ _ ha hb | plus _ _ ha hb | or _ _ ha hb | amp _ _ ha hb | and _ _ ha hb | minus _ _ ha hb
  | percent _ _ ha hb => exact Reads.binary rfl ha hb
  | colon _ d ha hb | colons _ d ha hb => exact Reads.between (g := fun a b => .call t!"range" [a, b]) rfl d.operand ha hb
  | dots _ d ha hb => exact Reads.between (g := fun a b => .call t!"only" [b, a]) rfl d.operand ha hb
  | afterColon _ ih | afterColons _ ih => exact Reads.after (g := fun a => .call t!"descendants" [a]) rfl ih
  | afterDots _ ih => exact Reads.after (g := fun a => .call t!"only" [.name t!".", a]) rfl ih
  | caret _ ih | tilde _ ih => exact Reads.postfix rfl ih
  | caretName _ hk ih | tildeName _ hk ih => exact Reads.postfixName rfl ih hk
  | beforeColon _ ih | beforeColons _ ih => exact Reads.before (g := fun a => .call t!"ancestors" [a]) rfl ih
  | beforeDots _ ih => exact Reads.before (g := fun a => .call t!"only" [a, .name t!"."]) rfl ih
  | up1 _ ih | up2 _ ih | up4 _ ih => exact ih.up (by omega)
  | up3 d ih => exact ih.up3 d.operand
  | paren _ ih => exact ih.paren
  | call hk _ ih => exact Reads.call hk ih
  | name hk => exact Reads.name hk
  | nil =>
    intro rest f hf
    obtain ⟨f, rfl⟩ : ∃ g', f = g' + 1 := ⟨f - 1, by omega⟩
    rw [List.nil_append, parseArgs]
    rfl
  | last d ih =>
    intro rest f hf
    obtain ⟨f, rfl⟩ : ∃ g', f = g' + 1 := ⟨f - 1, by omega⟩
    have h1 := ih.stop (rest := .sym .rpar :: rest) (f := f) rfl (by simp [opLevel]) (by omega) (by omega)
    obtain ⟨x, t', rfl, hx, _⟩ := first_tok d
    rw [parseArgs]
    split
    · rename_i r'' hr
      rw [List.cons_append] at hr
      exact absurd (by simpa using (List.cons.inj (headSym_some hr)).1) hx
    · rw [h1]; rfl
  | @cons t t' e es d _ ih ih' =>
    intro rest f hf
    obtain ⟨f, rfl⟩ : ∃ g', f = g' + 1 := ⟨f - 1, by omega⟩
    rw [List.append_assoc, List.cons_append] at hf ⊢
    have h1 := ih.stop (rest := .sym .comma :: (t' ++ .sym .rpar :: rest)) (f := f) rfl (by simp [opLevel])
      (by omega) (by omega)
    have h2 := ih' rest f (by simp at hf ⊢; omega)
    obtain ⟨x, t', rfl, hx, _⟩ := first_tok d
    rw [parseArgs]
    split
    · rename_i r'' hr
      rw [List.cons_append] at hr
      exact absurd (by simpa using (List.cons.inj (headSym_some hr)).1) hx
    · rw [h1]; simp only [headSym, h2]; rfl

end Verif.Spec
