import Verif.Spec.Status
import Verif.Lemmas.Text

/-! Lemmas about regular expressions and status lines. -/

namespace Verif

/-- The preferred match. -/
def Rx.First {α : Type} (r : Rx α) (s : Text) (a : α) (rest : Text) : Prop :=
  ∃ others, r s = (a, rest) :: others

theorem Rx.first_pure {α : Type} (a : α) (s : Text) : Rx.First (Rx.pure a) s a s := ⟨[], rfl⟩

theorem Rx.first_bind {α β : Type} {r : Rx α} {f : α → Rx β} {s s' s'' : Text} {a : α} {b : β}
    (h1 : Rx.First r s a s') (h2 : Rx.First (f a) s' b s'') : Rx.First (r.bind f) s b s'' := by
  obtain ⟨o1, e1⟩ := h1
  obtain ⟨o2, e2⟩ := h2
  refine ⟨o2 ++ o1.flatMap fun x => f x.1 x.2, ?_⟩
  simp only [Rx.bind, e1, List.flatMap_cons, e2, List.cons_append]

theorem Rx.first_or_left {α : Type} {a b : Rx α} {s s' : Text} {x : α} (h : Rx.First a s x s') :
    Rx.First (Rx.or a b) s x s' := by
  obtain ⟨o, e⟩ := h
  exact ⟨o ++ b s, by simp [Rx.or, e]⟩

theorem Rx.first_or_right {α : Type} {a b : Rx α} {s s' : Text} {x : α} (h0 : a s = [])
    (h : Rx.First b s x s') : Rx.First (Rx.or a b) s x s' := by
  obtain ⟨o, e⟩ := h
  exact ⟨o, by simp [Rx.or, h0, e]⟩

theorem Rx.or_bind {α β : Type} (a b : Rx α) (f : α → Rx β) :
    (Rx.or a b).bind f = Rx.or (a.bind f) (b.bind f) := by
  funext s; simp [Rx.or, Rx.bind]

theorem Rx.mem_bind {α β : Type} {r : Rx α} {f : α → Rx β} {s : Text} {y : β × Text} :
    y ∈ r.bind f s ↔ ∃ x ∈ r s, y ∈ f x.1 x.2 := by simp [Rx.bind]

theorem Rx.mem_char {p : Char → Bool} {s : Text} {x : Char × Text} :
    x ∈ Rx.char p s ↔ s = x.1 :: x.2 ∧ p x.1 = true := by
  cases s with
  | nil => simp [Rx.char]
  | cons c s =>
    obtain ⟨a, b⟩ := x
    simp only [Rx.char]
    split
    · rename_i h
      simp only [List.mem_singleton, Prod.mk.injEq, List.cons.injEq]
      constructor
      · rintro ⟨rfl, rfl⟩; exact ⟨⟨rfl, rfl⟩, h⟩
      · rintro ⟨⟨rfl, rfl⟩, _⟩; exact ⟨rfl, rfl⟩
    · rename_i h
      simp only [List.not_mem_nil, List.cons.injEq, false_iff]
      rintro ⟨⟨rfl, rfl⟩, hp⟩; exact h hp

theorem Rx.mem_plus {p : Char → Bool} {s : Text} {x : Text × Text} :
    x ∈ Rx.plus p s ↔ s = x.1 ++ x.2 ∧ x.1 ≠ [] ∧ ∀ c ∈ x.1, p c = true := by
  induction s generalizing x with
  | nil =>
    obtain ⟨a, b⟩ := x
    simp only [Rx.plus, List.not_mem_nil, false_iff]
    rintro ⟨h, h2, _⟩
    cases a <;> simp_all
  | cons c s ih =>
    obtain ⟨a, b⟩ := x
    simp only [Rx.plus]
    split
    · rename_i hc
      simp only [List.mem_append, List.mem_map, List.mem_singleton, Prod.mk.injEq]
      constructor
      · rintro (⟨y, hy, rfl, rfl⟩ | ⟨rfl, rfl⟩)
        · obtain ⟨h1, h2, h3⟩ := ih.1 hy
          refine ⟨by simp [← h1], by simp, ?_⟩
          intro d hd
          rcases List.mem_cons.1 hd with rfl | hd
          · exact hc
          · exact h3 d hd
        · simp [hc]
      · rintro ⟨h1, h2, h3⟩
        cases a with
        | nil => exact absurd rfl h2
        | cons d a =>
          simp only [List.cons_append, List.cons.injEq] at h1
          obtain ⟨rfl, rfl⟩ := h1
          cases a with
          | nil => exact .inr ⟨rfl, rfl⟩
          | cons e a =>
            refine .inl ⟨(e :: a, b), ih.2 ⟨rfl, by simp, fun x hx => h3 x (by simp [hx])⟩, rfl, rfl⟩
    · rename_i hc
      simp only [List.not_mem_nil, false_iff]
      rintro ⟨h1, h2, h3⟩
      cases a with
      | nil => exact h2 rfl
      | cons d a =>
        simp only [List.cons_append, List.cons.injEq] at h1
        exact hc (h1.1 ▸ h3 d (by simp))

/-- The longest match is the preferred one. -/
theorem Rx.first_plus {p : Char → Bool} {w rest : Text} (hw : w ≠ []) (hp : ∀ c ∈ w, p c = true)
    (hr : ∀ c r, rest = c :: r → p c = false) : Rx.First (Rx.plus p) (w ++ rest) w rest := by
  induction w with
  | nil => exact absurd rfl hw
  | cons c w ih =>
    simp only [List.cons_append, Rx.First, Rx.plus, hp c (by simp), if_true]
    cases w with
    | nil =>
      cases rest with
      | nil => exact ⟨[], by simp [Rx.plus]⟩
      | cons d r => exact ⟨[], by simp [Rx.plus, hr d r rfl]⟩
    | cons d w =>
      obtain ⟨o, e⟩ := ih (by simp) fun x hx => hp x (by simp [hx])
      exact ⟨(o.map fun x => (c :: x.1, x.2)) ++ [([c], (d :: w) ++ rest)], by rw [e]; simp⟩

theorem Rx.mem_exactly {p : Char → Bool} {n : Nat} {s : Text} {x : Text × Text} :
    x ∈ Rx.exactly p n s ↔ s = x.1 ++ x.2 ∧ x.1.length = n ∧ ∀ c ∈ x.1, p c = true := by
  induction n generalizing s x with
  | zero =>
    obtain ⟨a, b⟩ := x
    simp only [Rx.exactly, Rx.pure, List.mem_singleton, Prod.mk.injEq, List.length_eq_zero_iff]
    constructor
    · rintro ⟨rfl, rfl⟩; simp
    · rintro ⟨h, rfl, _⟩; simpa using h.symm
  | succ n ih =>
    obtain ⟨a, b⟩ := x
    simp only [Rx.exactly, Rx.mem_bind, Rx.mem_char, Rx.pure, List.mem_singleton, Prod.mk.injEq]
    constructor
    · rintro ⟨x, ⟨rfl, hx⟩, y, hy, rfl, rfl⟩
      obtain ⟨h1, h2, h3⟩ := ih.1 hy
      refine ⟨by simp [h1], by simp [h2], ?_⟩
      intro d hd
      rcases List.mem_cons.1 hd with rfl | hd
      · exact hx
      · exact h3 d hd
    · rintro ⟨rfl, h2, h3⟩
      cases a with
      | nil => simp at h2
      | cons c a =>
        exact ⟨(c, a ++ b), ⟨rfl, h3 c (by simp)⟩, (a, b),
          ih.2 ⟨rfl, by simpa using h2, fun x hx => h3 x (by simp [hx])⟩, rfl, rfl⟩

theorem Rx.first_char {p : Char → Bool} {c : Char} {s : Text} (h : p c = true) :
    Rx.First (Rx.char p) (c :: s) c s := ⟨[], by simp [Rx.char, h]⟩

theorem Rx.first_lit (c : Char) (s : Text) : Rx.First (Rx.lit c) (c :: s) c s :=
  Rx.first_char (by simp)

theorem Rx.first_exactly {p : Char → Bool} {w rest : Text} (hp : ∀ c ∈ w, p c = true) :
    Rx.First (Rx.exactly p w.length) (w ++ rest) w rest := by
  induction w with
  | nil => exact Rx.first_pure _ _
  | cons c w ih =>
    exact Rx.first_bind (Rx.first_char (hp c (by simp)))
      (Rx.first_bind (ih fun x hx => hp x (by simp [hx])) (Rx.first_pure _ _))

theorem eq_nil_of_no_mem {α : Type} {l : List α} (h : ∀ x, x ∉ l) : l = [] :=
  List.eq_nil_iff_forall_not_mem.2 h

theorem mem_rxField {p : Char → Bool} {s : Text} {x : Text × Text} (h : x ∈ rxField p s) :
    s = x.1 ++ ' ' :: x.2 ∧ x.1 ≠ [] ∧ ∀ c ∈ x.1, p c = true := by
  simp only [rxField, Rx.mem_bind, Rx.lit, Rx.mem_char, Rx.pure, List.mem_singleton, Rx.mem_plus] at h
  obtain ⟨y, ⟨h1, h2, h3⟩, z, ⟨h4, h5⟩, rfl⟩ := h
  simp only [decide_eq_true_eq] at h5
  exact ⟨by rw [h1, h4, h5], h2, h3⟩

theorem first_rxField {p : Char → Bool} {w rest : Text} (hw : w ≠ []) (hp : ∀ c ∈ w, p c = true)
    (hs : p ' ' = false) : Rx.First (rxField p) (w ++ ' ' :: rest) w rest :=
  Rx.first_bind (Rx.first_plus hw hp (by rintro c r h; simp only [List.cons.injEq] at h; rw [← h.1]; exact hs))
    (Rx.first_bind (Rx.first_lit _ _) (Rx.first_pure _ _))

theorem mem_rxMode {k : CharClasses} {s : Text} {x : Text × Text} (h : x ∈ rxMode k s) :
    s = x.1 ++ ' ' :: x.2 ∧ x.1.length = 6 := by
  simp only [rxMode, Rx.mem_bind, Rx.lit, Rx.mem_char, Rx.pure, List.mem_singleton, Rx.mem_exactly] at h
  obtain ⟨y, ⟨h1, h2, h3⟩, z, ⟨h4, h5⟩, rfl⟩ := h
  simp only [decide_eq_true_eq] at h5
  exact ⟨by rw [h1, h4, h5], h2⟩

theorem CharClasses.digit_of (k : CharClasses) {c : Char} (h1 : '0' ≤ c) (h2 : c ≤ '9') :
    k.digit c = true := (k.digit_ascii c (by
      have : c.toNat ≤ 57 := h2
      omega)).2 ⟨h1, h2⟩

theorem FileMode.toText_digits (k : CharClasses) (m : FileMode) :
    m.toText.length = 6 ∧ ∀ c ∈ m.toText, k.digit c = true := by
  refine ⟨by cases m <;> rfl, fun c hc => ?_⟩
  have : '0' ≤ c ∧ c ≤ '9' := by
    revert hc; revert c
    cases m <;> decide
  exact k.digit_of this.1 this.2

theorem first_rxMode (k : CharClasses) (m : FileMode) (rest : Text) :
    Rx.First (rxMode k) (m.toText ++ ' ' :: rest) m.toText rest := by
  obtain ⟨h1, h2⟩ := FileMode.toText_digits k m
  have := Rx.first_exactly (rest := ' ' :: rest) h2
  rw [h1] at this
  exact Rx.first_bind this (Rx.first_bind (Rx.first_lit _ _) (Rx.first_pure _ _))

theorem hexDigit_range {d : Nat} (h : d < 16) :
    ('0' ≤ hexDigit d ∧ hexDigit d ≤ '9') ∨ ('a' ≤ hexDigit d ∧ hexDigit d ≤ 'f') := by
  revert h; revert d; decide

theorem oid_hex (k : CharClasses) (o : MaybeZero) : ∀ c ∈ o.toText, k.hex c = true := by
  intro c hc
  obtain ⟨d, hd, rfl⟩ := MaybeZero.mem_toText hc
  unfold CharClasses.hex
  rcases hexDigit_range hd with h | h
  · simp [k.digit_of h.1 h.2]
  · simp [h.1, h.2]

theorem digit_space (k : CharClasses) : k.digit ' ' = false := by
  have := k.digit_ascii ' ' (by decide)
  cases h : k.digit ' '
  · rfl
  · exact absurd (this.1 h) (by decide)

theorem hex_space (k : CharClasses) : k.hex ' ' = false := by
  simp [CharClasses.hex, digit_space]

theorem oid_ne_nil (o : MaybeZero) : o.toText ≠ [] := by
  intro h
  have := MaybeZero.length_toText o
  rw [h] at this; simp at this

theorem first_oid (k : CharClasses) (o : MaybeZero) (rest : Text) :
    Rx.First (rxField k.hex) (o.toText ++ ' ' :: rest) o.toText rest :=
  first_rxField (oid_ne_nil o) (oid_hex k o) (hex_space k)

theorem rxMode_oid (k : CharClasses) (o : MaybeZero) (rest : Text) :
    rxMode k (o.toText ++ rest) = [] := by
  refine eq_nil_of_no_mem fun x hx => ?_
  obtain ⟨h1, h2⟩ := mem_rxMode hx
  have hl := MaybeZero.length_toText o
  have e1 : (o.toText ++ rest)[6]? = o.toText[6]? := List.getElem?_append_left (by omega)
  have e2 : (x.1 ++ ' ' :: x.2)[6]? = some ' ' := by
    rw [List.getElem?_append_right (by omega), h2]; rfl
  rw [h1, e2] at e1
  have hm : ' ' ∈ o.toText := by
    have := e1.symm
    exact List.mem_of_getElem? this
  have := oid_hex k o ' ' hm
  rw [hex_space] at this; simp at this

theorem word_of (k : CharClasses) {c : Char} (h : ('0' ≤ c ∧ c ≤ '9') ∨ ('a' ≤ c ∧ c ≤ 'z') ∨
    ('A' ≤ c ∧ c ≤ 'Z') ∨ c = '_') (ha : c.toNat < 128) : k.wordDot c = true := by
  unfold CharClasses.wordDot
  rw [(k.word_ascii c ha).2 h]; rfl

theorem wordDot_space (k : CharClasses) : k.wordDot ' ' = false := by
  have := k.word_ascii ' ' (by decide)
  unfold CharClasses.wordDot
  cases h : k.word ' '
  · rfl
  · exact absurd (this.1 h) (by decide)

open Spec

theorem letter_word (k : CharClasses) (l : Letter) : k.wordDot l.char = true := by
  cases l
  · simp [CharClasses.wordDot, Letter.char]
  all_goals exact word_of k (by decide) (by decide)

theorem submodule_word (k : CharClasses) (s : Submodule) :
    s.text ≠ [] ∧ ∀ c ∈ s.text, k.wordDot c = true := by
  have hdot : k.wordDot '.' = true := by simp [CharClasses.wordDot]
  have hN : k.wordDot 'N' = true := word_of k (by decide) (by decide)
  have hS : k.wordDot 'S' = true := word_of k (by decide) (by decide)
  have hC : k.wordDot 'C' = true := word_of k (by decide) (by decide)
  have hM : k.wordDot 'M' = true := word_of k (by decide) (by decide)
  have hU : k.wordDot 'U' = true := word_of k (by decide) (by decide)
  cases s with
  | no => simp [Submodule.text, hN, hdot]
  | yes c m u => cases c <;> cases m <;> cases u <;> simp [Submodule.text, hdot, hS, hC, hM, hU]

theorem first_twoOrThree_three {α : Type} {r : Rx α} {s s1 s2 s3 : Text} {a b c : α}
    (h1 : Rx.First r s a s1) (h2 : Rx.First r s1 b s2) (h3 : Rx.First r s2 c s3) :
    Rx.First (rxTwoOrThree r) s () s3 :=
  Rx.first_or_left (Rx.first_bind h1 (Rx.first_bind h2 (Rx.first_bind h3 (Rx.first_pure _ _))))

/-- Two repetitions are taken if after three nothing fits. -/
theorem first_twoOrThree_two {α β : Type} {r : Rx α} {f : Unit → Rx β} {s s1 s2 s' : Text} {a b : α}
    {y : β} (h0 : ((r.bind fun _ => r.bind fun _ => r.bind fun _ => Rx.pure ()).bind f) s = [])
    (h1 : Rx.First r s a s1) (h2 : Rx.First r s1 b s2) (h3 : Rx.First (f ()) s2 y s') :
    Rx.First ((rxTwoOrThree r).bind f) s y s' := by
  unfold rxTwoOrThree
  rw [Rx.or_bind]
  exact Rx.first_or_right h0 (Rx.first_bind (Rx.first_bind h1 (Rx.first_bind h2 (Rx.first_pure _ _))) h3)

theorem mem_rxScore {k : CharClasses} {s : Text} {x : Unit × Text} (h : x ∈ rxScore k s) :
    ∃ c ds, s = c :: ds ++ ' ' :: x.2 ∧ (c = 'C' ∨ c = 'R') ∧ 1 ≤ ds.length ∧ ds.length ≤ 3 ∧
      ∀ d ∈ ds, k.digit d = true := by
  simp only [rxScore, Rx.mem_bind, Rx.lit, Rx.mem_char, Rx.pure, List.mem_singleton, rxOneToThree,
    Rx.or, List.mem_append, Rx.mem_exactly] at h
  obtain ⟨y, ⟨h1, h2⟩, z, hz, w, ⟨h4, h5⟩, rfl⟩ := h
  simp only [Bool.or_eq_true, beq_iff_eq, decide_eq_true_eq] at h2 h5
  refine ⟨y.1, z.1, ?_, h2, ?_⟩
  · rcases hz with ⟨e, _⟩ | ⟨e, _⟩ | ⟨e, _⟩ <;> rw [h1, e, h4, h5] <;> rfl
  · rcases hz with ⟨_, e, d⟩ | ⟨_, e, d⟩ | ⟨_, e, d⟩ <;> exact ⟨by omega, by omega, d⟩

theorem first_rxScore (k : CharClasses) {c : Char} (hc : c = 'C' ∨ c = 'R') {ds : Text}
    (h1 : 1 ≤ ds.length) (h3 : ds.length ≤ 3) (hd : ∀ d ∈ ds, k.digit d = true) (rest : Text) :
    Rx.First (rxScore k) (c :: ds ++ ' ' :: rest) () rest := by
  refine Rx.first_bind (Rx.first_char (by rcases hc with rfl | rfl <;> rfl)) ?_
  have hno : ∀ n, ds.length < n → Rx.exactly k.digit n (ds ++ ' ' :: rest) = [] := by
    intro n hn
    refine eq_nil_of_no_mem fun x hx => ?_
    obtain ⟨e1, e2, e3⟩ := Rx.mem_exactly.1 hx
    have f1 : (ds ++ ' ' :: rest)[ds.length]? = some ' ' := by
      rw [List.getElem?_append_right (by omega), Nat.sub_self]; rfl
    rw [e1, List.getElem?_append_left (by omega)] at f1
    have := e3 ' ' (List.mem_of_getElem? f1)
    rw [digit_space] at this; simp at this
  have hfirst := Rx.first_exactly (rest := ' ' :: rest) hd
  have : Rx.First (rxOneToThree k.digit) (ds ++ ' ' :: rest) ds (' ' :: rest) := by
    unfold rxOneToThree
    obtain h | h | h : ds.length = 3 ∨ ds.length = 2 ∨ ds.length = 1 := by omega
    · rw [h] at hfirst; exact Rx.first_or_left hfirst
    · rw [h] at hfirst; exact Rx.first_or_right (hno 3 (by omega)) (Rx.first_or_left hfirst)
    · rw [h] at hfirst
      exact Rx.first_or_right (hno 3 (by omega)) (Rx.first_or_right (hno 2 (by omega)) hfirst)
  exact Rx.first_bind this (Rx.first_bind (Rx.first_lit _ _) (Rx.first_pure _ _))

theorem all_notNul {s : Text} (h : '\x00' ∉ s) : ∀ c ∈ s, notNul c = true := by
  intro c hc
  simp only [notNul, bne_iff_ne, ne_eq]
  rintro rfl; exact h hc

theorem first_rxPaths_one {path : Text} (h1 : path ≠ []) (h2 : '\x00' ∉ path) :
    Rx.First rxPaths path (path, none) [] := by
  have := Rx.first_plus (rest := []) h1 (all_notNul h2) (by simp)
  rw [List.append_nil] at this
  refine Rx.first_bind this (Rx.first_bind (Rx.first_or_right ?_ (Rx.first_pure _ _))
    (Rx.first_bind ⟨[], rfl⟩ (Rx.first_pure _ _)))
  rfl

theorem first_rxPaths_two {path orig : Text} (h1 : path ≠ []) (h2 : '\x00' ∉ path) (h3 : orig ≠ [])
    (h4 : '\x00' ∉ orig) :
    Rx.First rxPaths (path ++ '\x00' :: orig) (path, some orig) [] := by
  have e1 := Rx.first_plus (rest := '\x00' :: orig) h1 (all_notNul h2) (by
    rintro c r h; simp only [List.cons.injEq] at h; rw [← h.1]; rfl)
  have e2 := Rx.first_plus (rest := []) h3 (all_notNul h4) (by simp)
  rw [List.append_nil] at e2
  exact Rx.first_bind e1 (Rx.first_bind
    (Rx.first_or_left (Rx.first_bind (Rx.first_bind (Rx.first_lit _ _) e2) (Rx.first_pure _ _)))
    (Rx.first_bind ⟨[], rfl⟩ (Rx.first_pure _ _)))

theorem rxPaths_nil : rxPaths [] = [] := rfl

theorem optScore_paths_nil (k : CharClasses) :
    ((Rx.opt (rxScore k)).bind fun _ => rxPaths) [] = [] := by
  refine eq_nil_of_no_mem fun x hx => ?_
  simp only [Rx.mem_bind, Rx.opt, Rx.or, List.mem_append, Rx.pure, List.mem_singleton] at hx
  obtain ⟨y, hy, hx⟩ := hx
  rcases hy with ⟨z, hz, rfl⟩ | rfl
  · obtain ⟨c, ds, h, _⟩ := mem_rxScore hz
    simp at h
  · rw [rxPaths_nil] at hx; simp at hx

/-- A path which does not start like a score is read as it is. -/
theorem first_optScore_path {k : CharClasses} {path : Text} (h1 : path ≠ []) (h2 : '\x00' ∉ path)
    (h3 : ¬ LooksLikeScore k path) :
    Rx.First ((Rx.opt (rxScore k)).bind fun _ => rxPaths) path (path, none) [] := by
  unfold Rx.opt
  rw [Rx.or_bind]
  refine Rx.first_or_right ?_ (Rx.first_bind (Rx.first_pure _ _) (first_rxPaths_one h1 h2))
  refine eq_nil_of_no_mem fun x hx => ?_
  simp only [Rx.mem_bind, Rx.pure, List.mem_singleton] at hx
  obtain ⟨y, ⟨z, hz, rfl⟩, hx⟩ := hx
  obtain ⟨c, ds, e1, e2, e3, e4, e5⟩ := mem_rxScore hz
  by_cases hr : z.2 = []
  · rw [hr, rxPaths_nil] at hx; simp at hx
  · exact h3 ⟨c, ds, z.2, e1, e2, e3, e4, e5, hr⟩

/-- The first space ends a hexadecimal word. -/
theorem hex_word_split (k : CharClasses) {w1 w2 r1 r2 : Text} (h1 : ∀ c ∈ w1, k.hex c = true)
    (h2 : ∀ c ∈ w2, k.hex c = true) (h : w1 ++ ' ' :: r1 = w2 ++ ' ' :: r2) : r1 = r2 := by
  induction w1 generalizing w2 with
  | nil =>
    cases w2 with
    | nil => simpa using h
    | cons d w2 =>
      simp only [List.nil_append, List.cons_append, List.cons.injEq] at h
      have := h2 d (by simp)
      rw [← h.1, hex_space] at this; simp at this
  | cons d w1 ih =>
    cases w2 with
    | nil =>
      simp only [List.nil_append, List.cons_append, List.cons.injEq] at h
      have := h1 d (by simp)
      rw [h.1, hex_space] at this; simp at this
    | cons e w2 =>
      simp only [List.cons_append, List.cons.injEq] at h
      exact ih (fun c hc => h1 c (by simp [hc])) (fun c hc => h2 c (by simp [hc])) h.2

theorem first_tail_ordinary {k : CharClasses} {path : Text} (hH hI : MaybeZero) (h1 : path ≠ [])
    (h2 : '\x00' ∉ path) (h3 : ¬ LooksLikeScore k path) (h4 : ¬ LooksLikeId k path) :
    Rx.First (rxTail k) (hH.toText ++ ' ' :: (hI.toText ++ ' ' :: path)) (path, none) [] := by
  refine first_twoOrThree_two ?_ (first_oid k _ _) (first_oid k _ _) (first_optScore_path h1 h2 h3)
  refine eq_nil_of_no_mem fun x hx => ?_
  rw [Rx.mem_bind] at hx
  simp only [Rx.mem_bind (f := fun _ => Rx.bind _ _), Rx.mem_bind (f := fun _ => Rx.pure ())] at hx
  obtain ⟨y, ⟨a, ha, b, hb, c, hc, hy⟩, hx⟩ := hx
  have e1 := mem_rxField ha
  have e2 := mem_rxField hb
  have e3 := mem_rxField hc
  have f1 := hex_word_split k (oid_hex k hH) e1.2.2 e1.1
  rw [← f1] at e2
  have f2 := hex_word_split k (oid_hex k hI) e2.2.2 e2.1
  rw [← f2] at e3
  simp only [Rx.pure, List.mem_singleton] at hy
  subst hy
  by_cases hr : c.2 = []
  · simp only [hr] at hx
    rw [optScore_paths_nil] at hx; simp at hx
  · exact h4 ⟨c.1, c.2, e3.1, e3.2.1, e3.2.2, hr⟩

theorem first_tail_unmerged {k : CharClasses} {path : Text} (o1 o2 o3 : MaybeZero) (h1 : path ≠ [])
    (h2 : '\x00' ∉ path) (h3 : ¬ LooksLikeScore k path) :
    Rx.First (rxTail k) (o1.toText ++ ' ' :: (o2.toText ++ ' ' :: (o3.toText ++ ' ' :: path)))
      (path, none) [] :=
  Rx.first_bind (first_twoOrThree_three (first_oid k _ _) (first_oid k _ _) (first_oid k _ _))
    (first_optScore_path h1 h2 h3)

theorem first_tail_renamed {k : CharClasses} {path orig : Text} (hH hI : MaybeZero) {c : Char}
    (hc : c = 'C' ∨ c = 'R') {ds : Text} (d1 : 1 ≤ ds.length) (d3 : ds.length ≤ 3)
    (hd : ∀ d ∈ ds, k.digit d = true) (h1 : path ≠ []) (h2 : '\x00' ∉ path) (h3 : orig ≠ [])
    (h4 : '\x00' ∉ orig) :
    Rx.First (rxTail k) (hH.toText ++ ' ' :: (hI.toText ++ ' ' ::
      (c :: ds ++ ' ' :: (path ++ '\x00' :: orig)))) (path, some orig) [] := by
  have hlast : Rx.First ((Rx.opt (rxScore k)).bind fun _ => rxPaths)
      (c :: ds ++ ' ' :: (path ++ '\x00' :: orig)) (path, some orig) [] :=
    Rx.first_bind (Rx.first_or_left (Rx.first_bind (first_rxScore k hc d1 d3 hd _) (Rx.first_pure _ _)))
      (first_rxPaths_two h1 h2 h3 h4)
  refine first_twoOrThree_two ?_ (first_oid k _ _) (first_oid k _ _) hlast
  refine eq_nil_of_no_mem fun x hx => ?_
  rw [Rx.mem_bind] at hx
  simp only [Rx.mem_bind (f := fun _ => Rx.bind _ _), Rx.mem_bind (f := fun _ => Rx.pure ())] at hx
  obtain ⟨y, ⟨a, ha, b, hb, x3, hx3, hy⟩, hx⟩ := hx
  have e1 := mem_rxField ha
  have e2 := mem_rxField hb
  have e3 := mem_rxField hx3
  have f1 := hex_word_split k (oid_hex k hH) e1.2.2 e1.1
  rw [← f1] at e2
  have f2 := hex_word_split k (oid_hex k hI) e2.2.2 e2.1
  rw [← f2] at e3
  obtain ⟨g1, g2, g3⟩ := e3
  cases hw : x3.1 with
  | nil => exact g2 hw
  | cons d w =>
    rw [hw] at g1 g3
    simp only [List.cons_append, List.cons.injEq] at g1
    have hh := g3 d (by simp)
    rw [← g1.1] at hh
    have hcd : k.digit c = false := by
      have := k.digit_ascii c (by rcases hc with rfl | rfl <;> decide)
      cases h : k.digit c
      · rfl
      · exfalso
        have h := this.1 h
        revert h
        rcases hc with rfl | rfl <;> decide
    unfold CharClasses.hex at hh
    rw [hcd, Bool.or_false] at hh
    revert hh
    rcases hc with rfl | rfl <;> decide

theorem natToText_score (k : CharClasses) {n : Nat} (h : n ≤ 100) :
    1 ≤ (natToText n).length ∧ (natToText n).length ≤ 3 ∧ ∀ d ∈ natToText n, k.digit d = true := by
  have : ∀ m, m ≤ 100 → 1 ≤ (natToText m).length ∧ (natToText m).length ≤ 3 ∧
      ∀ d ∈ natToText m, '0' ≤ d ∧ d ≤ '9' := by decide
  obtain ⟨h1, h2, h3⟩ := this n h
  exact ⟨h1, h2, fun d hd => k.digit_of (h3 d hd).1 (h3 d hd).2⟩

/-- Everything before the paths. -/
theorem first_rxStatus (k : CharClasses) {pfx : Char} (hp : pfx = '1' ∨ pfx = '2' ∨ pfx = 'u')
    (x y : Letter) (sub : Submodule) {s : Text} {mode : Text} {paths : Text × Option Text}
    (h : Rx.First ((rxTwoOrThree (rxMode k)).bind fun _ => (rxMode k).bind fun mode =>
      (rxTail k).bind fun paths => Rx.pure (mode, paths)) s (mode, paths) []) :
    Rx.First (rxStatus k) (pfx :: ' ' :: x.char :: y.char :: ' ' :: (sub.text ++ ' ' :: s))
      ⟨pfx, x.char, y.char, mode, paths.1, paths.2⟩ [] := by
  refine Rx.first_bind (Rx.first_char (by rcases hp with rfl | rfl | rfl <;> rfl)) ?_
  refine Rx.first_bind (Rx.first_lit _ _) ?_
  refine Rx.first_bind (Rx.first_char (letter_word k x)) ?_
  refine Rx.first_bind (Rx.first_char (letter_word k y)) ?_
  refine Rx.first_bind (Rx.first_lit _ _) ?_
  refine Rx.first_bind (first_rxField (submodule_word k sub).1 (submodule_word k sub).2 (wordDot_space k)) ?_
  obtain ⟨o, e⟩ := h
  refine ⟨o.map fun z => (⟨pfx, x.char, y.char, z.1.1, z.1.2.1, z.1.2.2⟩, z.2), ?_⟩
  have : ((rxTwoOrThree (rxMode k)).bind fun _ => (rxMode k).bind fun mode =>
      (rxTail k).bind fun paths => Rx.pure (StatusCaptures.mk pfx x.char y.char mode paths.1 paths.2)) s
      = (((rxTwoOrThree (rxMode k)).bind fun _ => (rxMode k).bind fun mode =>
      (rxTail k).bind fun paths => Rx.pure (mode, paths)) s).map
        fun z => (⟨pfx, x.char, y.char, z.1.1, z.1.2.1, z.1.2.2⟩, z.2) := by
    simp [Rx.bind, Rx.pure, List.map_flatMap]
  rw [this, e]
  rfl

/-- Three modes, then object ids. -/
theorem first_modes_three (k : CharClasses) (mH mI mW : FileMode) (o : MaybeZero) (rest : Text)
    {paths : Text × Option Text} (h : Rx.First (rxTail k) (o.toText ++ rest) paths []) :
    Rx.First ((rxTwoOrThree (rxMode k)).bind fun _ => (rxMode k).bind fun mode =>
      (rxTail k).bind fun paths => Rx.pure (mode, paths))
      (mH.toText ++ ' ' :: (mI.toText ++ ' ' :: (mW.toText ++ ' ' :: (o.toText ++ rest))))
      (mW.toText, paths) [] := by
  refine first_twoOrThree_two ?_ (first_rxMode k _ _) (first_rxMode k _ _)
    (Rx.first_bind (first_rxMode k _ _) (Rx.first_bind h (Rx.first_pure _ _)))
  refine eq_nil_of_no_mem fun x hx => ?_
  rw [Rx.mem_bind] at hx
  simp only [Rx.mem_bind (f := fun _ => Rx.bind _ _), Rx.mem_bind (f := fun _ => Rx.pure ())] at hx
  obtain ⟨y, ⟨a, ha, b, hb, c, hc, hy⟩, z, hz, _⟩ := hx
  have e1 := mem_rxMode ha
  have e2 := mem_rxMode hb
  have e3 := mem_rxMode hc
  have f1 := (List.append_inj e1.1 (by rw [e1.2]; exact (FileMode.toText_digits k mH).1)).2
  simp only [List.cons.injEq, true_and] at f1
  rw [← f1] at e2
  have f2 := (List.append_inj e2.1 (by rw [e2.2]; exact (FileMode.toText_digits k mI).1)).2
  simp only [List.cons.injEq, true_and] at f2
  rw [← f2] at e3
  have f3 := (List.append_inj e3.1 (by rw [e3.2]; exact (FileMode.toText_digits k mW).1)).2
  simp only [List.cons.injEq, true_and] at f3
  simp only [Rx.pure, List.mem_singleton] at hy
  subst hy
  rw [← f3, rxMode_oid] at hz
  simp at hz

theorem first_modes_four (k : CharClasses) (m1 m2 m3 mW : FileMode) (rest : Text)
    {paths : Text × Option Text} (h : Rx.First (rxTail k) rest paths []) :
    Rx.First ((rxTwoOrThree (rxMode k)).bind fun _ => (rxMode k).bind fun mode =>
      (rxTail k).bind fun paths => Rx.pure (mode, paths))
      (m1.toText ++ ' ' :: (m2.toText ++ ' ' :: (m3.toText ++ ' ' :: (mW.toText ++ ' ' :: rest))))
      (mW.toText, paths) [] :=
  Rx.first_bind (first_twoOrThree_three (first_rxMode k _ _) (first_rxMode k _ _) (first_rxMode k _ _))
    (Rx.first_bind (first_rxMode k _ _) (Rx.first_bind h (Rx.first_pure _ _)))

theorem FileMode.parse_toText (m : FileMode) : FileMode.parse m.toText = some m := by
  cases m <;> rfl

theorem ofChar_letter {l : Letter} (h : l ≠ .typeChanged) : FileStatus.ofChar l.char = l.status := by
  cases l <;> first | rfl | exact absurd rfl h

theorem ofLine_of_first {k : CharClasses} {line : Text} {m : StatusCaptures} {mode : FileMode}
    (h : Rx.First (rxStatus k) line m []) (hm : m.mode = mode.toText) :
    StatusEntry.ofLine k line = some
      { indexStatus := if m.pfx = 'u' then .unmerged else FileStatus.ofChar m.index
        workingCopyStatus := FileStatus.ofChar m.workingCopy
        workingCopyMode := mode, path := m.path, origPath := m.orig } := by
  obtain ⟨o, e⟩ := h
  unfold StatusEntry.ofLine
  rw [e]
  simp only [List.head?_cons, hm, FileMode.parse_toText]

/-- A line as git writes it is read as documented. -/
theorem ofLine_text {k : CharClasses} {e : GitEntry} (hv : e.Valid) (hp : e.Plain k) :
    StatusEntry.ofLine k e.text = some e.expected := by
  cases e with
  | ordinary x y sub mH mI mW hH hI path =>
    obtain ⟨v1, v2⟩ := hv
    obtain ⟨p1, p2, p3, p4⟩ := hp
    have := first_rxStatus k (.inl rfl) x y sub
      (first_modes_three k mH mI mW hH _ (first_tail_ordinary hH hI v1 v2 p3 p4))
    have ht : GitEntry.text (.ordinary x y sub mH mI mW hH hI path) = '1' :: ' ' :: x.char :: y.char :: ' ' ::
        (sub.text ++ ' ' :: (mH.toText ++ ' ' :: (mI.toText ++ ' ' :: (mW.toText ++ ' ' ::
        (hH.toText ++ ' ' :: (hI.toText ++ ' ' :: path)))))) := by simp [GitEntry.text, fields]
    rw [ht, ofLine_of_first this rfl]
    simp only [GitEntry.expected, ofChar_letter p1, ofChar_letter p2]
    rfl
  | renamed x y sub mH mI mW hH hI copy score path orig =>
    obtain ⟨v0, v1, v2, v3, v4⟩ := hv
    obtain ⟨p1, p2⟩ := hp
    obtain ⟨n1, n2, n3⟩ := natToText_score k v0
    have hc : (if copy = true then 'C' else 'R') = 'C' ∨ (if copy = true then 'C' else 'R') = 'R' := by
      cases copy <;> simp
    have := first_rxStatus k (.inr (.inl rfl)) x y sub
      (first_modes_three k mH mI mW hH _ (first_tail_renamed hH hI hc n1 n2 n3 v1 v2 v3 v4))
    have ht : GitEntry.text (.renamed x y sub mH mI mW hH hI copy score path orig) =
        '2' :: ' ' :: x.char :: y.char :: ' ' ::
        (sub.text ++ ' ' :: (mH.toText ++ ' ' :: (mI.toText ++ ' ' :: (mW.toText ++ ' ' ::
        (hH.toText ++ ' ' :: (hI.toText ++ ' ' ::
          ((if copy then 'C' else 'R') :: natToText score ++ ' ' :: (path ++ '\x00' :: orig)))))))) := by
      simp [GitEntry.text, fields]
    rw [ht, ofLine_of_first this rfl]
    simp only [GitEntry.expected, ofChar_letter p1, ofChar_letter p2]
    rfl
  | unmerged x y sub m1 m2 m3 mW h1 h2 h3 path =>
    obtain ⟨v1, v2⟩ := hv
    obtain ⟨p2, p3⟩ := hp
    have := first_rxStatus k (.inr (.inr rfl)) x y sub
      (first_modes_four k m1 m2 m3 mW _ (first_tail_unmerged h1 h2 h3 v1 v2 p3))
    have ht : GitEntry.text (.unmerged x y sub m1 m2 m3 mW h1 h2 h3 path) =
        'u' :: ' ' :: x.char :: y.char :: ' ' ::
        (sub.text ++ ' ' :: (m1.toText ++ ' ' :: (m2.toText ++ ' ' :: (m3.toText ++ ' ' ::
        (mW.toText ++ ' ' :: (h1.toText ++ ' ' :: (h2.toText ++ ' ' :: (h3.toText ++ ' ' :: path)))))))) := by
      simp [GitEntry.text, fields]
    rw [ht, ofLine_of_first this rfl]
    simp only [GitEntry.expected, ofChar_letter p2]
    rfl

theorem takeEntry_nul {s : Text} (h : '\x00' ∉ s) (rest : Text) :
    takeEntry (s ++ '\x00' :: rest) = (s, rest) := by
  unfold takeEntry
  rw [List.takeWhile_append_of_pos (all_notNul h), List.dropWhile_append_of_pos (all_notNul h)]
  simp [notNul]

end Verif
