import Verif.Spec.Revset
import Verif.Lemmas.Dag
import Verif.Lemmas.Text
import Verif.Lemmas.FinishRebase
import Verif.Lemmas.Tree
import Verif.Props.Evolve
import Verif.Props.Dag
import Verif.Props.Grammar

/-! Lemmas on the evaluation of revsets. -/

namespace Verif.Spec

open Verif Verif.Props

/-! ### visible commits -/

theorem mem_visibleCommits {d : Dag} (hg : WFGraph d.graph) {o : Oid} : o ∈ d.visibleCommits ↔ VisibleIn d o := by
  unfold Dag.visibleCommits Dag.visibleHeads VisibleIn AnchorOf
  rw [mem_ancestors_heads hg]
  simp only [List.mem_append, mem_diff, or_assoc]

theorem mem_filterVisibleIn {d : Dag} (hg : WFGraph d.graph) {s : List Oid} {o : Oid} :
    o ∈ d.filterVisibleCommits s ↔ o ∈ s ∧ VisibleIn d o := by
  rw [← mem_visibleCommits hg]
  unfold Dag.filterVisibleCommits Dag.visibleCommits
  rw [mem_inter, mem_range hg, mem_ancestors hg]
  constructor
  · rintro ⟨h1, h2, _, h3⟩; exact ⟨h1, h2, h3⟩
  · rintro ⟨h1, h2, h3⟩; exact ⟨h1, h2, ⟨o, h1, .refl⟩, h3⟩

theorem mem_public {d : Dag} (hg : WFGraph d.graph) {o : Oid} :
    o ∈ d.publicCommits ↔ o ∈ d.graph.nodes ∧ PublicIn d o := mem_ancestors hg

theorem mem_draft {d : Dag} (hg : WFGraph d.graph) {o : Oid} : o ∈ d.draftCommits ↔ DraftIn d o := by
  unfold Dag.draftCommits DraftIn PublicIn
  rw [mem_only hg, ← mem_visibleCommits hg]
  unfold Dag.visibleCommits
  rw [mem_ancestors hg]
  simp only [not_exists, not_and, and_assoc]

theorem mem_stack {d : Dag} (hg : WFGraph d.graph) {s : List Oid} {o : Oid} :
    o ∈ d.stackCommits s ↔ InStack d (· ∈ s) o := by
  rw [stack_exact d hg]
  unfold InStack
  simp only [mem_draft hg]

/-- A list of commits agrees with a set on the visible commits. -/
def Sem (d : Dag) (s : List Oid) (S : Oid → Prop) : Prop := ∀ o, VisibleIn d o → (o ∈ s ↔ S o)

theorem Sem.filter {d : Dag} (hg : WFGraph d.graph) {s : List Oid} {S : Oid → Prop} (h : Sem d s S) :
    (fun o => o ∈ d.filterVisibleCommits s) = fun o => S o ∧ VisibleIn d o := by
  funext o
  refine propext ?_
  rw [mem_filterVisibleIn hg]
  exact ⟨fun ⟨h1, h2⟩ => ⟨(h o h2).1 h1, h2⟩, fun ⟨h1, h2⟩ => ⟨(h o h2).2 h1, h2⟩⟩

/-! ### names of functions -/

def _root_.Verif.Builtin.nameOf : Builtin → Text
  | .all => t!"all" | .none => t!"none" | .union => t!"union" | .intersection => t!"intersection"
  | .difference => t!"difference" | .only => t!"only" | .range => t!"range" | .not => t!"not"
  | .ancestors => t!"ancestors" | .nthAncestor => t!"ancestors.nth" | .descendants => t!"descendants"
  | .parents => t!"parents" | .parentsNth => t!"parents.nth" | .children => t!"children" | .siblings => t!"siblings"
  | .roots => t!"roots" | .heads => t!"heads" | .branches => t!"branches" | .main => t!"main" | .publics => t!"public"
  | .draft => t!"draft" | .stack => t!"stack" | .message => t!"message" | .pathsChanged => t!"paths.changed"
  | .authorName => t!"author.name" | .authorEmail => t!"author.email" | .authorDate => t!"author.date"
  | .committerName => t!"committer.name" | .committerEmail => t!"committer.email"
  | .committerDate => t!"committer.date" | .exactly => t!"exactly" | .current => t!"current" | .merges => t!"merges"
  | .testsPassed => t!"tests.passed" | .testsFailed => t!"tests.failed" | .testsFixable => t!"tests.fixable"

theorem ofName_nameOf (b : Builtin) : Builtin.ofName b.nameOf = some b := by
  cases b <;> decide

theorem ofName_cases {n : Text} : (∃ b, Builtin.ofName n = some b ∧ n = b.nameOf) ∨
    (Builtin.ofName n = none ∧ n ∉ builtinNames) := by
  by_cases h : n ∈ builtinNames
  · left
    simp only [builtinNames, List.mem_cons, List.not_mem_nil, or_false] at h
    rcases h with h | h | h | h | h | h | h | h | h | h | h | h | h | h | h | h | h | h | h | h | h | h | h | h | h | h
      | h | h | h | h | h | h | h | h | h | h <;> subst h
    exacts [⟨.all, by decide⟩, ⟨.none, by decide⟩, ⟨.union, by decide⟩, ⟨.intersection, by decide⟩,
      ⟨.difference, by decide⟩, ⟨.only, by decide⟩, ⟨.range, by decide⟩, ⟨.not, by decide⟩, ⟨.ancestors, by decide⟩,
      ⟨.nthAncestor, by decide⟩, ⟨.descendants, by decide⟩, ⟨.parents, by decide⟩, ⟨.parentsNth, by decide⟩,
      ⟨.children, by decide⟩, ⟨.siblings, by decide⟩, ⟨.roots, by decide⟩, ⟨.heads, by decide⟩,
      ⟨.branches, by decide⟩, ⟨.main, by decide⟩, ⟨.publics, by decide⟩, ⟨.draft, by decide⟩, ⟨.stack, by decide⟩,
      ⟨.message, by decide⟩, ⟨.pathsChanged, by decide⟩, ⟨.authorName, by decide⟩, ⟨.authorEmail, by decide⟩,
      ⟨.authorDate, by decide⟩, ⟨.committerName, by decide⟩, ⟨.committerEmail, by decide⟩,
      ⟨.committerDate, by decide⟩, ⟨.exactly, by decide⟩, ⟨.current, by decide⟩, ⟨.merges, by decide⟩,
      ⟨.testsPassed, by decide⟩, ⟨.testsFailed, by decide⟩, ⟨.testsFixable, by decide⟩]
  · right
    refine ⟨?_, h⟩
    unfold Builtin.ofName
    rw [get?_eq_none_iff]
    exact h

/-! ### patterns -/

theorem stripNewline_iff {s b : Text} : WithoutNewline s b ↔ stripNewline s = b := by
  unfold WithoutNewline stripNewline
  constructor
  · rintro (rfl | ⟨rfl, h⟩)
    · simp
    · rw [if_neg]
      intro hl
      rw [List.getLast?_eq_some_iff] at hl
      exact h hl
  · split
    · next h =>
      rintro rfl
      obtain ⟨t, rfl⟩ := List.getLast?_eq_some_iff.1 h
      exact .inl (by simp)
    · next h =>
      rintro rfl
      refine .inr ⟨rfl, ?_⟩
      rw [List.getLast?_eq_some_iff] at h
      exact h

theorem containsText_iff {p s : Text} : containsText p s = true ↔ p <:+: s := by
  induction s with
  | nil => simp [containsText]
  | cons c s ih =>
    rw [containsText, Bool.or_eq_true, ih, List.infix_cons_iff, List.isPrefixOf_iff_prefix]

theorem matchesText_iff {p : Pattern} {s : Text} : p.matchesText s = true ↔ TextMatches p s := by
  unfold TextMatches
  simp only [stripNewline_iff, exists_eq_left']
  cases p with
  | exact q => simp only [Pattern.matchesText, decide_eq_true_eq]; exact eq_comm
  | _ => simp [Pattern.matchesText, containsText_iff]

theorem matchesDate_iff {p : Pattern} {t : Option Int} :
    p.matchesDate t = true ↔ ∃ x, t = some x ∧ TimeMatches p x := by
  cases p <;> cases t <;> simp [Pattern.matchesDate, TimeMatches]

theorem stripPrefix?_iff {p s q : Text} : stripPrefix? p s = some q ↔ s = p ++ q := by
  induction p generalizing s with
  | nil => simp [stripPrefix?]
  | cons a p ih =>
    cases s with
    | nil => simp [stripPrefix?]
    | cons b s =>
      rw [stripPrefix?]
      split
      · next h => subst h; rw [ih]; simp
      · next h => simp [Ne.symm h]

theorem stripPrefix?_none {p s : Text} : stripPrefix? p s = none ↔ ¬ p <+: s := by
  constructor
  · rintro h ⟨q, hq⟩
    rw [stripPrefix?_iff.2 hq.symm] at h
    cases h
  · intro h
    cases hs : stripPrefix? p s with
    | none => rfl
    | some q => exact absurd ⟨q, (stripPrefix?_iff.1 hs).symm⟩ h

theorem pattern_new_iff {env : RevsetEnv} {s : Text} {p : Pattern} :
    Pattern.new env s = some p ↔ IsPattern env s p := by
  constructor
  · intro h
    unfold Pattern.new at h
    split at h
    · next q hq => cases h; rw [stripPrefix?_iff.1 hq]; exact .exact
    next h1 =>
    split at h
    · next q hq => cases h; rw [stripPrefix?_iff.1 hq]; exact .substring
    next h2 =>
    split at h
    · next q hq => cases h; rw [stripPrefix?_iff.1 hq]; exact .substr
    next h3 =>
    split at h
    · next q hq =>
      obtain ⟨m, hm, rfl⟩ := Option.map_eq_some_iff.1 h
      rw [stripPrefix?_iff.1 hq]; exact .glob hm
    next h4 =>
    split at h
    · next q hq =>
      obtain ⟨m, hm, rfl⟩ := Option.map_eq_some_iff.1 h
      rw [stripPrefix?_iff.1 hq]; exact .regex hm
    next h5 =>
    split at h
    · next q hq =>
      obtain ⟨m, hm, rfl⟩ := Option.map_eq_some_iff.1 h
      rw [stripPrefix?_iff.1 hq]; exact .before hm
    next h6 =>
    split at h
    · next q hq =>
      obtain ⟨m, hm, rfl⟩ := Option.map_eq_some_iff.1 h
      rw [stripPrefix?_iff.1 hq]; exact .after hm
    next h7 =>
    cases h
    refine .plain fun k hk => ?_
    simp only [List.mem_cons, List.not_mem_nil, or_false] at hk
    rintro ⟨q, hq⟩
    have := stripPrefix?_iff.2 hq.symm
    rcases hk with rfl | rfl | rfl | rfl | rfl | rfl | rfl
    exacts [h1 _ this, h2 _ this, h3 _ this, h4 _ this, h5 _ this, h6 _ this, h7 _ this]
  · intro h
    cases h with
    | exact => simp [Pattern.new, stripPrefix?]
    | substring => simp [Pattern.new, stripPrefix?]
    | substr => simp [Pattern.new, stripPrefix?]
    | glob h => simp [Pattern.new, stripPrefix?, h]
    | regex h => simp [Pattern.new, stripPrefix?, h]
    | before h => simp [Pattern.new, stripPrefix?, h]
    | after h => simp [Pattern.new, stripPrefix?, h]
    | plain h =>
      simp only [List.mem_cons, List.not_mem_nil, or_false, forall_eq_or_imp, forall_eq, ← stripPrefix?_none] at h
      obtain ⟨h1, h2, h3, h4, h5, h6, h7⟩ := h
      simp [Pattern.new, h1, h2, h3, h4, h5, h6, h7]

/-! ### numbers -/

theorem parseDecFrom_snoc (acc : Nat) (s : Text) (c : Char) :
    parseDecFrom acc (s ++ [c]) = (parseDecFrom acc s).bind fun n => (decVal? c).map fun d => n * 10 + d := by
  induction s generalizing acc with
  | nil => simp only [List.nil_append, parseDecFrom]; cases decVal? c <;> rfl
  | cons x s ih =>
    rw [List.cons_append, parseDecFrom, parseDecFrom]
    cases decVal? x with
    | none => rfl
    | some d => exact ih _

theorem parseDec_iff {s : Text} {n : Nat} : parseDec s = some n ↔ Numeral s n := by
  have hne : ∀ s : Text, s ≠ [] → parseDec s = parseDecFrom 0 s := by
    intro s h; cases s with
    | nil => exact absurd rfl h
    | cons => rfl
  constructor
  · intro h
    induction s using snocInduction generalizing n with
    | h0 => simp [parseDec] at h
    | h1 s c ih =>
      rw [hne _ (by simp), parseDecFrom_snoc] at h
      obtain ⟨m, hm, h⟩ := Option.bind_eq_some_iff.1 h
      obtain ⟨d, hd, rfl⟩ := Option.map_eq_some_iff.1 h
      cases s with
      | nil =>
        cases hm
        simpa using Numeral.one hd
      | cons x s =>
        rw [Nat.mul_comm]
        exact .snoc (ih (by rw [hne _ (by simp)]; exact hm)) hd
  · intro h
    induction h with
    | one h => rw [hne _ (by simp), parseDecFrom, h]; simp [parseDecFrom]
    | @snoc s n c d h1 h2 ih =>
      rw [hne _ (by simp), parseDecFrom_snoc, ← hne, ih, h2]
      · simp [Nat.mul_comm]
      · cases h1 <;> simp

theorem parseDec_plus (ds : Text) : parseDec ('+' :: ds) = none := by
  simp [parseDec, parseDecFrom, decVal?]

theorem parseUsize_iff {s : Text} {n : Nat} : parseUsize s = some n ↔ IsUsize s n := by
  unfold parseUsize IsUsize
  simp only [← parseDec_iff]
  split
  · next ds =>
    rw [Option.bind_eq_some_iff]
    simp only [parseDec_plus, List.cons.injEq, true_and, exists_eq_left']
    constructor
    · rintro ⟨m, hm, h⟩
      split at h
      · cases h; exact ⟨by assumption, .inr hm⟩
      · cases h
    · rintro ⟨h1, h2 | h2⟩
      · cases h2
      · exact ⟨n, h2, by simp [h1]⟩
  · next hs =>
    rw [Option.bind_eq_some_iff]
    constructor
    · rintro ⟨m, hm, h⟩
      split at h
      · cases h; exact ⟨by assumption, .inl hm⟩
      · cases h
    · rintro ⟨h1, h2 | ⟨ds, rfl, _⟩⟩
      · exact ⟨n, h2, by simp [h1]⟩
      · exact absurd rfl (hs ds)

end Verif.Spec
