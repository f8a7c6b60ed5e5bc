import Verif.Lemmas.RevsetEval

/-! C38: what revsets evaluate to. -/

namespace Verif.Props

open Verif.Spec

variable {env : RevsetEnv} {d : Dag}

/-- Soundness of one function, if the evaluation of its arguments is sound. -/
theorem evalBuiltin_sound {mb : Text} {log : List Event} (hr : env.replayer = Replayer.fromEvents mb log)
    (hg : WFGraph d.graph) {ev : Evaluator}
    (hev : ∀ d' e s, d'.graph = d.graph → ev d' e = .ok s → Value env d' e (fun o => o ∈ s))
    {b : Builtin} {args : List Expr} {s : List Oid}
    (h : evalBuiltin env ev d b b.nameOf args = .ok s) : ∃ S, Result env d b.nameOf args S ∧ Sem d s S := by
  cases b
  case all =>
    simp only [evalBuiltin, except_map_ok, eval0_ok] at h
    obtain ⟨_, rfl, rfl⟩ := h
    exact ⟨_, .all, sem_all hg⟩
  case none =>
    simp only [evalBuiltin, except_map_ok, eval0_ok] at h
    obtain ⟨_, rfl, rfl⟩ := h
    exact ⟨_, .none, fun o _ => by simp⟩
  case union =>
    simp only [evalBuiltin, except_map_ok, eval2_ok] at h
    obtain ⟨_, ⟨a, b, rfl, h1, h2⟩, rfl⟩ := h
    exact ⟨_, .union (hev _ _ _ rfl h1) (hev _ _ _ rfl h2), fun o _ => List.mem_append⟩
  case intersection =>
    simp only [evalBuiltin, except_map_ok, eval2_ok] at h
    obtain ⟨_, ⟨a, b, rfl, h1, h2⟩, rfl⟩ := h
    exact ⟨_, .intersection (hev _ _ _ rfl h1) (hev _ _ _ rfl h2), fun o _ => mem_inter⟩
  case difference =>
    simp only [evalBuiltin, except_map_ok, eval2_ok] at h
    obtain ⟨_, ⟨a, b, rfl, h1, h2⟩, rfl⟩ := h
    exact ⟨_, .difference (hev _ _ _ rfl h1) (hev _ _ _ rfl h2), fun o _ => mem_diff⟩
  case only =>
    simp only [evalBuiltin, except_map_ok, eval2_ok] at h
    obtain ⟨_, ⟨a, b, rfl, h1, h2⟩, rfl⟩ := h
    exact ⟨_, .only (hev _ _ _ rfl h1) (hev _ _ _ rfl h2), sem_only hg _ _⟩
  case range =>
    simp only [evalBuiltin, except_map_ok, eval2_ok] at h
    obtain ⟨_, ⟨a, b, rfl, h1, h2⟩, rfl⟩ := h
    exact ⟨_, .range (hev _ _ _ rfl h1) (hev _ _ _ rfl h2), sem_range hg _ _⟩
  case not =>
    simp only [evalBuiltin, except_map_ok, eval1_ok] at h
    obtain ⟨_, ⟨a, rfl, h1⟩, rfl⟩ := h
    exact ⟨_, .not (hev _ _ _ rfl h1), sem_not hg _⟩
  case ancestors =>
    simp only [evalBuiltin, except_map_ok, eval1_ok] at h
    obtain ⟨_, ⟨a, rfl, h1⟩, rfl⟩ := h
    exact ⟨_, .ancestors (hev _ _ _ rfl h1), sem_ancestors hg _⟩
  case nthAncestor =>
    simp only [evalBuiltin, except_map_ok, evalNumberRhs_ok] at h
    obtain ⟨_, ⟨a, t, rfl, h1, h2⟩, rfl⟩ := h
    exact ⟨_, .ancestorsNth (hev _ _ _ rfl h1) h2, sem_nthAncestor hg _ _⟩
  case descendants =>
    simp only [evalBuiltin, except_map_ok, eval1_ok] at h
    obtain ⟨_, ⟨a, rfl, h1⟩, rfl⟩ := h
    exact ⟨_, .descendants (hev _ _ _ rfl h1), sem_descendants hg _⟩
  case parents =>
    simp only [evalBuiltin, except_map_ok, eval1_ok] at h
    obtain ⟨_, ⟨a, rfl, h1⟩, rfl⟩ := h
    exact ⟨_, .parents (hev _ _ _ rfl h1), fun o _ => mem_parents hg⟩
  case parentsNth =>
    simp only [evalBuiltin, except_map_ok, evalNumberRhs_ok] at h
    obtain ⟨_, ⟨a, t, rfl, h1, h2⟩, rfl⟩ := h
    exact ⟨_, .parentsNth (hev _ _ _ rfl h1) h2, sem_parentsNth hg _ _⟩
  case children =>
    simp only [evalBuiltin, except_map_ok, eval1_ok] at h
    obtain ⟨_, ⟨a, rfl, h1⟩, rfl⟩ := h
    exact ⟨_, .children (hev _ _ _ rfl h1), fun o _ => mem_children hg⟩
  case siblings =>
    simp only [evalBuiltin, except_map_ok, eval1_ok] at h
    obtain ⟨_, ⟨a, rfl, h1⟩, rfl⟩ := h
    exact ⟨_, .siblings (hev _ _ _ rfl h1), sem_siblings hg _⟩
  case roots =>
    simp only [evalBuiltin, except_map_ok, eval1_ok] at h
    obtain ⟨_, ⟨a, rfl, h1⟩, rfl⟩ := h
    exact ⟨_, .roots (hev _ _ _ rfl h1), sem_roots hg _⟩
  case heads =>
    simp only [evalBuiltin, except_map_ok, eval1_ok] at h
    obtain ⟨_, ⟨a, rfl, h1⟩, rfl⟩ := h
    exact ⟨_, .heads (hev _ _ _ rfl h1), sem_heads hg _⟩
  case branches =>
    simp only [evalBuiltin, except_map_ok, eval0Or1Pattern_ok] at h
    obtain ⟨_, ⟨rfl, rfl⟩ | ⟨t, p, rfl, h1, rfl⟩, rfl⟩ := h
    · exact ⟨_, .branches, fun o _ => Iff.rfl⟩
    · exact ⟨_, .branchesLike h1, sem_branches _⟩
  case main =>
    simp only [evalBuiltin, except_map_ok, eval0_ok] at h
    obtain ⟨_, rfl, rfl⟩ := h
    exact ⟨_, .main, fun o _ => Iff.rfl⟩
  case publics =>
    simp only [evalBuiltin, except_map_ok, eval0_ok] at h
    obtain ⟨_, rfl, rfl⟩ := h
    exact ⟨_, .publics, sem_public hg⟩
  case draft =>
    simp only [evalBuiltin, except_map_ok, eval0_ok] at h
    obtain ⟨_, rfl, rfl⟩ := h
    exact ⟨_, .draft, fun o _ => mem_draft hg⟩
  case stack =>
    simp only [evalBuiltin, except_map_ok, eval0Or1_ok] at h
    obtain ⟨_, ⟨rfl, rfl⟩ | ⟨t, p, rfl, h1, rfl⟩, rfl⟩ := h
    · exact ⟨_, .headStack, fun o _ => mem_stack hg⟩
    · exact ⟨_, .stack (hev _ _ _ rfl h1), fun o _ => mem_stack hg⟩
  case message =>
    simp only [evalBuiltin, except_map_ok, eval1Pattern_ok] at h
    obtain ⟨_, ⟨a, rfl, h1⟩, rfl⟩ := h
    exact ⟨_, .message h1, sem_message hg _⟩
  case pathsChanged =>
    simp only [evalBuiltin, except_map_ok, eval1Pattern_ok] at h
    obtain ⟨_, ⟨a, rfl, h1⟩, rfl⟩ := h
    exact ⟨_, .pathsChanged h1, sem_pathsChanged hg _⟩
  case authorName =>
    simp only [evalBuiltin, except_map_ok, eval1Pattern_ok] at h
    obtain ⟨_, ⟨a, rfl, h1⟩, rfl⟩ := h
    exact ⟨_, .authorName h1, sem_authorName hg _⟩
  case authorEmail =>
    simp only [evalBuiltin, except_map_ok, eval1Pattern_ok] at h
    obtain ⟨_, ⟨a, rfl, h1⟩, rfl⟩ := h
    exact ⟨_, .authorEmail h1, sem_authorEmail hg _⟩
  case authorDate =>
    simp only [evalBuiltin, except_map_ok, eval1Pattern_ok] at h
    obtain ⟨_, ⟨a, rfl, h1⟩, rfl⟩ := h
    exact ⟨_, .authorDate h1, sem_matcher hg fun o => matchesDate_iff⟩
  case committerName =>
    simp only [evalBuiltin, except_map_ok, eval1Pattern_ok] at h
    obtain ⟨_, ⟨a, rfl, h1⟩, rfl⟩ := h
    exact ⟨_, .committerName h1, sem_committerName hg _⟩
  case committerEmail =>
    simp only [evalBuiltin, except_map_ok, eval1Pattern_ok] at h
    obtain ⟨_, ⟨a, rfl, h1⟩, rfl⟩ := h
    exact ⟨_, .committerEmail h1, sem_committerEmail hg _⟩
  case committerDate =>
    simp only [evalBuiltin, except_map_ok, eval1Pattern_ok] at h
    obtain ⟨_, ⟨a, rfl, h1⟩, rfl⟩ := h
    exact ⟨_, .committerDate h1, sem_matcher hg fun o => matchesDate_iff⟩
  case exactly =>
    simp only [evalBuiltin] at h
    split at h
    · cases h
    · next l n hn =>
      obtain ⟨a, t, rfl, h1, h2⟩ := evalNumberRhs_ok.1 hn
      split at h
      · next hc =>
        cases h
        refine ⟨_, .exactly (l := List.dedup s) (hev _ _ _ rfl h1) (List.nodup_dedup _) (fun o => List.mem_dedup) ?_,
          fun o _ => Iff.rfl⟩
        have : (List.dedup s).length = n := hc
        rw [this]; exact h2
      · cases h
  case current =>
    simp only [evalBuiltin, except_map_ok, eval1_ok] at h
    obtain ⟨_, ⟨a, rfl, h1⟩, rfl⟩ := h
    exact ⟨_, .current (hev _ _ _ rfl h1), sem_current hr _⟩
  case merges =>
    simp only [evalBuiltin, except_map_ok, eval0_ok] at h
    obtain ⟨_, rfl, rfl⟩ := h
    exact ⟨_, .merges, sem_matcher hg fun o => by simp [Nat.lt_iff_add_one_le]⟩
  case testsPassed =>
    simp only [evalBuiltin, except_map_ok, evalTestCommandPattern_ok] at h
    obtain ⟨_, h1, rfl⟩ := h
    exact ⟨_, .testsPassed h1, sem_passed hg _⟩
  case testsFailed =>
    simp only [evalBuiltin, except_map_ok, evalTestCommandPattern_ok] at h
    obtain ⟨_, h1, rfl⟩ := h
    exact ⟨_, .testsFailed h1, sem_failed hg _⟩
  case testsFixable =>
    simp only [evalBuiltin, except_map_ok, evalTestCommandPattern_ok] at h
    obtain ⟨_, h1, rfl⟩ := h
    exact ⟨_, .testsFixable h1, sem_fixable hg _⟩

/-- Whatever evaluation returns is the value of the expression. -/
theorem eval_sound {mb : Text} {log : List Event} (hr : env.replayer = Replayer.fromEvents mb log) :
    ∀ (fuel : Nat) (d : Dag) (e : Expr) (s : List Oid), WFGraph d.graph → evalRevset env fuel d e = .ok s →
      Value env d e (fun o => o ∈ s) := by
  intro fuel
  induction fuel with
  | zero => intro d e s _ h; cases h
  | succ fuel ih =>
    intro d e s hg h
    cases e with
    | name n =>
      rw [evalRevset] at h
      unfold evalName at h
      split at h
      · next hn =>
        cases h
        have := Value.head (env := env) (d := d) hn
        simpa [eq_comm] using this
      · next hn =>
        obtain ⟨c, hc, h⟩ := elim_ok.1 h
        cases h
        have := Value.commit (env := env) (d := d) (fun h => hn (.inl h)) (fun h => hn (.inr h)) hc
        simpa using this
    | call f args =>
      rw [evalRevset] at h
      obtain ⟨r, h', hs⟩ := except_map_ok.1 h
      clear h
      rename' h' => h
      subst hs
      have key : ∃ S, Result env d f args S ∧ Sem d r S := by
        unfold evalFn at h
        rcases ofName_cases (n := f) with ⟨b, hb, rfl⟩ | ⟨hb, hf⟩
        · rw [hb] at h
          exact evalBuiltin_sound hr hg (fun d' e s hd he => ih d' e s (by rw [hd]; exact hg) he) h
        · rw [hb] at h
          simp only at h
          cases ha : env.aliasOf f with
          | none => rw [ha] at h; cases h
          | some template =>
            rw [ha] at h
            simp only at h
            cases hp : parseRevset template with
            | none => rw [hp] at h; cases h
            | some body =>
              rw [hp] at h
              simp only at h
              obtain ⟨ts, h1, h2⟩ := (parse_exact _ _).1 hp
              exact ⟨_, .aliasCall hf ha h1 h2 (subst_replaceNames args body) (ih _ _ _ hg h), fun o _ => Iff.rfl⟩
      obtain ⟨S, h1, h2⟩ := key
      rw [h2.filter hg]
      exact .call h1

/-- Evaluation returns this set if the stack is large enough. -/
def Returns (env : RevsetEnv) (d : Dag) (e : Expr) (S : Oid → Prop) : Prop :=
  ∃ N, ∀ fuel, N ≤ fuel → ∃ s, evalRevset env fuel d e = .ok s ∧ S = fun o => o ∈ s

/-- The same for a function, up to commits which are not visible. -/
def FnReturns (env : RevsetEnv) (d : Dag) (f : Text) (es : List Expr) (S : Oid → Prop) : Prop :=
  ∃ N, ∀ fuel, N ≤ fuel → ∃ s, evalFn env (evalRevset env fuel) d f es = .ok s ∧ Sem d s S

theorem fnReturns_of (b : Builtin) {es : List Expr} {S : Oid → Prop}
    (h : ∃ N, ∀ fuel, N ≤ fuel → ∃ s, evalBuiltin env (evalRevset env fuel) d b b.nameOf es = .ok s ∧ Sem d s S) :
    FnReturns env d b.nameOf es S := by
  obtain ⟨N, h⟩ := h
  refine ⟨N, fun fuel hN => ?_⟩
  obtain ⟨s, h1, h2⟩ := h fuel hN
  exact ⟨s, by rw [evalFn, ofName_nameOf]; exact h1, h2⟩

theorem fnReturns0 (b : Builtin) {es : List Expr} {S : Oid → Prop}
    (h : ∀ ev, ∃ s, evalBuiltin env ev d b b.nameOf es = .ok s ∧ Sem d s S) : FnReturns env d b.nameOf es S :=
  fnReturns_of b ⟨0, fun _ _ => h _⟩

theorem fnReturns1 (b : Builtin) {d' : Dag} {a : Expr} {A : Oid → Prop} {es : List Expr} {S : (Oid → Prop) → Oid → Prop}
    (ha : Returns env d' a A)
    (h : ∀ (ev : Evaluator) l, A = (fun o => o ∈ l) → ev d' a = .ok l →
      ∃ s, evalBuiltin env ev d b b.nameOf es = .ok s ∧ Sem d s (S (fun o => o ∈ l))) :
    FnReturns env d b.nameOf es (S A) := by
  obtain ⟨N, ha⟩ := ha
  refine fnReturns_of b ⟨N, fun fuel hN => ?_⟩
  obtain ⟨l, h1, h2⟩ := ha fuel hN
  obtain ⟨s, h3, h4⟩ := h _ l h2 h1
  exact ⟨s, h3, by rw [h2]; exact h4⟩

theorem fnReturns2 (b : Builtin) {a a' : Expr} {A B : Oid → Prop} {S : (Oid → Prop) → (Oid → Prop) → Oid → Prop}
    (ha : Returns env d a A) (hb : Returns env d a' B)
    (h : ∀ (ev : Evaluator) l r, ev d a = .ok l → ev d a' = .ok r →
      ∃ s, evalBuiltin env ev d b b.nameOf [a, a'] = .ok s ∧ Sem d s (S (fun o => o ∈ l) (fun o => o ∈ r))) :
    FnReturns env d b.nameOf [a, a'] (S A B) := by
  obtain ⟨N, ha⟩ := ha
  obtain ⟨M, hb⟩ := hb
  refine fnReturns_of b ⟨max N M, fun fuel hN => ?_⟩
  obtain ⟨l, h1, h2⟩ := ha fuel (by omega)
  obtain ⟨r, h3, h4⟩ := hb fuel (by omega)
  obtain ⟨s, h5, h6⟩ := h _ l r h1 h3
  exact ⟨s, h5, by rw [h2, h4]; exact h6⟩

/-- Every value is found. -/
theorem eval_complete {mb : Text} {log : List Event} (hr : env.replayer = Replayer.fromEvents mb log)
    {e : Expr} {S : Oid → Prop} (h : Value env d e S) : WFGraph d.graph → Returns env d e S := by
  induction h using Value.rec
    (motive_2 := fun d f es S _ => WFGraph d.graph → FnReturns env d f es S) with
  | @head d n hn =>
    intro hg
    refine ⟨1, fun fuel hf => ?_⟩
    obtain ⟨k, rfl⟩ : ∃ k, fuel = k + 1 := ⟨fuel - 1, by omega⟩
    refine ⟨env.headOid.toList, ?_, ?_⟩
    · rw [evalRevset, evalName, if_pos hn]
    · simp
  | @commit d n c h1 h2 h3 =>
    intro hg
    refine ⟨1, fun fuel hf => ?_⟩
    obtain ⟨k, rfl⟩ : ∃ k, fuel = k + 1 := ⟨fuel - 1, by omega⟩
    refine ⟨[c], ?_, ?_⟩
    · rw [evalRevset, evalName, if_neg (by rintro (h | h); exacts [h1 h, h2 h]), h3]; rfl
    · simp
  | @call d f es S _ ih =>
    intro hg
    obtain ⟨N, ih⟩ := ih hg
    refine ⟨N + 1, fun fuel hf => ?_⟩
    obtain ⟨k, rfl⟩ : ∃ k, fuel = k + 1 := ⟨fuel - 1, by omega⟩
    obtain ⟨s, h1, h2⟩ := ih k (by omega)
    refine ⟨d.filterVisibleCommits s, ?_, (h2.filter hg).symm⟩
    rw [evalRevset, h1]; rfl
  | all hg => exact fnReturns0 .all fun ev => ⟨_, rfl, sem_all hg⟩
  | none hg => exact fnReturns0 .none fun ev => ⟨_, rfl, fun o _ => by simp⟩
  | union _ _ iha ihb hg =>
    refine fnReturns2 .union (S := fun A B o => A o ∨ B o) (iha hg) (ihb hg) fun ev l r h1 h2 => ⟨_, ?_, fun o _ => List.mem_append⟩
    simp only [evalBuiltin, eval2, h1, h2]; rfl
  | intersection _ _ iha ihb hg =>
    refine fnReturns2 .intersection (S := fun A B o => A o ∧ B o) (iha hg) (ihb hg) fun ev l r h1 h2 => ⟨_, ?_, fun o _ => mem_inter⟩
    simp only [evalBuiltin, eval2, h1, h2]; rfl
  | difference _ _ iha ihb hg =>
    refine fnReturns2 .difference (S := fun A B o => A o ∧ ¬ B o) (iha hg) (ihb hg) fun ev l r h1 h2 => ⟨_, ?_, fun o _ => mem_diff⟩
    simp only [evalBuiltin, eval2, h1, h2]; rfl
  | @only d _ _ _ _ _ _ iha ihb hg =>
    refine fnReturns2 .only (S := fun A B o => (∃ x, A x ∧ Anc d.graph o x) ∧ ∀ x, B x → ¬ Anc d.graph o x)
      (iha hg) (ihb hg) fun ev l r h1 h2 => ⟨_, ?_, sem_only hg _ _⟩
    simp only [evalBuiltin, eval2, h1, h2]; rfl
  | @range d _ _ _ _ _ _ iha ihb hg =>
    refine fnReturns2 .range (S := fun A B o => (∃ x, A x ∧ Anc d.graph x o) ∧ ∃ y, B y ∧ Anc d.graph o y)
      (iha hg) (ihb hg) fun ev l r h1 h2 => ⟨_, ?_, sem_range hg _ _⟩
    simp only [evalBuiltin, eval2, h1, h2]; rfl
  | not _ ih hg =>
    refine fnReturns1 .not (S := fun A o => ¬ A o) (ih hg) fun ev l _ h1 => ⟨_, ?_, sem_not hg _⟩
    simp only [evalBuiltin, eval1, h1]; rfl
  | @ancestors d _ _ _ ih hg =>
    refine fnReturns1 .ancestors (S := fun A o => ∃ x, A x ∧ Anc d.graph o x) (ih hg)
      fun ev l _ h1 => ⟨_, ?_, sem_ancestors hg _⟩
    simp only [evalBuiltin, eval1, h1]; rfl
  | @ancestorsNth d a A s n _ hn ih hg =>
    refine fnReturns1 .nthAncestor (S := fun A o => ∃ x, A x ∧ FirstParent d.graph n x o) (ih hg)
      fun ev l _ h1 => ⟨_, ?_, sem_nthAncestor hg _ _⟩
    simp only [evalBuiltin, evalNumberRhs, h1, parseUsize_iff.2 hn]; rfl
  | @descendants d _ _ _ ih hg =>
    refine fnReturns1 .descendants (S := fun A o => ∃ x, A x ∧ Anc d.graph x o) (ih hg)
      fun ev l _ h1 => ⟨_, ?_, sem_descendants hg _⟩
    simp only [evalBuiltin, eval1, h1]; rfl
  | @parents d _ _ _ ih hg =>
    refine fnReturns1 .parents (S := fun A o => ∃ x, A x ∧ IsParent d.graph o x) (ih hg)
      fun ev l _ h1 => ⟨_, ?_, fun o _ => mem_parents hg⟩
    simp only [evalBuiltin, eval1, h1]; rfl
  | @parentsNth d a A s n _ hn ih hg =>
    refine fnReturns1 .parentsNth
      (S := fun A o => ∃ x ps, A x ∧ (x, ps) ∈ d.graph.entries ∧ 1 ≤ n ∧ ps[n - 1]? = some o) (ih hg)
      fun ev l _ h1 => ⟨_, ?_, sem_parentsNth hg _ _⟩
    simp only [evalBuiltin, evalNumberRhs, h1, parseUsize_iff.2 hn]; rfl
  | @children d _ _ _ ih hg =>
    refine fnReturns1 .children (S := fun A o => ∃ x, A x ∧ IsParent d.graph x o) (ih hg)
      fun ev l _ h1 => ⟨_, ?_, fun o _ => mem_children hg⟩
    simp only [evalBuiltin, eval1, h1]; rfl
  | @siblings d _ _ _ ih hg =>
    refine fnReturns1 .siblings
      (S := fun A o => (∃ x p, A x ∧ IsParent d.graph p x ∧ IsParent d.graph p o) ∧ ¬ A o) (ih hg)
      fun ev l _ h1 => ⟨_, ?_, sem_siblings hg _⟩
    simp only [evalBuiltin, eval1, h1]; rfl
  | @roots d _ _ _ ih hg =>
    refine fnReturns1 .roots (S := fun A o => A o ∧ ∀ p, A p → ¬ IsParent d.graph p o) (ih hg)
      fun ev l _ h1 => ⟨_, ?_, sem_roots hg _⟩
    simp only [evalBuiltin, eval1, h1]; rfl
  | @heads d _ _ _ ih hg =>
    refine fnReturns1 .heads (S := fun A o => A o ∧ ∀ c, A c → ¬ IsParent d.graph o c) (ih hg)
      fun ev l _ h1 => ⟨_, ?_, sem_heads hg _⟩
    simp only [evalBuiltin, eval1, h1]; rfl
  | branches hg => exact fnReturns0 .branches fun ev => ⟨_, rfl, fun o _ => Iff.rfl⟩
  | branchesLike hp hg =>
    refine fnReturns0 .branches fun ev => ⟨_, ?_, sem_branches _⟩
    simp only [evalBuiltin, eval0Or1Pattern, eval1Pattern, pattern_new_iff.2 hp]; rfl
  | main hg => exact fnReturns0 .main fun ev => ⟨_, rfl, fun o _ => Iff.rfl⟩
  | publics hg => exact fnReturns0 .publics fun ev => ⟨_, rfl, sem_public hg⟩
  | draft hg => exact fnReturns0 .draft fun ev => ⟨_, rfl, fun o _ => mem_draft hg⟩
  | headStack hg => exact fnReturns0 .stack fun ev => ⟨_, rfl, fun o _ => mem_stack hg⟩
  | @stack d _ _ _ ih hg =>
    refine fnReturns1 .stack (S := fun A => InStack d A) (ih hg) fun ev l _ h1 => ⟨_, ?_, fun o _ => mem_stack hg⟩
    simp only [evalBuiltin, eval0Or1, h1]; rfl
  | message hp hg =>
    refine fnReturns0 .message fun ev => ⟨_, ?_, sem_message hg _⟩
    simp only [evalBuiltin, eval1Pattern, pattern_new_iff.2 hp]; rfl
  | pathsChanged hp hg =>
    refine fnReturns0 .pathsChanged fun ev => ⟨_, ?_, sem_pathsChanged hg _⟩
    simp only [evalBuiltin, eval1Pattern, pattern_new_iff.2 hp]; rfl
  | authorName hp hg =>
    refine fnReturns0 .authorName fun ev => ⟨_, ?_, sem_authorName hg _⟩
    simp only [evalBuiltin, eval1Pattern, pattern_new_iff.2 hp]; rfl
  | authorEmail hp hg =>
    refine fnReturns0 .authorEmail fun ev => ⟨_, ?_, sem_authorEmail hg _⟩
    simp only [evalBuiltin, eval1Pattern, pattern_new_iff.2 hp]; rfl
  | authorDate hp hg =>
    refine fnReturns0 .authorDate fun ev => ⟨_, ?_, sem_matcher hg fun o => matchesDate_iff⟩
    simp only [evalBuiltin, eval1Pattern, pattern_new_iff.2 hp]; rfl
  | committerName hp hg =>
    refine fnReturns0 .committerName fun ev => ⟨_, ?_, sem_committerName hg _⟩
    simp only [evalBuiltin, eval1Pattern, pattern_new_iff.2 hp]; rfl
  | committerEmail hp hg =>
    refine fnReturns0 .committerEmail fun ev => ⟨_, ?_, sem_committerEmail hg _⟩
    simp only [evalBuiltin, eval1Pattern, pattern_new_iff.2 hp]; rfl
  | committerDate hp hg =>
    refine fnReturns0 .committerDate fun ev => ⟨_, ?_, sem_matcher hg fun o => matchesDate_iff⟩
    simp only [evalBuiltin, eval1Pattern, pattern_new_iff.2 hp]; rfl
  | @exactly d a A s l _ hnd hm hn ih hg =>
    refine fnReturns1 .exactly (S := fun A => A) (ih hg) fun ev l' hA h1 => ⟨l', ?_, fun o _ => Iff.rfl⟩
    have hc : CommitGraph.count l' = l.length := by
      unfold CommitGraph.count
      refine ((List.perm_ext_iff_of_nodup (List.nodup_dedup _) hnd).2 fun o => ?_).length_eq
      rw [List.mem_dedup, hm, hA]
    simp only [evalBuiltin, evalNumberRhs, h1, parseUsize_iff.2 hn, Option.elim_some, if_pos hc]
  | @current d a A _ ih hg =>
    refine fnReturns1 .current (S := fun A o => ∃ x, A x ∧ (Newest env.replayer.events x (.nonZero o) ∨
        (o = x ∧ ∀ m, ¬ RewrittenTo env.replayer.events x m))) (ih hg) fun ev l _ h1 => ⟨_, ?_, sem_current hr _⟩
    simp only [evalBuiltin, eval1, Dag.clearObsoleteCommits, h1]; rfl
  | merges hg =>
    exact fnReturns0 .merges fun ev => ⟨_, rfl, sem_matcher hg fun o => by simp [Nat.lt_iff_add_one_le]⟩
  | testsPassed hp hg =>
    refine fnReturns0 .testsPassed fun ev => ⟨_, ?_, sem_passed hg _⟩
    simp only [evalBuiltin, evalTestCommandPattern_ok.2 hp]; rfl
  | testsFailed hp hg =>
    refine fnReturns0 .testsFailed fun ev => ⟨_, ?_, sem_failed hg _⟩
    simp only [evalBuiltin, evalTestCommandPattern_ok.2 hp]; rfl
  | testsFixable hp hg =>
    refine fnReturns0 .testsFixable fun ev => ⟨_, ?_, sem_fixable hg _⟩
    simp only [evalBuiltin, evalTestCommandPattern_ok.2 hp]; rfl
  | @aliasCall d f es template ts body e S hf ha hl hd hs _ ih hg =>
    obtain ⟨N, ih⟩ := ih hg
    refine ⟨N, fun fuel hN => ?_⟩
    obtain ⟨s, h1, h2⟩ := ih fuel hN
    refine ⟨s, ?_, fun o _ => by rw [h2]⟩
    have hn : Builtin.ofName f = none := by
      rcases ofName_cases (n := f) with ⟨b, hb, rfl⟩ | ⟨hb, _⟩
      · refine absurd ?_ hf
        cases b <;> decide
      · exact hb
    rw [evalFn, hn]
    simp only [ha, (parse_exact _ _).2 ⟨ts, hl, hd⟩]
    rw [← hs.eq]; exact h1

/-- C38: evaluation returns a set iff the expression has it as its value; the value is given by the rules of
`Spec/Revset.lean`. -/
theorem eval_exact {mb : Text} {log : List Event} (hr : env.replayer = Replayer.fromEvents mb log)
    (hg : WFGraph d.graph) (e : Expr) (S : Oid → Prop) :
    (∃ fuel s, evalRevset env fuel d e = .ok s ∧ ∀ o, o ∈ s ↔ S o) ↔ Value env d e S := by
  constructor
  · rintro ⟨fuel, s, h, hs⟩
    have := eval_sound hr fuel d e s hg h
    have hS : S = fun o => o ∈ s := funext fun o => propext (hs o).symm
    rw [hS]; exact this
  · intro h
    obtain ⟨N, h⟩ := eval_complete hr h hg
    obtain ⟨s, h1, h2⟩ := h N (Nat.le_refl _)
    exact ⟨N, s, h1, fun o => by rw [h2]⟩

/-- C38: an expression has at most one value. -/
theorem value_unique {mb : Text} {log : List Event} (hr : env.replayer = Replayer.fromEvents mb log)
    (hg : WFGraph d.graph) {e : Expr} {S T : Oid → Prop} (h : Value env d e S) (h' : Value env d e T) : S = T := by
  obtain ⟨N, h⟩ := eval_complete hr h hg
  obtain ⟨M, h'⟩ := eval_complete hr h' hg
  obtain ⟨s, h1, h2⟩ := h (max N M) (by omega)
  obtain ⟨t, h3, h4⟩ := h' (max N M) (by omega)
  rw [h1] at h3
  cases h3
  rw [h2, h4]

/-- C38: a call of a function, built in or alias, returns visible commits only. -/
theorem calls_return_visible (hg : WFGraph d.graph) {fuel : Nat} {f : Text} {args : List Expr} {s : List Oid}
    (h : evalRevset env fuel d (.call f args) = .ok s) : ∀ o ∈ s, VisibleIn d o := by
  cases fuel with
  | zero => cases h
  | succ fuel =>
    rw [evalRevset] at h
    obtain ⟨r, _, rfl⟩ := except_map_ok.1 h
    exact fun o ho => ((mem_filterVisibleIn hg).1 ho).2

/-! ### the stack -/

/-- `x'` is `x`, unless `x` ran out of stack. -/
def Refines {α : Type} (x x' : Except EvalError α) : Prop := x = .error .stackOverflow ∨ x' = x

theorem Refines.map {α β : Type} {x x' : Except EvalError α} (h : Refines x x') (f : α → β) :
    Refines (x.map f) (x'.map f) := by
  rcases h with rfl | rfl
  · exact .inl rfl
  · exact .inr rfl

theorem refines_eval1 {ev ev' : Evaluator} (h : ∀ d e, Refines (ev d e) (ev' d e)) (d : Dag) (f : Text)
    (args : List Expr) : Refines (eval1 ev d f args) (eval1 ev' d f args) := by
  unfold eval1
  split
  · exact h _ _
  · exact .inr rfl

theorem refines_eval0Or1 {ev ev' : Evaluator} (h : ∀ d e, Refines (ev d e) (ev' d e)) (d : Dag) (f : Text)
    (args : List Expr) : Refines (eval0Or1 ev d f args) (eval0Or1 ev' d f args) := by
  unfold eval0Or1
  split
  · exact .inr rfl
  · exact (h _ _).map _
  · exact .inr rfl

theorem refines_eval2 {ev ev' : Evaluator} (h : ∀ d e, Refines (ev d e) (ev' d e)) (d : Dag) (f : Text)
    (args : List Expr) : Refines (eval2 ev d f args) (eval2 ev' d f args) := by
  unfold eval2
  split
  · next l r =>
    rcases h d l with h1 | h1
    · rw [h1]; exact .inl rfl
    · rw [h1]
      cases ev d l with
      | error e => exact .inr rfl
      | ok s => exact (h d r).map _
  · exact .inr rfl

theorem refines_evalNumberRhs {ev ev' : Evaluator} (h : ∀ d e, Refines (ev d e) (ev' d e)) (d : Dag) (f : Text)
    (args : List Expr) : Refines (evalNumberRhs ev d f args) (evalNumberRhs ev' d f args) := by
  unfold evalNumberRhs
  split
  · next l r =>
    rcases h d l with h1 | h1
    · rw [h1]; exact .inl rfl
    · rw [h1]; exact .inr rfl
  · exact .inr rfl
  · exact .inr rfl

theorem refines_evalBuiltin {ev ev' : Evaluator} (h : ∀ d e, Refines (ev d e) (ev' d e)) (d : Dag) (b : Builtin)
    (f : Text) (args : List Expr) : Refines (evalBuiltin env ev d b f args) (evalBuiltin env ev' d b f args) := by
  have h1 := refines_eval1 h
  have h2 := refines_eval2 h d f args
  have h3 := refines_evalNumberRhs h d f args
  have h4 := refines_eval0Or1 h d f args
  cases b
  case exactly =>
    unfold evalBuiltin
    rcases h3 with h3 | h3
    · rw [h3]; exact .inl rfl
    · rw [h3]; exact .inr rfl
  all_goals first
    | exact .inr rfl
    | exact (h1 _ f args).map _
    | exact h2.map _
    | exact h3.map _
    | exact h4.map _

theorem refines_evalFn {ev ev' : Evaluator} (h : ∀ d e, Refines (ev d e) (ev' d e)) (d : Dag)
    (f : Text) (args : List Expr) : Refines (evalFn env ev d f args) (evalFn env ev' d f args) := by
  unfold evalFn
  split
  · exact refines_evalBuiltin h ..
  · split
    · exact .inr rfl
    · split
      · exact .inr rfl
      · exact h _ _

theorem refines_evalRevset : ∀ (n k : Nat) (d : Dag) (e : Expr),
    Refines (evalRevset env n d e) (evalRevset env (n + k) d e)
  | 0, _, _, _ => .inl rfl
  | n + 1, k, d, .name m => .inr (by rw [show n + 1 + k = (n + k) + 1 by omega, evalRevset, evalRevset])
  | n + 1, k, d, .call f args => by
    rw [show n + 1 + k = (n + k) + 1 by omega, evalRevset, evalRevset]
    exact (refines_evalFn (fun d e => refines_evalRevset n k d e) d f args).map _

/-- C38: the size of the stack does not change the result, value or error, unless it is too small. -/
theorem eval_stack_independent {n m : Nat} {e : Expr} (hnm : n ≤ m)
    (h : evalRevset env n d e ≠ .error .stackOverflow) : evalRevset env m d e = evalRevset env n d e := by
  obtain ⟨k, rfl⟩ : ∃ k, m = n + k := ⟨m - n, by omega⟩
  rcases refines_evalRevset (env := env) n k d e with h' | h'
  · exact absurd h' h
  · exact h'

/-- Not the end of the stack. -/
def Fine {α : Type} (x : Except EvalError α) : Prop := x ≠ .error .stackOverflow

theorem Fine.map {α β : Type} {x : Except EvalError α} (h : Fine x) (f : α → β) : Fine (x.map f) := by
  intro hx
  cases x with
  | error e => cases hx; exact h rfl
  | ok a => cases hx

theorem fine_eval1 {ev : Evaluator} {args : List Expr} (h : ∀ d, ∀ e ∈ args, Fine (ev d e)) (d : Dag) (f : Text) :
    Fine (eval1 ev d f args) := by
  unfold eval1
  split
  · exact h _ _ (by simp)
  · exact nofun

theorem fine_eval0Or1 {ev : Evaluator} {args : List Expr} (h : ∀ d, ∀ e ∈ args, Fine (ev d e)) (d : Dag) (f : Text) :
    Fine (eval0Or1 ev d f args) := by
  unfold eval0Or1
  split
  · exact nofun
  · exact (h _ _ (by simp)).map _
  · exact nofun

theorem fine_eval2 {ev : Evaluator} {args : List Expr} (h : ∀ d, ∀ e ∈ args, Fine (ev d e)) (d : Dag) (f : Text) :
    Fine (eval2 ev d f args) := by
  unfold eval2
  split
  · next l r =>
    have h1 := h d l (by simp)
    cases hl : ev d l with
    | error e => rw [hl] at h1; intro he; cases he; exact h1 rfl
    | ok s => exact (h d r (by simp)).map _
  · exact nofun

theorem fine_evalNumberRhs {ev : Evaluator} {args : List Expr} (h : ∀ d, ∀ e ∈ args, Fine (ev d e)) (d : Dag)
    (f : Text) : Fine (evalNumberRhs ev d f args) := by
  unfold evalNumberRhs
  split
  · next l r =>
    have h1 := h d l (by simp)
    cases hl : ev d l with
    | error e => rw [hl] at h1; intro he; cases he; exact h1 rfl
    | ok s => cases parseUsize r <;> exact nofun
  · exact nofun
  · exact nofun

theorem fine_eval0 (f : Text) (args : List Expr) : Fine (eval0 f args) := by
  unfold eval0; split <;> exact nofun

theorem fine_eval1Pattern (f : Text) (args : List Expr) : Fine (eval1Pattern env f args) := by
  unfold eval1Pattern
  split
  · next p => cases Pattern.new env p <;> exact nofun
  · exact nofun
  · exact nofun

theorem fine_eval0Or1Pattern (f : Text) (args : List Expr) : Fine (eval0Or1Pattern env f args) := by
  unfold eval0Or1Pattern
  split
  · exact nofun
  · exact Fine.map (fine_eval1Pattern f _) _
  · exact nofun

theorem fine_evalTestCommandPattern (f : Text) (args : List Expr) : Fine (evalTestCommandPattern env f args) := by
  unfold evalTestCommandPattern
  have := fine_eval0Or1Pattern (env := env) f args
  split
  · next e he => rw [he] at this; intro h; cases h; exact this rfl
  · exact nofun
  · cases env.latestTestCommand <;> exact nofun

theorem fine_evalBuiltin {ev : Evaluator} {args : List Expr} (h : ∀ d, ∀ e ∈ args, Fine (ev d e)) (d : Dag)
    (b : Builtin) (f : Text) : Fine (evalBuiltin env ev d b f args) := by
  have h0 := fine_eval0 f args
  have h1 := fine_eval1 h
  have h2 := fine_eval2 h d f
  have h3 := fine_evalNumberRhs h d f
  have h4 := fine_eval0Or1 h d f
  have h5 := fine_eval1Pattern (env := env) f args
  have h6 := fine_eval0Or1Pattern (env := env) f args
  have h7 := fine_evalTestCommandPattern (env := env) f args
  cases b
  case exactly =>
    unfold evalBuiltin
    simp only
    split
    · next e he => rw [he] at h3; intro h; cases h; exact h3 rfl
    · split <;> exact nofun
  all_goals first
    | exact h0.map _
    | exact (h1 _ f).map _
    | exact h2.map _
    | exact h3.map _
    | exact h4.map _
    | exact h5.map _
    | exact h6.map _
    | exact h7.map _

/-- There is a stack which is large enough for the expression. -/
def Ends (env : RevsetEnv) (e : Expr) : Prop := ∃ N, ∀ d fuel, N ≤ fuel → Fine (evalRevset env fuel d e)

theorem ends_name (n : Text) : Ends env (.name n) := by
  refine ⟨1, fun d fuel hf => ?_⟩
  obtain ⟨k, rfl⟩ : ∃ k, fuel = k + 1 := ⟨fuel - 1, by omega⟩
  rw [evalRevset]
  unfold evalName
  split
  · exact nofun
  · cases env.revparse n <;> exact nofun

theorem ends_all {es : List Expr} (h : ∀ e ∈ es, Ends env e) :
    ∃ N, ∀ fuel, N ≤ fuel → ∀ d, ∀ e ∈ es, Fine (evalRevset env fuel d e) := by
  induction es with
  | nil => exact ⟨0, fun _ _ _ _ h => by cases h⟩
  | cons e es ih =>
    obtain ⟨N, h1⟩ := h e (by simp)
    obtain ⟨M, h2⟩ := ih fun e he => h e (by simp [he])
    refine ⟨max N M, fun fuel hf d e' he => ?_⟩
    rcases List.mem_cons.1 he with rfl | he
    · exact h1 d fuel (by omega)
    · exact h2 fuel (by omega) d e' he

theorem ends_call {f : Text} {es : List Expr} (h : ∀ e ∈ es, Ends env e)
    (ha : f ∉ builtinNames → ∀ template body, env.aliasOf f = some template → parseRevset template = some body →
      Ends env (body.replaceNames (aliasArgs es))) : Ends env (.call f es) := by
  obtain ⟨N, h⟩ := ends_all h
  rcases ofName_cases (n := f) with ⟨b, hb, _⟩ | ⟨hb, hf⟩
  · refine ⟨N + 1, fun d fuel hN => ?_⟩
    obtain ⟨k, rfl⟩ : ∃ k, fuel = k + 1 := ⟨fuel - 1, by omega⟩
    rw [evalRevset, evalFn, hb]
    exact Fine.map (fine_evalBuiltin (h k (by omega)) d b f) _
  · cases ht : env.aliasOf f with
    | none =>
      refine ⟨1, fun d fuel hN => ?_⟩
      obtain ⟨k, rfl⟩ : ∃ k, fuel = k + 1 := ⟨fuel - 1, by omega⟩
      rw [evalRevset, evalFn, hb, ht]; exact nofun
    | some template =>
      cases hp : parseRevset template with
      | none =>
        refine ⟨1, fun d fuel hN => ?_⟩
        obtain ⟨k, rfl⟩ : ∃ k, fuel = k + 1 := ⟨fuel - 1, by omega⟩
        rw [evalRevset, evalFn, hb, ht]
        simp only [hp]; exact nofun
      | some body =>
        obtain ⟨M, hM⟩ := ha hf _ _ ht hp
        refine ⟨M + 1, fun d fuel hN => ?_⟩
        obtain ⟨k, rfl⟩ : ∃ k, fuel = k + 1 := ⟨fuel - 1, by omega⟩
        rw [evalRevset, evalFn, hb, ht]
        simp only [hp]
        exact (hM d k (by omega)).map _

mutual
/-- If aliases of smaller rank end for arguments which end, then so do expressions which use only such aliases. -/
theorem ends_subst {rank : Text → Nat} {R : Nat} {args : List Expr} (hargs : ∀ a ∈ args, Ends env a)
    (ih : ∀ f es, f ∉ builtinNames → rank f < R → (∀ e ∈ es, Ends env e) → Ends env (.call f es)) :
    ∀ e : Expr, (∀ g, Calls e g → g ∉ builtinNames → rank g < R) → Ends env (e.replaceNames (aliasArgs args))
  | .name n, _ => by
    rw [Expr.replaceNames]
    split
    · next e he =>
      obtain ⟨i, _, hi⟩ := (get?_aliasArgs args n e).1 he
      exact hargs e (List.mem_of_getElem? hi)
    · exact ends_name n
  | .call f es, h => by
    rw [Expr.replaceNames]
    have hes := ends_substList hargs ih es fun e he g hg => h g (.inside he hg)
    by_cases hf : f ∈ builtinNames
    · exact ends_call hes fun hf' => absurd hf hf'
    · exact ih f _ hf (h f .here hf) hes
theorem ends_substList {rank : Text → Nat} {R : Nat} {args : List Expr} (hargs : ∀ a ∈ args, Ends env a)
    (ih : ∀ f es, f ∉ builtinNames → rank f < R → (∀ e ∈ es, Ends env e) → Ends env (.call f es)) :
    ∀ es : List Expr, (∀ e ∈ es, ∀ g, Calls e g → g ∉ builtinNames → rank g < R) →
      ∀ e ∈ Expr.replaceNamesList (aliasArgs args) es, Ends env e
  | [], _ => by rw [Expr.replaceNamesList]; exact nofun
  | e :: es, h => by
    rw [Expr.replaceNamesList]
    intro x hx
    rcases List.mem_cons.1 hx with rfl | hx
    · exact ends_subst hargs ih e (h e (by simp))
    · exact ends_substList hargs ih es (fun e he => h e (by simp [he])) x hx
end

theorem ends_alias {rank : Text → Nat} (hnr : NoRecursion env rank) : ∀ (R : Nat) (f : Text) (es : List Expr),
    f ∉ builtinNames → rank f < R → (∀ e ∈ es, Ends env e) → Ends env (.call f es) := by
  intro R
  induction R with
  | zero => intro f es _ h; omega
  | succ R ih =>
    intro f es hf hR hes
    refine ends_call hes fun _ template body ht hp => ?_
    refine ends_subst (rank := rank) (R := R) hes (fun g es' hg hgR hes' => ih g es' hg hgR hes') body ?_
    intro g hg hgb
    have := hnr f template body hf ht hp g hg hgb
    omega

mutual
theorem ends_of_noRecursion {rank : Text → Nat} (hnr : NoRecursion env rank) : ∀ e : Expr, Ends env e
  | .name n => ends_name n
  | .call f es => by
    have hes := ends_of_noRecursionList hnr es
    by_cases hf : f ∈ builtinNames
    · exact ends_call hes fun hf' => absurd hf hf'
    · exact ends_alias hnr (rank f + 1) f es hf (by omega) hes
theorem ends_of_noRecursionList {rank : Text → Nat} (hnr : NoRecursion env rank) :
    ∀ es : List Expr, ∀ e ∈ es, Ends env e
  | [] => nofun
  | e :: es => by
    intro x hx
    rcases List.mem_cons.1 hx with hx | hx
    · rw [hx]; exact ends_of_noRecursion hnr e
    · exact ends_of_noRecursionList hnr es x hx
end

/-- C38: if no alias uses itself, the evaluation of every expression ends, with a value or an error. -/
theorem eval_terminates {rank : Text → Nat} (hnr : NoRecursion env rank) (e : Expr) :
    ∃ N, ∀ d fuel, N ≤ fuel → evalRevset env fuel d e ≠ .error .stackOverflow :=
  ends_of_noRecursion hnr e

/-- C38: the condition is needed: an alias which calls itself never ends, and has no value. -/
theorem recursive_alias_never_ends (h : env.aliasOf t!"loop" = some t!"loop()") (fuel : Nat) (d : Dag) :
    evalRevset env fuel d (.call t!"loop" []) = .error .stackOverflow := by
  induction fuel with
  | zero => rfl
  | succ fuel ih =>
    have h1 : Builtin.ofName t!"loop" = none := by decide
    have h2 : parseRevset t!"loop()" = some (.call t!"loop" []) := by decide +kernel
    have h3 : (Expr.call t!"loop" []).replaceNames (aliasArgs []) = .call t!"loop" [] := by
      rw [Expr.replaceNames, Expr.replaceNamesList]
    rw [evalRevset, evalFn, h1, h]
    simp only [h2]
    rw [h3, ih]
    rfl

/-- C38: an alias with the name of a function which exists anyway is never used, without any message. -/
theorem alias_of_builtin_ignored (f : Text) (hf : f ∈ builtinNames) (a : Option Text) (fuel : Nat) (d : Dag)
    (e : Expr) : evalRevset { env with aliasOf := fun g => if g = f then a else env.aliasOf g } fuel d e =
      evalRevset env fuel d e := by
  have key : ∀ fuel, evalRevset { env with aliasOf := fun g => if g = f then a else env.aliasOf g } fuel =
      evalRevset env fuel := by
    intro fuel
    induction fuel with
    | zero => rfl
    | succ fuel ih =>
      funext d e
      cases e with
      | name n => rfl
      | call g args =>
        rw [evalRevset, evalRevset, ih]
        congr 1
        unfold evalFn
        split
        · next b _ => cases b <;> rfl
        · next hg =>
          have : g ≠ f := by
            rintro rfl
            rcases ofName_cases (n := g) with ⟨b, hb, _⟩ | ⟨_, h⟩
            · rw [hb] at hg; cases hg
            · exact h hf
          simp only [if_neg this]
  rw [key]

/-! ### resolving the revsets of the command line -/

/-- C38: the sets which are returned for the texts are what the texts stand for, in order; with `--hidden` nothing
counts as hidden. -/
theorem resolve_exact {mb : Text} {log : List Event} (hr : env.replayer = Replayer.fromEvents mb log)
    (hg : WFGraph d.graph) (showHidden : Bool) (texts : List Text) (sets : List (Oid → Prop)) :
    (∃ fuel ls, resolveCommits env fuel d showHidden texts = .ok ls ∧ sets = ls.map fun l o => o ∈ l) ↔
      List.Forall₂ (Resolves env (if showHidden then { d with obsoleteCommits := [] } else d)) texts sets := by
  unfold resolveCommits
  have hd : (if showHidden then d.clearObsoleteCommits else d) =
      if showHidden then { d with obsoleteCommits := [] } else d := rfl
  rw [hd]
  have hg' : WFGraph (if showHidden then { d with obsoleteCommits := [] } else d).graph := by
    split <;> exact hg
  generalize (if showHidden then { d with obsoleteCommits := [] } else d) = d' at hg'
  have sound : ∀ fuel s l, resolveOne env fuel d' s = .ok l → Resolves env d' s (fun o => o ∈ l) := by
    intro fuel s l h
    unfold resolveOne at h
    cases hp : env.revparse s with
    | some c =>
      rw [hp] at h; cases h
      have := Resolves.commit (d := d') hp
      simpa using this
    | none =>
      rw [hp] at h
      simp only at h
      cases hs : parseRevset s with
      | none => rw [hs] at h; cases h
      | some e =>
        rw [hs] at h
        simp only at h
        cases he : evalRevset env fuel d' e with
        | error e => rw [he] at h; cases h
        | ok l' =>
          rw [he] at h; cases h
          obtain ⟨ts, h1, h2⟩ := (parse_exact _ _).1 hs
          exact .value hp h1 h2 (eval_sound hr fuel d' e _ hg' he)
  have complete : ∀ s S, Resolves env d' s S →
      ∃ N, ∀ fuel, N ≤ fuel → ∃ l, resolveOne env fuel d' s = .ok l ∧ S = fun o => o ∈ l := by
    intro s S h
    cases h with
    | commit h => exact ⟨0, fun fuel _ => ⟨_, by rw [resolveOne, h], by simp⟩⟩
    | value h h1 h2 h3 =>
      obtain ⟨N, hN⟩ := eval_complete hr h3 hg'
      refine ⟨N, fun fuel hf => ?_⟩
      obtain ⟨l, h4, h5⟩ := hN fuel hf
      refine ⟨l, ?_, h5⟩
      rw [resolveOne, h]
      simp only [(parse_exact _ _).2 ⟨_, h1, h2⟩, h4]
      rfl
  constructor
  · rintro ⟨fuel, ls, h, rfl⟩
    induction texts generalizing ls with
    | nil =>
      cases h
      exact .nil
    | cons s texts ih =>
      rw [List.mapM_cons] at h
      cases h1 : resolveOne env fuel d' s with
      | error e => rw [h1] at h; cases h
      | ok l =>
        rw [h1] at h
        cases h2 : texts.mapM (resolveOne env fuel d') with
        | error e => rw [h2] at h; cases h
        | ok ls' =>
          rw [h2] at h; cases h
          exact .cons (sound fuel s l h1) (ih ls' h2)
  · intro h
    have : ∃ N, ∀ fuel, N ≤ fuel → ∃ ls, texts.mapM (resolveOne env fuel d') = .ok ls ∧
        sets = ls.map fun l o => o ∈ l := by
      induction h with
      | nil => exact ⟨0, fun _ _ => ⟨[], rfl, rfl⟩⟩
      | cons h _ ih =>
        obtain ⟨N, h1⟩ := complete _ _ h
        obtain ⟨M, h2⟩ := ih
        refine ⟨max N M, fun fuel hf => ?_⟩
        obtain ⟨l, h3, h4⟩ := h1 fuel (by omega)
        obtain ⟨ls, h5, h6⟩ := h2 fuel (by omega)
        refine ⟨l :: ls, ?_, by rw [h4, h6]; rfl⟩
        rw [List.mapM_cons, h3]
        show (do let __x ← List.mapM (resolveOne env fuel d') _; pure (l :: __x)) = _
        rw [h5]
        rfl
    obtain ⟨N, h⟩ := this
    exact ⟨N, h N (Nat.le_refl _)⟩

/-! ### the default revset of the smartlog -/

theorem _root_.Verif.Spec.Value.congr {e : Expr} {S T : Oid → Prop} (h : Value env d e S) (hST : ∀ o, S o ↔ T o) :
    Value env d e T := by
  have : S = T := funext fun o => propext (hST o)
  rw [← this]; exact h

/-- C38: without configuration the smartlog shows the draft commits, the branches and `HEAD`. -/
theorem smartlog_default_exact (hg : WFGraph d.graph) (hhead : ∀ o, env.headOid = some o ↔ o ∈ d.headCommit)
    (hknown : ∀ o, o ∈ d.headCommit ∨ o ∈ d.mainBranchCommit ∨ o ∈ d.branchCommits → o ∈ d.graph.nodes) :
    ∃ e, parseRevset smartlogDefaultRevset = some e ∧
      Value env d e (fun o => DraftIn d o ∨ o ∈ d.branchCommits ∨ o ∈ d.headCommit) := by
  refine ⟨.call t!"union" [.call t!"union" [.call t!"only" [.call t!"union" [.call t!"union" [.call t!"draft" [],
    .call t!"branches" []], .name t!"@"], .call t!"main" []], .call t!"branches" []], .name t!"@"],
    by decide +kernel, ?_⟩
  have hv : ∀ o, o ∈ d.headCommit ∨ o ∈ d.mainBranchCommit ∨ o ∈ d.branchCommits → VisibleIn d o :=
    fun o h => ⟨hknown o h, o, .inr h, .refl⟩
  have h1 : Value env d (.call t!"draft" []) (DraftIn d) := by
    have := Value.call (env := env) (Result.draft (d := d))
    have e : (fun o => DraftIn d o ∧ VisibleIn d o) = DraftIn d :=
      funext fun o => propext ⟨fun h => h.1, fun h => ⟨h, h.1⟩⟩
    rw [e] at this; exact this
  have h2 : Value env d (.call t!"branches" []) (fun o => o ∈ d.branchCommits) := by
    have := Value.call (env := env) (Result.branches (d := d))
    have e : (fun o => o ∈ d.branchCommits ∧ VisibleIn d o) = fun o => o ∈ d.branchCommits :=
      funext fun o => propext ⟨fun h => h.1, fun h => ⟨h, hv o (.inr (.inr h))⟩⟩
    rw [e] at this; exact this
  have h3 : Value env d (.call t!"main" []) (fun o => o ∈ d.mainBranchCommit) := by
    have := Value.call (env := env) (Result.main (d := d))
    have e : (fun o => o ∈ d.mainBranchCommit ∧ VisibleIn d o) = fun o => o ∈ d.mainBranchCommit :=
      funext fun o => propext ⟨fun h => h.1, fun h => ⟨h, hv o (.inr (.inl h))⟩⟩
    rw [e] at this; exact this
  have h4 : Value env d (.name t!"@") (fun o => o ∈ d.headCommit) := by
    have := Value.head (env := env) (d := d) (n := t!"@") (.inr rfl)
    have e : (fun o => env.headOid = some o) = fun o => o ∈ d.headCommit := funext fun o => propext (hhead o)
    rw [e] at this; exact this
  have h5 := Value.call (.union (.call (.union (.call (.only (.call (.union (.call (.union h1 h2)) h4)) h3)) h2)) h4)
  refine h5.congr fun o => Iff.symm ⟨?_, ?_⟩
  · rintro (h | h | h)
    · refine ⟨.inl ⟨.inl ⟨⟨⟨o, ⟨.inl ⟨.inl h, h.1⟩, h.1⟩, .refl⟩, ?_⟩, h.1⟩, h.1⟩, h.1⟩
      exact fun m hm ha => h.2 ⟨m, hm, ha⟩
    · have := hv o (.inr (.inr h))
      exact ⟨.inl ⟨.inr h, this⟩, this⟩
    · exact ⟨.inr h, hv o (.inl h)⟩
  · rintro ⟨⟨⟨⟨_, hn⟩, hvis⟩ | h, _⟩ | h, _⟩
    · exact .inl ⟨hvis, fun ⟨m, hm, ha⟩ => hn m hm ha⟩
    · exact .inr (.inl h)
    · exact .inr (.inr h)

/-! ### examples -/

/-- `B` and `C` were made on top of the main branch at `A`, then `C` was hidden. -/
def exRevsetLog : List Event := [.commit 1 (.id 1) oidB, .commit 2 (.id 2) oidC, .obsolete 3 (.id 3) oidC]

def exRevsetDag : Dag := openDag lineGraph t!"refs/heads/main" exRevsetLog 3 lineRefs

def exRevsetEnv : RevsetEnv where
  headOid := some oidA
  revparse n := AMap.get? [(t!"aa", oidA), (t!"bb", oidB), (t!"cc", oidC)] n
  aliasOf n := AMap.get? [(t!"minus", t!"$2 - $1"), (t!"loop", t!"loop()"), (t!"draft", t!"all()"), (t!"top", t!"heads(minus($1, all()))")] n
  info o := ⟨some (if o = oidB then t!"fix: b\n" else t!"other\n"), some t!"me", none, some 5, none, none, none, [some t!"x"],
    1, some 1, if o = oidB then some [⟨t!"make", 0, some 2⟩, ⟨t!"lint", 1, none⟩] else none⟩
  branchNames o := if o = oidA then [t!"refs/heads/main"] else []
  latestTestCommand := some t!"make"
  glob _ := none
  regex _ := none
  date _ := some 7
  replayer := Replayer.fromEvents t!"refs/heads/main" exRevsetLog

theorem wf_exRevsetDag : WFGraph exRevsetDag.graph := wf_lineGraph

/-- The result of a text as a list, for the examples. -/
def resultOf (s : Text) : Option (List Oid) :=
  match resolveOne exRevsetEnv 20 exRevsetDag s with
  | .ok l => some l
  | .error _ => none

/-- Hidden commits can be named, but are not returned by calls; a draft commit; patterns; test results. -/
example : resultOf t!"cc" = some [oidC] ∧ resultOf t!"cc | bb" = some [oidB] ∧ resultOf t!"draft()" = some [oidB] ∧
    resultOf t!"message('fix:')" = some [oidB] ∧ resultOf t!"message('exact:fix: b')" = some [oidB] ∧
    resultOf t!"author.date('before:x')" = some [oidB, oidA] ∧ resultOf t!"branches(mai)" = some [oidA] ∧
    resultOf t!"tests.fixable()" = some [oidB] ∧ resultOf t!"tests.failed('exact:lint')" = some [oidB] ∧
    resultOf t!"bb~" = some [oidA] ∧ resultOf t!"exactly(all(), 2)" = some [oidB, oidA] ∧
    resultOf t!"exactly(all(), 3)" = none := by
  decide +kernel

/-- Arguments are replaced at the same time, and in nested aliases. -/
example : resultOf t!"minus(aa, all())" = some [oidB] ∧ resultOf t!"top(bb)" = some [oidA] := by
  decide +kernel

/-- The hypotheses of `eval_exact` hold here, and the value of `cc | bb` is what the rules say. -/
example : Value exRevsetEnv exRevsetDag (.call t!"union" [.name t!"cc", .name t!"bb"])
    (fun o => (o = oidC ∨ o = oidB) ∧ VisibleIn exRevsetDag o) :=
  .call (.union (.commit (by decide) (by decide) (by decide)) (.commit (by decide) (by decide) (by decide)))

example : exRevsetEnv.replayer = Replayer.fromEvents t!"refs/heads/main" exRevsetLog := rfl

/-- The recursive alias of `recursive_alias_never_ends`, and the alias of `alias_of_builtin_ignored`. -/
example : exRevsetEnv.aliasOf t!"loop" = some t!"loop()" ∧ t!"draft" ∈ builtinNames ∧
    exRevsetEnv.aliasOf t!"draft" = some t!"all()" := by decide

/-- Aliases without recursion: `top` uses `minus`. -/
def exAliasEnv : RevsetEnv :=
  { exRevsetEnv with aliasOf := fun n => AMap.get? [(t!"minus", t!"$2 - $1"), (t!"top", t!"heads(minus($1, all()))")] n }

theorem calls_cases {f g : Text} {es : List Expr} (h : Calls (.call f es) g) : g = f ∨ ∃ e ∈ es, Calls e g := by
  cases h with
  | here => exact .inl rfl
  | inside he h => exact .inr ⟨_, he, h⟩

theorem not_calls_name {n g : Text} : ¬ Calls (.name n) g := nofun

example : NoRecursion exAliasEnv (fun n => if n = t!"top" then 1 else 0) := by
  intro f template body hf ha hp g hc hg
  simp only [exAliasEnv, AMap.get?_cons, AMap.get?_nil] at ha
  split at ha
  · cases ha
    have : parseRevset t!"$2 - $1" = some (.call t!"difference" [.name t!"$2", .name t!"$1"]) := by decide +kernel
    rw [this] at hp
    cases hp
    rcases calls_cases hc with rfl | ⟨e, he, h⟩
    · exact absurd (by decide) hg
    · simp only [List.mem_cons, List.not_mem_nil, or_false] at he
      rcases he with rfl | rfl <;> exact absurd h not_calls_name
  · split at ha
    · next hft =>
      cases ha
      have : parseRevset t!"heads(minus($1, all()))" =
          some (.call t!"heads" [.call t!"minus" [.name t!"$1", .call t!"all" []]]) := by decide +kernel
      rw [this] at hp
      cases hp
      rcases calls_cases hc with rfl | ⟨e, he, h⟩
      · exact absurd (by decide) hg
      · simp only [List.mem_cons, List.not_mem_nil, or_false] at he
        subst he
        rcases calls_cases h with rfl | ⟨e, he, h⟩
        · subst hft; decide
        · simp only [List.mem_cons, List.not_mem_nil, or_false] at he
          rcases he with rfl | rfl
          · exact absurd h not_calls_name
          · rcases calls_cases h with rfl | ⟨e, he, h⟩
            · exact absurd (by decide) hg
            · cases he
    · cases ha

/-- The smartlog of the example: `B` is draft, `A` is the main branch and `HEAD`. -/
example : resultOf smartlogDefaultRevset = some [oidB, oidA, oidA] := by decide +kernel

end Verif.Props
