import Verif.Lemmas.Bisect
import Mathlib.Data.List.Induction
import Mathlib.Data.List.Perm.Subperm

/-! C39-C41: bisection. -/

namespace Verif.Props

open Verif.Bisect

variable {N : Type} [DecidableEq N]

/-! ## C39 -/

/-- C39: exactly which reports are accepted: not a change of a passing or failing verdict, and not
in contradiction to what is known. An accepted report changes the status of that node only. -/
theorem notify_ok_iff (s s' : Search N) (hg : s.graph.Lawful) (hm : s.nodes.NoDup) (n : N)
    (st : Status) :
    s.notify n st = .ok s' ↔
      (s.reported n .success → st = .success) ∧ (s.reported n .failure → st = .failure) ∧
      (st = .success → ∀ f, s.reported f .failure → ¬ s.graph.Le f n) ∧
      (st = .failure → ∀ x, s.reported x .success → ¬ s.graph.Le n x) ∧
      s' = { s with nodes := Statuses.insert s.nodes n st } := by
  have hf : (∃ f, s.failureBounds.find? (fun f => s.graph.isAncestor f n) = some f) ↔
      ∃ f, s.reported f .failure ∧ s.graph.Le f n := by
    have := roots_cover hg (s.nodes.withStatus .failure) n
    simp only [mem_withStatus hm] at this
    unfold Search.reported
    rw [← this, ← Option.isSome_iff_exists, List.find?_isSome]
    simp only [isAncestor_iff]
    rfl
  have hs : (∃ x, s.successBounds.find? (fun x => s.graph.isAncestor n x) = some x) ↔
      ∃ x, s.reported x .success ∧ s.graph.Le n x := by
    have := heads_cover hg (s.nodes.withStatus .success) n
    simp only [mem_withStatus hm] at this
    unfold Search.reported
    rw [← this, ← Option.isSome_iff_exists, List.find?_isSome]
    simp only [isAncestor_iff]
    rfl
  have hf' : s.failureBounds.find? (fun f => s.graph.isAncestor f n) = none ↔
      ∀ f, s.reported f .failure → ¬ s.graph.Le f n := by
    rw [Option.eq_none_iff_forall_ne_some]
    constructor
    · intro h f h1 h2
      obtain ⟨x, hx⟩ := hf.2 ⟨f, h1, h2⟩; exact h x hx
    · intro h x hx
      obtain ⟨f, h1, h2⟩ := hf.1 ⟨x, hx⟩; exact h f h1 h2
  have hs' : s.successBounds.find? (fun x => s.graph.isAncestor n x) = none ↔
      ∀ x, s.reported x .success → ¬ s.graph.Le n x := by
    rw [Option.eq_none_iff_forall_ne_some]
    constructor
    · intro h f h1 h2
      obtain ⟨x, hx⟩ := hs.2 ⟨f, h1, h2⟩; exact h x hx
    · intro h x hx
      obtain ⟨f, h1, h2⟩ := hs.1 ⟨x, hx⟩; exact h f h1 h2
  unfold Search.notify
  have hrs : s.reported n .success ↔ s.nodes.get? n = some .success := Iff.rfl
  have hrf : s.reported n .failure ↔ s.nodes.get? n = some .failure := Iff.rfl
  rw [hrs, hrf, ← hf', ← hs']
  generalize List.find? (fun f => s.graph.isAncestor f n) s.failureBounds = F
  generalize List.find? (fun x => s.graph.isAncestor n x) s.successBounds = S
  rcases hgn : s.nodes.get? n with _ | (_ | _ | _ | _) <;> cases st <;> cases F <;> cases S <;>
    simp <;> exact ⟨fun h => h.symm, fun h => h.symm⟩

/-- What holds after any reports, accepted or not. -/
theorem reports_invariant (g : Graph N) (hg : g.Lawful) (nodes : List N) (reports : List (N × Status)) :
    (reports.foldl Search.report (Search.new g nodes)).graph = g ∧
    (reports.foldl Search.report (Search.new g nodes)).nodes.NoDup ∧
    (reports.foldl Search.report (Search.new g nodes)).Consistent := by
  suffices H : ∀ s : Search N, s.graph = g → s.nodes.NoDup → s.Consistent →
      (reports.foldl Search.report s).graph = g ∧ (reports.foldl Search.report s).nodes.NoDup ∧
      (reports.foldl Search.report s).Consistent by
    refine H _ rfl (new_spec g nodes).1 ?_
    intro f x hf
    unfold Search.reported at hf
    rw [(new_spec g nodes).2] at hf
    split at hf <;> simp at hf
  induction reports with
  | nil => intro s h1 h2 h3; exact ⟨h1, h2, h3⟩
  | cons r reports ih =>
    intro s h1 h2 h3
    rw [List.foldl_cons]
    have hg' : s.graph.Lawful := h1 ▸ hg
    cases hn : s.notify r.1 r.2 with
    | error e =>
      have : s.report r = s := by unfold Search.report; rw [hn]
      rw [this]; exact ih s h1 h2 h3
    | ok s' =>
      have : s.report r = s' := by unfold Search.report; rw [hn]
      rw [this]
      obtain ⟨a1, a2, a3, a4, rfl⟩ := (notify_ok_iff s s' hg' h2 r.1 r.2).1 hn
      refine ih _ h1 (noDup_insert h2 _ _) ?_
      intro f x hf hx
      unfold Search.reported at hf hx
      simp only [get?_insert] at hf hx
      split at hf
      · rename_i e1
        split at hx
        · rename_i e2
          simp only [Option.some.injEq] at hf hx
          rw [hf] at hx; simp at hx
        · simp only [Option.some.injEq] at hf
          exact e1 ▸ a4 hf x hx
      · split at hx
        · rename_i e2
          simp only [Option.some.injEq] at hx
          exact e2 ▸ a3 hx f hf
        · exact h3 f x hf hx

/-- C39: after any sequence of reports, consistent or not, no node reported failing is an ancestor
of one reported passing. -/
theorem bisect_never_contradictory (g : Graph N) (hg : g.Lawful) (nodes : List N)
    (reports : List (N × Status)) :
    (reports.foldl Search.report (Search.new g nodes)).Consistent :=
  (reports_invariant g hg nodes reports).2.2

/-- C39: a verdict is never changed by later reports. -/
theorem verdict_stays (g : Graph N) (hg : g.Lawful) (nodes : List N)
    (reports more : List (N × Status)) (n : N) (v : Status) (hv : v = .success ∨ v = .failure)
    (h : (reports.foldl Search.report (Search.new g nodes)).reported n v) :
    ((reports ++ more).foldl Search.report (Search.new g nodes)).reported n v := by
  induction more using List.reverseRecOn with
  | nil => simpa using h
  | append_singleton more r ih =>
    rw [← List.append_assoc, List.foldl_append, List.foldl_cons, List.foldl_nil]
    obtain ⟨i1, i2, _⟩ := reports_invariant g hg nodes (reports ++ more)
    generalize (reports ++ more).foldl Search.report (Search.new g nodes) = s at *
    unfold Search.report
    cases hn : s.notify r.1 r.2 with
    | error e => exact ih
    | ok s' =>
      obtain ⟨a1, a2, _, _, rfl⟩ := (notify_ok_iff s s' (i1 ▸ hg) i2 r.1 r.2).1 hn
      unfold Search.reported at *
      simp only [get?_insert]
      split
      · rename_i e
        rcases hv with rfl | rfl
        · rw [a1 (e ▸ ih)]
        · rw [a2 (e ▸ ih)]
      · exact ih

/-- A graph for examples: a diamond. -/
inductive Diamond where
  | bottom
  | left
  | right
  | top
deriving DecidableEq

def diamond : Graph Diamond :=
  ⟨fun | .bottom => [.bottom] | .left => [.bottom, .left] | .right => [.bottom, .right]
       | .top => [.bottom, .left, .right, .top],
   fun | .bottom => [.bottom, .left, .right, .top] | .left => [.left, .top]
       | .right => [.right, .top] | .top => [.top]⟩

theorem diamond_lawful : diamond.Lawful := by
  constructor
  · intro a; cases a <;> simp [Graph.Le, diamond]
  · intro a b c; cases a <;> cases b <;> cases c <;> simp [Graph.Le, diamond]
  · intro a b; cases a <;> cases b <;> simp [Graph.Le, diamond]
  · intro a b; cases a <;> cases b <;> simp [Graph.Le, diamond]

/-- Non-vacuity: reports of which the third and fourth are rejected. -/
example : ([(Diamond.left, Status.success), (.top, .failure), (.bottom, .failure), (.top, .success)].foldl
    Search.report (Search.new diamond [.bottom, .left, .right, .top])).nodes =
    [(.bottom, .untested), (.left, .success), (.right, .untested), (.top, .failure)] := by decide

/-! ## C40 -/

/-- Weight of a set of speculations: decreases with every round. -/
noncomputable def weight (g : Graph N) (U : List N) (sts : List (SpecState N)) : Nat :=
  haveI := Classical.propDecidable
  (sts.map fun st => 3 ^ (U.filter fun n => decide (st.bounds.Open g n)).length).sum

theorem length_filter_lt {U : List N} {p q : N → Bool} {m : N} (hm : m ∈ U) (hp : p m = true)
    (hq : q m = false) (hsub : ∀ n, q n = true → p n = true) :
    (U.filter q).length < (U.filter p).length := by
  have hle : ∀ l : List N, (l.filter q).length ≤ (l.filter p).length := by
    intro l
    induction l with
    | nil => simp
    | cons y l ih =>
      simp only [List.filter_cons]
      by_cases h1 : q y = true
      · simp [h1, hsub y h1, ih]
      · by_cases h2 : p y = true <;> simp [h1, h2] <;> omega
  induction U with
  | nil => simp at hm
  | cons y U ih =>
    simp only [List.filter_cons]
    rcases List.mem_cons.1 hm with rfl | hm
    · have := hle U
      simp [hp, hq]; omega
    · have := ih hm
      by_cases h1 : q y = true
      · simp [h1, hsub y h1, this]
      · by_cases h2 : p y = true <;> simp [h1, h2] <;> omega

/-- What the strategy must satisfy for the speculation to be finite: its midpoints lie in a
finite set, under an invariant of the speculated states. -/
structure Bounded (g : Graph N) (strategy : Strategy N) (U : List N) (Inv : SpecState N → Prop) : Prop where
  mem : ∀ st, Inv st → ∀ m, strategy g st.bounds st.statuses = some m → m ∈ U
  failed : ∀ st, Inv st → ∀ m, strategy g st.bounds st.statuses = some m → Inv (st.failed g m)
  succeeded : ∀ st, Inv st → ∀ m, strategy g st.bounds st.statuses = some m → Inv (st.succeeded g m)

theorem weight_cons (g : Graph N) (U : List N) (st : SpecState N) (sts : List (SpecState N)) :
    weight g U (st :: sts) = weight g U [st] + weight g U sts := by simp [weight]

theorem weight_append (g : Graph N) (U : List N) (a b : List (SpecState N)) :
    weight g U (a ++ b) = weight g U a + weight g U b := by simp [weight]

theorem weight_pos (g : Graph N) (U : List N) (st : SpecState N) : 0 < weight g U [st] := by
  unfold weight
  have := Nat.pow_pos (n := (U.filter fun n => haveI := Classical.propDecidable; decide (st.bounds.Open g n)).length)
    (a := 3) (by decide)
  simpa using this

theorem weight_speculate {g : Graph N} (hg : g.Lawful) (U : List N) (st : SpecState N) (m : N)
    (hm : m ∈ U) (ho : st.bounds.Open g m) :
    weight g U [st.failed g m, st.succeeded g m] < weight g U [st] := by
  classical
  unfold weight
  simp only [List.map_cons, List.map_nil, List.sum_cons, List.sum_nil, Nat.add_zero]
  have h1 : (U.filter fun n => decide ((st.failed g m).bounds.Open g n)).length <
      (U.filter fun n => decide (st.bounds.Open g n)).length := by
    apply length_filter_lt hm
    · simpa using ho
    · rw [decide_eq_false_iff_not]
      intro h
      exact ((open_failure hg _ _ _).1 h).2 (hg.refl m)
    · intro n hn
      rw [decide_eq_true_eq] at hn ⊢
      exact ((open_failure hg _ _ _).1 hn).1
  have h2 : (U.filter fun n => decide ((st.succeeded g m).bounds.Open g n)).length <
      (U.filter fun n => decide (st.bounds.Open g n)).length := by
    apply length_filter_lt hm
    · simpa using ho
    · rw [decide_eq_false_iff_not]
      intro h
      exact ((open_success hg _ _ _).1 h).2 (hg.refl m)
    · intro n hn
      rw [decide_eq_true_eq] at hn ⊢
      exact ((open_success hg _ _ _).1 hn).1
  generalize (U.filter fun n => decide ((st.failed g m).bounds.Open g n)).length = a at *
  generalize (U.filter fun n => decide ((st.succeeded g m).bounds.Open g n)).length = b at *
  generalize (U.filter fun n => decide (st.bounds.Open g n)).length = c at *
  obtain ⟨c, rfl⟩ : ∃ d, c = d + 1 := ⟨c - 1, by omega⟩
  have e1 := Nat.pow_le_pow_right (n := 3) (by decide) (show a ≤ c by omega)
  have e2 := Nat.pow_le_pow_right (n := 3) (by decide) (show b ≤ c by omega)
  have e3 := Nat.pow_pos (n := c) (a := 3) (by decide)
  rw [Nat.pow_succ]
  omega

/-- One round: what it can do. -/
inductive StepSpec (g : Graph N) (strategy : Strategy N) (it : Iter N) : StepOut N → Prop where
  | finished : it.states = [] → StepSpec g strategy it .finished
  | none {st rest} : it.states = st :: rest → strategy g st.bounds st.statuses = none →
      StepSpec g strategy it (.continue { it with states := rest })
  | already {st rest m s} : it.states = st :: rest → strategy g st.bounds st.statuses = some m →
      ¬ st.bounds.Open g m → StepSpec g strategy it (.already m s)
  | seen {st rest m} : it.states = st :: rest → strategy g st.bounds st.statuses = some m →
      st.bounds.Open g m → m ∈ it.seen →
      StepSpec g strategy it (.continue { it with states := rest ++ [st.failed g m, st.succeeded g m] })
  | item {st rest m} : it.states = st :: rest → strategy g st.bounds st.statuses = some m →
      st.bounds.Open g m → m ∉ it.seen →
      StepSpec g strategy it (.item m ⟨m :: it.seen, rest ++ [st.failed g m, st.succeeded g m]⟩)

theorem iterStep_spec (g : Graph N) (strategy : Strategy N) (it : Iter N) :
    StepSpec g strategy it (iterStep g strategy it) := by
  unfold iterStep
  split
  · rename_i h; exact .finished h
  · rename_i st rest h
    split
    · rename_i hs; exact .none h hs
    · rename_i m hs
      have hsucc : (∀ x ∈ st.bounds.success, ¬ g.Le m x) ↔
          ¬ (st.bounds.success.any fun s => g.isAncestor m s) = true := by
        simp only [List.any_eq_true, isAncestor_iff, not_exists, not_and]
      have hfail : (∀ x ∈ st.bounds.failure, ¬ g.Le x m) ↔
          ¬ (st.bounds.failure.any fun f => g.isAncestor f m) = true := by
        simp only [List.any_eq_true, isAncestor_iff, not_exists, not_and]
      split
      · rename_i h1
        exact .already h hs fun ho => (hsucc.1 ho.1) h1
      · rename_i h1
        split
        · rename_i h2
          exact .already h hs fun ho => (hfail.1 ho.2) h2
        · rename_i h2
          have ho : st.bounds.Open g m := ⟨hsucc.2 h1, hfail.2 h2⟩
          simp only
          split
          · rename_i h3
            exact .seen h hs ho (by simpa using h3)
          · rename_i h3
            exact .item h hs ho (by simpa using h3)

/-- The enumeration of the proposals takes at most as many rounds as the weight says. -/
theorem enumeration_within {g : Graph N} (hg : g.Lawful) {strategy : Strategy N} {U : List N}
    {Inv : SpecState N → Prop} (hb : Bounded g strategy U Inv) (k : Nat) :
    ∀ it : Iter N, (∀ st ∈ it.states, Inv st) → weight g U it.states < k →
      (iterAll g strategy k it).isSome := by
  induction k with
  | zero => intro it _ h; omega
  | succ k ih =>
    intro it hi hw
    unfold iterAll
    have hs := iterStep_spec g strategy it
    generalize hso : iterStep g strategy it = out at hs
    cases hs with
    | finished => rfl
    | already => rfl
    | none h1 h2 =>
      rename_i st rest
      rw [h1] at hi hw
      apply ih
      · intro st' h; exact hi st' (by simp [h])
      · rw [weight_cons] at hw
        have := weight_pos g U st
        simp only; omega
    | seen h1 h2 h3 h4 =>
      rename_i st rest m
      rw [h1] at hi hw
      have hst := hi st (by simp)
      apply ih
      · intro st' h
        simp only [List.mem_append, List.mem_cons, List.not_mem_nil, or_false] at h
        rcases h with h | rfl | rfl
        · exact hi st' (by simp [h])
        · exact hb.failed st hst m h2
        · exact hb.succeeded st hst m h2
      · have := weight_speculate hg U st m (hb.mem st hst m h2) h3
        rw [weight_cons] at hw
        simp only [weight_append]; omega
    | item h1 h2 h3 h4 =>
      rename_i st rest m
      rw [h1] at hi hw
      have hst := hi st (by simp)
      have := ih ⟨m :: it.seen, rest ++ [st.failed g m, st.succeeded g m]⟩ (by
        intro st' h
        simp only [List.mem_append, List.mem_cons, List.not_mem_nil, or_false] at h
        rcases h with h | rfl | rfl
        · exact hi st' (by simp [h])
        · exact hb.failed st hst m h2
        · exact hb.succeeded st hst m h2) (by
        have := weight_speculate hg U st m (hb.mem st hst m h2) h3
        rw [weight_cons] at hw
        simp only [weight_append]; omega)
      simp only
      obtain ⟨r, hr⟩ := Option.isSome_iff_exists.1 this
      rw [hr]
      cases r <;> rfl

/-- C40: enumerating all speculative proposals terminates, for every strategy whose midpoints lie
in a finite set. -/
theorem enumeration_terminates {g : Graph N} (hg : g.Lawful) {strategy : Strategy N} {U : List N}
    {Inv : SpecState N → Prop} (hb : Bounded g strategy U Inv) (it : Iter N)
    (hi : ∀ st ∈ it.states, Inv st) : ∃ fuel, (iterAll g strategy fuel it).isSome :=
  ⟨weight g U it.states + 1, enumeration_within hg hb _ it hi (by omega)⟩

/-- C40: the same for a strategy that always chooses from a fixed finite set. -/
theorem enumeration_terminates_finite {g : Graph N} (hg : g.Lawful) (strategy : Strategy N) (U : List N)
    (hU : ∀ b m n, strategy g b m = some n → n ∈ U) (s : Search N) :
    ∃ fuel, (iterAll g strategy fuel s.iter).isSome :=
  enumeration_terminates hg (Inv := fun _ => True)
    ⟨fun _ _ m h => hU _ _ m h, fun _ _ _ _ => trivial, fun _ _ _ _ => trivial⟩ _ (fun _ _ => trivial)

/-- What holds of the states that are speculated from a search with statuses `m0`. -/
def BasicInv (g : Graph N) (b0 : Bounds N) (m0 : Statuses N) (st : SpecState N) : Prop :=
  st.statuses.NoDup ∧ (∀ n, n ∈ nodesToSearch g st.bounds st.statuses → n ∈ nodesToSearch g b0 m0)

theorem basicInv_step {g : Graph N} (hg : g.Lawful) {b0 : Bounds N} {m0 : Statuses N} {st : SpecState N}
    (h : BasicInv g b0 m0 st) (m : N) :
    BasicInv g b0 m0 (st.failed g m) ∧ BasicInv g b0 m0 (st.succeeded g m) := by
  obtain ⟨h1, h2⟩ := h
  refine ⟨⟨noDup_insert h1 _ _, fun n hn => h2 n ?_⟩, ⟨noDup_insert h1 _ _, fun n hn => h2 n ?_⟩⟩
  · rw [mem_nodesToSearch hg _ h1]
    simp only [SpecState.failed] at hn
    rw [mem_nodesToSearch hg _ (noDup_insert h1 _ _)] at hn
    obtain ⟨a, b⟩ := hn
    rw [open_failure hg] at b
    rw [get?_insert] at a
    split at a
    · simp at a
    · exact ⟨a, b.1⟩
  · rw [mem_nodesToSearch hg _ h1]
    simp only [SpecState.succeeded] at hn
    rw [mem_nodesToSearch hg _ (noDup_insert h1 _ _)] at hn
    obtain ⟨a, b⟩ := hn
    rw [open_success hg] at b
    rw [get?_insert] at a
    split at a
    · simp at a
    · exact ⟨a, b.1⟩

theorem basic_bounded {g : Graph N} (hg : g.Lawful) (kind : StrategyKind) (b0 : Bounds N)
    (m0 : Statuses N) :
    Bounded g (basicMidpoint kind) (nodesToSearch g b0 m0) (BasicInv g b0 m0) :=
  ⟨fun _ h m hm => h.2 m (basicMidpoint_mem hm), fun _ h m _ => (basicInv_step hg h m).1,
    fun _ h m _ => (basicInv_step hg h m).2⟩

/-- The proposals of the basic strategies, from any point of the enumeration on. -/
theorem iterAll_basic {g : Graph N} (hg : g.Lawful) (kind : StrategyKind) (b0 : Bounds N)
    (m0 : Statuses N) (fuel : Nat) (it : Iter N) (hi : ∀ st ∈ it.states, BasicInv g b0 m0 st)
    (r : Except (N × Status) (List N)) (h : iterAll g (basicMidpoint kind) fuel it = some r) :
    ∃ ns, r = .ok ns ∧ ns.Nodup ∧ (∀ n ∈ ns, n ∉ it.seen ∧ n ∈ nodesToSearch g b0 m0) ∧
      ∀ x, (∃ st ∈ it.states, x ∈ nodesToSearch g st.bounds st.statuses) → x ∈ it.seen ∨ x ∈ ns := by
  induction fuel generalizing it r with
  | zero => simp [iterAll] at h
  | succ k ih =>
    unfold iterAll at h
    have hs := iterStep_spec g (basicMidpoint kind) it
    generalize hso : iterStep g (basicMidpoint kind) it = out at hs h
    have hnew : ∀ (st : SpecState N) (rest : List (SpecState N)) (m : N), it.states = st :: rest →
        ∀ st' ∈ rest ++ [st.failed g m, st.succeeded g m], BasicInv g b0 m0 st' := by
      intro st rest m h1 st' h
      rw [h1] at hi
      simp only [List.mem_append, List.mem_cons, List.not_mem_nil, or_false] at h
      rcases h with h | rfl | rfl
      · exact hi st' (by simp [h])
      · exact (basicInv_step hg (hi st (by simp)) m).1
      · exact (basicInv_step hg (hi st (by simp)) m).2
    have hkeep : ∀ (st : SpecState N) (rest : List (SpecState N)) (m : N), it.states = st :: rest →
        m ∈ nodesToSearch g st.bounds st.statuses → ∀ x, x ≠ m →
        (∃ st ∈ it.states, x ∈ nodesToSearch g st.bounds st.statuses) →
        ∃ st' ∈ rest ++ [st.failed g m, st.succeeded g m], x ∈ nodesToSearch g st'.bounds st'.statuses := by
      intro st rest m h1 hm x hx ⟨st', h2, h3⟩
      rw [h1] at h2 hi
      have hnd := (hi st (by simp)).1
      rcases List.mem_cons.1 h2 with rfl | h2
      · rw [mem_nodesToSearch hg _ hnd] at h3
        by_cases hle : g.Le m x
        · refine ⟨st'.succeeded g m, by simp, ?_⟩
          simp only [SpecState.succeeded]
          rw [mem_nodesToSearch hg _ (noDup_insert hnd _ _)]
          rw [open_success hg, get?_insert, if_neg (Ne.symm hx)]
          exact ⟨h3.1, h3.2, fun h => hx (hg.antisymm _ _ h hle)⟩
        · refine ⟨st'.failed g m, by simp, ?_⟩
          simp only [SpecState.failed]
          rw [mem_nodesToSearch hg _ (noDup_insert hnd _ _)]
          rw [open_failure hg, get?_insert, if_neg (Ne.symm hx)]
          exact ⟨h3.1, h3.2, hle⟩
      · exact ⟨st', by simp [h2], h3⟩
    cases hs with
    | finished h1 =>
      cases h
      refine ⟨[], rfl, .nil, by simp, ?_⟩
      rintro x ⟨st, hst, _⟩
      rw [h1] at hst; simp at hst
    | already h1 h2 h3 =>
      rename_i st rest m s
      exfalso
      rw [h1] at hi
      have := basicMidpoint_mem h2
      rw [mem_nodesToSearch hg _ (hi st (by simp)).1] at this
      exact h3 this.2
    | none h1 h2 =>
      rename_i st rest
      obtain ⟨ns, e1, e2, e3, e4⟩ := ih { it with states := rest }
        (fun st' h => hi st' (by rw [h1]; simp [h])) r h
      refine ⟨ns, e1, e2, e3, fun x ⟨st', hst', hx⟩ => e4 x ?_⟩
      rw [h1] at hst'
      rcases List.mem_cons.1 hst' with rfl | hst'
      · rw [basicMidpoint_none.1 h2] at hx; simp at hx
      · exact ⟨st', hst', hx⟩
    | seen h1 h2 h3 h4 =>
      rename_i st rest m
      obtain ⟨ns, e1, e2, e3, e4⟩ := ih
        { it with states := rest ++ [st.failed g m, st.succeeded g m] } (hnew st rest m h1) r h
      refine ⟨ns, e1, e2, e3, fun x hx => ?_⟩
      by_cases hxm : x = m
      · exact .inl (hxm ▸ h4)
      · exact e4 x (hkeep st rest m h1 (basicMidpoint_mem h2) x hxm hx)
    | item h1 h2 h3 h4 =>
      rename_i st rest m
      simp only at h
      cases hr : iterAll g (basicMidpoint kind) k ⟨m :: it.seen, rest ++ [st.failed g m, st.succeeded g m]⟩ with
      | none => rw [hr] at h; simp at h
      | some r' =>
        obtain ⟨ns, e1, e2, e3, e4⟩ := ih _ (hnew st rest m h1) r' hr
        rw [hr, e1] at h
        cases h
        have hmem : m ∈ nodesToSearch g b0 m0 :=
          (hi st (by rw [h1]; simp)).2 m (basicMidpoint_mem h2)
        refine ⟨m :: ns, rfl, ?_, ?_, ?_⟩
        · rw [List.nodup_cons]
          exact ⟨fun hm => (e3 m hm).1 (by simp), e2⟩
        · intro n hn
          rcases List.mem_cons.1 hn with rfl | hn
          · exact ⟨h4, hmem⟩
          · obtain ⟨a, b⟩ := e3 n hn
            exact ⟨fun h => a (by simp [h]), b⟩
        · intro x hx
          by_cases hxm : x = m
          · exact .inr (by simp [hxm])
          · rcases e4 x (hkeep st rest m h1 (basicMidpoint_mem h2) x hxm hx) with h | h
            · simp only [List.mem_cons] at h
              rcases h with h | h
              · exact absurd h hxm
              · exact .inl h
            · exact .inr (by simp [h])

/-- C40: with any of the basic strategies and after any reports, the enumeration of the proposals
ends without an error, and proposes exactly the undecided nodes, each once. -/
theorem proposals_exact (g : Graph N) (hg : g.Lawful) (nodes : List N) (reports : List (N × Status))
    (kind : StrategyKind) :
    let s := reports.foldl Search.report (Search.new g nodes)
    ∃ fuel ns, iterAll g (basicMidpoint kind) fuel s.iter = some (.ok ns) ∧ ns.Nodup ∧
      ∀ n, n ∈ ns ↔ s.Undecided n := by
  obtain ⟨i1, i2, _⟩ := reports_invariant g hg nodes reports
  intro s
  have hs1 : s.graph = g := i1
  have hs2 : s.nodes.NoDup := i2
  have hinv : ∀ st ∈ s.iter.states, BasicInv g s.bounds s.nodes st := by
    intro st hst
    simp only [Search.iter, List.mem_singleton] at hst
    subst hst
    exact ⟨hs2, fun n h => h⟩
  obtain ⟨fuel, hf⟩ := enumeration_terminates hg (basic_bounded hg kind s.bounds s.nodes) s.iter hinv
  obtain ⟨r, hr⟩ := Option.isSome_iff_exists.1 hf
  obtain ⟨ns, e1, e2, e3, e4⟩ := iterAll_basic hg kind s.bounds s.nodes fuel s.iter hinv r hr
  refine ⟨fuel, ns, by rw [hr, e1], e2, fun n => ?_⟩
  rw [undecided_iff (hs1 ▸ hg) hs2, hs1]
  constructor
  · exact fun h => (e3 n h).2
  · intro h
    rcases e4 n ⟨⟨s.bounds, s.nodes⟩, by simp [Search.iter], h⟩ with h | h
    · simp [Search.iter] at h
    · exact h

/-- C40: while there is an undecided node, the search proposes one; else it is over. -/
theorem first_proposal (g : Graph N) (hg : g.Lawful) (nodes : List N) (reports : List (N × Status))
    (kind : StrategyKind) :
    let s := reports.foldl Search.report (Search.new g nodes)
    (∃ n it, iterNext g (basicMidpoint kind) 1 s.iter = some (.some n it) ∧ s.Undecided n) ∨
    ((∀ n, ¬ s.Undecided n) ∧ iterNext g (basicMidpoint kind) 2 s.iter = some .none) := by
  obtain ⟨i1, i2, _⟩ := reports_invariant g hg nodes reports
  intro s
  have hs1 : s.graph = g := i1
  have hs2 : s.nodes.NoDup := i2
  have hs := iterStep_spec g (basicMidpoint kind) s.iter
  generalize hso : iterStep g (basicMidpoint kind) s.iter = out at hs
  cases hs with
  | finished h1 => simp [Search.iter] at h1
  | already h1 h2 h3 =>
    exfalso
    simp only [Search.iter, List.cons.injEq] at h1
    obtain ⟨rfl, rfl⟩ := h1
    have := basicMidpoint_mem h2
    rw [mem_nodesToSearch hg _ hs2] at this
    exact h3 this.2
  | seen h1 h2 h3 h4 => simp [Search.iter] at h4
  | none h1 h2 =>
    right
    simp only [Search.iter, List.cons.injEq] at h1
    obtain ⟨rfl, rfl⟩ := h1
    refine ⟨fun n hn => ?_, ?_⟩
    · rw [undecided_iff (hs1 ▸ hg) hs2, hs1, basicMidpoint_none.1 h2] at hn
      simp at hn
    · rw [iterNext, hso]
      rfl
  | item h1 h2 h3 h4 =>
    rename_i st rest m
    left
    refine ⟨m, ⟨m :: s.iter.seen, rest ++ [st.failed g m, st.succeeded g m]⟩, ?_, ?_⟩
    · simp only [iterNext, hso]
    · simp only [Search.iter, List.cons.injEq] at h1
      obtain ⟨rfl, rfl⟩ := h1
      rw [undecided_iff (hs1 ▸ hg) hs2, hs1]
      exact basicMidpoint_mem h2

/-- C40: a verdict on a proposed (undecided) node is always accepted, and then the undecided nodes
are fewer: none is added, and the reported one is gone. -/
theorem report_shrinks (g : Graph N) (hg : g.Lawful) (nodes : List N) (reports : List (N × Status))
    (n : N) (v : Status) (hv : v ≠ .untested) :
    let s := reports.foldl Search.report (Search.new g nodes)
    s.Undecided n → (∃ s', s.notify n v = .ok s') ∧
      (∀ x, (s.report (n, v)).Undecided x → s.Undecided x) ∧ ¬ (s.report (n, v)).Undecided n := by
  obtain ⟨i1, i2, _⟩ := reports_invariant g hg nodes reports
  intro s hn
  have hs1 : s.graph = g := i1
  have hs2 : s.nodes.NoDup := i2
  have hnot : s.notify n v = .ok { s with nodes := Statuses.insert s.nodes n v } := by
    rw [notify_ok_iff s _ (hs1 ▸ hg) hs2]
    obtain ⟨h1, h2, h3⟩ := hn
    unfold Search.reported at *
    refine ⟨fun h => ?_, fun h => ?_, fun _ => h3, fun _ => h2, rfl⟩
    · rw [h1] at h; simp at h
    · rw [h1] at h; simp at h
  have hrep : s.report (n, v) = { s with nodes := Statuses.insert s.nodes n v } := by
    unfold Search.report; simp only [hnot]
  refine ⟨⟨_, hnot⟩, ?_, ?_⟩
  · rw [hrep]
    rintro x ⟨h1, h2, h3⟩
    unfold Search.reported at *
    simp only [get?_insert] at h1 h2 h3
    have hx : n ≠ x := by
      rintro rfl
      rw [if_pos rfl] at h1
      exact hv (Option.some.inj h1)
    rw [if_neg hx] at h1
    have hnu : s.nodes.get? n = some .untested := hn.1
    have hne : ∀ (y : N) (w : Status), w ≠ .untested → s.nodes.get? y = some w → n ≠ y := by
      rintro y w hw hy rfl
      rw [hnu] at hy; exact hw (Option.some.inj hy).symm
    refine ⟨h1, fun y hy => h2 y ?_, fun y hy => h3 y ?_⟩
    · rw [if_neg (hne y _ (by decide) hy)]; exact hy
    · rw [if_neg (hne y _ (by decide) hy)]; exact hy
  · rw [hrep]
    rintro ⟨h1, _⟩
    unfold Search.reported at h1
    simp only [get?_insert, if_true] at h1
    exact hv (Option.some.inj h1)

/-- A run: each report is a verdict on a node which is undecided at that time. -/
inductive Run : Search N → List (N × Status) → Search N → Prop where
  | nil {s} : Run s [] s
  | step {s n v rs s'} : s.Undecided n → v ≠ .untested → Run (s.report (n, v)) rs s' →
      Run s ((n, v) :: rs) s'

/-- C40: a run in which each report is on a proposed node makes at most as many reports as there
are nodes. -/
theorem run_bounded (g : Graph N) (hg : g.Lawful) (nodes : List N) (rs : List (N × Status))
    (s' : Search N) (h : Run (Search.new g nodes) rs s') : rs.length ≤ nodes.length := by
  suffices H : ∀ reports : List (N × Status),
      Run (reports.foldl Search.report (Search.new g nodes)) rs s' →
      (rs.map Prod.fst).Nodup ∧
      ∀ r ∈ rs, (reports.foldl Search.report (Search.new g nodes)).Undecided r.1 by
    obtain ⟨h1, h2⟩ := H [] h
    have hsub : rs.map Prod.fst ⊆ nodes := by
      intro x hx
      obtain ⟨r, hr, rfl⟩ := List.mem_map.1 hx
      have := (h2 r hr).1
      unfold Search.reported at this
      simp only [List.foldl_nil] at this
      rw [(new_spec g nodes).2] at this
      split at this
      · assumption
      · simp at this
    have := (h1.subperm hsub).length_le
    simpa using this
  clear h
  induction rs with
  | nil => intro _ _; simp
  | cons r rs ih =>
    intro reports h
    cases h with
    | step h1 h2 h3 =>
      rename_i n v
      obtain ⟨_, b2, b3⟩ := report_shrinks g hg nodes reports n v h2 h1
      have h3' : Run ((reports ++ [(n, v)]).foldl Search.report (Search.new g nodes)) rs s' := by
        rw [List.foldl_append]; exact h3
      obtain ⟨c1, c2⟩ := ih (reports ++ [(n, v)]) h3'
      rw [List.foldl_append] at c2
      refine ⟨?_, ?_⟩
      · rw [List.map_cons, List.nodup_cons]
        refine ⟨fun hm => ?_, c1⟩
        obtain ⟨r, hr, he⟩ := List.mem_map.1 hm
        have := c2 r hr
        rw [he] at this
        exact b3 this
      · intro r hr
        rcases List.mem_cons.1 hr with rfl | hr
        · exact h1
        · exact b2 _ (c2 r hr)

/-- Non-vacuity: the first proposal of the binary strategy on the diamond, and all of them. -/
example : iterAll diamond (basicMidpoint .binary) 20
    (Search.new diamond [Diamond.bottom, .left, .right, .top]).iter
    = some (.ok [.right, .left, .top, .bottom]) := by decide

/-! ## C41 -/

/-- The boundary is found when nothing is undecided any more and nothing is indeterminate. -/
theorem boundary_of_decided (g : Graph N) (hg : g.Lawful) (nodes : List N)
    (reports : List (N × Status)) (passes : N → Prop)
    (hmono : ∀ a b, g.Le a b → passes b → passes a)
    (htrue : ∀ r ∈ reports, (r.2 = .success → passes r.1) ∧ (r.2 = .failure → ¬ passes r.1)) :
    let s := reports.foldl Search.report (Search.new g nodes)
    (∀ n, ¬ s.Undecided n) →
    (∀ n, ¬ s.reported n .indeterminate) →
    ∀ n ∈ nodes, (passes n ↔ ∃ b ∈ s.successBounds, g.Le n b) ∧
      (¬ passes n ↔ ∃ b ∈ s.failureBounds, g.Le b n) := by
  obtain ⟨i1, i2, i3⟩ := reports_invariant g hg nodes reports
  have hkeys : ∀ n ∈ nodes, (reports.foldl Search.report (Search.new g nodes)).nodes.get? n ≠ none := by
    intro n hn
    have h0 : (Search.new g nodes).nodes.get? n ≠ none := by
      rw [(new_spec g nodes).2, if_pos hn]; simp
    clear htrue i1 i2 i3
    generalize Search.new g nodes = s0 at *
    induction reports generalizing s0 with
    | nil => exact h0
    | cons r rs ih =>
      rw [List.foldl_cons]
      apply ih
      unfold Search.report
      cases hnot : s0.notify r.1 r.2 with
      | error e => exact h0
      | ok s1 =>
        unfold Search.notify at hnot
        simp only at hnot
        repeat' split at hnot
        all_goals (try cases hnot)
        all_goals
          simp only [get?_insert]
          split
          · simp
          · exact h0
  have htruth : ∀ n, ((reports.foldl Search.report (Search.new g nodes)).reported n .success → passes n) ∧
      ((reports.foldl Search.report (Search.new g nodes)).reported n .failure → ¬ passes n) := by
    clear hkeys i1 i2 i3
    induction reports using List.reverseRecOn with
    | nil =>
      intro n
      unfold Search.reported
      simp only [List.foldl_nil, (new_spec g nodes).2]
      by_cases hn : n ∈ nodes <;> simp [hn]
    | append_singleton rs r ih =>
      intro n
      have ih := ih (fun r hr => htrue r (by simp [hr])) n
      rw [List.foldl_append, List.foldl_cons, List.foldl_nil]
      obtain ⟨j1, j2, _⟩ := reports_invariant g hg nodes rs
      have hr := htrue r (by simp)
      generalize rs.foldl Search.report (Search.new g nodes) = s at *
      unfold Search.report
      cases hn : s.notify r.1 r.2 with
      | error e => exact ih
      | ok s' =>
        obtain ⟨_, _, _, _, rfl⟩ := (notify_ok_iff s s' (j1 ▸ hg) j2 r.1 r.2).1 hn
        unfold Search.reported at *
        simp only [get?_insert]
        split
        · rename_i e
          simp only [Option.some.injEq]
          exact ⟨fun h => e ▸ hr.1 h, fun h => e ▸ hr.2 h⟩
        · exact ih
  intro s hno hind n hn
  have hs1 : s.graph = g := i1
  have hs2 : s.nodes.NoDup := i2
  have hsb : ∀ n, (∃ b ∈ s.successBounds, g.Le n b) ↔ ∃ x, s.reported x .success ∧ g.Le n x := by
    intro n
    have := heads_cover (hs1 ▸ hg) (s.nodes.withStatus .success) n
    simp only [mem_withStatus hs2] at this
    unfold Search.successBounds Search.reported
    rw [hs1] at this ⊢
    exact this
  have hfb : ∀ n, (∃ b ∈ s.failureBounds, g.Le b n) ↔ ∃ x, s.reported x .failure ∧ g.Le x n := by
    intro n
    have := roots_cover (hs1 ▸ hg) (s.nodes.withStatus .failure) n
    simp only [mem_withStatus hs2] at this
    unfold Search.failureBounds Search.reported
    rw [hs1] at this ⊢
    exact this
  have hpass : (∃ b ∈ s.successBounds, g.Le n b) → passes n := by
    rw [hsb]
    rintro ⟨x, hx, hl⟩
    exact hmono _ _ hl ((htruth x).1 hx)
  have hfail : (∃ b ∈ s.failureBounds, g.Le b n) → ¬ passes n := by
    rw [hfb]
    rintro ⟨x, hx, hl⟩ hp
    exact (htruth x).2 hx (hmono _ _ hl hp)
  have hcover : (∃ b ∈ s.successBounds, g.Le n b) ∨ ∃ b ∈ s.failureBounds, g.Le b n := by
    rw [hsb, hfb]
    cases hst : s.nodes.get? n with
    | none => exact absurd hst (hkeys n hn)
    | some st =>
      cases st with
      | success => exact .inl ⟨n, hst, hg.refl n⟩
      | failure => exact .inr ⟨n, hst, hg.refl n⟩
      | indeterminate => exact absurd hst (hind n)
      | untested =>
        by_cases h1 : ∃ x, s.reported x .success ∧ g.Le n x
        · exact .inl h1
        · by_cases h2 : ∃ x, s.reported x .failure ∧ g.Le x n
          · exact .inr h2
          · exfalso
            refine hno n ⟨hst, fun x hx hl => h1 ⟨x, hx, hs1 ▸ hl⟩, fun x hx hl => h2 ⟨x, hx, hs1 ▸ hl⟩⟩
  refine ⟨⟨fun hp => ?_, hpass⟩, ⟨fun hp => ?_, hfail⟩⟩
  · rcases hcover with h | h
    · exact h
    · exact absurd hp (hfail h)
  · rcases hcover with h | h
    · exact absurd (hpass h) hp
    · exact h

/-- C41: if passing is monotone (ancestors of passing nodes pass) and the reports are truthful,
then when the search proposes nothing more and no node is left indeterminate, the nodes implied by
the bounds are exactly the truly passing and truly failing ones. -/
theorem bisect_finds_boundary (g : Graph N) (hg : g.Lawful) (nodes : List N)
    (reports : List (N × Status)) (kind : StrategyKind) (passes : N → Prop)
    (hmono : ∀ a b, g.Le a b → passes b → passes a)
    (htrue : ∀ r ∈ reports, (r.2 = .success → passes r.1) ∧ (r.2 = .failure → ¬ passes r.1)) :
    let s := reports.foldl Search.report (Search.new g nodes)
    (∀ n it fuel, iterNext g (basicMidpoint kind) fuel s.iter ≠ some (.some n it)) →
    (∀ n, ¬ s.reported n .indeterminate) →
    ∀ n ∈ nodes, (passes n ↔ ∃ b ∈ s.successBounds, g.Le n b) ∧
      (¬ passes n ↔ ∃ b ∈ s.failureBounds, g.Le b n) := by
  intro s hend
  refine boundary_of_decided g hg nodes reports passes hmono htrue ?_
  rcases first_proposal g hg nodes reports kind with ⟨n, it, h, _⟩ | ⟨h, _⟩
  · exact absurd h (hend n it 1)
  · exact h

/-- Non-vacuity of the hypotheses: on the diamond, with `top` failing only. -/
example : (∀ a b, diamond.Le a b → b ≠ .top → a ≠ .top) ∧
    (let s := [(Diamond.left, Status.success), (.right, .success), (.top, .failure)].foldl Search.report
      (Search.new diamond [.bottom, .left, .right, .top])
     (iterNext diamond (basicMidpoint .linear) 2 s.iter matches some .none) ∧
     s.successBounds = [.left, .right] ∧ s.failureBounds = [.top]) := by
  refine ⟨?_, by decide⟩
  intro a b; cases a <;> cases b <;> simp [Graph.Le, diamond]

end Verif.Props
