import Verif.Model.Basic

/-!
Model of the bisection library: scm-bisect/src/search.rs and scm-bisect/src/basic.rs.

Sets (`HashSet`) are lists of which only membership matters; the order in which a set is traversed
only decides which of several errors is reported. Errors of the graph itself (`Graph::Error`) are
not modelled.
-/

namespace Verif.Bisect

variable {N : Type} [DecidableEq N]

/-- basic.rs:20-73 `BasicSourceControlGraph`: the two required functions. -/
structure Graph (N : Type) where
  ancestors : N → List N
  descendants : N → List N

/-- basic.rs:121-128 `is_ancestor` of the blanket implementation. -/
def Graph.isAncestor (g : Graph N) (ancestor descendant : N) : Bool :=
  (g.ancestors descendant).contains ancestor

/-- basic.rs:32-41 `ancestors_all`. -/
def Graph.ancestorsAll (g : Graph N) (nodes : List N) : List N := nodes.flatMap g.ancestors

/-- basic.rs:105-114 `descendants_all`. -/
def Graph.descendantsAll (g : Graph N) (nodes : List N) : List N := nodes.flatMap g.descendants

/-- basic.rs:45-69 `ancestor_heads`, which is `simplify_success_bounds` (130-135). -/
def Graph.ancestorHeads (g : Graph N) (nodes : List N) : List N :=
  nodes.filter fun node => (nodes.filter fun other => node ≠ other).all
    fun other => !(g.ancestors other).contains node

/-- basic.rs:77-101 `descendant_roots`, which is `simplify_failure_bounds` (137-142). -/
def Graph.descendantRoots (g : Graph N) (nodes : List N) : List N :=
  nodes.filter fun node => (nodes.filter fun other => node ≠ other).all
    fun other => !(g.descendants other).contains node

/-- search.rs:63-80 `Status`. -/
inductive Status where
  | untested
  | success
  | failure
  | indeterminate
deriving DecidableEq, Repr

/-- search.rs:208 `IndexMap<G::Node, Status>`: a map which remembers the order of insertion. -/
abbrev Statuses (N : Type) := List (N × Status)

/-- `IndexMap::get`. -/
def Statuses.get? (m : Statuses N) (n : N) : Option Status :=
  (m.find? fun e => e.1 = n).map Prod.snd

/-- `IndexMap::insert`: an existing key keeps its place, a new one is put at the end. -/
def Statuses.insert : Statuses N → N → Status → Statuses N
  | [], n, s => [(n, s)]
  | e :: m, n, s => if e.1 = n then (n, s) :: m else e :: Statuses.insert m n s

/-- search.rs:205-209 `Search`. -/
structure Search (N : Type) where
  graph : Graph N
  nodes : Statuses N

/-- search.rs:218-226 `Search::new`. -/
def Search.new (g : Graph N) (nodes : List N) : Search N :=
  ⟨g, nodes.foldl (fun m n => Statuses.insert m n .untested) []⟩

/-- The nodes with a status, as used in `success_bounds` and `failure_bounds`. -/
def Statuses.withStatus (m : Statuses N) (s : Status) : List N :=
  m.filterMap fun e => if e.2 = s then some e.1 else none

/-- search.rs:230-242 `success_bounds`. -/
def Search.successBounds (s : Search N) : List N :=
  s.graph.ancestorHeads (s.nodes.withStatus .success)

/-- search.rs:247-259 `failure_bounds`. -/
def Search.failureBounds (s : Search N) : List N :=
  s.graph.descendantRoots (s.nodes.withStatus .failure)

/-- search.rs:84-92 `Bounds`. -/
structure Bounds (N : Type) where
  success : List N
  failure : List N

/-- search.rs:108-126 `Strategy::midpoint`; errors of the strategy are not modelled. -/
abbrev Strategy (N : Type) := Graph N → Bounds N → Statuses N → Option N

/-- basic.rs:147-186 `BasicStrategyKind`. -/
inductive StrategyKind where
  | linear
  | linearReverse
  | binary
deriving DecidableEq, Repr

/-- basic.rs:211-226: the nodes which are left to search. -/
def nodesToSearch (g : Graph N) (b : Bounds N) (m : Statuses N) : List N :=
  (m.withStatus .untested).filter fun n =>
    !(g.ancestorsAll b.success).contains n && !(g.descendantsAll b.failure).contains n

/-- basic.rs:201-240 `BasicStrategy::midpoint`. (`swap_remove(i)` returns the element at `i`; the
rest of the vector is dropped.) -/
def basicMidpoint (kind : StrategyKind) : Strategy N := fun g b m =>
  let nodes := nodesToSearch g b m
  match kind with
  | .linear => nodes.head?
  | .linearReverse => nodes.getLast?
  | .binary =>
    let middle := nodes.length / 2
    if middle < nodes.length then nodes[middle]? else none

/-- search.rs:274-278 `State`. -/
structure SpecState (N : Type) where
  bounds : Bounds N
  statuses : Statuses N

/-- search.rs:330-347: speculate that the node fails. -/
def SpecState.failed (g : Graph N) (st : SpecState N) (node : N) : SpecState N :=
  { bounds := { success := st.bounds.success,
                failure := g.descendantRoots (st.bounds.failure.insert node) }
    statuses := Statuses.insert st.statuses node .failure }

/-- search.rs:349-366: speculate that the node succeeds. -/
def SpecState.succeeded (g : Graph N) (st : SpecState N) (node : N) : SpecState N :=
  { bounds := { success := g.ancestorHeads (st.bounds.success.insert node),
                failure := st.bounds.failure }
    statuses := Statuses.insert st.statuses node .success }

/-- search.rs:280-285 `Iter`, without graph and strategy. -/
structure Iter (N : Type) where
  seen : List N
  states : List (SpecState N)

/-- What one round of the loop in `Iter::next` does. -/
inductive StepOut (N : Type) where
  /-- No state is left: `next` returns `None`. -/
  | finished
  /-- `SearchError::AlreadySearchedMidpoint`. -/
  | already (node : N) (status : Status)
  /-- The loop goes on. -/
  | continue (it : Iter N)
  /-- `next` returns the node. -/
  | item (node : N) (it : Iter N)

/-- search.rs:293-372: one round of the loop in `Iter::next`. -/
def iterStep (g : Graph N) (strategy : Strategy N) (it : Iter N) : StepOut N :=
  match it.states with
  | [] => .finished
  | st :: rest =>
    match strategy g st.bounds st.statuses with
    | none => .continue { it with states := rest }
    | some node =>
      if st.bounds.success.any (fun s => g.isAncestor node s) then .already node .success
      else if st.bounds.failure.any (fun f => g.isAncestor f node) then .already node .failure
      else
        let states := rest ++ [st.failed g node, st.succeeded g node]
        if it.seen.contains node then .continue { it with states }
        else .item node { seen := node :: it.seen, states }

/-- What `Iter::next` returns. -/
inductive NextOut (N : Type) where
  | none
  | error (node : N) (status : Status)
  | some (node : N) (it : Iter N)

/-- search.rs:290-372 `Iter::next`, with at most `fuel` rounds. -/
def iterNext (g : Graph N) (strategy : Strategy N) : Nat → Iter N → Option (NextOut N)
  | 0, _ => none
  | fuel + 1, it =>
    match iterStep g strategy it with
    | .finished => some .none
    | .already n s => some (.error n s)
    | .continue it => iterNext g strategy fuel it
    | .item n it => some (.some n it)

/-- search.rs:143-155 `into_eager`: all the proposals, or the first error. -/
def iterAll (g : Graph N) (strategy : Strategy N) :
    Nat → Iter N → Option (Except (N × Status) (List N))
  | 0, _ => none
  | fuel + 1, it =>
    match iterStep g strategy it with
    | .finished => some (.ok [])
    | .already n s => some (.error (n, s))
    | .continue it => iterAll g strategy fuel it
    | .item n it =>
      match iterAll g strategy fuel it with
      | none => none
      | some (.error e) => some (.error e)
      | some (.ok ns) => some (.ok (n :: ns))

/-- The bounds which `search` computes (search.rs:272-273). -/
def Search.bounds (s : Search N) : Bounds N := ⟨s.successBounds, s.failureBounds⟩

/-- search.rs:376-389: the iterator which `search` returns. -/
def Search.iter (s : Search N) : Iter N := ⟨[], [⟨s.bounds, s.nodes⟩]⟩

/-- search.rs:180-201 `NotifyError`. -/
inductive NotifyError (N : Type) where
  | inconsistent (ancestor : N) (ancestorStatus : Status) (descendant : N) (descendantStatus : Status)
  | illegal (node : N) (from_ to_ : Status)
deriving DecidableEq

/-- search.rs:400-458 `notify`. -/
def Search.notify (s : Search N) (node : N) (status : Status) : Except (NotifyError N) (Search N) :=
  let illegal : Option Status :=
    match s.nodes.get? node with
    | some .success => if Status.success ≠ status then some .success else none
    | some .failure => if Status.failure ≠ status then some .failure else none
    | _ => none
  match illegal with
  | some old => .error (.illegal node old status)
  | none =>
    let conflict : Option (NotifyError N) :=
      match status with
      | .untested => none
      | .indeterminate => none
      | .success => (s.failureBounds.find? fun f => s.graph.isAncestor f node).map
          fun f => .inconsistent f .failure node .success
      | .failure => (s.successBounds.find? fun x => s.graph.isAncestor node x).map
          fun x => .inconsistent node .failure x .success
    match conflict with
    | some e => .error e
    | none => .ok { s with nodes := Statuses.insert s.nodes node status }

end Verif.Bisect
