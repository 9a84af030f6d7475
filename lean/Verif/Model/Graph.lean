import Verif.Model.Core
import Mathlib.Data.Finset.Union

/-! The part of `networkx` used by `combine_groupings`, and that function (ma_sam_plus.py:27-47). -/
namespace Model
variable {α : Type} [DecidableEq α]

/-- `nx.Graph`: nodes in insertion order and edges. -/
structure Graph (α : Type) where
  nodes : List α
  edges : List (α × α)

/-- `add_node`. -/
def Graph.addNode (G : Graph α) (v : α) : Graph α := if v ∈ G.nodes then G else { G with nodes := G.nodes ++ [v] }

/-- `add_edge`: missing end points are added. -/
def Graph.addEdge (G : Graph α) (e : α × α) : Graph α :=
  let G := (G.addNode e.1).addNode e.2
  { G with edges := G.edges ++ [e] }

/-- The neighbours of a node. -/
def Graph.nbrs (G : Graph α) (v : α) : Finset α :=
  (G.edges.filterMap fun e => if e.1 = v then some e.2 else if e.2 = v then some e.1 else none).toFinset

/-- One level of the breadth-first search of `networkx`: all neighbours of the nodes seen so far. -/
def Graph.grow (G : Graph α) (s : Finset α) : Finset α := s ∪ s.biUnion G.nbrs

/-- The breadth-first search from a node; as many levels as there are nodes are enough. -/
def Graph.plainBfs (G : Graph α) (v : α) : Finset α := G.grow^[G.nodes.length] {v}

/-- `nx.connected_components`: a search from each node not seen before. -/
def Graph.components (G : Graph α) : List (Finset α) :=
  (G.nodes.foldl (fun st v => if v ∈ st.1 then st else (st.1 ∪ G.plainBfs v, st.2 ++ [G.plainBfs v])) ((∅ : Finset α), ([] : List (Finset α)))).2

/-- `itertools.combinations(xs, 2)`. -/
def pairs : List α → List (α × α)
  | [] => []
  | x :: xs => xs.map (x, ·) ++ pairs xs

/-- ma_sam_plus.py:34-39: one group; `next(iter(…))` of an empty one is a `StopIteration`. -/
def Graph.addGroup (G : Graph α) (g : List α) : Except Err (Graph α) :=
  match g with
  | [] => .error .stopIteration
  | [v] => .ok (G.addNode v)
  | g => .ok ((pairs g).foldl Graph.addEdge G)

/-- ma_sam_plus.py:27-47 `combine_groupings` without the plot. A group is a Python set, given by its elements in the order of
iteration. -/
def combineGroupings (groups : List (List α)) : Except Err (List (Finset α)) := do
  let G ← groups.foldlM Graph.addGroup ⟨[], []⟩
  .ok G.components

end Model
