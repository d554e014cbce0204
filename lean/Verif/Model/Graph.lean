import Verif.Model.Core

/-!
# Graph export and name scopes

Models `Tape.create_graph` (`tape.py:681-686`) with `Block.create_graph` (`block.py:402-425`), the name scopes (`tape.py:561-586`, `627-636`), the
TensorFlow graph (`tape.py:588-625`) and `_valid_tf_scope_name` (`tape.py:536-547`).

`id(x)` is a `Node`: different objects that are alive have different ids, and everything on a tape is alive.  A block is identified by its place on the
tape in the first part, by a number in the others.  Colours, positions and shapes of the nodes are left out.
-/

namespace Pyadjoint
namespace Graph

variable {V T A : Type*}

/-- `id` of a block variable or of a block.  `block.py:402-425`. -/
inductive Node | var (v : BV) | block (i : Nat)
  deriving DecidableEq

/-- `networkx.DiGraph`: nodes and edges are sets, in order of insertion; the attribute `label`.
Used in `tape.py:682-686`, `block.py:402-425`. -/
structure DiGraph where
  nodes : List Node := []
  edges : List (Node × Node) := []
  label : Node → Option String := fun _ => none

/-- The node is added if it is not there.  Part of networkx's `add_edge` at `block.py:405, 413`. -/
def DiGraph.addNode (G : DiGraph) (n : Node) : DiGraph := if n ∈ G.nodes then G else { G with nodes := G.nodes ++ [n] }

/-- `G.add_edge(a, b)`: adds the nodes and the edge, if they are not there.  networkx, at `block.py:405, 413`. -/
def DiGraph.addEdge (G : DiGraph) (a b : Node) : DiGraph :=
  let G := (G.addNode a).addNode b
  if (a, b) ∈ G.edges then G else { G with edges := G.edges ++ [(a, b)] }

/-- `G.nodes[n]["label"] = s`.  `block.py:407, 415, 420`. -/
def DiGraph.setLabel (G : DiGraph) (n : Node) (s : String) : DiGraph := { G with label := fun m => if m = n then some s else G.label m }

/-- `if "label" not in G.nodes[n]` (`block.py:406`, `414`). -/
def DiGraph.labelOnce (G : DiGraph) (n : Node) (s : String) : DiGraph := if (G.label n).isNone then G.setLabel n s else G

/-- The edges of the dependencies (`block.py:404-409`). -/
def depEdges (str : Node → String) (i : Nat) (deps : List BV) (G : DiGraph) : DiGraph :=
  deps.foldl (fun G d => (G.addEdge (.var d) (.block i)).labelOnce (.var d) (str (.var d))) G

/-- The edges of the outputs (`block.py:412-417`). -/
def outEdges (str : Node → String) (i : Nat) (outs : List BV) (G : DiGraph) : DiGraph :=
  outs.foldl (fun G o => (G.addEdge (.block i) (.var o)).labelOnce (.var o) (str (.var o))) G

/-- `Block.create_graph` (`block.py:402-425`).  `none` is the `KeyError` of line 420 if the node of the block does not exist.  `str` is
`escape(str(x))`. -/
def blockGraph (str : Node → String) (b : Block V T A) (i : Nat) (G : DiGraph) : Option DiGraph :=
  let G := outEdges str i b.outs (depEdges str i b.deps G)
  if Node.block i ∈ G.nodes then some (G.setLabel (.block i) (str (.block i))) else none

/-- The loop of `Tape.create_graph` (`tape.py:684-685`), from position `i`. -/
def createLoop (str : Node → String) : Blocks V T A → Nat → DiGraph → Option DiGraph
  | [], _, G => some G
  | b :: bs, i, G =>
    match blockGraph str b i G with
    | none => none
    | some G => createLoop str bs (i + 1) G

/-- `Tape.create_graph` (`tape.py:681-686`). -/
def createGraph (str : Node → String) (bs : Blocks V T A) : Option DiGraph := createLoop str bs 0 {}

/-! ## Name scopes -/

/-- The blocks on the tape, `_tf_registered_blocks` and `_tf_added_blocks`.  A block is a number.  `tape.py:190-208, 561-586`. -/
structure Scopes where
  tape : List Nat := []
  registered : List (Option String × List Nat) := []
  added : List Nat := []

/-- The loop of `_tf_register_blocks` (`tape.py:564-568`): the new list, and the blocks added. -/
def registerLoop : List Nat → List Nat → List Nat → List Nat × List Nat
  | [], added, lst => (added, lst)
  | b :: bs, added, lst => if b ∈ added then registerLoop bs added lst else registerLoop bs (added ++ [b]) (lst ++ [b])

/-- `Tape._tf_register_blocks` (`tape.py:561-569`). -/
def Scopes.register (s : Scopes) (name : Option String) : Scopes :=
  let r := registerLoop s.tape s.added []
  { s with registered := s.registered ++ [(name, r.2)], added := r.1 }

/-- `Tape._tf_rebuild_registered_blocks` (`tape.py:571-586`). -/
def Scopes.rebuild (s : Scopes) : Scopes :=
  let kept := s.registered.map fun p => (p.1, p.2.filter (· ∈ s.tape))
  { s with registered := kept.filter fun p => ¬ p.2.isEmpty, added := kept.flatMap (·.2) }

/-- What a program does: record a block; enter and leave a scope; leave a scope by an exception (`name_scope` has no `finally`, `tape.py:634-636`, so
that line 636 is not run); the tape is reduced (`optimize`); the graph is built (`_tf_add_blocks`, lines 593-594). -/
inductive ScopeOp
  | block (b : Nat)
  | enter
  | exit (name : Option String)
  | raised
  | optimize (keep : Nat → Bool)
  | visualise

/-- One of them (`tape.py:561-594, 628-636`). -/
def Scopes.step (s : Scopes) : ScopeOp → Scopes
  | .block b => { s with tape := s.tape ++ [b] }
  | .enter => s.register none
  | .exit name => s.register name
  | .raised => s
  | .optimize keep => { s with tape := s.tape.filter keep }
  | .visualise => (s.register none).rebuild

/-- A program.  (Not in the code.) -/
def Scopes.run (s : Scopes) (l : List ScopeOp) : Scopes := l.foldl Scopes.step s

/-! ## The TensorFlow graph -/

/-- A tensor: the graph it belongs to, and its number there.  `tf.reset_default_graph()` (`tape.py:659`) starts a new graph. -/
structure Tensor where
  graph : Nat
  idx : Nat
  deriving DecidableEq

/-- An operation of the graph: what it stands for, the scope it is in, and its inputs.  `tf.py_func` at `tape.py:609-625`. -/
structure TfOp where
  node : Node
  scope : Option String
  inputs : List Tensor
  deriving DecidableEq

/-- `_tf_tensors`, the number of the current graph, and the operations in it.  `tape.py:190-208, 588-625, 659`. -/
structure Tf where
  tensors : Node → Option Tensor := fun _ => none
  graph : Nat := 0
  ops : List TfOp := []

/-- `tf.py_func(..., inputs, ...)` and the entry in `_tf_tensors`. -/
def Tf.add (g : Tf) (n : Node) (scope : Option String) (inputs : List Tensor) : Tf :=
  { g with tensors := fun m => if m = n then some ⟨g.graph, g.ops.length⟩ else g.tensors m, ops := g.ops ++ [⟨n, scope, inputs⟩] }

/-- The dependencies of a block (`tape.py:604-612`): the tensors that are there are used. -/
def Tf.deps (scope : Option String) : List BV → List Tensor → Tf → List Tensor × Tf
  | [], ts, g => (ts, g)
  | d :: ds, ts, g =>
    match g.tensors (.var d) with
    | some t => Tf.deps scope ds (ts ++ [t]) g
    | none => Tf.deps scope ds (ts ++ [⟨g.graph, g.ops.length⟩]) (g.add (.var d) scope [])

/-- The outputs of a block (`tape.py:621-625`). -/
def Tf.outs (scope : Option String) (t : Tensor) : List BV → Tf → Tf
  | [], g => g
  | o :: os, g => Tf.outs scope t os (g.add (.var o) scope [t])

/-- One block (`tape.py:600-625`). -/
def Tf.block (scope : Option String) (b : Block V T A) (i : Nat) (g : Tf) : Tf :=
  match Tf.deps scope b.deps [] g with
  | (ts, g) => Tf.outs scope ⟨g.graph, g.ops.length⟩ b.outs (g.add (.block i) scope ts)

/-- `_tf_add_blocks` from line 596 on: the registered blocks in the order they are registered.  A registered block is given by its scope, its number and
itself.  (The names TensorFlow gives are left out.) `tape.py:596-625`. -/
def Tf.addBlocks : List (Option String × Nat × Block V T A) → Tf → Tf
  | [], g => g
  | (scope, i, b) :: l, g => Tf.addBlocks l (Tf.block scope b i g)

/-- `visualise` (`tape.py:658-660`): a new graph; `_tf_tensors` stays. -/
def Tf.visualise (l : List (Option String × Nat × Block V T A)) (g : Tf) : Tf :=
  Tf.addBlocks l { g with graph := g.graph + 1, ops := [] }

/-! ## Names -/

/-- `[A-Za-z0-9_.\-]`.  `tape.py:539`. -/
def validChar (c : Char) : Bool :=
  ('A' ≤ c && c ≤ 'Z') || ('a' ≤ c && c ≤ 'z') || ('0' ≤ c && c ≤ '9') || c = '_' || c = '.' || c = '-'

/-- `_valid_tf_scope_name` (`tape.py:536-547`). -/
def validName : List Char → List Char → List Char
  | [], acc => acc
  | c :: cs, acc =>
    if validChar c then validName cs (acc ++ [c])
    else if acc ≠ [] ∧ acc.getLast? ≠ some '_' then validName cs (acc ++ ['_'])
    else validName cs acc

end Graph
end Pyadjoint
