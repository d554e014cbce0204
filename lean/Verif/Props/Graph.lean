import Verif.Model.Graph
import Verif.Spec.Reach
import Verif.Props.Adjoint
import Mathlib.Logic.Relation
import Mathlib.Data.List.Forall2
import Mathlib.Tactic.Set

/-!
# Graph export and name scopes (C50)
-/

namespace Pyadjoint
namespace Graph

variable {V T A : Type*}

/-! ## The exported graph -/

theorem mem_addNode (G : DiGraph) (n m : Node) : m ∈ (G.addNode n).nodes ↔ m ∈ G.nodes ∨ m = n := by
  unfold DiGraph.addNode
  split
  · rename_i h
    constructor
    · exact Or.inl
    · rintro (h' | rfl)
      · exact h'
      · exact h
  · simp

theorem addNode_edges (G : DiGraph) (n : Node) : (G.addNode n).edges = G.edges := by
  unfold DiGraph.addNode; split <;> rfl

theorem addNode_label (G : DiGraph) (n : Node) : (G.addNode n).label = G.label := by
  unfold DiGraph.addNode; split <;> rfl

theorem addNode_nodup (G : DiGraph) (n : Node) (h : G.nodes.Nodup) : (G.addNode n).nodes.Nodup := by
  unfold DiGraph.addNode
  split
  · exact h
  · rename_i hn
    exact List.nodup_append.2 ⟨h, List.nodup_singleton _, by
      intro a ha b hb; rw [List.mem_singleton] at hb; rintro rfl; exact hn (hb ▸ ha)⟩

theorem addEdge_nodes (G : DiGraph) (a b : Node) : (G.addEdge a b).nodes = ((G.addNode a).addNode b).nodes := by
  unfold DiGraph.addEdge; simp only []; split <;> rfl

theorem mem_addEdge_nodes (G : DiGraph) (a b m : Node) : m ∈ (G.addEdge a b).nodes ↔ m ∈ G.nodes ∨ m = a ∨ m = b := by
  rw [addEdge_nodes, mem_addNode, mem_addNode, or_assoc]

theorem mem_addEdge_edges (G : DiGraph) (a b : Node) (e : Node × Node) : e ∈ (G.addEdge a b).edges ↔ e ∈ G.edges ∨ e = (a, b) := by
  unfold DiGraph.addEdge
  simp only []
  split
  · rename_i h
    rw [addNode_edges, addNode_edges] at h ⊢
    constructor
    · exact Or.inl
    · rintro (h' | rfl)
      · exact h'
      · exact h
  · simp only [List.mem_append, List.mem_singleton]
    rw [addNode_edges, addNode_edges]

theorem addEdge_label (G : DiGraph) (a b : Node) : (G.addEdge a b).label = G.label := by
  unfold DiGraph.addEdge
  simp only []
  split <;> simp only [addNode_label]

theorem addEdge_nodup (G : DiGraph) (a b : Node) (hn : G.nodes.Nodup) (he : G.edges.Nodup) :
    (G.addEdge a b).nodes.Nodup ∧ (G.addEdge a b).edges.Nodup := by
  refine ⟨by rw [addEdge_nodes]; exact addNode_nodup _ _ (addNode_nodup _ _ hn), ?_⟩
  unfold DiGraph.addEdge
  simp only []
  split
  · rw [addNode_edges, addNode_edges]; exact he
  · rename_i h
    rw [addNode_edges, addNode_edges] at h
    simp only [addNode_edges]
    exact List.nodup_append.2 ⟨he, List.nodup_singleton _, by
      intro x hx y hy; rw [List.mem_singleton] at hy; rintro rfl; exact h (hy ▸ hx)⟩

theorem labelOnce_nodes (G : DiGraph) (n : Node) (s : String) : (G.labelOnce n s).nodes = G.nodes := by
  unfold DiGraph.labelOnce; split <;> rfl

theorem labelOnce_edges (G : DiGraph) (n : Node) (s : String) : (G.labelOnce n s).edges = G.edges := by
  unfold DiGraph.labelOnce; split <;> rfl

/-- What a (partial) graph is good for: no repetitions, and the labels are right. -/
structure Ok (str : Node → String) (G : DiGraph) : Prop where
  nodes : G.nodes.Nodup
  edges : G.edges.Nodup
  label : ∀ n, G.label n = none ∨ G.label n = some (str n)
  labelled : ∀ v, Node.var v ∈ G.nodes → G.label (.var v) = some (str (.var v))

theorem Ok.edge {str : Node → String} {G : DiGraph} (h : Ok str G) (a b : Node) (v : BV)
    (hv : ∀ w, (Node.var w = a ∨ Node.var w = b) → w = v) : Ok str ((G.addEdge a b).labelOnce (.var v) (str (.var v))) := by
  have hlab : ((G.addEdge a b).labelOnce (.var v) (str (.var v))).label (.var v) = some (str (.var v)) := by
    unfold DiGraph.labelOnce
    split
    · simp [DiGraph.setLabel]
    · rename_i hx
      rw [addEdge_label] at hx ⊢
      rcases h.label (.var v) with h' | h'
      · rw [h'] at hx; simp at hx
      · exact h'
  have hoth : ∀ n, n ≠ .var v → ((G.addEdge a b).labelOnce (.var v) (str (.var v))).label n = G.label n := by
    intro n hn
    unfold DiGraph.labelOnce
    split
    · show (if n = .var v then _ else (G.addEdge a b).label n) = _
      rw [if_neg hn, addEdge_label]
    · rw [addEdge_label]
  refine ⟨by rw [labelOnce_nodes]; exact (addEdge_nodup G a b h.nodes h.edges).1, by rw [labelOnce_edges]; exact (addEdge_nodup G a b h.nodes h.edges).2, ?_, ?_⟩
  · intro n
    by_cases hn : n = .var v
    · subst hn; exact Or.inr hlab
    · rw [hoth n hn]; exact h.label n
  · intro w hw
    rw [labelOnce_nodes, mem_addEdge_nodes] at hw
    by_cases hwv : w = v
    · subst hwv; exact hlab
    · rw [hoth _ (by simpa using hwv)]
      rcases hw with hw | hw
      · exact h.labelled w hw
      · exact absurd (hv w hw) hwv

theorem depEdges_spec (str : Node → String) (i : Nat) (deps : List BV) (G : DiGraph) (hG : Ok str G) :
    Ok str (depEdges str i deps G) ∧
    (∀ n, n ∈ (depEdges str i deps G).nodes ↔ n ∈ G.nodes ∨ (∃ d ∈ deps, n = .var d) ∨ (n = .block i ∧ deps ≠ [])) ∧
    ∀ e, e ∈ (depEdges str i deps G).edges ↔ e ∈ G.edges ∨ ∃ d ∈ deps, e = (.var d, .block i) := by
  induction deps generalizing G with
  | nil => exact ⟨hG, fun n => by simp [depEdges], fun e => by simp [depEdges]⟩
  | cons d deps ih =>
    have h1 := hG.edge (.var d) (.block i) d (by rintro w (h | h) <;> simp_all)
    obtain ⟨a, b, c⟩ := ih _ h1
    refine ⟨a, fun n => (b n).trans ?_, fun e => (c e).trans ?_⟩
    · rw [labelOnce_nodes, mem_addEdge_nodes]
      constructor
      · rintro ((h | h | h) | ⟨d', hd', h⟩ | ⟨h, -⟩)
        · exact Or.inl h
        · exact Or.inr (Or.inl ⟨d, List.mem_cons_self, h⟩)
        · exact Or.inr (Or.inr ⟨h, by simp⟩)
        · exact Or.inr (Or.inl ⟨d', List.mem_cons_of_mem _ hd', h⟩)
        · exact Or.inr (Or.inr ⟨h, by simp⟩)
      · rintro (h | ⟨d', hd', h⟩ | ⟨h, -⟩)
        · exact Or.inl (Or.inl h)
        · rcases List.mem_cons.1 hd' with rfl | hd'
          · exact Or.inl (Or.inr (Or.inl h))
          · exact Or.inr (Or.inl ⟨d', hd', h⟩)
        · exact Or.inl (Or.inr (Or.inr h))
    · rw [labelOnce_edges, mem_addEdge_edges]
      constructor
      · rintro ((h | h) | ⟨d', hd', h⟩)
        · exact Or.inl h
        · exact Or.inr ⟨d, List.mem_cons_self, h⟩
        · exact Or.inr ⟨d', List.mem_cons_of_mem _ hd', h⟩
      · rintro (h | ⟨d', hd', h⟩)
        · exact Or.inl (Or.inl h)
        · rcases List.mem_cons.1 hd' with rfl | hd'
          · exact Or.inl (Or.inr h)
          · exact Or.inr ⟨d', hd', h⟩

theorem outEdges_spec (str : Node → String) (i : Nat) (outs : List BV) (G : DiGraph) (hG : Ok str G) :
    Ok str (outEdges str i outs G) ∧
    (∀ n, n ∈ (outEdges str i outs G).nodes ↔ n ∈ G.nodes ∨ (∃ o ∈ outs, n = .var o) ∨ (n = .block i ∧ outs ≠ [])) ∧
    ∀ e, e ∈ (outEdges str i outs G).edges ↔ e ∈ G.edges ∨ ∃ o ∈ outs, e = (.block i, .var o) := by
  induction outs generalizing G with
  | nil => exact ⟨hG, fun n => by simp [outEdges], fun e => by simp [outEdges]⟩
  | cons d deps ih =>
    have h1 := hG.edge (.block i) (.var d) d (by rintro w (h | h) <;> simp_all)
    obtain ⟨a, b, c⟩ := ih _ h1
    refine ⟨a, fun n => (b n).trans ?_, fun e => (c e).trans ?_⟩
    · rw [labelOnce_nodes, mem_addEdge_nodes]
      constructor
      · rintro ((h | h | h) | ⟨d', hd', h⟩ | ⟨h, -⟩)
        · exact Or.inl h
        · exact Or.inr (Or.inr ⟨h, by simp⟩)
        · exact Or.inr (Or.inl ⟨d, List.mem_cons_self, h⟩)
        · exact Or.inr (Or.inl ⟨d', List.mem_cons_of_mem _ hd', h⟩)
        · exact Or.inr (Or.inr ⟨h, by simp⟩)
      · rintro (h | ⟨d', hd', h⟩ | ⟨h, -⟩)
        · exact Or.inl (Or.inl h)
        · rcases List.mem_cons.1 hd' with rfl | hd'
          · exact Or.inl (Or.inr (Or.inr h))
          · exact Or.inr (Or.inl ⟨d', hd', h⟩)
        · exact Or.inl (Or.inr (Or.inl h))
    · rw [labelOnce_edges, mem_addEdge_edges]
      constructor
      · rintro ((h | h) | ⟨d', hd', h⟩)
        · exact Or.inl h
        · exact Or.inr ⟨d, List.mem_cons_self, h⟩
        · exact Or.inr ⟨d', List.mem_cons_of_mem _ hd', h⟩
      · rintro (h | ⟨d', hd', h⟩)
        · exact Or.inl (Or.inl h)
        · rcases List.mem_cons.1 hd' with rfl | hd'
          · exact Or.inl (Or.inr h)
          · exact Or.inr ⟨d', hd', h⟩

theorem depEdges_label_block (str : Node → String) (i j : Nat) (deps : List BV) (G : DiGraph) :
    (depEdges str i deps G).label (.block j) = G.label (.block j) := by
  induction deps generalizing G with
  | nil => rfl
  | cons d deps ih =>
    refine (ih _).trans ?_
    dsimp only
    unfold DiGraph.labelOnce
    split
    · show (if Node.block j = .var d then some (str (.var d)) else (G.addEdge _ _).label _) = _
      rw [if_neg (by simp), addEdge_label]
    · rw [addEdge_label]

theorem outEdges_label_block (str : Node → String) (i j : Nat) (outs : List BV) (G : DiGraph) :
    (outEdges str i outs G).label (.block j) = G.label (.block j) := by
  induction outs generalizing G with
  | nil => rfl
  | cons d deps ih =>
    refine (ih _).trans ?_
    dsimp only
    unfold DiGraph.labelOnce
    split
    · show (if Node.block j = .var d then some (str (.var d)) else (G.addEdge _ _).label _) = _
      rw [if_neg (by simp), addEdge_label]
    · rw [addEdge_label]

theorem blockGraph_spec (str : Node → String) (b : Block V T A) (i : Nat) (G : DiGraph) (hG : Ok str G) :
    (blockGraph str b i G = none ↔ Node.block i ∉ G.nodes ∧ b.deps = [] ∧ b.outs = []) ∧
    ∀ G', blockGraph str b i G = some G' → Ok str G' ∧
      (∀ n, n ∈ G'.nodes ↔ n ∈ G.nodes ∨ (∃ v, (v ∈ b.deps ∨ v ∈ b.outs) ∧ n = .var v) ∨ n = .block i) ∧
      (∀ e, e ∈ G'.edges ↔ e ∈ G.edges ∨ (∃ d ∈ b.deps, e = (.var d, .block i)) ∨ ∃ o ∈ b.outs, e = (.block i, .var o)) ∧
      ∀ j, G'.label (.block j) = if j = i then some (str (.block i)) else G.label (.block j) := by
  obtain ⟨h1, n1, e1⟩ := depEdges_spec str i b.deps G hG
  obtain ⟨h2, n2, e2⟩ := outEdges_spec str i b.outs _ h1
  have hmem : Node.block i ∈ (outEdges str i b.outs (depEdges str i b.deps G)).nodes ↔ Node.block i ∈ G.nodes ∨ b.deps ≠ [] ∨ b.outs ≠ [] := by
    rw [n2, n1]; simp; tauto
  unfold blockGraph
  simp only []
  constructor
  · rw [ite_eq_right_iff]
    constructor
    · intro h
      by_contra hc
      have : Node.block i ∈ G.nodes ∨ b.deps ≠ [] ∨ b.outs ≠ [] := by tauto
      have := h (hmem.2 this)
      cases this
    · rintro ⟨a, b', c⟩ h
      have := hmem.1 h
      tauto
  · intro G' h
    split at h
    · rename_i hin
      cases h
      refine ⟨⟨h2.nodes, h2.edges, ?_, ?_⟩, ?_, ?_, ?_⟩
      · intro n
        show (if n = _ then _ else _) = none ∨ (if n = _ then _ else _) = _
        split
        · rename_i hn; subst hn; exact Or.inr rfl
        · exact h2.label n
      · intro v hv
        show (if Node.var v = .block i then some (str (.block i)) else (outEdges str i b.outs (depEdges str i b.deps G)).label (.var v)) = _
        rw [if_neg (by simp)]
        exact h2.labelled v hv
      · intro n
        show n ∈ (outEdges str i b.outs (depEdges str i b.deps G)).nodes ↔ _
        constructor
        · intro h
          rw [n2, n1] at h
          rcases h with (h | ⟨d, hd, h⟩ | ⟨h, -⟩) | ⟨d, hd, h⟩ | ⟨h, -⟩
          · exact Or.inl h
          · exact Or.inr (Or.inl ⟨d, Or.inl hd, h⟩)
          · exact Or.inr (Or.inr h)
          · exact Or.inr (Or.inl ⟨d, Or.inr hd, h⟩)
          · exact Or.inr (Or.inr h)
        · rintro (h | ⟨v, hv | hv, h⟩ | rfl)
          · rw [n2, n1]; exact Or.inl (Or.inl h)
          · rw [n2, n1]; exact Or.inl (Or.inr (Or.inl ⟨v, hv, h⟩))
          · rw [n2, n1]; exact Or.inr (Or.inl ⟨v, hv, h⟩)
          · exact hin
      · intro e
        show e ∈ (outEdges str i b.outs (depEdges str i b.deps G)).edges ↔ _
        rw [e2, e1, or_assoc]
      · intro j
        show (if Node.block j = .block i then _ else _) = _
        by_cases hj : j = i
        · subst hj; simp
        · rw [if_neg (by simpa using hj), if_neg hj, outEdges_label_block, depEdges_label_block]
    · cases h

/-- The nodes a tape should give, its first block being at position `i`. -/
def NodeOf (bs : Blocks V T A) (i : Nat) (n : Node) : Prop :=
  (∃ (k : Nat) (b : Block V T A), bs[k]? = some b ∧ n = .block (i + k)) ∨ ∃ v, OnTape bs v ∧ n = .var v

/-- The edges a tape should give. -/
def EdgeOf (bs : Blocks V T A) (i : Nat) (e : Node × Node) : Prop :=
  ∃ (k : Nat) (b : Block V T A), bs[k]? = some b ∧ ((∃ d ∈ b.deps, e = (.var d, .block (i + k))) ∨ ∃ o ∈ b.outs, e = (.block (i + k), .var o))

theorem nodeOf_cons (b : Block V T A) (bs : Blocks V T A) (i : Nat) (n : Node) :
    NodeOf (b :: bs) i n ↔ (∃ v, (v ∈ b.deps ∨ v ∈ b.outs) ∧ n = .var v) ∨ n = .block i ∨ NodeOf bs (i + 1) n := by
  constructor
  · rintro (⟨k, c, hk, h⟩ | ⟨v, ⟨c, hc, hv⟩, h⟩)
    · cases k with
      | zero => exact Or.inr (Or.inl h)
      | succ k => exact Or.inr (Or.inr (Or.inl ⟨k, c, hk, by rw [h]; congr 1; omega⟩))
    · rcases List.mem_cons.1 hc with rfl | hc
      · exact Or.inl ⟨v, hv, h⟩
      · exact Or.inr (Or.inr (Or.inr ⟨v, ⟨c, hc, hv⟩, h⟩))
  · rintro (⟨v, hv, h⟩ | h | ⟨k, c, hk, h⟩ | ⟨v, ⟨c, hc, hv⟩, h⟩)
    · exact Or.inr ⟨v, ⟨b, List.mem_cons_self, hv⟩, h⟩
    · exact Or.inl ⟨0, b, rfl, h⟩
    · exact Or.inl ⟨k + 1, c, hk, by rw [h]; congr 1; omega⟩
    · exact Or.inr ⟨v, ⟨c, List.mem_cons_of_mem _ hc, hv⟩, h⟩

theorem edgeOf_cons (b : Block V T A) (bs : Blocks V T A) (i : Nat) (e : Node × Node) :
    EdgeOf (b :: bs) i e ↔ ((∃ d ∈ b.deps, e = (.var d, .block i)) ∨ ∃ o ∈ b.outs, e = (.block i, .var o)) ∨ EdgeOf bs (i + 1) e := by
  constructor
  · rintro ⟨k, c, hk, h⟩
    cases k with
    | zero => cases hk; exact Or.inl h
    | succ k => exact Or.inr ⟨k, c, hk, by rwa [show i + 1 + k = i + (k + 1) by omega]⟩
  · rintro (h | ⟨k, c, hk, h⟩)
    · exact ⟨0, b, rfl, h⟩
    · exact ⟨k + 1, c, hk, by rwa [show i + 1 + k = i + (k + 1) by omega] at h⟩

theorem createLoop_spec (str : Node → String) (bs : Blocks V T A) (i : Nat) (G : DiGraph) (hG : Ok str G)
    (hi : ∀ j, Node.block j ∈ G.nodes → j < i) :
    (createLoop str bs i G = none ↔ ∃ b ∈ bs, b.deps = [] ∧ b.outs = []) ∧
    ∀ G', createLoop str bs i G = some G' → Ok str G' ∧ (∀ n, n ∈ G'.nodes ↔ n ∈ G.nodes ∨ NodeOf bs i n) ∧
      (∀ e, e ∈ G'.edges ↔ e ∈ G.edges ∨ EdgeOf bs i e) ∧
      ∀ j, (j < i → G'.label (.block j) = G.label (.block j)) ∧ (i ≤ j → j < i + bs.length → G'.label (.block j) = some (str (.block j))) := by
  induction bs generalizing i G with
  | nil =>
    refine ⟨by simp [createLoop], ?_⟩
    intro G' h
    cases h
    refine ⟨hG, fun n => ⟨Or.inl, ?_⟩, fun e => ⟨Or.inl, ?_⟩, fun j => ⟨fun _ => rfl, fun a b => by simp at b; omega⟩⟩
    · rintro (h | ⟨k, c, hk, -⟩ | ⟨v, ⟨c, hc, -⟩, -⟩)
      · exact h
      · simp at hk
      · simp at hc
    · rintro (h | ⟨k, c, hk, -⟩)
      · exact h
      · simp at hk
  | cons b bs ih =>
    obtain ⟨hn, hs⟩ := blockGraph_spec str b i G hG
    rw [createLoop]
    cases hb : blockGraph str b i G with
    | none =>
      have := hn.1 hb
      exact ⟨⟨fun _ => ⟨b, List.mem_cons_self, this.2⟩, fun _ => rfl⟩, fun G' h => by cases h⟩
    | some G1 =>
      obtain ⟨ok1, n1, e1, l1⟩ := hs G1 hb
      have hi1 : ∀ j, Node.block j ∈ G1.nodes → j < i + 1 := by
        intro j hj
        rw [n1] at hj
        rcases hj with hj | ⟨v, -, hj⟩ | hj
        · exact Nat.lt_succ_of_lt (hi j hj)
        · cases hj
        · cases hj; omega
      obtain ⟨ihn, ihs⟩ := ih (i + 1) G1 ok1 hi1
      have hne : ¬ (b.deps = [] ∧ b.outs = []) := by
        intro h
        have : blockGraph str b i G = none := hn.2 ⟨fun hm => absurd (hi i hm) (lt_irrefl i), h⟩
        rw [hb] at this; cases this
      refine ⟨ihn.trans ⟨?_, ?_⟩, ?_⟩
      · rintro ⟨c, hc, h⟩; exact ⟨c, List.mem_cons_of_mem _ hc, h⟩
      · rintro ⟨c, hc, h⟩
        rcases List.mem_cons.1 hc with rfl | hc
        · exact absurd h hne
        · exact ⟨c, hc, h⟩
      · intro G' h
        obtain ⟨a, n2, e2, l2⟩ := ihs G' h
        refine ⟨a, ?_, ?_, ?_⟩
        · intro n
          rw [n2, n1, nodeOf_cons, or_assoc, or_assoc]
        · intro e
          rw [e2, e1, edgeOf_cons, or_assoc]
        · intro j
          refine ⟨fun hj => ?_, fun hj hj' => ?_⟩
          · rw [(l2 j).1 (by omega), l1, if_neg (by omega)]
          · simp only [List.length_cons] at hj'
            by_cases hji : j = i
            · subst hji
              rw [(l2 j).1 (by omega), l1, if_pos rfl]
            · exact (l2 j).2 (by omega) (by omega)

theorem ok_empty (str : Node → String) : Ok str {} := ⟨List.nodup_nil, List.nodup_nil, fun _ => Or.inl rfl, fun v h => by cases h⟩

/-- **C50.** `create_graph` raises on exactly the tapes with a block that has neither dependencies nor outputs. -/
theorem create_graph_raises_iff (str : Node → String) (bs : Blocks V T A) :
    createGraph str bs = none ↔ ∃ b ∈ bs, b.deps = [] ∧ b.outs = [] :=
  (createLoop_spec str bs 0 {} (ok_empty str) (fun j h => by cases h)).1

/-- **C50.** The exported graph has one node per block and one per variable that occurs on the tape, one edge from each dependency to its block and one
from each block to each of its outputs, and nothing else; every node carries the text of what it stands for. -/
theorem create_graph_exact (str : Node → String) (bs : Blocks V T A) (G : DiGraph) (h : createGraph str bs = some G) :
    G.nodes.Nodup ∧ G.edges.Nodup ∧
    (∀ i, Node.block i ∈ G.nodes ↔ i < bs.length) ∧ (∀ v, Node.var v ∈ G.nodes ↔ OnTape bs v) ∧
    (∀ a b, (a, b) ∈ G.edges ↔ ∃ (i : Nat) (blk : Block V T A), bs[i]? = some blk ∧
      ((b = .block i ∧ ∃ d ∈ blk.deps, a = .var d) ∨ (a = .block i ∧ ∃ o ∈ blk.outs, b = .var o))) ∧
    ∀ n ∈ G.nodes, G.label n = some (str n) := by
  obtain ⟨ok, hn, he, hl⟩ := (createLoop_spec str bs 0 {} (ok_empty str) (fun j h => by cases h)).2 G h
  have hblk : ∀ i, Node.block i ∈ G.nodes ↔ i < bs.length := by
    intro i
    rw [hn]
    constructor
    · rintro (h | ⟨k, b, hk, h⟩ | ⟨v, -, h⟩)
      · cases h
      · rw [Nat.zero_add] at h; cases h
        exact (List.getElem?_eq_some_iff.1 hk).1
      · cases h
    · intro hi
      exact Or.inr (Or.inl ⟨i, bs[i], List.getElem?_eq_getElem hi, by rw [Nat.zero_add]⟩)
  refine ⟨ok.nodes, ok.edges, hblk, ?_, ?_, ?_⟩
  · intro v
    rw [hn]
    constructor
    · rintro (h | ⟨k, b, hk, h⟩ | ⟨w, hw, h⟩)
      · cases h
      · cases h
      · cases h; exact hw
    · intro hv
      exact Or.inr (Or.inr ⟨v, hv, rfl⟩)
  · intro a b
    rw [he]
    constructor
    · rintro (h | ⟨k, blk, hk, h⟩)
      · cases h
      · rw [Nat.zero_add] at h
        refine ⟨k, blk, hk, ?_⟩
        rcases h with ⟨d, hd, h⟩ | ⟨o, ho, h⟩
        · cases h; exact Or.inl ⟨rfl, d, hd, rfl⟩
        · cases h; exact Or.inr ⟨rfl, o, ho, rfl⟩
    · rintro ⟨k, blk, hk, h⟩
      refine Or.inr ⟨k, blk, hk, ?_⟩
      rw [Nat.zero_add]
      rcases h with ⟨rfl, d, hd, rfl⟩ | ⟨rfl, o, ho, rfl⟩
      · exact Or.inl ⟨d, hd, rfl⟩
      · exact Or.inr ⟨o, ho, rfl⟩
  · intro n hnm
    cases n with
    | var v => exact ok.labelled v hnm
    | block i => exact (hl i).2 (Nat.zero_le _) (by rw [Nat.zero_add]; exact (hblk i).1 hnm)

/-- **C50.** The paths of the exported graph are the dependencies of the computation: there is a path from one variable to another iff the second is
computed, directly or indirectly, from the first. -/
theorem create_graph_paths (str : Node → String) (bs : Blocks V T A) (G : DiGraph) (h : createGraph str bs = some G) (c v : BV) :
    Relation.ReflTransGen (fun a b => (a, b) ∈ G.edges) (.var c) (.var v) ↔ Reach bs (· = c) v := by
  obtain ⟨-, -, -, -, he, -⟩ := create_graph_exact str bs G h
  constructor
  · intro hp
    have key : ∀ n, Relation.ReflTransGen (fun a b => (a, b) ∈ G.edges) (.var c) n →
        (match n with
        | .var v => Reach bs (· = c) v
        | .block i => ∃ (b : Block V T A) (d : BV), bs[i]? = some b ∧ d ∈ b.deps ∧ Reach bs (· = c) d) := by
      intro n hn
      induction hn with
      | refl => exact Reach.base rfl
      | tail _ hbc ih =>
        obtain ⟨i, blk, hi, h⟩ := (he _ _).1 hbc
        rcases h with ⟨rfl, d, hd, rfl⟩ | ⟨rfl, o, ho, rfl⟩
        · exact ⟨blk, d, hi, hd, ih⟩
        · obtain ⟨b', d, hi', hd, hr⟩ := ih
          rw [hi] at hi'
          cases hi'
          exact Reach.step (List.mem_of_getElem? hi) hd hr ho
    exact key _ hp
  · intro hr
    induction hr with
    | base h => cases h; exact Relation.ReflTransGen.refl
    | step hb hd _ ho ih =>
      obtain ⟨i, hi⟩ := List.mem_iff_getElem?.1 hb
      exact (ih.tail ((he _ _).2 ⟨i, _, hi, Or.inl ⟨rfl, _, hd, rfl⟩⟩)).tail ((he _ _).2 ⟨i, _, hi, Or.inr ⟨rfl, _, ho, rfl⟩⟩)

/-- A tape with a repeated dependency, and its graph: five nodes, four edges. -/
example : ∃ G, createGraph (fun _ => "x") exTape = some G ∧ 0 < G.edges.length := ⟨_, rfl, by decide⟩

/-! ## Name scopes -/

/-- The blocks recorded, in order. -/
def recorded : List ScopeOp → List Nat
  | [] => []
  | .block b :: l => b :: recorded l
  | _ :: l => recorded l

theorem registerLoop_eq (P Q added lst : List Nat) (hP : ∀ b ∈ P, b ∈ added) (hQ : ∀ b ∈ Q, b ∉ added) (hnd : Q.Nodup) :
    registerLoop (P ++ Q) added lst = (added ++ Q, lst ++ Q) := by
  induction P with
  | nil =>
    simp only [List.nil_append]
    clear hP
    induction Q generalizing added lst with
    | nil => simp [registerLoop]
    | cons b Q ih =>
      rw [registerLoop, if_neg (hQ b List.mem_cons_self), ih]
      · simp
      · intro c hc hin
        rcases List.mem_append.1 hin with hin | hin
        · exact hQ c (List.mem_cons_of_mem _ hc) hin
        · rw [List.mem_singleton] at hin
          subst hin
          exact (List.nodup_cons.1 hnd).1 hc
      · exact (List.nodup_cons.1 hnd).2
  | cons b P ih =>
    rw [List.cons_append, registerLoop, if_pos (hP b List.mem_cons_self)]
    exact ih fun c hc => hP c (List.mem_cons_of_mem _ hc)

/-- The tape is `P` followed by `Q`; the blocks of `P` are registered, in this order, and none of `Q` is. -/
structure ScopeInv (s : Scopes) (R P Q : List Nat) : Prop where
  tape : s.tape = P ++ Q
  nodup : s.tape.Nodup
  kept : s.added.filter (· ∈ s.tape) = P
  fresh : ∀ b ∈ Q, b ∉ s.added
  flat : s.registered.flatMap (·.2) = s.added
  known : ∀ b, b ∈ s.added ∨ b ∈ s.tape → b ∈ R

theorem ScopeInv.sub {s : Scopes} {R P Q : List Nat} (h : ScopeInv s R P Q) : ∀ b ∈ P, b ∈ s.added := by
  intro b hb
  rw [← h.kept] at hb
  exact (List.mem_filter.1 hb).1

theorem ScopeInv.nodupQ {s : Scopes} {R P Q : List Nat} (h : ScopeInv s R P Q) : Q.Nodup := by
  have := h.nodup
  rw [h.tape] at this
  exact (List.nodup_append.1 this).2.1

theorem ScopeInv.register {s : Scopes} {R P Q : List Nat} (h : ScopeInv s R P Q) (name : Option String) :
    ScopeInv (s.register name) R (P ++ Q) [] ∧ (s.register name).registered = s.registered ++ [(name, Q)] ∧
    (s.register name).added = s.added ++ Q ∧ (s.register name).tape = s.tape := by
  have he := registerLoop_eq P Q s.added [] h.sub h.fresh h.nodupQ
  have h1 : (s.register name).registered = s.registered ++ [(name, Q)] := by
    show s.registered ++ [(name, (registerLoop s.tape s.added []).2)] = _
    rw [h.tape, he]; rfl
  have h2 : (s.register name).added = s.added ++ Q := by
    show (registerLoop s.tape s.added []).1 = _
    rw [h.tape, he]
  have h3 : (s.register name).tape = s.tape := rfl
  refine ⟨⟨by rw [h3, h.tape, List.append_nil], h.nodup, ?_, (fun b hb => by cases hb), ?_, ?_⟩, h1, h2, h3⟩
  · rw [h2, h3, List.filter_append, h.kept]
    congr 1
    rw [List.filter_eq_self]
    intro b hb
    rw [h.tape]
    simp [hb]
  · rw [h1, h2, List.flatMap_append, h.flat]
    simp
  · intro b hb
    rw [h2, h3] at hb
    rcases hb with hb | hb
    · rcases List.mem_append.1 hb with hb | hb
      · exact h.known b (Or.inl hb)
      · exact h.known b (Or.inr (by rw [h.tape]; exact List.mem_append_right _ hb))
    · exact h.known b (Or.inr hb)

theorem flatMap_filter_nonempty (l : List (Option String × List Nat)) :
    (l.filter fun p => ¬ p.2.isEmpty).flatMap (·.2) = l.flatMap (·.2) := by
  induction l with
  | nil => rfl
  | cons p l ih =>
    rcases p with ⟨n, _ | ⟨b, bs⟩⟩
    · simpa using ih
    · simpa using ih

theorem flatMap_map_filter (f : Nat → Bool) (l : List (Option String × List Nat)) :
    (l.map fun p => (p.1, p.2.filter f)).flatMap (·.2) = (l.flatMap (·.2)).filter f := by
  induction l with
  | nil => rfl
  | cons p l ih =>
    rw [List.map_cons, List.flatMap_cons, List.flatMap_cons, List.filter_append, ih]

theorem ScopeInv.rebuild {s : Scopes} {R P Q : List Nat} (h : ScopeInv s R P Q) :
    ScopeInv s.rebuild R P Q ∧ s.rebuild.added = P ∧ s.rebuild.tape = s.tape := by
  have h2 : s.rebuild.added = P := by
    show (s.registered.map fun p => (p.1, p.2.filter (· ∈ s.tape))).flatMap (·.2) = P
    rw [flatMap_map_filter, h.flat, h.kept]
  refine ⟨⟨h.tape, h.nodup, ?_, ?_, ?_, ?_⟩, h2, rfl⟩
  · rw [h2]
    show P.filter (· ∈ s.tape) = P
    rw [List.filter_eq_self]
    intro b hb
    rw [h.tape]; simp [hb]
  · intro b hb
    rw [h2]
    intro hp
    exact h.fresh b hb (h.sub b hp)
  · rw [h2]
    show ((s.registered.map fun p => (p.1, p.2.filter (· ∈ s.tape))).filter fun p => ¬ p.2.isEmpty).flatMap (·.2) = P
    rw [flatMap_filter_nonempty, flatMap_map_filter, h.flat, h.kept]
  · intro b hb
    rw [h2] at hb
    rcases hb with hb | hb
    · exact h.known b (Or.inl (h.sub b hb))
    · exact h.known b (Or.inr hb)

theorem ScopeInv.optimize {s : Scopes} {R P Q : List Nat} (h : ScopeInv s R P Q) (keep : Nat → Bool) :
    ScopeInv { s with tape := s.tape.filter keep } R (P.filter keep) (Q.filter keep) := by
  refine ⟨by rw [← List.filter_append, ← h.tape], h.nodup.filter _, ?_, fun b hb => h.fresh b (List.mem_filter.1 hb).1, h.flat, ?_⟩
  · show s.added.filter (· ∈ s.tape.filter keep) = P.filter keep
    rw [← h.kept, List.filter_filter]
    apply List.filter_congr
    intro b _
    simp [List.mem_filter, and_comm]
  · rintro b (hb | hb)
    · exact h.known b (Or.inl hb)
    · exact h.known b (Or.inr (List.mem_filter.1 hb).1)

theorem ScopeInv.block {s : Scopes} {R P Q : List Nat} (h : ScopeInv s R P Q) (b : Nat) (hb : b ∉ R) :
    ScopeInv { s with tape := s.tape ++ [b] } (R ++ [b]) P (Q ++ [b]) := by
  have hna : b ∉ s.added := fun hc => hb (h.known b (Or.inl hc))
  have hnt : b ∉ s.tape := fun hc => hb (h.known b (Or.inr hc))
  refine ⟨by rw [h.tape, List.append_assoc], ?_, ?_, ?_, h.flat, ?_⟩
  · exact List.nodup_append.2 ⟨h.nodup, List.nodup_singleton _, by
      intro x hx y hy; rw [List.mem_singleton] at hy; rintro rfl; exact hnt (hy ▸ hx)⟩
  · show s.added.filter (· ∈ s.tape ++ [b]) = P
    rw [← h.kept]
    apply List.filter_congr
    intro c hc
    have : c ≠ b := by rintro rfl; exact hna hc
    simp [this]
  · intro c hc
    rcases List.mem_append.1 hc with hc | hc
    · exact h.fresh c hc
    · rw [List.mem_singleton] at hc; subst hc; exact hna
  · rintro c (hc | hc)
    · exact List.mem_append_left _ (h.known c (Or.inl hc))
    · rcases List.mem_append.1 hc with hc | hc
      · exact List.mem_append_left _ (h.known c (Or.inr hc))
      · exact List.mem_append_right _ hc

theorem ScopeInv.run {s : Scopes} {R P Q : List Nat} (h : ScopeInv s R P Q) (l : List ScopeOp) (hnd : (R ++ recorded l).Nodup) :
    ∃ P' Q', ScopeInv (s.run l) (R ++ recorded l) P' Q' := by
  induction l generalizing s R P Q with
  | nil => exact ⟨P, Q, by simpa [recorded, Scopes.run] using h⟩
  | cons op l ih =>
    cases op with
    | block b =>
      have hb : b ∉ R := by
        intro hc
        have := (List.nodup_append.1 hnd).2.2 b hc b (by simp [recorded])
        exact this rfl
      have := ih (h.block b hb) (by simpa [recorded] using hnd)
      simpa [recorded, Scopes.run, Scopes.step] using this
    | enter => exact ih (h.register none).1 hnd
    | exit name => exact ih (h.register name).1 hnd
    | raised => exact ih h hnd
    | optimize keep => exact ih (h.optimize keep) hnd
    | visualise => exact ih (h.register none).1.rebuild.1 hnd

theorem scopeInv_empty : ScopeInv {} [] [] [] :=
  ⟨rfl, List.nodup_nil, rfl, (fun b h => by cases h), rfl, fun b h => by rcases h with h | h <;> cases h⟩

/-- **C50.** Whatever the program did — entered, left or abandoned scopes, reduced the tape, exported it before —, at an export the registered groups
contain each block on the tape exactly once, in the order of the tape, and no other block. -/
theorem scopes_exactly_once (l : List ScopeOp) (hnd : (recorded l).Nodup) :
    let s := Scopes.run {} (l ++ [.visualise])
    s.registered.flatMap (·.2) = s.tape ∧ s.tape.Nodup := by
  obtain ⟨P, Q, h⟩ := scopeInv_empty.run l (by simpa using hnd)
  have hr := (h.register none).1
  have h' := hr.rebuild
  have he : Scopes.run {} (l ++ [.visualise]) = ((Scopes.run {} l).register none).rebuild := by
    simp [Scopes.run, List.foldl_append, Scopes.step]
  simp only [he]
  refine ⟨?_, h'.1.nodup⟩
  rw [h'.1.flat, h'.2.1, h'.1.tape, List.append_nil]

/-- Non-vacuity: nested and abandoned scopes, a reduction of the tape and two exports. -/
example : (recorded [.block 0, .enter, .block 1, .enter, .block 2, .exit (some "b"), .raised, .visualise, .optimize (· != 1), .block 3]).Nodup ∧
    (Scopes.run {} ([.block 0, .enter, .block 1, .enter, .block 2, .exit (some "b"), .raised, .visualise, .optimize (· != 1), .block 3] ++ [.visualise])).registered
      = [(none, [0]), (some "b", [2]), (none, [3])] := by decide

/-- A program that does not nest scopes and does not leave one by an exception: blocks, and scopes with blocks in them. -/
inductive Item
  | block (b : Nat)
  | scope (name : String) (bs : List Nat)

def Item.ops : Item → List ScopeOp
  | .block b => [.block b]
  | .scope name bs => .enter :: (bs.map .block ++ [.exit (some name)])

def Item.blocks : Item → List Nat
  | .block b => [b]
  | .scope _ bs => bs

/-- The block was registered where it was created, or is not yet registered and was created outside of all scopes. -/
def Item.Placed (s : Scopes) (Q : List Nat) : Item → Prop
  | .block b => b ∈ Q ∨ ∃ l, (none, l) ∈ s.registered ∧ b ∈ l
  | .scope name bs => (some name, bs) ∈ s.registered

theorem recorded_append (l l' : List ScopeOp) : recorded (l ++ l') = recorded l ++ recorded l' := by
  induction l with
  | nil => rfl
  | cons op l ih => cases op <;> simp [recorded, ih]

theorem recorded_map_block (bs : List Nat) : recorded (bs.map .block) = bs := by
  induction bs with
  | nil => rfl
  | cons b bs ih => simp [recorded, ih]

theorem run_append (s : Scopes) (l l' : List ScopeOp) : s.run (l ++ l') = (s.run l).run l' := by
  simp [Scopes.run, List.foldl_append]

theorem ScopeInv.blocks {s : Scopes} {R P Q : List Nat} (h : ScopeInv s R P Q) (bs : List Nat) (hnd : (R ++ bs).Nodup) :
    ScopeInv (s.run (bs.map .block)) (R ++ bs) P (Q ++ bs) ∧ (s.run (bs.map .block)).registered = s.registered := by
  induction bs generalizing s R Q with
  | nil => exact ⟨by simpa [Scopes.run] using h, rfl⟩
  | cons b bs ih =>
    have hb : b ∉ R := by
      intro hc
      exact (List.nodup_append.1 hnd).2.2 b hc b (by simp) rfl
    have := ih (h.block b hb) (by simpa using hnd)
    simpa [Scopes.run, Scopes.step] using this

theorem Item.Placed.mono {s s' : Scopes} {Q Q' : List Nat} (hr : ∀ p ∈ s.registered, p ∈ s'.registered)
    (hq : ∀ b ∈ Q, b ∈ Q' ∨ ∃ l, (none, l) ∈ s'.registered ∧ b ∈ l) {i : Item} (h : i.Placed s Q) : i.Placed s' Q' := by
  cases i with
  | block b =>
    rcases h with h | ⟨l, hl, hb⟩
    · exact hq b h
    · exact Or.inr ⟨l, hr _ hl, hb⟩
  | scope name bs => exact hr _ h

theorem items_placed (items : List Item) (done : List Item) (s : Scopes) (R P Q : List Nat) (h : ScopeInv s R P Q)
    (hnd : (R ++ items.flatMap Item.blocks).Nodup) (hp : ∀ i ∈ done, i.Placed s Q) :
    ∃ P' Q', ScopeInv (s.run (items.flatMap Item.ops)) (R ++ items.flatMap Item.blocks) P' Q' ∧
      ∀ i ∈ done ++ items, i.Placed (s.run (items.flatMap Item.ops)) Q' := by
  induction items generalizing done s R P Q with
  | nil => exact ⟨P, Q, by simpa [Scopes.run] using h, by simpa [Scopes.run] using hp⟩
  | cons it items ih =>
    rw [List.flatMap_cons, run_append, List.flatMap_cons, ← List.append_assoc, show done ++ it :: items = (done ++ [it]) ++ items by simp]
    rw [List.flatMap_cons, ← List.append_assoc] at hnd
    have hnd1 : (R ++ it.blocks).Nodup := (List.nodup_append.1 hnd).1
    cases it with
    | block b =>
      have hb := h.blocks [b] hnd1
      refine ih (done ++ [.block b]) _ _ P (Q ++ [b]) hb.1 hnd ?_
      intro i hi
      rcases List.mem_append.1 hi with hi | hi
      · exact (hp i hi).mono (fun p hp => hb.2 ▸ hp) fun c hc => Or.inl (List.mem_append_left _ hc)
      · rw [List.mem_singleton] at hi; subst hi
        exact Or.inl (by simp)
    | scope name bs =>
      obtain ⟨r1, reg1, -, -⟩ := h.register none
      obtain ⟨r2, reg2⟩ := r1.blocks bs hnd1
      obtain ⟨r3, reg3, -, -⟩ := r2.register (some name)
      have he : s.run (Item.ops (.scope name bs)) = ((s.register none).run (bs.map .block)).register (some name) := by
        show (s.register none).run (bs.map .block ++ [.exit (some name)]) = _
        rw [run_append]; rfl
      rw [he]
      refine ih (done ++ [.scope name bs]) _ _ _ _ r3 hnd ?_
      intro i hi
      rw [List.nil_append] at reg3
      rcases List.mem_append.1 hi with hi | hi
      · refine (hp i hi).mono (fun p hp => ?_) fun c hc => Or.inr ⟨Q, ?_, hc⟩
        · rw [reg3, reg2, reg1]; simp [hp]
        · rw [reg3, reg2, reg1]; simp
      · rw [List.mem_singleton] at hi; subst hi
        show (some name, bs) ∈ _
        rw [reg3]; simp

/-- **C50, partial** (programs without nested scopes and without scopes left by an exception; both fail otherwise, see below): every scope is exported
as one group with exactly the blocks recorded in it, and the blocks recorded outside of all scopes are in groups without a name. -/
theorem scopes_where_created_partial (items : List Item) (hnd : (items.flatMap Item.blocks).Nodup) :
    let s := Scopes.run {} (items.flatMap Item.ops ++ [.visualise])
    (∀ name bs, Item.scope name bs ∈ items → bs ≠ [] → (some name, bs) ∈ s.registered) ∧
    ∀ b, Item.block b ∈ items → ∃ l, (none, l) ∈ s.registered ∧ b ∈ l := by
  obtain ⟨P, Q, h, hp⟩ := items_placed items [] {} [] [] [] scopeInv_empty (by simpa using hnd) (fun i hi => by cases hi)
  obtain ⟨hr, reg, -, htape⟩ := h.register none
  have he : Scopes.run {} (items.flatMap Item.ops ++ [.visualise]) = ((Scopes.run {} (items.flatMap Item.ops)).register none).rebuild := by
    rw [run_append]; rfl
  simp only [he]
  set s := Scopes.run {} (items.flatMap Item.ops) with hs
  -- the tape still has everything that is registered
  have hall : ∀ b, b ∈ items.flatMap Item.blocks → b ∈ s.tape := by
    intro b hb
    have : ∀ (l : List Item) (t : Scopes) , (∀ c, c ∈ t.tape ∨ c ∈ l.flatMap Item.blocks → c ∈ (t.run (l.flatMap Item.ops)).tape) := by
      intro l
      induction l with
      | nil => intro t c hc; simpa [Scopes.run] using hc
      | cons it l ih =>
        intro t c hc
        rw [List.flatMap_cons, run_append]
        apply ih
        rw [List.flatMap_cons, List.mem_append, ← or_assoc] at hc
        refine hc.imp_left fun hc => ?_
        have blocks_tape : ∀ (bs : List Nat) (t : Scopes), (t.run (bs.map .block)).tape = t.tape ++ bs := by
          intro bs
          induction bs with
          | nil => intro t; simp [Scopes.run]
          | cons b bs ih =>
            intro t
            have := ih { t with tape := t.tape ++ [b] }
            simpa [Scopes.run, Scopes.step] using this
        cases it with
        | block b =>
          show c ∈ (t.tape ++ [b])
          simpa [Item.blocks] using hc
        | scope name bs =>
          have : (t.run (Item.ops (.scope name bs))).tape = t.tape ++ bs := by
            show ((t.register none).run (bs.map .block ++ [.exit (some name)])).tape = _
            rw [run_append]
            exact blocks_tape bs _
          rw [this]
          simpa [Item.blocks] using hc
    exact this items {} b (Or.inr hb)
  have hkeep : ∀ p ∈ (s.register none).registered, p.2 ≠ [] → p ∈ (s.register none).rebuild.registered := by
    intro p hp hne
    have hsub : p.2.filter (· ∈ (s.register none).tape) = p.2 := by
      rw [List.filter_eq_self]
      intro b hb
      have hflat : b ∈ (s.register none).added := by
        rw [← hr.flat]
        exact List.mem_flatMap.2 ⟨p, hp, hb⟩
      have := hr.known b (Or.inl hflat)
      rw [htape]
      simpa using hall b (by simpa using this)
    show p ∈ ((s.register none).registered.map fun p => (p.1, p.2.filter (· ∈ (s.register none).tape))).filter fun p => ¬ p.2.isEmpty
    rw [List.mem_filter]
    refine ⟨List.mem_map.2 ⟨p, hp, by rw [hsub]⟩, by simpa using hne⟩
  constructor
  · intro name bs hi hne
    refine hkeep _ ?_ hne
    rw [reg]
    exact List.mem_append_left _ (hp _ hi)
  · intro b hi
    rcases hp _ hi with h | ⟨l, hl, hb⟩
    · exact ⟨Q, hkeep _ (by rw [reg]; simp) (List.ne_nil_of_mem h), h⟩
    · exact ⟨l, hkeep _ (by rw [reg]; exact List.mem_append_left _ hl) (List.ne_nil_of_mem hb), hb⟩

/-- Non-vacuity: two scopes and blocks around them. -/
example : (Scopes.run {} ([Item.block 0, .scope "a" [1, 2], .block 3, .scope "b" [4], .block 5].flatMap Item.ops ++ [.visualise])).registered
    = [(none, [0]), (some "a", [1, 2]), (none, [3]), (some "b", [4]), (none, [5])] := by decide

/-- **C50 fails for nested scopes.**  Block `0` is recorded in the scope `a`, before the scope `b` inside it is entered; it is exported without a name. -/
theorem nested_scope_loses_name :
    (Scopes.run {} [.enter, .block 0, .enter, .block 1, .exit (some "b"), .block 2, .exit (some "a"), .visualise]).registered
      = [(none, [0]), (some "b", [1]), (some "a", [2])] := by decide

/-- **C50 fails for a scope left by an exception.**  Block `0` is recorded in a scope that an exception ends; it is exported without a name, together with
block `1`, recorded later; if a scope `b` is entered after that, nothing changes: `0` stays without a name. -/
theorem raised_scope_loses_name :
    (Scopes.run {} [.enter, .block 0, .raised, .block 1, .visualise]).registered = [(none, [0, 1])] ∧
    (Scopes.run {} [.enter, .block 0, .raised, .enter, .block 1, .exit (some "b"), .visualise]).registered = [(none, [0]), (some "b", [1])] := by
  decide

/-! ## The TensorFlow graph -/

/-- What a registered tape says the inputs of a node are. -/
inductive InputsOf (l : List (Option String × Nat × Block V T A)) : Option String → Node → List Node → Prop
  | block {s i b} : (s, i, b) ∈ l → InputsOf l s (.block i) (b.deps.map .var)
  | out {s i b o} : (s, i, b) ∈ l → o ∈ b.outs → InputsOf l s (.var o) [.block i]
  | leaf {s i b d} : (s, i, b) ∈ l → d ∈ b.deps → (∀ p ∈ l, d ∉ p.2.2.outs) → InputsOf l s (.var d) []

/-- Tensor `t` of the current graph stands for node `n`. -/
def Tf.Is (g : Tf) (t : Tensor) (n : Node) : Prop := t.graph = g.graph ∧ (g.ops[t.idx]?).map (·.node) = some n

/-- The tensors are those of the current graph; each node has one operation. -/
structure Tf.Ok (g : Tf) : Prop where
  tensors : ∀ n t, g.tensors n = some t → g.Is t n
  nodup : (g.ops.map (·.node)).Nodup
  mem : ∀ n, n ∈ g.ops.map (·.node) → g.tensors n ≠ none

theorem Tf.Is.add {g : Tf} {t : Tensor} {n : Node} (h : g.Is t n) (m : Node) (s : Option String) (i : List Tensor) : (g.add m s i).Is t n := by
  refine ⟨h.1, ?_⟩
  have := h.2
  show ((g.ops ++ [_])[t.idx]?).map _ = _
  cases hx : g.ops[t.idx]? with
  | none => rw [hx] at this; cases this
  | some op =>
    have hlt := (List.getElem?_eq_some_iff.1 hx).1
    rw [List.getElem?_append_left hlt, hx]
    rw [hx] at this
    exact this

theorem Tf.is_new (g : Tf) (n : Node) (s : Option String) (i : List Tensor) : (g.add n s i).Is ⟨g.graph, g.ops.length⟩ n :=
  ⟨rfl, by show ((g.ops ++ [_])[g.ops.length]?).map _ = _; simp⟩

theorem Tf.Ok.add {g : Tf} (h : g.Ok) {n : Node} (hn : g.tensors n = none) (s : Option String) (i : List Tensor) : (g.add n s i).Ok := by
  refine ⟨?_, ?_, ?_⟩
  · intro m t hm
    by_cases hmn : m = n
    · subst hmn
      have : t = ⟨g.graph, g.ops.length⟩ := by
        have : (if m = m then some (⟨g.graph, g.ops.length⟩ : Tensor) else g.tensors m) = some t := hm
        rw [if_pos rfl] at this
        exact (Option.some.inj this).symm
      rw [this]
      exact g.is_new m s i
    · have : (if m = n then some (⟨g.graph, g.ops.length⟩ : Tensor) else g.tensors m) = some t := hm
      rw [if_neg hmn] at this
      exact (h.tensors m t this).add n s i
  · show ((g.ops ++ [_]).map _).Nodup
    rw [List.map_append]
    refine List.nodup_append.2 ⟨h.nodup, by simp, ?_⟩
    intro a ha b hb
    simp at hb
    subst hb
    rintro rfl
    exact h.mem _ ha hn
  · intro m hm
    show (if m = n then _ else g.tensors m) ≠ none
    split
    · simp
    · rename_i hmn
      have hm' : m ∈ (g.ops ++ [(⟨n, s, i⟩ : TfOp)]).map (·.node) := hm
      rw [List.map_append] at hm'
      rcases List.mem_append.1 hm' with hm' | hm'
      · exact h.mem m hm'
      · simp at hm'; exact absurd hm' hmn

/-- Every operation has the inputs `D` allows. -/
def Tf.Inputs (g : Tf) (D : Option String → Node → List Node → Prop) : Prop :=
  ∀ op ∈ g.ops, ∃ ns, D op.scope op.node ns ∧ List.Forall₂ g.Is op.inputs ns

theorem Tf.Inputs.add {g : Tf} {D : Option String → Node → List Node → Prop} (h : g.Inputs D) {n : Node} {s : Option String} {i : List Tensor}
    {ns : List Node} (hd : D s n ns) (hi : List.Forall₂ g.Is i ns) : (g.add n s i).Inputs D := by
  intro op hop
  have hop' : op ∈ g.ops ++ [(⟨n, s, i⟩ : TfOp)] := hop
  rcases List.mem_append.1 hop' with hop' | hop'
  · obtain ⟨ns', h1, h2⟩ := h op hop'
    exact ⟨ns', h1, h2.imp fun _ _ hx => hx.add n s i⟩
  · rw [List.mem_singleton] at hop'; subst hop'
    exact ⟨ns, hd, hi.imp fun _ _ hx => hx.add n s i⟩

theorem Tf.Inputs.mono {g : Tf} {D D' : Option String → Node → List Node → Prop} (h : g.Inputs D) (hd : ∀ s n ns, D s n ns → D' s n ns) :
    g.Inputs D' := fun op hop => by
  obtain ⟨ns, h1, h2⟩ := h op hop
  exact ⟨ns, hd _ _ _ h1, h2⟩

/-- The nodes that have a tensor. -/
def Tf.Has (g : Tf) (n : Node) : Prop := g.tensors n ≠ none

theorem Tf.has_add (g : Tf) (n m : Node) (s : Option String) (i : List Tensor) : (g.add n s i).Has m ↔ g.Has m ∨ m = n := by
  show (if m = n then _ else g.tensors m) ≠ none ↔ g.tensors m ≠ none ∨ m = n
  by_cases h : m = n <;> simp [h]

theorem Tf.has_mem {g : Tf} (h : g.Ok) (n : Node) : g.Has n ↔ n ∈ g.ops.map (·.node) := by
  constructor
  · intro hn
    obtain ⟨t, ht⟩ := Option.ne_none_iff_exists'.1 hn
    have := (h.tensors n t ht).2
    cases hx : g.ops[t.idx]? with
    | none => rw [hx] at this; cases this
    | some op =>
      rw [hx] at this
      exact List.mem_map.2 ⟨op, List.mem_of_getElem? hx, by simpa using this⟩
  · exact h.mem n

theorem Tf.deps_spec (s : Option String) (D : Option String → Node → List Node → Prop) (ds : List BV) (ts : List Tensor) (ns : List Node) (g : Tf)
    (hg : g.Ok) (hin : g.Inputs D) (hts : List.Forall₂ g.Is ts ns) (hD : ∀ d ∈ ds, g.tensors (.var d) = none → D s (.var d) []) :
    (Tf.deps s ds ts g).2.Ok ∧ (Tf.deps s ds ts g).2.Inputs D ∧
    List.Forall₂ (Tf.deps s ds ts g).2.Is (Tf.deps s ds ts g).1 (ns ++ ds.map .var) ∧
    ∀ n, (Tf.deps s ds ts g).2.Has n ↔ g.Has n ∨ ∃ d ∈ ds, n = .var d := by
  induction ds generalizing ts ns g with
  | nil => exact ⟨hg, hin, by simpa [Tf.deps] using hts, fun n => by simp [Tf.deps]⟩
  | cons d ds ih =>
    have happ : ∀ {g : Tf} {ts : List Tensor} {ns : List Node} {t : Tensor} {n : Node}, List.Forall₂ g.Is ts ns → g.Is t n →
        List.Forall₂ g.Is (ts ++ [t]) (ns ++ [n]) := by
      intro g ts ns t n h ht
      induction h with
      | nil => exact .cons ht .nil
      | cons a _ ih => exact .cons a ih
    rw [Tf.deps]
    cases ht : g.tensors (.var d) with
    | some t =>
      obtain ⟨a, b, c, e⟩ := ih (ts ++ [t]) (ns ++ [.var d]) g hg hin (happ hts (hg.tensors _ _ ht)) (fun d' hd' => hD d' (List.mem_cons_of_mem _ hd'))
      refine ⟨a, b, by simpa using c, fun n => (e n).trans ?_⟩
      constructor
      · rintro (h | ⟨d', hd', h⟩)
        · exact Or.inl h
        · exact Or.inr ⟨d', List.mem_cons_of_mem _ hd', h⟩
      · rintro (h | ⟨d', hd', h⟩)
        · exact Or.inl h
        · rcases List.mem_cons.1 hd' with rfl | hd'
          · left; rw [h]; show g.tensors _ ≠ none; rw [ht]; simp
          · exact Or.inr ⟨d', hd', h⟩
    | none =>
      have hg' := hg.add ht s []
      have hin' := hin.add (hD d List.mem_cons_self ht) (i := []) .nil
      obtain ⟨a, b, c, e⟩ := ih (ts ++ [⟨g.graph, g.ops.length⟩]) (ns ++ [.var d]) (g.add (.var d) s []) hg' hin'
        (happ (hts.imp fun _ _ hx => hx.add _ _ _) (g.is_new _ _ _)) (fun d' hd' hnone => hD d' (List.mem_cons_of_mem _ hd') (by
          by_contra hc
          exact (g.has_add (.var d) (.var d') s []).2 (Or.inl hc) hnone))
      refine ⟨a, b, by simpa using c, fun n => (e n).trans ?_⟩
      rw [g.has_add]
      constructor
      · rintro ((h | h) | ⟨d', hd', h⟩)
        · exact Or.inl h
        · exact Or.inr ⟨d, List.mem_cons_self, h⟩
        · exact Or.inr ⟨d', List.mem_cons_of_mem _ hd', h⟩
      · rintro (h | ⟨d', hd', h⟩)
        · exact Or.inl (Or.inl h)
        · rcases List.mem_cons.1 hd' with rfl | hd'
          · exact Or.inl (Or.inr h)
          · exact Or.inr ⟨d', hd', h⟩

theorem Tf.outs_spec (s : Option String) (D : Option String → Node → List Node → Prop) (t : Tensor) (m : Node) (os : List BV) (g : Tf)
    (hg : g.Ok) (hin : g.Inputs D) (ht : g.Is t m) (hnd : os.Nodup) (hnew : ∀ o ∈ os, ¬ g.Has (.var o)) (hD : ∀ o ∈ os, D s (.var o) [m]) :
    (Tf.outs s t os g).Ok ∧ (Tf.outs s t os g).Inputs D ∧ ∀ n, (Tf.outs s t os g).Has n ↔ g.Has n ∨ ∃ o ∈ os, n = .var o := by
  induction os generalizing g with
  | nil => exact ⟨hg, hin, fun n => by simp [Tf.outs]⟩
  | cons o os ih =>
    have hno : g.tensors (.var o) = none := by
      have := hnew o List.mem_cons_self
      simpa [Tf.Has] using this
    obtain ⟨a, b, c⟩ := ih (g.add (.var o) s [t]) (hg.add hno _ _) (hin.add (hD o List.mem_cons_self) (.cons ht .nil)) (ht.add _ _ _)
      (List.nodup_cons.1 hnd).2 (fun o' ho' hh => by
        rcases (g.has_add _ _ _ _).1 hh with hh | hh
        · exact hnew o' (List.mem_cons_of_mem _ ho') hh
        · cases hh; exact (List.nodup_cons.1 hnd).1 ho') (fun o' ho' => hD o' (List.mem_cons_of_mem _ ho'))
    refine ⟨a, b, fun n => (c n).trans ?_⟩
    rw [g.has_add]
    constructor
    · rintro ((h | h) | ⟨d', hd', h⟩)
      · exact Or.inl h
      · exact Or.inr ⟨o, List.mem_cons_self, h⟩
      · exact Or.inr ⟨d', List.mem_cons_of_mem _ hd', h⟩
    · rintro (h | ⟨d', hd', h⟩)
      · exact Or.inl (Or.inl h)
      · rcases List.mem_cons.1 hd' with rfl | hd'
        · exact Or.inl (Or.inr h)
        · exact Or.inr ⟨d', hd', h⟩

theorem InputsOf.snoc {l : List (Option String × Nat × Block V T A)} {p : Option String × Nat × Block V T A} {s : Option String} {n : Node}
    {ns : List Node} (h : InputsOf l s n ns) (hp : ∀ q ∈ l, ∀ d ∈ q.2.2.deps, d ∉ p.2.2.outs) : InputsOf (l ++ [p]) s n ns := by
  cases h with
  | block h => exact .block (List.mem_append_left _ h)
  | out h ho => exact .out (List.mem_append_left _ h) ho
  | leaf h hd hl =>
    refine .leaf (List.mem_append_left _ h) hd ?_
    intro q hq
    rcases List.mem_append.1 hq with hq | hq
    · exact hl q hq
    · rw [List.mem_singleton] at hq; subst hq
      exact hp _ h _ hd

/-- The node stands for something on the tape. -/
def Listed (l : List (Option String × Nat × Block V T A)) (n : Node) : Prop :=
  (∃ p ∈ l, n = .block p.2.1) ∨ ∃ p ∈ l, ∃ v, (v ∈ p.2.2.deps ∨ v ∈ p.2.2.outs) ∧ n = .var v

theorem Tf.addBlocks_spec (l done : List (Option String × Nat × Block V T A)) (g : Tf) (hwf : WF ((done ++ l).map (·.2.2)))
    (hid : ((done ++ l).map (·.2.1)).Nodup) (hg : g.Ok) (hin : g.Inputs (InputsOf done)) (hh : ∀ n, g.Has n ↔ Listed done n) :
    (Tf.addBlocks l g).Ok ∧ (Tf.addBlocks l g).Inputs (InputsOf (done ++ l)) ∧ ∀ n, (Tf.addBlocks l g).Has n ↔ Listed (done ++ l) n := by
  induction l generalizing done g with
  | nil => simpa [Tf.addBlocks] using ⟨hg, hin, hh⟩
  | cons p l ih =>
    rcases hp : p with ⟨s, i, b⟩
    subst hp
    rw [show done ++ (s, i, b) :: l = (done ++ [(s, i, b)]) ++ l by simp] at hwf hid ⊢
    have hwf' := hwf
    have hpair := hwf.later
    rw [List.map_append, List.map_append] at hpair
    have hpair1 := (List.pairwise_append.1 (List.pairwise_append.1 hpair).1).2.2
    have hearlier : ∀ q ∈ done, (∀ d ∈ q.2.2.deps, d ∉ b.outs) ∧ (∀ o ∈ q.2.2.outs, o ∉ b.outs) := by
      intro q hq
      exact hpair1 q.2.2 (List.mem_map.2 ⟨q, hq, rfl⟩) b (by simp)
    have hbmem : b ∈ ((done ++ [(s, i, b)]) ++ l).map (·.2.2) := by simp
    have hself := hwf.self b hbmem
    have hmono : ∀ s' n ns, InputsOf done s' n ns → InputsOf (done ++ [(s, i, b)]) s' n ns :=
      fun s' n ns h => h.snoc fun q hq d hd => (hearlier q hq).1 d hd
    have hlast : (s, i, b) ∈ done ++ [(s, i, b)] := by simp
    -- the dependencies
    obtain ⟨d1, d2, d3, d4⟩ := Tf.deps_spec s (InputsOf (done ++ [(s, i, b)])) b.deps [] [] g hg (hin.mono hmono) .nil (by
      intro d hd hnone
      refine .leaf hlast hd ?_
      intro q hq hdo
      rcases List.mem_append.1 hq with hq | hq
      · have : g.Has (.var d) := (hh _).2 (Or.inr ⟨q, hq, d, Or.inr hdo, rfl⟩)
        exact this hnone
      · rw [List.mem_singleton] at hq; subst hq
        exact hself d hd hdo)
    generalize hds : Tf.deps s b.deps [] g = r at d1 d2 d3 d4
    obtain ⟨ts, g1⟩ := r
    rw [List.nil_append] at d3
    have hbn : g1.tensors (.block i) = none := by
      by_contra hc
      rcases (d4 _).1 hc with h | ⟨d, -, h⟩
      · rcases (hh _).1 h with ⟨q, hq, h⟩ | ⟨q, -, v, -, h⟩
        · cases h
          rw [List.map_append, List.map_append] at hid
          have := (List.nodup_append.1 (List.nodup_append.1 hid).1).2.2 q.2.1 (List.mem_map.2 ⟨q, hq, rfl⟩) q.2.1 (by simp)
          exact this rfl
        · cases h
      · cases h
    have b1 := d1.add hbn s ts
    have b2 := d2.add (InputsOf.block hlast) d3
    obtain ⟨o1, o2, o3⟩ := Tf.outs_spec s (InputsOf (done ++ [(s, i, b)])) ⟨g1.graph, g1.ops.length⟩ (.block i) b.outs (g1.add (.block i) s ts) b1 b2
      (g1.is_new _ _ _) (hwf.nodup b hbmem) (by
        intro o ho hc
        rcases (g1.has_add _ _ _ _).1 hc with hc | hc
        · rcases (d4 _).1 hc with hc | ⟨d, hd, hc⟩
          · rcases (hh _).1 hc with ⟨q, -, h⟩ | ⟨q, hq, v, hv, h⟩
            · cases h
            · cases h
              rcases hv with hv | hv
              · exact (hearlier q hq).1 _ hv ho
              · exact (hearlier q hq).2 _ hv ho
          · cases hc
            exact hself _ hd ho
        · cases hc) (fun o ho => .out hlast ho)
    have hblk : Tf.block s b i g = Tf.outs s ⟨g1.graph, g1.ops.length⟩ b.outs (g1.add (.block i) s ts) := by
      unfold Tf.block
      rw [hds]
    rw [Tf.addBlocks, hblk]
    refine ih (done ++ [(s, i, b)]) _ hwf' hid o1 o2 ?_
    intro n
    rw [o3, g1.has_add, d4, hh]
    constructor
    · rintro (((h | h) | h) | h)
      · rcases h with ⟨q, hq, h⟩ | ⟨q, hq, v, hv, h⟩
        · exact Or.inl ⟨q, List.mem_append_left _ hq, h⟩
        · exact Or.inr ⟨q, List.mem_append_left _ hq, v, hv, h⟩
      · obtain ⟨d, hd, h⟩ := h
        exact Or.inr ⟨_, hlast, d, Or.inl hd, h⟩
      · exact Or.inl ⟨_, hlast, h⟩
      · obtain ⟨d, hd, h⟩ := h
        exact Or.inr ⟨_, hlast, d, Or.inr hd, h⟩
    · rintro (⟨q, hq, h⟩ | ⟨q, hq, v, hv, h⟩)
      · rcases List.mem_append.1 hq with hq | hq
        · exact Or.inl (Or.inl (Or.inl (Or.inl ⟨q, hq, h⟩)))
        · rw [List.mem_singleton] at hq; subst hq
          exact Or.inl (Or.inr h)
      · rcases List.mem_append.1 hq with hq | hq
        · exact Or.inl (Or.inl (Or.inl (Or.inr ⟨q, hq, v, hv, h⟩)))
        · rw [List.mem_singleton] at hq; subst hq
          rcases hv with hv | hv
          · exact Or.inl (Or.inl (Or.inr ⟨v, hv, h⟩))
          · exact Or.inr ⟨v, hv, h⟩

/-- **C50.** The first TensorFlow graph made of a tape (its blocks in tape order): exactly one operation per block and per variable that occurs; the
operation of a block takes those of its dependencies, in order, the operation of an output takes that of its block, and that of any other variable takes
nothing; everything belongs to the new graph; and a block and its outputs are in the scope the block is registered in. -/
theorem tf_graph_exact_partial (l : List (Option String × Nat × Block V T A)) (hwf : WF (l.map (·.2.2))) (hid : (l.map (·.2.1)).Nodup) :
    let g := Tf.visualise l {}
    (g.ops.map (·.node)).Nodup ∧ (∀ n, n ∈ g.ops.map (·.node) ↔ Listed l n) ∧
    ∀ op ∈ g.ops, ∃ ns, InputsOf l op.scope op.node ns ∧
      List.Forall₂ (fun (t : Tensor) n => t.graph = g.graph ∧ (g.ops[t.idx]?).map (·.node) = some n) op.inputs ns := by
  obtain ⟨a, b, c⟩ := Tf.addBlocks_spec l [] ({ graph := 1 } : Tf) (by simpa using hwf) (by simpa using hid)
    ⟨(fun n t h => by cases h), List.nodup_nil, (fun n h => by cases h)⟩ (fun op h => by cases h) (fun n => by
      constructor
      · intro h; exact absurd rfl h
      · rintro (⟨p, hp, -⟩ | ⟨p, hp, -⟩) <;> cases hp)
  simp only [List.nil_append] at b c
  exact ⟨a.nodup, fun n => (Tf.has_mem a n).symm.trans (c n), b⟩

/-- Non-vacuity: the tape of the examples, one block in a scope. -/
example : ∃ l : List (Option String × Nat × Block Int Int Int), WF (l.map (·.2.2)) ∧ (l.map (·.2.1)).Nodup ∧ l.map (·.2.2) = exTape ∧
    1 < (Tf.visualise l {}).ops.length :=
  ⟨(exTape.zipIdx).map fun (p : Block Int Int Int × Nat) => (some "a", p.2, p.1), exTape_wf, by decide, rfl, by decide⟩

/-- **C50 fails for the second export.**  `_tf_tensors` keeps the tensors of the first graph: the block takes its argument from a graph that is gone, and
the new graph has no operation for the argument. -/
theorem tf_second_graph_stale (b : Block V T A) (hd : b.deps = [0]) (ho : b.outs = [1]) :
    let g := Tf.visualise [(none, 0, b)] (Tf.visualise [(none, 0, b)] {})
    g.graph = 2 ∧ g.ops = [⟨.block 0, none, [⟨1, 0⟩]⟩, ⟨.var 1, none, [⟨2, 0⟩]⟩] := by
  simp only [Tf.visualise, Tf.addBlocks, Tf.block, hd, ho]
  exact ⟨rfl, rfl⟩

/-! ## Names -/

theorem validName_spec (cs acc : List Char) (h : ∀ c ∈ acc, validChar c) :
    (∀ c ∈ validName cs acc, validChar c) ∧ acc <+: validName cs acc ∧ (acc = [] → (validName cs acc).head? = cs.find? validChar) := by
  induction cs generalizing acc with
  | nil => exact ⟨h, List.prefix_refl _, fun he => by subst he; rfl⟩
  | cons c cs ih =>
    rw [validName]
    split
    · rename_i hc
      obtain ⟨a, b, -⟩ := ih (acc ++ [c]) (by
        intro d hd
        rcases List.mem_append.1 hd with hd | hd
        · exact h d hd
        · rw [List.mem_singleton] at hd; subst hd; exact hc)
      refine ⟨a, (List.prefix_append _ _).trans b, ?_⟩
      rintro rfl
      rw [List.find?_cons, hc]
      obtain ⟨t, ht⟩ := b
      rw [← ht]; rfl
    · rename_i hc
      have hc' : validChar c = false := by simpa using hc
      split
      · rename_i hl
        obtain ⟨a, b, -⟩ := ih (acc ++ ['_']) (by
          intro d hd
          rcases List.mem_append.1 hd with hd | hd
          · exact h d hd
          · rw [List.mem_singleton] at hd; subst hd; decide)
        exact ⟨a, (List.prefix_append _ _).trans b, fun he => absurd he hl.1⟩
      · obtain ⟨a, b, e⟩ := ih acc h
        exact ⟨a, b, fun he => by rw [e he, List.find?_cons, hc']⟩

/-- **C50.** The name of a block in the TensorFlow graph has only characters that are allowed, and starts with the first allowed character of the text of
the block. -/
theorem valid_name (cs : List Char) : (∀ c ∈ validName cs [], validChar c) ∧ (validName cs []).head? = cs.find? validChar :=
  ⟨(validName_spec cs [] (by simp)).1, (validName_spec cs [] (by simp)).2.2 rfl⟩

/-- **C50.** A name that is allowed is not changed. -/
theorem valid_name_id (cs : List Char) (h : ∀ c ∈ cs, validChar c) : validName cs [] = cs := by
  have : ∀ (cs acc : List Char), (∀ c ∈ cs, validChar c) → validName cs acc = acc ++ cs := by
    intro cs
    induction cs with
    | nil => intro acc _; simp [validName]
    | cons c cs ih =>
      intro acc h
      rw [validName, if_pos (h c List.mem_cons_self), ih _ fun d hd => h d (List.mem_cons_of_mem _ hd)]
      simp
  simpa using this cs [] h

/-- What is outside the property: a name may be empty, or start with a character TensorFlow does not take first. -/
theorem valid_name_empty_or_underscore : validName ['(', ')'] [] = [] ∧ validName ['_', 'a'] [] = ['_', 'a'] := by decide

end Graph
end Pyadjoint
