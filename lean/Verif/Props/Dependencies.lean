import Verif.Model.Dependencies
import Verif.Props.Gradient

/-!
# Duplicate dependencies (C48)

The specification of the list of dependencies is by the calls alone: a call is ignored iff it forbids duplicates and some
earlier call, or the block so far, had the same object.
-/

namespace Pyadjoint

variable {V T A : Type*}

/-- The objects of the calls that are not ignored; `seen` are the objects of earlier calls. -/
def kept (seen : List BV) : List (BV × Bool) → List BV
  | [] => []
  | (x, nd) :: l => if nd = true ∧ x ∈ seen then kept (seen ++ [x]) l else x :: kept (seen ++ [x]) l

theorem kept_congr (l : List (BV × Bool)) {s s' : List BV} (h : ∀ x, x ∈ s ↔ x ∈ s') : kept s l = kept s' l := by
  induction l generalizing s s' with
  | nil => rfl
  | cons c l ih =>
    obtain ⟨x, nd⟩ := c
    have : ∀ y, y ∈ s ++ [x] ↔ y ∈ s' ++ [x] := fun y => by simp [h y]
    simp only [kept, h x, ih this]

theorem addDeps_deps (s : BuildState V T A) (calls : List (BV × Bool)) :
    (addDeps s calls).deps = s.deps ++ kept s.deps calls := by
  induction calls generalizing s with
  | nil => simp [addDeps, kept]
  | cons c l ih =>
    obtain ⟨x, nd⟩ := c
    show (addDeps (addDep s x nd) l).deps = _
    rw [ih]
    by_cases h : nd = true ∧ x ∈ s.deps
    · have e : addDep s x nd = s := by simp [addDep, h.1, h.2]
      rw [e]
      simp only [kept, if_pos h]
      rw [kept_congr l (s := s.deps) (s' := s.deps ++ [x])]
      intro y
      simp only [List.mem_append, List.mem_singleton]
      exact ⟨Or.inl, fun h' => h'.elim id fun e => e ▸ h.2⟩
    · have e : (addDep s x nd).deps = s.deps ++ [x] := by
        unfold addDep
        rw [if_pos]
        cases nd
        · rfl
        · simp at h ⊢; exact h
      rw [e]
      simp only [kept, if_neg h, List.append_assoc, List.singleton_append]

/-- **C48, the list of dependencies.** Starting from an empty block: the dependencies are the objects of the calls that are
not ignored, in order; calls that allow duplicates are all kept; if all calls forbid duplicates the list has no
duplicates and has the same members as the calls; and every object of a call is a dependency. -/
theorem add_dependency (h : Heap V T A) (calls : List (BV × Bool)) :
    let deps := (addDeps ⟨[], h⟩ calls).deps
    deps = kept [] calls ∧
    ((∀ c ∈ calls, c.2 = false) → deps = calls.map Prod.fst) ∧
    ((∀ c ∈ calls, c.2 = true) → deps.Nodup) ∧
    (∀ x, x ∈ deps ↔ x ∈ calls.map Prod.fst) ∧
    deps.Sublist (calls.map Prod.fst) := by
  intro deps
  have hd : deps = kept [] calls := by
    have := addDeps_deps (⟨[], h⟩ : BuildState V T A) calls
    simpa using this
  refine ⟨hd, ?_, ?_, ?_, ?_⟩
  · rw [hd]
    generalize ([] : List BV) = seen
    clear hd
    induction calls generalizing seen with
    | nil => intro _; rfl
    | cons c l ih =>
      intro hc
      obtain ⟨x, nd⟩ := c
      have : nd = false := hc (x, nd) (by simp)
      subst this
      simp only [kept, List.map_cons]
      rw [if_neg (by simp), ih _ fun c hc' => hc c (by simp [hc'])]
  · rw [hd]
    have key : ∀ (l : List (BV × Bool)) (seen : List BV), (∀ c ∈ l, c.2 = true) →
        (kept seen l).Nodup ∧ ∀ x ∈ kept seen l, x ∉ seen := by
      intro l
      induction l with
      | nil => intro seen _; exact ⟨List.nodup_nil, fun x hx => by cases hx⟩
      | cons c l ih =>
        intro seen hc
        obtain ⟨x, nd⟩ := c
        have hnd : nd = true := hc (x, nd) (by simp)
        subst hnd
        obtain ⟨h1, h2⟩ := ih (seen ++ [x]) fun c hc' => hc c (by simp [hc'])
        simp only [kept]
        split
        · exact ⟨h1, fun y hy hs => h2 y hy (by simp [hs])⟩
        · rename_i hns
          refine ⟨List.nodup_cons.2 ⟨fun hx => h2 x hx (by simp), h1⟩, fun y hy => ?_⟩
          rcases List.mem_cons.1 hy with rfl | hy
          · exact fun hs => hns ⟨trivial, hs⟩
          · exact fun hs => h2 y hy (by simp [hs])
    exact fun hc => (key calls [] hc).1
  · rw [hd]
    have key : ∀ (l : List (BV × Bool)) (seen : List BV) x, (x ∈ seen ∨ x ∈ kept seen l) ↔
        (x ∈ seen ∨ x ∈ l.map Prod.fst) := by
      intro l
      induction l with
      | nil => intro seen x; simp [kept]
      | cons c l ih =>
        intro seen x
        obtain ⟨y, nd⟩ := c
        have := ih (seen ++ [y]) x
        simp only [List.mem_append, List.mem_singleton] at this
        simp only [kept, List.map_cons, List.mem_cons]
        split
        · rename_i h
          constructor
          · rintro (h' | h')
            · exact Or.inl h'
            · rcases this.1 (Or.inr h') with (h1 | h1) | h1
              · exact Or.inl h1
              · exact Or.inr (Or.inl h1)
              · exact Or.inr (Or.inr h1)
          · rintro (h' | h' | h')
            · exact Or.inl h'
            · subst h'; exact Or.inl h.2
            · rcases this.2 (Or.inr h') with (h1 | h1) | h1
              · exact Or.inl h1
              · subst h1; exact Or.inl h.2
              · exact Or.inr h1
        · simp only [List.mem_cons]
          rw [← or_assoc, ← or_assoc]
          exact this
    intro x
    have := key calls [] x
    simpa using this
  · rw [hd]
    generalize ([] : List BV) = seen
    clear hd
    induction calls generalizing seen with
    | nil => exact List.Sublist.slnil
    | cons c l ih =>
      obtain ⟨x, nd⟩ := c
      simp only [kept, List.map_cons]
      split
      · exact (ih _).cons _
      · exact (ih _).cons_cons _

/-- **C48, saved values.** Every object added has a saved value afterwards; one saved before is not replaced, so it does not
matter that an ignored call does not save. -/
theorem add_dependency_saves (s : BuildState V T A) (calls : List (BV × Bool)) (v : BV) :
    ((addDeps s calls).heap v).ckpt = if (s.heap v).ckpt = none ∧ v ∈ kept s.deps calls
      then some (s.heap v).output else (s.heap v).ckpt := by
  classical
  have hout : ∀ (s : BuildState V T A) x nd v, ((addDep s x nd).heap v).output = (s.heap v).output := by
    intro s x nd v
    unfold addDep saveOutput
    split
    · simp only
      split
      · by_cases h : v = x
        · subst h; simp
        · simp [h]
      · rfl
    · rfl
  induction calls generalizing s with
  | nil => simp [addDeps, kept]
  | cons c l ih =>
    obtain ⟨x, nd⟩ := c
    show ((addDeps (addDep s x nd) l).heap v).ckpt = _
    rw [ih, hout]
    by_cases h : nd = true ∧ x ∈ s.deps
    · have e : addDep s x nd = s := by simp [addDep, h.1, h.2]
      rw [e]
      simp only [kept, if_pos h]
      rw [kept_congr l (s := s.deps) (s' := s.deps ++ [x])]
      intro y
      simp only [List.mem_append, List.mem_singleton]
      exact ⟨Or.inl, fun h' => h'.elim id fun e => e ▸ h.2⟩
    · have hc : (!nd || !(s.deps.contains x)) = true := by
        cases nd
        · rfl
        · simp at h ⊢; exact h
      have e : addDep s x nd = { deps := s.deps ++ [x], heap := saveOutput s.heap x false } := by
        unfold addDep; rw [if_pos hc]
      rw [e]
      simp only [kept, if_neg h, List.mem_cons]
      by_cases hv : v = x
      · subst hv
        cases hck : (s.heap v).ckpt <;> simp [saveOutput, hck]
      · have : (saveOutput s.heap x false) v = s.heap v := by
          unfold saveOutput
          split
          · simp [hv]
          · rfl
        rw [this]
        simp [hv]

/-- Positions at which a list has a value. -/
def positions (l : List BV) (v : BV) : List Nat := (List.range l.length).filter fun i => l[i]? = some v

theorem entries_positions (l : List BV) (v : BV) : (entries l v).map Prod.snd = positions l v := by
  unfold entries positions
  rw [List.zipIdx_eq_zip_range', ← List.range_eq_range']
  generalize hn : List.range l.length = r
  have hr : ∀ (l : List BV) (off : Nat) (full : List BV), (∀ i, full[off + i]? = l[i]?) →
      ((l.zip (List.range' off l.length)).filter fun p => decide (p.1 = v)).map Prod.snd =
        (List.range' off l.length).filter fun i => decide (full[i]? = some v) := by
    intro l
    induction l with
    | nil => intro off full _; rfl
    | cons a l ih =>
      intro off full hf
      have h0 : full[off]? = some a := by simpa using hf 0
      have ht := ih (off + 1) full fun i => by
        have := hf (i + 1)
        rw [show off + (i + 1) = off + 1 + i by omega] at this
        simpa using this
      simp only [List.length_cons, List.range'_succ, List.zip_cons_cons, List.filter_cons, h0, Option.some.injEq]
      by_cases h : a = v
      · simp only [h, decide_true, if_true, List.map_cons, ht]
      · simp only [h, decide_false, Bool.false_eq_true, if_false, ht]
  rw [← hn, List.range_eq_range']
  exact hr l 0 l fun i => by simp

/-- **C48, derivatives.** A block with at least one adjoint value among its outputs adds, to a marked variable `v`, the
contribution of *every* position at which `v` is a dependency, in order. -/
theorem duplicate_contributions [Add A] (b : Block V T A) (m : Bool) (h : Heap V T A) (v : BV)
    (hm : (h v).marked = true ∨ m = false) (o : BV) (ho : o ∈ b.outs) (hadj : (h o).adj ≠ none) :
    (b.evaluateAdj m h v).adj = (positions b.deps v).foldl
      (fun acc i => match acc, b.adjC (b.deps.map (saved h)) (b.outs.map fun o => (h o).adj) i with
        | none, a => a
        | some a, none => some a
        | some a, some a' => some (a + a')) (h v).adj := by
  rw [Block.evaluateAdj_apply]
  simp only [Block.adjAfter]
  rw [if_neg, if_pos, ← entries_positions, List.foldl_map]
  · congr 1
    funext acc p
    unfold accum
    cases acc <;> cases b.adjC (b.deps.map (saved h)) (b.outs.map fun o => (h o).adj) p.2 <;> rfl
  · rcases hm with h1 | h1 <;> simp [h1]
  · intro hall
    rw [List.all_eq_true] at hall
    have := hall _ (List.mem_map_of_mem ho)
    exact hadj (by simpa using this)

/-- `x * x`: both partial derivatives arrive. -/
theorem square_gradient (x s : ℝ) :
    (rfDerivative (FTape.blocks [.bin .mul 0 0 1]) 1 [0] 1 s (fun _ => { output := x, ckpt := some x })).1 = [s * x + s * x] := by
  simp only [rfDerivative, computeGradient, List.map_cons, List.map_nil]
  congr 1
  simp [computeGradientState, markedAdjoint, FTape.blocks, FBlock.toBlock, Pyadjoint.evaluateAdj, Block.evaluateAdj,
    findRelevantNodes, markAll, markControls, Pyadjoint.resetVariables, Block.resetVariables, Var.reset, relevant,
    addAdj?, addAdj, saved, getDerivative, BOp.adjC, List.zipIdx]

example : (addDeps (V := Nat) (T := Nat) (A := Nat) ⟨[], fun _ => { output := 0 }⟩
    [(3, true), (5, false), (3, true), (3, false), (5, true)]).deps = [3, 5, 3] := by rfl

end Pyadjoint
