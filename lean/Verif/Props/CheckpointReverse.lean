import Verif.Props.CheckpointStorage

/-!
# C69: what a `Reverse` action frees

The values an action `Reverse(n1, n0, clear_adj_deps)` removes from working memory: those of the results of the steps it reverses if the flag is set, and none otherwise.
-/

namespace Pyadjoint
namespace CTape

variable {V T A : Type*}

/-- The action frees the value of `v`: the flag is set and `v` is a result of an operation in one of the steps `n0`, …, `n1 - 1` that this step does not also start from. -/
def Frees (τ : CTape V T A) (n1 n0 : Nat) (clear : Bool) (v : BV) : Prop :=
  clear = true ∧ ∃ k s, n0 ≤ k ∧ k < n1 ∧ τ.steps[k]? = some s ∧ (∃ b ∈ s.blocks, v ∈ b.outs) ∧ v ∉ s.state.elems

theorem reverseSteps_values [Add A] {clear m : Bool} (ks : List Nat) : ∀ {τ τ' : CTape V T A}, ks.foldlM (fun τ k => reverseStep k clear m τ) τ = .ok τ' →
    ∀ v, ((clear = true ∧ ∃ k s, k ∈ ks ∧ τ.steps[k]? = some s ∧ (∃ b ∈ s.blocks, v ∈ b.outs) ∧ v ∉ s.state.elems) → (τ'.heap v).ckpt = none) ∧
      (¬ (clear = true ∧ ∃ k s, k ∈ ks ∧ τ.steps[k]? = some s ∧ (∃ b ∈ s.blocks, v ∈ b.outs) ∧ v ∉ s.state.elems) → (τ'.heap v).ckpt = (τ.heap v).ckpt) := by
  induction ks with
  | nil =>
    intro τ τ' h v
    cases h
    exact ⟨fun ⟨_, k, s, hk, _⟩ => absurd hk (by simp), fun _ => rfl⟩
  | cons k ks ih =>
    intro τ τ' h v
    rw [List.foldlM_cons] at h
    cases h₁ : reverseStep k clear m τ with
    | error e => rw [h₁] at h; cases h
    | ok τ₁ =>
      rw [h₁] at h
      obtain ⟨s, s', hs, hst, hb, hstate, -, -, -, -, -, -, hv⟩ := reverseStep_ok h₁
      have hlook : ∀ (j : Nat) (r : CStep V T A), τ.steps[j]? = some r → ∃ r' : CStep V T A, τ₁.steps[j]? = some r' ∧ r'.blocks = r.blocks ∧ r'.state = r.state := by
        intro j r hr
        rw [hst, List.getElem?_set]
        split
        · rename_i e
          subst e
          rw [hs] at hr
          cases hr
          rw [if_pos (lt_length hs)]
          exact ⟨s', rfl, hb, hstate⟩
        · exact ⟨r, hr, rfl, rfl⟩
      have hback : ∀ (j : Nat) (r' : CStep V T A), τ₁.steps[j]? = some r' → ∃ r : CStep V T A, τ.steps[j]? = some r ∧ r'.blocks = r.blocks ∧ r'.state = r.state := by
        intro j r' hr
        have hj := lt_length hr
        rw [hst, List.length_set] at hj
        obtain ⟨r'', e1, e2, e3⟩ := hlook j _ (List.getElem?_eq_getElem hj)
        rw [hr] at e1
        cases e1
        exact ⟨_, List.getElem?_eq_getElem hj, e2, e3⟩
      have hc : (τ₁.heap v).ckpt = if clear = true ∧ v ∈ s.outs ∧ v ∉ s.state.elems then none else (τ.heap v).ckpt := by
        obtain ⟨a, e⟩ := evaluateAdj_frame s.blocks m τ.heap v
        rw [hv v]
        unfold resetOut
        rw [Function.update_self, e]
        by_cases ho : v ∈ s.outs <;> by_cases hk : v ∈ s.state.elems <;> cases clear <;> cases (τ.heap v).isControl <;> simp [ho, hk]
      obtain ⟨ih1, ih2⟩ := ih h v
      constructor
      · rintro ⟨hcl, j, r, hj, hr, hout, hkeep⟩
        by_cases hlater : clear = true ∧ ∃ k s, k ∈ ks ∧ τ₁.steps[k]? = some s ∧ (∃ b ∈ s.blocks, v ∈ b.outs) ∧ v ∉ s.state.elems
        · exact ih1 hlater
        · rw [ih2 hlater, hc]
          rcases List.mem_cons.1 hj with rfl | hj
          · rw [hs] at hr
            cases hr
            rw [if_pos ⟨hcl, CStep.mem_outs.2 hout, hkeep⟩]
          · obtain ⟨r', e1, e2, e3⟩ := hlook j r hr
            exact absurd ⟨hcl, j, r', hj, e1, by rw [e2]; exact hout, by rw [e3]; exact hkeep⟩ hlater
      · intro hn
        have hlater : ¬ (clear = true ∧ ∃ k s, k ∈ ks ∧ τ₁.steps[k]? = some s ∧ (∃ b ∈ s.blocks, v ∈ b.outs) ∧ v ∉ s.state.elems) := by
          rintro ⟨hcl, j, r', hj, hr, hout, hkeep⟩
          obtain ⟨r, e1, e2, e3⟩ := hback j r' hr
          exact hn ⟨hcl, j, r, List.mem_cons_of_mem _ hj, e1, by rw [← e2]; exact hout, by rw [← e3]; exact hkeep⟩
        rw [ih2 hlater, hc, if_neg]
        rintro ⟨hcl, hout, hkeep⟩
        exact hn ⟨hcl, k, s, List.mem_cons_self, hs, CStep.mem_outs.1 hout, hkeep⟩

theorem mem_reverseRange {n1 n0 k : Nat} : k ∈ reverseRange n1 n0 ↔ n0 ≤ k ∧ k < n1 := by
  unfold reverseRange
  simp only [List.mem_reverse, List.mem_map, List.mem_range]
  constructor
  · rintro ⟨a, ha, rfl⟩
    omega
  · rintro ⟨h1, h2⟩
    exact ⟨k - n0, by omega, by omega⟩

/-- **C69, `Reverse` actions**: on every tape in every state, an action `Reverse(n1, n0, clear)` removes from working memory the values of the results of the steps it reverses if its
flag is set, and keeps every other value; without the flag it keeps all. -/
theorem reverse_frees_exactly [Add A] {τ τ' : CTape V T A} {n1 n0 : Nat} {clear m : Bool} {keepJ : List BV} (h : perform m keepJ τ (.reverse n1 n0 clear) = .ok τ') (v : BV) :
    (τ.Frees n1 n0 clear v → (τ'.heap v).ckpt = none) ∧ (¬ τ.Frees n1 n0 clear v → (τ'.heap v).ckpt = (τ.heap v).ckpt) := by
  obtain ⟨h1, h2⟩ := reverseSteps_values (reverseRange n1 n0) h v
  constructor
  · rintro ⟨hc, k, s, hk, hk', hr⟩
    exact h1 ⟨hc, k, s, mem_reverseRange.2 ⟨hk, hk'⟩, hr⟩
  · intro hn
    refine h2 ?_
    rintro ⟨hc, k, s, hk, hr⟩
    exact hn ⟨hc, k, s, (mem_reverseRange.1 hk).1, (mem_reverseRange.1 hk).2, hr⟩

/-- The hypothesis can be met, and the flag matters: after an evaluation of `x⁴` at `3`, reversing the last step with the flag removes the value of the functional and without it does
not. -/
example :
    let τ := after emptyTape (rfCall (fun x : Int => x != 0) 2 [0] 1 [3] powerTape)
    let value := fun clear => match perform true [] τ (.reverse 2 1 clear) with
      | .ok τ' => some ((τ'.heap 2).ckpt)
      | .error _ => none
    value true = some none ∧ value false = some (some 81) := by decide +kernel

end CTape
end Pyadjoint
