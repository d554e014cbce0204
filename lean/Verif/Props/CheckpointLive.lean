import Verif.Props.CheckpointValue

/-!
# The checkpointable state of a tape recorded under a schedule (C24)

`Verif.Props.LiveIn` describes the states of tapes without a checkpoint manager.  Here the tape has one: the schedule decides where steps are appended, and
ending a step stores and forgets values.
-/

namespace Pyadjoint
namespace CTape

variable {V T A : Type*}

/-! ## Specification -/

/-- `v` is needed to run steps `k, k + 1, …`: one of their blocks uses it, and none of them computes it. -/
def NeededFrom (steps : List (CStep V T A)) (k : Nat) (v : BV) : Prop :=
  (∃ (j : Nat) (s : CStep V T A), k ≤ j ∧ steps[j]? = some s ∧ ∃ b ∈ s.blocks, v ∈ b.deps) ∧
  ∀ (j : Nat) (s : CStep V T A), k ≤ j → steps[j]? = some s → ∀ b ∈ s.blocks, v ∉ b.outs

/-! ## Proof -/

theorem LInv.live {τ : CTape V T A} (h : LInv τ) {k : Nat} {s : CStep V T A} (hs : τ.steps[k]? = some s) (v : BV) :
    v ∈ s.state.elems ↔ NeededFrom τ.steps k v := by
  rw [h.state k s hs v]
  constructor
  · rintro ⟨hc, hl⟩
    have hout : ∀ (j : Nat) (s : CStep V T A), k ≤ j → τ.steps[j]? = some s → ∀ b ∈ s.blocks, v ∉ b.outs := by
      intro j s' hj hs' b hb hv
      have := h.outs j s' hs' v (CStep.mem_outs.2 ⟨b, hb, hv⟩)
      omega
    obtain ⟨j, s', hs', hj, b, hb, hv⟩ := h.used v (by omega)
    have hkj : k ≤ j := by omega
    exact ⟨⟨j, s', hkj, hs', b, hb, hv.resolve_right (hout j s' hkj hs' b hb)⟩, hout⟩
  · rintro ⟨⟨j, s', hj, hs', b, hb, hv⟩, hout⟩
    obtain ⟨pre, post, e⟩ := List.append_of_mem hb
    obtain ⟨d1, d2, -⟩ := h.deps j s' hs' pre b post e v hv
    refine ⟨?_, by omega⟩
    by_contra hc
    obtain ⟨i, s₁, h1, h2, h3⟩ := h.created v (by omega)
    obtain ⟨b₁, hb₁, hv₁⟩ := CStep.mem_outs.1 h3
    exact hout i s₁ (by omega) h1 b₁ hb₁ hv₁

/-- **C24 under a checkpoint schedule.**  When a program has been recorded under a schedule, and also after the recording was ended (which pads the tape with
empty steps), the checkpointable state of every step consists of exactly the variables needed to run from that step. -/
theorem recorded_state_live_in {sch : Schedule} {h : Heap V T A} {es : List (Event V T A)} {τ : CTape V T A} (hr : Recorded sch h es τ) :
    (∀ (k : Nat) s, τ.steps[k]? = some s → ∀ v, v ∈ s.state.elems ↔ NeededFrom τ.steps k v) ∧
    ∀ τ', endTaping τ = .ok τ' → ∀ (k : Nat) s, τ'.steps[k]? = some s → ∀ v, v ∈ s.state.elems ↔ NeededFrom τ'.steps k v := by
  obtain ⟨gc, pk, eager, τ₀, hgc, h1, h2⟩ := hr.recorded
  have hf : Fresh (fun _ => True) (fun v => (h v).output) h :=
    ⟨fun _ => rfl, fun v _ c hc => (by rw [(hr.unused v).1] at hc; cases hc),
      fun v => (hr.unused v).2.2.2.1, fun v => (hr.unused v).2.2.2.2⟩
  have hwf : WF ([] ++ Event.blocks es) := hr.ssa
  have t1 := (taped_enable hf hgc h1).recording es hwf h2
  exact ⟨fun k s hs v => t1.inv.live hs v, fun τ' hτ' k s hs v => (t1.inv.ended (endTaping_ended (fun _ => True) (fun v => (h v).output) hτ').1).live hs v⟩

-- two steps, both of which need the input
example : (((tapeOf emptyTape (record twoSteps (freshHeap [2, 4, 4]) exEarly)).steps.map fun s => s.state.elems) = [[0], [0]]) := by decide +kernel

example : ∀ (k : Nat) s, (tapeOf emptyTape (record twoSteps (freshHeap [2, 4, 4]) exEarly)).steps[k]? = some s →
    ∀ v, v ∈ s.state.elems ↔ NeededFrom (tapeOf emptyTape (record twoSteps (freshHeap [2, 4, 4]) exEarly)).steps k v :=
  (recorded_state_live_in (recorded_of (out := [2, 4, 4]) twoSteps_wellFormed exEarly_wf (by decide))).1

end CTape
end Pyadjoint
