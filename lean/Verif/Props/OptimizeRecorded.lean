import Verif.Props.Optimize
import Verif.Props.ProgramGradient

/-! # C08 for recorded programs -/

namespace Pyadjoint.Session

open Source

/-- On a program that was only recorded, every block stores what recomputing it would store. -/
theorem recorded_consistent (p : List Instr) (hp : ∀ ins ∈ p, ins.evaluates = false) (S : Session)
    (hS : run p {} = some S) (vs : List BV) : ConsistentOff S.tape.blocks vs S.heap := by
  have h := refines_init.run p
  rw [hS] at h
  cases hA : State.run p {} with
  | none => rw [hA] at h; exact h.elim
  | some A =>
    rw [hA] at h
    have R : Refines S A := h
    have hRec : A.Recorded := recorded_run p (fun i r h => by simp at h) hA
    have hU : S.Untouched := untouched_run p refines_init hp (fun v => rfl) hS
    have hval : ∀ {i : Nat} {r : Reg} {v : BV}, A.regs[i]? = some r → S.Opd i v → saved S.heap v = r.value := by
      rintro i r v hr ⟨o, ho, h1, h2⟩
      cases hadj : o.adj with
      | false => exact (h2 hadj).1.trans (R.val ho hr).1
      | true => exact (hU v).trans ((R.output ho (h1 hadj)).trans (R.val ho hr).1)
    have hget : ∀ {i : Nat} {r : Reg}, A.regs[i]? = some r → (A.regs.map (·.value)).getD i 0 = r.value := by
      intro i r h; simp [List.getD_eq_getElem?_getD, h]
    have hfind : ∀ {a i : Nat} {r : Reg}, A.regs[i]? = some r → a < i → ∃ q, A.regs[a]? = some q := by
      intro a i r hr ha
      exact ⟨_, List.getElem?_eq_getElem (ha.trans (List.getElem?_eq_some_iff.1 hr).1)⟩
    intro b hb _ _ i hi x hx
    obtain ⟨f, hf, rfl⟩ := List.mem_map.1 hb
    obtain ⟨k, r, hr, hnf, hk⟩ := R.src f hf
    obtain ⟨o, ho, hov⟩ := id hk
    have hout : saved S.heap f.out = r.value :=
      (hU _).trans ((R.output ho hov).trans (R.val ho hr).1)
    obtain ⟨h1, h2⟩ := hRec k r hr
    -- the block of the register is `f`
    cases horg : r.origin with
    | free => exact absurd horg hnf
    | un op a =>
      obtain ⟨ha, v, av, hv, hmem, hopd⟩ := R.un hr horg
      have e := refAt_fun hk hv
      have e2 := unique_out R.wf hf hmem (by rw [e]; rfl)
      subst e2
      obtain ⟨q, hq⟩ := hfind hr ha
      rw [horg] at h1
      simp only [Def.eval, hget hq] at h1
      simp only [FBlock.toBlock, List.length_singleton] at hi
      obtain rfl : i = 0 := by omega
      simp only [FBlock.toBlock, List.map_cons, List.map_nil, hval hq hopd] at hx
      cases hx
      exact hout.trans h1
    | bin op a c =>
      obtain ⟨ha, hc, v, av, cv, hv, hopa, hopc, hmem⟩ := R.bin hr horg
      have e := refAt_fun hk hv
      obtain ⟨q, hq⟩ := hfind hr ha
      obtain ⟨q', hq'⟩ := hfind hr hc
      rw [horg] at h1
      simp only [Def.eval, hget hq, hget hq'] at h1
      rcases hmem with hmem | ⟨hcomm, hmem⟩
      · have e2 := unique_out R.wf hf hmem (by rw [e]; rfl)
        subst e2
        simp only [FBlock.toBlock, List.length_singleton] at hi
        obtain rfl : i = 0 := by omega
        simp only [FBlock.toBlock, List.map_cons, List.map_nil, hval hq hopa, hval hq' hopc] at hx
        cases hx
        exact hout.trans h1
      · have e2 := unique_out R.wf hf hmem (by rw [e]; rfl)
        subst e2
        simp only [FBlock.toBlock, List.length_singleton] at hi
        obtain rfl : i = 0 := by omega
        simp only [FBlock.toBlock, List.map_cons, List.map_nil, hval hq hopa, hval hq' hopc] at hx
        cases hx
        refine hout.trans (h1.trans ?_)
        rcases hcomm with rfl | rfl
        · exact add_comm _ _
        · exact mul_comm _ _

/-- **C08 for recorded programs.**  Optimising the tape of a recorded program for the block variables
of some controls and a functional does not change the functional. -/
theorem optimize_recorded_value (p : List Instr) (hp : ∀ ins ∈ p, ins.evaluates = false) (S : Session)
    (hS : run p {} = some S) (vs : List BV) (J : BV) (steps' : List (Blocks ℝ ℝ ℝ))
    (hopt : optimizeTape [S.tape.blocks] vs J = some steps') (scale : ℝ) (xs : List ℝ) :
    (rfCall steps'.flatten J vs scale xs S.heap).map (·.1)
      = (rfCall S.tape.blocks J vs scale xs S.heap).map (·.1) := by
  have hfl : ([S.tape.blocks] : List (Blocks ℝ ℝ ℝ)).flatten = S.tape.blocks := by simp
  have h := refines_init.run p
  rw [hS] at h
  cases hA : State.run p {} with
  | none => rw [hA] at h; exact h.elim
  | some A =>
    rw [hA] at h
    have R : Refines S A := h
    have := optimize_preserves_value_partial (by rw [hfl]; exact R.wf) vs J S.heap hopt R.flags
      (by rw [hfl]; exact recorded_consistent p hp S hS vs) scale xs
    rw [hfl] at this
    exact this

/-- Non-vacuity: a recorded program whose tape can be optimised. -/
example : ∃ S steps', run [.const 2, .un .exp 0, .bin .mul 1 0] {} = some S ∧
    optimizeTape [S.tape.blocks] [0] 2 = some steps' := by
  refine ⟨_, _, rfl, rfl⟩

end Pyadjoint.Session
