import Verif.Props.CheckpointAffine
import Verif.Props.CheckpointProgram

/-!
# C26: programs affine in the controls, under every schedule

`affine_gradient_partial` with nothing but the user's program in the statement: if the program is affine in the controls, the derivative on the
checkpointed tape is the derivative of the program as written, at every point, under every schedule and after any history.
-/

namespace Pyadjoint

open Source

/-- The program is affine in the objects `cs`: products have at most one factor that depends on them, quotients no such denominator, and
`exp`, `log`, `**`, `min` and `max` are not applied to what depends on them. -/
def _root_.Pyadjoint.Source.State.AffineIn (A : State) (cs : List Nat) : Prop :=
  ∀ (i : Nat) (r : Reg), A.regs[i]? = some r →
    match r.origin with
    | .free | .un .neg _ | .bin .add _ _ | .bin .sub _ _ => True
    | .un _ a => ¬ A.DependsOn cs a
    | .bin .mul a b => ¬ A.DependsOn cs a ∨ ¬ A.DependsOn cs b
    | .bin .div _ b => ¬ A.DependsOn cs b
    | .bin _ a b => ¬ A.DependsOn cs a ∧ ¬ A.DependsOn cs b

/-- The operations recorded for such a program are affine in the block variables of the controls. -/
theorem Session.Refines.affine {s : Session} {A : State} (R : Session.Refines s A) {cs : List Nat} {vs : List BV}
    (hcs : List.Forall₂ s.RefAt cs vs) (ha : A.AffineIn cs) : ∀ f ∈ s.tape, f.Affine (CTape.Indep s.tape.blocks vs) := by
  have hind : ∀ {a : Nat} {av : BV}, s.Opd a av → ¬ A.DependsOn cs a → CTape.Indep s.tape.blocks vs av := by
    intro a av ho hn hreach
    obtain ⟨k, hk, hdep⟩ := R.dependsOn hcs hreach
    rcases R.not_ref_plain ho with h | h
    · exact hn (R.inj h hk ▸ hdep)
    · exact h k hk
  intro f hf
  obtain ⟨i, r, hr, hnf, href⟩ := R.src f hf
  have hi := ha i r hr
  cases horg : r.origin with
  | free => exact absurd horg hnf
  | un op a =>
    rw [horg] at hi
    obtain ⟨_, w, av, h4, h5, h6⟩ := R.un hr horg
    cases Session.unique_out R.wf hf h5 (Session.refAt_fun href h4)
    cases op with
    | neg => trivial
    | exp => exact hind h6 hi
    | log => exact hind h6 hi
  | bin op a b =>
    rw [horg] at hi
    obtain ⟨_, _, w, av, bv, h4, h6, h7, h5⟩ := R.bin hr horg
    rcases h5 with h5 | ⟨hop, h5⟩
    · cases Session.unique_out R.wf hf h5 (Session.refAt_fun href h4)
      cases op with
      | add => trivial
      | sub => trivial
      | mul => exact hi.imp (hind h6) (hind h7)
      | div => exact hind h7 hi
      | pow => exact ⟨hind h6 hi.1, hind h7 hi.2⟩
      | min => exact ⟨hind h6 hi.1, hind h7 hi.2⟩
      | max => exact ⟨hind h6 hi.1, hind h7 hi.2⟩
    · cases Session.unique_out R.wf hf h5 (Session.refAt_fun href h4)
      rcases hop with rfl | rfl
      · trivial
      · exact (hi.imp (hind h6) (hind h7)).symm

namespace CTape

variable {p : List Instr} {A : State} {sch : Schedule} {J : Nat} {cs : List Nat} {h : FHeap} {es : List (Event ℝ ℝ ℝ)}
  {τ₀ τ : CTape ℝ ℝ ℝ} {Jv : BV} {cvs : List BV}

/-- **C26 for affine programs as written** (partial: `AffineIn`; `multistage_gradient_stale` is a product of controls).  A program that is affine in the controls, run under any
well-formed schedule that reverses every step once, its operations divided into time steps in any way, and used by any evaluations of the functional or of others of the same
controls and any derivatives: `rf.derivative(adj_input)`, if it returns, gives the gradient of `adj_input · scale · J(x)`, where `J(x)` is the value of the program as
written, at every point, in particular at the one of the last evaluation. -/
theorem affine_program_gradient_partial (hp : RecordedProgram p A sch J cs h es τ₀ Jv cvs) (hrev : sch.Reverses) (hnd : cs.Nodup)
    (hfree : A.FreeControls cs) (hu : A.Used J cs) (haff : A.AffineIn cs) {truthy : ℝ → Bool} (hh : ControlUses truthy cvs τ₀ τ)
    (scale seed : ℝ) {n : Nat} (hn : cs.length = n) (x₀ : Fin n → ℝ) (hsm : A.Smooth cs (List.ofFn x₀)) {ds : List ℝ} {τ' : CTape ℝ ℝ ℝ}
    (hd : rfDerivative Jv cvs (seed * scale) τ = .ok (ds, τ')) :
    ∃ grad : Fin n → ℝ, ds = List.ofFn grad ∧
      HasFDerivAt (fun x : Fin n → ℝ => seed * (A.valueAt cs (List.ofFn x) J * scale))
        (∑ i, grad i • (ContinuousLinearMap.proj i : (Fin n → ℝ) →L[ℝ] ℝ)) x₀ := by
  have hf := hp.faithful
  have hnd' := hp.nodup hnd
  have hin' := hp.inputs hfree
  have hlen := hp.length
  have hrec := hp.recorded
  obtain ⟨s, R, hU, hA, hJ, hcs, rfl, hes⟩ := hp.plain
  obtain ⟨grad, h1, h2⟩ := R.gradient hJ hcs hnd hfree hu scale seed (hlen.trans hn) x₀ hsm
  refine ⟨grad, ?_, h2⟩
  have := affine_gradient_partial hrec hrev hf (by rw [hes]; exact float_total s.tape) hnd' hin' (by
      rw [hes]
      intro b hb
      obtain ⟨f, hf, rfl⟩ := List.mem_map.1 hb
      exact adjReads_float (R.affine hcs haff f hf)) hh (fun _ h => h) (by rw [hes]; exact R.used hJ hcs hu) hd
      (xs := List.ofFn x₀) (by rw [List.length_ofFn, hlen, hn])
  rw [this, ← h1, hes]
  rfl

/-! ## Non-vacuity -/

/-- `x = AdjFloat(2); c = AdjFloat(3); Control(x); u = c * x; v = c * u; J = v + x`. -/
def affineProgram : List Instr := [.const 2, .const 3, .control 0, .bin .mul 1 0, .bin .mul 1 2, .bin .add 3 0]

theorem affineProgram_recorded : ∃ A, A.regs = [⟨2, true, .free, 2⟩, ⟨3, true, .free, 3⟩, ⟨3 * 2, true, .bin .mul 1 0, 3 * 2⟩,
      ⟨3 * (3 * 2), true, .bin .mul 1 2, 3 * (3 * 2)⟩, ⟨3 * (3 * 2) + 2, true, .bin .add 3 0, 3 * (3 * 2) + 2⟩] ∧
    RecordedProgram affineProgram A multistage2 4 [0] exAffineHeap exAffineEvents exAffineTape 4 [0] := by
  refine ⟨{ regs := _ }, rfl, by decide, ?_, ⟨_, _, rfl, rfl, rfl, fun v => ?_⟩, exAffine_recorded⟩
  · have h0 : ({ regs := [⟨2, true, .free, 2⟩, ⟨3, true, .free, 3⟩] } : State).AreAdj [0] := fun c hc => by
      rw [List.mem_singleton.1 hc]; exact ⟨_, rfl, rfl⟩
    show (State.step { regs := [⟨2, true, .free, 2⟩, ⟨3, true, .free, 3⟩] } (.control 0)).bind
      (fun A => State.run [.bin .mul 1 0, .bin .mul 1 2, .bin .add 3 0] A) = _
    rw [show State.step { regs := [⟨2, true, .free, 2⟩, ⟨3, true, .free, 3⟩] } (.control 0) = some { regs := [⟨2, true, .free, 2⟩, ⟨3, true, .free, 3⟩] } from
      if_pos h0]
    rfl
  match v with
  | 0 => rfl
  | 1 => rfl
  | 2 => rfl
  | 3 => rfl
  | 4 => rfl
  | v + 5 => rfl

/-- `affine_program_gradient_partial` for this program, after a derivative and an evaluation at `7`, under the multistage schedule. -/
example (x₀ : Fin 1 → ℝ) : ∃ A ds τ', RecordedProgram affineProgram A multistage2 4 [0] exAffineHeap exAffineEvents exAffineTape 4 [0] ∧
    rfDerivative 4 [0] (1 * 1) exAffineUsed = .ok (ds, τ') ∧
    ∃ grad : Fin 1 → ℝ, ds = List.ofFn grad ∧
      HasFDerivAt (fun x : Fin 1 → ℝ => 1 * (A.valueAt [0] (List.ofFn x) 4 * 1))
        (∑ i, grad i • (ContinuousLinearMap.proj i : (Fin 1 → ℝ) →L[ℝ] ℝ)) x₀ := by
  obtain ⟨A, hregs, hp⟩ := affineProgram_recorded
  have h1 : computed (rfDerivative 4 [0] (1 * 1) exAffineUsed) = true := by decide +kernel
  cases hd : rfDerivative 4 [0] (1 * 1) exAffineUsed with
  | error e => rw [hd] at h1; cases h1
  | ok r =>
    obtain ⟨ds, τ'⟩ := r
    have hc : ¬ A.DependsOn [0] 1 := by
      intro h
      cases h with
      | control h => simp at h
      | op hr hu _ => rw [hregs] at hr; cases hr; exact hu
    refine ⟨A, ds, τ', hp, rfl, affine_program_gradient_partial hp multistage2_reverses (by simp) ?_ ?_ ?_ exAffine_used.uses 1 1 rfl x₀ ?_ hd⟩
    · intro c hc r hr
      rw [List.mem_singleton.1 hc, hregs] at hr
      cases hr; rfl
    · intro c hc
      rw [List.mem_singleton.1 hc]
      exact Or.inr ⟨2, ⟨3 * 2, true, .bin .mul 1 0, 3 * 2⟩, by rw [hregs]; rfl, Or.inr rfl⟩
    · intro i r hr
      rw [hregs] at hr
      match i, hr with
      | 0, hr => cases hr; trivial
      | 1, hr => cases hr; trivial
      | 2, hr => cases hr; exact Or.inl hc
      | 3, hr => cases hr; exact Or.inl hc
      | 4, hr => cases hr; trivial
    · intro i r hr
      rw [hregs] at hr
      match i, hr with
      | 0, hr => cases hr; trivial
      | 1, hr => cases hr; trivial
      | 2, hr => cases hr; trivial
      | 3, hr => cases hr; trivial
      | 4, hr => cases hr; trivial

end CTape
end Pyadjoint
