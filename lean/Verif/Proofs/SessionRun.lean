import Verif.Proofs.SessionCall
import Verif.Proofs.Derivs

/-! The session and the source-level reading run in step. -/

namespace Pyadjoint
open Source

/-- What `compute_gradient` leaves alone. -/
theorem computeGradientState_frame {V T A : Type*} [Add A] (bs : Blocks V T A) (J : BV) (cs : List BV)
    (seed : A) (h : Heap V T A) (v : BV) :
    (computeGradientState bs J cs seed h v).output = (h v).output ∧
    (computeGradientState bs J cs seed h v).ckpt = (h v).ckpt ∧
    (computeGradientState bs J cs seed h v).isControl
      = if v ∈ cs then false else (h v).isControl := by
  have hup : ∀ h : Heap V T A, (Function.update h J { h J with adj := some seed } v).output = (h v).output ∧
      (Function.update h J { h J with adj := some seed } v).ckpt = (h v).ckpt ∧
      (Function.update h J { h J with adj := some seed } v).isControl = (h v).isControl := by
    intro h
    by_cases hv : v = J
    · subst hv; simp
    · simp [Function.update_of_ne hv]
  have u1 := (hup (resetVariables bs .adjoint h)).1
  have u2 := (hup (resetVariables bs .adjoint h)).2.1
  have u3 := (hup (resetVariables bs .adjoint h)).2.2
  unfold computeGradientState markedAdjoint
  refine ⟨?_, ?_, ?_⟩
  · simp only [markAll_output, markControls_output, evaluateAdj_output]
    exact u1.trans (by simp)
  · simp only [markAll_ckpt, markControls_ckpt, evaluateAdj_ckpt]
    exact u2.trans (by simp)
  simp only [markAll_isControl]
  rw [markControls_apply]
  split
  · rfl
  · rename_i hv
    simp only [evaluateAdj_isControl]
    rw [markControls_apply, if_neg hv, markAll_isControl, u3, resetAdj_isControl]

namespace Session

variable {s : Session} {A : State}

theorem assign_getElem? (A : State) (cs : List Nat) (xs : List ℝ) (i : Nat) {r : Reg}
    (h : (A.assign cs xs).regs[i]? = some r) : ∃ q, A.regs[i]? = some q ∧ r.value = q.value ∧
      r.adj = q.adj ∧ r.origin = q.origin ∧ r.leaf = (override cs xs i).getD q.leaf := by
  simp only [State.assign, List.getElem?_mapIdx, Option.map_eq_some_iff] at h
  obtain ⟨q, hq, rfl⟩ := h
  exact ⟨q, hq, rfl, rfl, rfl, rfl⟩

theorem assign_origins (A : State) (cs : List Nat) (xs : List ℝ) :
    (A.assign cs xs).regs.map (·.origin) = A.regs.map (·.origin) := by
  apply List.ext_getElem?
  intro i
  simp [State.assign, List.getElem?_mapIdx, Function.comp_def]

/-- A replay, complete or not, assigns to the free controls and changes no other free object. -/
theorem Refines.callHeap (R : Refines s A) {cs : List Nat} {vs : List BV} {xs : List ℝ}
    (hcs : List.Forall₂ s.RefAt cs vs) (hh : ∀ v ∈ vs, v ∈ s.held) (hl : xs.length = cs.length)
    (t : FTape) (ht : ∀ b ∈ t, b ∈ s.tape) :
    Refines { s with heap := rfEval t.blocks vs xs s.heap } (A.assign cs xs) := by
  have hlv : xs.length = vs.length := hl.trans hcs.length_eq
  have frame := fun v => rfEval_frame t.blocks vs xs s.heap v (fun c _ => R.flags c)
  have hleaf : ∀ v, v ∉ vs → (∀ b ∈ s.tape, b.out ≠ v) →
      saved (rfEval t.blocks vs xs s.heap) v = saved s.heap v := by
    intro v hv ho
    rw [saved_rfEval_leaf _ vs xs _ hlv R.flags v
      (Or.inr (not_outs_of _ _ (fun b hb => ho b (ht b hb)))),
      show override vs xs v = none by
        rw [← Option.not_isSome_iff_eq_none]
        exact fun h => hv ((override_isSome vs xs hlv v).1 h)]
    rfl
  have hopd : ∀ {a u}, s.Opd a u → Opd { s with heap := rfEval t.blocks vs xs s.heap } a u := by
    rintro a u ⟨o, h1, h2, h3⟩
    refine ⟨o, h1, h2, fun h => ?_⟩
    obtain ⟨h4, h5, h6, h7⟩ := h3 h
    refine ⟨(hleaf u ?_ h5).trans h4, h5, h6, h7⟩
    intro hu
    obtain ⟨k, _, hk⟩ := forall₂_right hcs hu
    exact h6 k hk
  refine ⟨by simp [State.assign, R.len], ?_, R.ann, R.ref_lt, R.inj, R.plain, R.tape_lt, R.held, R.wf,
    ?_, ?_, ?_, ?_, ?_, ?_, ?_, ?_, ?_⟩
  · intro i o r h1 h2
    obtain ⟨q, hq, e1, e2, _, _⟩ := assign_getElem? A cs xs i h2
    rw [e1, e2]; exact R.val h1 hq
  · intro i o v h1 h2
    obtain ⟨c, hc⟩ := frame v
    simp only [hc]; exact R.output h1 h2
  · intro v
    obtain ⟨c, hc⟩ := frame v
    simp only [hc]; exact R.flags v
  · intro i o v h1 h2 h3 h4
    exact (hleaf v (fun h => h3 (hh v h)) (fun b hb h => (h4 b hb).2 h.symm)).trans
      (R.quiet h1 h2 h3 h4)
  · intro i o r h1 h2 h3
    obtain ⟨q, hq, _, _, e3, e4⟩ := assign_getElem? A cs xs i h2
    rw [e3] at h3
    rw [e4, R.leaf h1 hq h3]
    cases hr : o.ref with
    | none =>
      have hni : i ∉ cs := by
        intro h
        obtain ⟨v, _, o', h5, h6⟩ := forall₂_left hcs h
        rw [h1] at h5; cases h5; rw [hr] at h6; cases h6
      rw [show override cs xs i = none by
        rw [← Option.not_isSome_iff_eq_none]
        exact fun h => hni ((override_isSome cs xs hl i).1 h)]
      rfl
    | some v =>
      have hv : s.RefAt i v := ⟨o, h1, hr⟩
      simp only [Option.map_some, Option.getD_some]
      rw [forall₂_override (P := s.RefAt) R.inj refAt_fun hcs xs hv,
        saved_rfEval_leaf _ vs xs _ hlv R.flags v
          (Or.inr (not_outs_of _ _ (fun b hb => R.free hq h3 hv b (ht b hb))))]
  · intro i r v h1 h2 h3
    obtain ⟨q, hq, _, _, e3, _⟩ := assign_getElem? A cs xs i h1
    exact R.free hq (e3 ▸ h2) h3
  · intro i r op a h1 h2
    obtain ⟨q, hq, _, _, e3, _⟩ := assign_getElem? A cs xs i h1
    obtain ⟨h3, w, av, h7, h8, h9⟩ := R.un hq (e3 ▸ h2)
    exact ⟨h3, w, av, h7, h8, hopd h9⟩
  · intro i r op a b h1 h2
    obtain ⟨q, hq, _, _, e3, _⟩ := assign_getElem? A cs xs i h1
    obtain ⟨h3, h3', w, av, bv, h7, h8, h9, h10⟩ := R.bin hq (e3 ▸ h2)
    exact ⟨h3, h3', w, av, bv, h7, hopd h8, hopd h9, h10⟩
  · intro b hb
    obtain ⟨k, r, h1, h2, h3⟩ := R.src b hb
    exact ⟨k, { r with leaf := (override cs xs k).getD r.leaf },
      by simp [State.assign, List.getElem?_mapIdx, h1], h2, h3⟩
  · rw [assign_origins]; exact R.count

theorem Refines.adj_iff (R : Refines s A) (J : Nat) :
    (∃ o, s.objs[J]? = some o ∧ o.adj = true) ↔ ∃ r, A.regs[J]? = some r ∧ r.adj = true := by
  constructor
  · rintro ⟨o, h1, h2⟩
    obtain ⟨r, hr⟩ := R.regs_some h1
    exact ⟨r, hr, (R.val h1 hr).2 ▸ h2⟩
  · rintro ⟨r, h1, h2⟩
    have hlt : J < s.objs.length := by rw [R.len]; exact (List.getElem?_eq_some_iff.1 h1).1
    have h3 : s.objs[J]? = some s.objs[J] := List.getElem?_eq_getElem hlt
    exact ⟨_, h3, (R.val h3 h1).2.trans h2⟩

open Classical in
/-- Evaluating a reduced functional: it returns exactly when the arguments are right, with the
source-level value; the free controls keep the values given. -/
theorem Refines.call (R : Refines s A) (J : Nat) (cs : List Nat) (scale : ℝ) (xs : List ℝ) :
    if A.AreAdj (J :: cs) ∧ xs.length = cs.length then
      ∃ s' v, s.call J cs scale xs = some (A.valueAt cs xs J * scale, s') ∧
        Refines s' (A.assign cs xs) ∧ Grows s { s' with heap := s.heap } ∧
        s'.RefAt J v ∧ ∀ i v, s'.RefAt i v → saved s'.heap v = A.valueAt cs xs i
    else s.call J cs scale xs = none := by
  have hsplit : A.AreAdj (J :: cs) ↔ (∃ r, A.regs[J]? = some r ∧ r.adj = true) ∧ A.AreAdj cs := by
    simp [State.AreAdj]
  unfold Session.call
  cases hc : Session.controls cs s with
  | none =>
    have : ¬ A.AreAdj cs := by rw [← R.controls_isSome cs, hc]; simp
    rw [if_neg (fun h => this (hsplit.1 h.1).2)]
    rfl
  | some q =>
    obtain ⟨vs, s₁⟩ := q
    have hadjc : A.AreAdj cs := by rw [← R.controls_isSome cs, hc]; rfl
    obtain ⟨R₁, G₁, hcs, hh⟩ := R.controls cs hc
    simp only [Option.bind_eq_bind, Option.bind_some]
    by_cases hJ : ∃ o, s₁.objs[J]? = some o ∧ o.adj = true
    · obtain ⟨o, ho, hadj⟩ := hJ
      have hJ' := (R₁.adj_iff J).1 ⟨o, ho, hadj⟩
      rw [ho]
      simp only [Option.bind_some, hadj, if_true]
      have R₂ := R₁.touch ho hadj
      have G₂ := R₁.grows_touch ho
      have hr := touch_refAt ho
      have hcs₂ : List.Forall₂ (s₁.touch J o).2.RefAt cs vs :=
        hcs.imp fun _ _ h => G₂.refAt h
      have hh₂ : ∀ v ∈ vs, v ∈ (s₁.touch J o).2.held := fun v hv => G₂.held v (hh v hv)
      by_cases hl : xs.length = cs.length
      · rw [if_pos ⟨hsplit.2 ⟨hJ', hadjc⟩, hl⟩]
        have hlv : xs.length = vs.length := hl.trans hcs.length_eq
        have hrep := R₂.replay hcs₂ hl
        have R₃ := R₂.callHeap hcs₂ hh₂ hl (s₁.touch J o).2.tape (fun _ h => h)
        unfold rfCall
        rw [if_neg (by simp [hlv])]
        simp only [Option.bind_some, Option.pure_def]
        rw [hrep J _ hr]
        refine ⟨_, _, rfl, R₃, ?_, hr, fun i v h => hrep i v h⟩
        have G := G₁.trans G₂
        refine ⟨G.tape, G.annotate, G.held, G.len, G.next, G.objs, ?_⟩
        rintro a u ⟨o', k1, k2, k3⟩
        obtain ⟨p, l1, l2, l3⟩ := G.opd ⟨o', k1, k2, k3⟩
        refine ⟨p, l1, l2, fun h => ?_⟩
        obtain ⟨q', m1, m2, m3, _⟩ := G.objs k1
        rw [m1] at l1; cases l1
        refine ⟨?_, (l3 h).2⟩
        show saved s.heap u = _
        rw [m2]; exact (k3 (m3 ▸ h)).1
      · rw [if_neg (fun h => hl h.2)]
        have hlv : xs.length ≠ vs.length := fun h => hl (h.trans hcs.length_eq.symm)
        unfold rfCall
        rw [if_pos hlv]; rfl
    · have hJ' := fun h => hJ ((R₁.adj_iff J).2 h)
      rw [if_neg (fun h => hJ' (hsplit.1 h.1).1)]
      cases ho : s₁.objs[J]? with
      | none => rfl
      | some o =>
        have : o.adj = false := by
          cases h : o.adj with
          | false => rfl
          | true => exact absurd ⟨o, ho, h⟩ hJ
        simp [this]

open Classical in
theorem Refines.derivative (R : Refines s A) (J : Nat) (cs : List Nat) (scale seed : ℝ) :
    if A.AreAdj (J :: cs) then
      ∃ s' ds, s.derivative J cs scale seed = some (ds, s') ∧ Refines s' A
    else s.derivative J cs scale seed = none := by
  have hsplit : A.AreAdj (J :: cs) ↔ (∃ r, A.regs[J]? = some r ∧ r.adj = true) ∧ A.AreAdj cs := by
    simp [State.AreAdj]
  unfold Session.derivative
  cases hc : Session.controls cs s with
  | none =>
    have : ¬ A.AreAdj cs := by rw [← R.controls_isSome cs, hc]; simp
    rw [if_neg (fun h => this (hsplit.1 h).2)]
    rfl
  | some q =>
    obtain ⟨vs, s₁⟩ := q
    have hadjc : A.AreAdj cs := by rw [← R.controls_isSome cs, hc]; rfl
    obtain ⟨R₁, G₁, hcs, hh⟩ := R.controls cs hc
    simp only [Option.bind_eq_bind, Option.bind_some]
    by_cases hJ : ∃ o, s₁.objs[J]? = some o ∧ o.adj = true
    · obtain ⟨o, ho, hadj⟩ := hJ
      rw [if_pos (hsplit.2 ⟨(R₁.adj_iff J).1 ⟨o, ho, hadj⟩, hadjc⟩), ho]
      simp only [Option.bind_some, hadj, if_true]
      have R₂ := R₁.touch ho hadj
      refine ⟨_, _, rfl, R₂.heap _ ?_ ?_ ?_⟩
      · intro v; exact (computeGradientState_frame _ _ _ _ _ v).1
      · intro v
        have := (computeGradientState_frame (s₁.touch J o).2.tape.blocks (s₁.touch J o).1 vs
          (seed * scale) (s₁.touch J o).2.heap v).2.2
        refine this.trans ?_
        split
        · rfl
        · exact R₂.flags v
      · intro v
        exact saved_congr (computeGradientState_frame _ _ _ _ _ v).1
          (computeGradientState_frame _ _ _ _ _ v).2.1
    · have hJ' := fun h => hJ ((R₁.adj_iff J).2 h)
      rw [if_neg (fun h => hJ' (hsplit.1 h).1)]
      cases ho : s₁.objs[J]? with
      | none => rfl
      | some o =>
        have : o.adj = false := by
          cases h : o.adj with
          | false => rfl
          | true => exact absurd ⟨o, ho, h⟩ hJ
        simp [this]

open Classical in
theorem Refines.functional (R : Refines s A) (J : Nat) (cs : List Nat) :
    if A.AreAdj (J :: cs) then
      ∃ s' v vs, s.functional J cs = some ((v, vs), s') ∧ Refines s' A ∧ vs.length = cs.length
    else s.functional J cs = none := by
  have hsplit : A.AreAdj (J :: cs) ↔ (∃ r, A.regs[J]? = some r ∧ r.adj = true) ∧ A.AreAdj cs := by
    simp [State.AreAdj]
  unfold Session.functional
  cases hc : Session.controls cs s with
  | none =>
    have : ¬ A.AreAdj cs := by rw [← R.controls_isSome cs, hc]; simp
    rw [if_neg (fun h => this (hsplit.1 h).2)]
    rfl
  | some q =>
    obtain ⟨vs, s₁⟩ := q
    have hadjc : A.AreAdj cs := by rw [← R.controls_isSome cs, hc]; rfl
    obtain ⟨R₁, G₁, hcs, hh⟩ := R.controls cs hc
    simp only [Option.bind_eq_bind, Option.bind_some]
    by_cases hJ : ∃ o, s₁.objs[J]? = some o ∧ o.adj = true
    · obtain ⟨o, ho, hadj⟩ := hJ
      rw [if_pos (hsplit.2 ⟨(R₁.adj_iff J).1 ⟨o, ho, hadj⟩, hadjc⟩), ho]
      simp only [Option.bind_some, hadj, if_true]
      exact ⟨_, _, _, rfl, R₁.touch ho hadj, hcs.length_eq.symm⟩
    · have hJ' := fun h => hJ ((R₁.adj_iff J).2 h)
      rw [if_neg (fun h => hJ' (hsplit.1 h).1)]
      cases ho : s₁.objs[J]? with
      | none => rfl
      | some o =>
        have : o.adj = false := by
          cases h : o.adj with
          | false => rfl
          | true => exact absurd ⟨o, ho, h⟩ hJ
        simp [this]

/-- Changes of derivative values and markings do not matter. -/
theorem Refines.derivs (R : Refines s A) (h : FHeap) {P : BV → Prop} (d : ∀ v, Derivs P (s.heap v) (h v) v) :
    Refines { s with heap := h } A :=
  R.heap h (fun v => (d v).1) (fun v => (d v).2.2.1 (R.flags v)) fun v => saved_congr (d v).1 (d v).2.1

theorem dispatch_overloaded (op : BOp) (a b : Bool) :
    (overloaded op a b = false ↔ dispatch op a b = .notOverloaded) := by
  cases op <;> cases a <;> cases b <;> simp [overloaded, dispatch]

theorem dispatch_swapped {op : BOp} {a b : Bool} (h : dispatch op a b = .swapped) :
    op = .add ∨ op = .mul := by
  revert h; cases op <;> cases a <;> cases b <;> simp [dispatch]

theorem BOp.val_comm {op : BOp} (h : op = .add ∨ op = .mul) (x y : ℝ) : op.val x y = op.val y x := by
  rcases h with rfl | rfl
  · exact add_comm _ _
  · exact mul_comm _ _

/-- Session and source-level reading are in step. -/
def InStep : Option Session → Option State → Prop
  | some s, some A => Refines s A
  | none, none => True
  | _, _ => False

theorem Refines.push' (R : Refines s A) (value : ℝ) (adj : Bool) (d : Def)
    (hd : (A.annotate && adj) = false ∨ d = .free) :
    Refines (s.push value adj) (A.push value adj d) := by
  refine R.push value adj _ rfl rfl ?_ rfl
  rcases hd with h | h
  · simp [h]
  · simp [h]

theorem Refines.none_iff (R : Refines s A) (i : Nat) : s.objs[i]? = none ↔ A.regs[i]? = none := by
  rw [List.getElem?_eq_none_iff, List.getElem?_eq_none_iff, R.len]

theorem Refines.step (R : Refines s A) (ins : Instr) : InStep (s.step ins) (A.step ins) := by
  cases ins with
  | const r => exact R.push' r true .free (Or.inr rfl)
  | plain r => exact R.push' r false .free (Or.inr rfl)
  | un op i =>
    simp only [Session.step, State.step]
    cases hi : s.objs[i]? with
    | none => rw [(R.none_iff i).1 hi]; trivial
    | some o =>
      obtain ⟨r, hr⟩ := R.regs_some hi
      obtain ⟨hv, ha⟩ := R.val hi hr
      rw [hr]
      simp only [Option.bind_eq_bind, Option.bind_some, Option.map_some, Option.pure_def]
      rw [← hv, ← ha]
      by_cases h1 : op = .neg ∧ o.adj = false
      · rw [if_pos h1]
        obtain ⟨rfl, h2⟩ := h1
        rw [h2]
        exact R.push' _ _ _ (Or.inl (by simp))
      · rw [if_neg h1]
        have hadj : (!(decide (op = .neg)) || o.adj) = true := by
          by_cases h3 : op = .neg
          · simp only [h3, true_and] at h1; simpa [h3] using h1
          · simp [h3]
        rw [hadj]
        cases hann : s.annotate with
        | true =>
          simp only [if_true]
          refine R.recordUn op hi _ rfl rfl ?_
          simp [← R.ann, hann]
        | false =>
          simp only [Bool.false_eq_true, if_false]
          exact R.push' _ _ _ (Or.inl (by simp [← R.ann, hann]))
  | bin op i j =>
    simp only [Session.step, State.step]
    cases hi : s.objs[i]? with
    | none => rw [(R.none_iff i).1 hi]; trivial
    | some o =>
      obtain ⟨r, hr⟩ := R.regs_some hi
      obtain ⟨hv, ha⟩ := R.val hi hr
      rw [hr]
      cases hj : s.objs[j]? with
      | none => rw [(R.none_iff j).1 hj]; trivial
      | some p =>
        obtain ⟨q, hq⟩ := R.regs_some hj
        obtain ⟨hv', ha'⟩ := R.val hj hq
        rw [hq]
        simp only [Option.bind_eq_bind, Option.bind_some, Option.map_some, Option.pure_def]
        rw [← hv, ← ha, ← hv', ← ha']
        cases hd : dispatch op o.adj p.adj with
        | notOverloaded =>
          rw [(dispatch_overloaded op _ _).2 hd]
          exact R.push' _ _ _ (Or.inl (by simp))
        | straight =>
          have hov : overloaded op o.adj p.adj = true := by
            rw [← Bool.not_eq_false, dispatch_overloaded, hd]; simp
          rw [hov]
          cases hann : s.annotate with
          | true =>
            simp only [if_true]
            obtain ⟨s', h1, h2⟩ := R.recordBin op hi hj (op.val o.value p.value)
              ⟨op.val o.value p.value, true, .bin op i j, op.val o.value p.value⟩ rfl rfl (Or.inl rfl)
            rw [h1]
            show Refines s' _
            simpa [State.push, ← R.ann, hann] using h2
          | false =>
            simp only [Bool.false_eq_true, if_false]
            exact R.push' _ _ _ (Or.inl (by simp [← R.ann, hann]))
        | swapped =>
          have hcomm := dispatch_swapped hd
          have hov : overloaded op o.adj p.adj = true := by
            rw [← Bool.not_eq_false, dispatch_overloaded, hd]; simp
          rw [hov, BOp.val_comm hcomm o.value p.value]
          cases hann : s.annotate with
          | true =>
            simp only [if_true]
            obtain ⟨s', h1, h2⟩ := R.recordBin op hj hi (op.val p.value o.value)
              ⟨op.val p.value o.value, true, .bin op i j, op.val p.value o.value⟩ rfl rfl
              (Or.inr ⟨hcomm, rfl⟩)
            rw [h1]
            show Refines s' _
            simpa [State.push, ← R.ann, hann] using h2
          | false =>
            simp only [Bool.false_eq_true, if_false]
            exact R.push' _ _ _ (Or.inl (by simp [← R.ann, hann]))
  | pause =>
    exact { R with ann := rfl }
  | cont =>
    exact { R with ann := rfl }
  | control i =>
    simp only [Session.step, State.step]
    by_cases hA : A.AreAdj [i]
    · rw [if_pos hA]
      obtain ⟨⟨vs, s'⟩, h⟩ := Option.isSome_iff_exists.1 ((R.controls_isSome [i]).2 hA)
      rw [h]
      exact (R.controls [i] h).1
    · rw [if_neg hA]
      have : Session.controls [i] s = none := by
        rw [← Option.not_isSome_iff_eq_none, R.controls_isSome]; exact hA
      rw [this]; trivial
  | collect i =>
    simp only [Session.step, State.step]
    cases hi : s.objs[i]? with
    | none =>
      rw [if_neg]
      · trivial
      · have := (R.none_iff i).1 hi
        rw [List.getElem?_eq_none_iff] at this; exact not_lt.2 this
    | some o =>
      rw [if_pos (R.lt_of_objs hi)]
      simp only [Option.bind_eq_bind, Option.bind_some, Option.pure_def]
      cases hr : o.ref with
      | none => exact R
      | some v =>
        simp only
        split
        · exact R
        · rename_i hn
          push Not at hn
          exact R.collect hi hr hn.1 (fun b hb => hn.2 b hb)
  | call J cs scale xs =>
    have h := R.call J cs scale xs
    simp only [Session.step, State.step]
    split at h
    · rename_i hc
      obtain ⟨s', v, h1, h2, _⟩ := h
      rw [h1, if_pos hc]; exact h2
    · rename_i hc
      rw [h, if_neg hc]; trivial
  | interrupted cs xs k =>
    simp only [Session.step, State.step]
    unfold Session.interruptedCall
    cases hc : Session.controls cs s with
    | none =>
      have : ¬ A.AreAdj cs := by rw [← R.controls_isSome cs, hc]; simp
      rw [if_neg (fun h => this h.1)]; trivial
    | some q =>
      obtain ⟨vs, s₁⟩ := q
      have hadjc : A.AreAdj cs := by rw [← R.controls_isSome cs, hc]; rfl
      obtain ⟨R₁, G₁, hcs, hh⟩ := R.controls cs hc
      simp only [Option.bind_eq_bind, Option.bind_some]
      by_cases hl : xs.length = cs.length
      · rw [if_pos (show A.AreAdj cs ∧ xs.length = cs.length from ⟨hadjc, hl⟩),
          if_neg (show ¬ xs.length ≠ vs.length from fun h => h (hl.trans hcs.length_eq))]
        exact R₁.callHeap hcs hh hl _ (fun b hb => List.mem_of_mem_take hb)
      · rw [if_neg (show ¬ (A.AreAdj cs ∧ xs.length = cs.length) from fun h => hl h.2),
          if_pos (show xs.length ≠ vs.length from fun h => hl (h.trans hcs.length_eq.symm))]
        trivial
  | derivative J cs seed =>
    have h := R.derivative J cs 1 seed
    simp only [Session.step, State.step]
    split at h
    · rename_i hc
      obtain ⟨s', ds, h1, h2⟩ := h
      rw [h1, if_pos hc]; exact h2
    · rename_i hc
      rw [h, if_neg hc]; trivial
  | crashedDerivative J cs seed k j =>
    have h := R.functional J cs
    simp only [Session.step, State.step, Session.crashedDerivative]
    split at h
    · rename_i hc
      obtain ⟨s', v, vs, h1, h2, -⟩ := h
      rw [h1, if_pos hc]
      exact h2.derivs _ (derivs_crashedGradient (fun _ => True) _ _ _ _ _ _ (fun _ _ => trivial) _)
    · rename_i hc
      rw [h, if_neg hc]; trivial
  | hessian J cs ds k junk =>
    have h := R.functional J cs
    simp only [Session.step, State.step, Session.hessian]
    split at h
    · rename_i hc
      obtain ⟨s', v, vs, h1, h2, hl⟩ := h
      rw [h1]
      simp only [Option.bind_eq_bind, Option.bind_some]
      by_cases hd : ds.length ≤ cs.length
      · rw [if_neg (by rw [hl]; omega), if_pos ⟨hc, hd⟩]
        have hself := FTape.WF_self h2.wf
        cases hr : s'.tape.computeHessian v vs ds s'.heap with
        | error e => exact h2.derivs _ (derivs_failedHessian s'.tape hself v vs ds k junk s'.heap)
        | ok r =>
          obtain ⟨hs, g⟩ := r
          exact h2.derivs _ (derivs_computeHessian (fun _ => True) s'.tape hself v vs ds s'.heap (hs, g) hr)
      · rw [if_pos (by rw [hl]; omega), if_neg (fun h => hd h.2)]; trivial
    · rename_i hc
      rw [h, if_neg (fun h => hc h.1)]; trivial

theorem Refines.run (p : List Instr) (R : Refines s A) : InStep (Session.run p s) (State.run p A) := by
  unfold Session.run State.run
  induction p generalizing s A with
  | nil => exact R
  | cons ins p ih =>
    rw [List.foldlM_cons, List.foldlM_cons]
    have h := R.step ins
    cases hs : s.step ins with
    | none =>
      rw [hs] at h
      cases hA : A.step ins with
      | none => trivial
      | some A' => rw [hA] at h; exact h.elim
    | some s' =>
      rw [hs] at h
      cases hA : A.step ins with
      | none => rw [hA] at h; exact h.elim
      | some A' => rw [hA] at h; exact ih h

end Session
end Pyadjoint
