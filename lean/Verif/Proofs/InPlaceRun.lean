import Verif.Model.InPlace
import Verif.Proofs.Replay
import Mathlib.Order.Basic
import Mathlib.Order.Defs.LinearOrder
import Mathlib.Data.Nat.Basic

/-!
# Recording programs that change objects in place: invariants
-/

namespace Pyadjoint
namespace InPlace

variable {V T A : Type*}

/-- The statement is not an unannounced change of an object. -/
def Stmt.tracked : Stmt V T A → Prop
  | .assign _ _ => False
  | _ => True

/-- What holds of every world reached by a program. -/
structure Inv (w : World V T A) : Prop where
  fresh : ∀ v b, w.ref v = some b → b < w.next
  own : ∀ v b, w.ref v = some b → w.owner b = v
  ctl : ∀ b ∈ w.controls, b < w.next
  ck : ∀ b, w.next ≤ b → w.ckpt b = none
  deps : ∀ B ∈ w.blocks, ∀ d ∈ B.deps, d < w.next
  form : ∀ B ∈ w.blocks, ∃ (k : Op V T A) (ds : List BV) (o : BV), B = k.toBlock ds o ∧ o < w.next
  outck : ∀ B ∈ w.blocks, ∀ d ∈ B.deps, w.ckpt d ≠ none
  wf : WF w.blocks

theorem Inv.inj {w : World V T A} (hi : Inv w) {u v : Nat} {b : BV} (hu : w.ref u = some b)
    (hv : w.ref v = some b) : u = v := (hi.own _ _ hu).symm.trans (hi.own _ _ hv)

/-- What a later world keeps of an earlier one. -/
structure Later (w w' : World V T A) : Prop where
  next : w.next ≤ w'.next
  ck : ∀ b x, w.ckpt b = some x → w'.ckpt b = some x
  outs : ∀ B ∈ w'.blocks, B ∈ w.blocks ∨ ∀ o ∈ B.outs, w.next ≤ o
  sub : ∀ B ∈ w.blocks, B ∈ w'.blocks
  ctl : ∃ l, w'.controls = w.controls ++ l
  gone : ∀ v b, b < w.next → w'.ref v = some b → w.ref v = some b

theorem Later.refl (w : World V T A) : Later w w :=
  ⟨le_rfl, fun _ _ h => h, fun _ h => Or.inl h, fun _ h => h, ⟨[], by simp⟩, fun _ _ _ h => h⟩

theorem Later.trans {w w' w'' : World V T A} (h : Later w w') (h' : Later w' w'') : Later w w'' := by
  refine ⟨h.next.trans h'.next, fun b x hx => h'.ck _ _ (h.ck _ _ hx), ?_,
    fun B hB => h'.sub _ (h.sub _ hB), ?_, ?_⟩
  · intro B hB
    rcases h'.outs B hB with hB | hB
    · exact h.outs B hB
    · exact Or.inr fun o ho => h.next.trans (hB o ho)
  · obtain ⟨l, hl⟩ := h.ctl
    obtain ⟨l', hl'⟩ := h'.ctl
    exact ⟨l ++ l', by rw [hl', hl, List.append_assoc]⟩
  · intro v b hb hr
    exact h.gone v b hb (h'.gone v b (hb.trans_le h.next) hr)

/-! ## Looking up a block variable -/

theorem blockVar_of_some {w : World V T A} {v : Nat} {b : BV} (h : w.ref v = some b) :
    w.blockVar v = (w, b) := by
  simp only [World.blockVar, h]

theorem blockVar_of_none {w : World V T A} {v : Nat} (h : w.ref v = none) :
    w.blockVar v = (w.create v, w.next) := by
  simp only [World.blockVar, h]

theorem create_inv {w : World V T A} (hi : Inv w) (v : Nat) : Inv (w.create v) := by
  refine ⟨?_, ?_, ?_, ?_, ?_, ?_, hi.outck, hi.wf⟩
  · intro u b hb
    simp only [World.create] at hb ⊢
    split at hb
    · cases hb; exact Nat.lt_succ_self _
    · exact (hi.fresh _ _ hb).trans (Nat.lt_succ_self _)
  · intro u b hb
    simp only [World.create] at hb ⊢
    split at hb
    · rename_i hu; cases hb; rw [if_pos rfl, hu]
    · rw [if_neg (Nat.ne_of_lt (hi.fresh _ _ hb))]; exact hi.own _ _ hb
  · intro b hb
    exact (hi.ctl b hb).trans (Nat.lt_succ_self _)
  · intro b hb
    exact hi.ck b ((Nat.le_succ _).trans hb)
  · intro B hB d hd
    exact (hi.deps B hB d hd).trans (Nat.lt_succ_self _)
  · intro B hB
    obtain ⟨k, ds, o, h, ho⟩ := hi.form B hB
    exact ⟨k, ds, o, h, ho.trans (Nat.lt_succ_self _)⟩

theorem create_later (w : World V T A) (v : Nat) : Later w (w.create v) := by
  refine ⟨Nat.le_succ _, fun _ _ h => h, fun _ h => Or.inl h, fun _ h => h, ⟨[], by simp [World.create]⟩, ?_⟩
  intro u b hb hr
  simp only [World.create] at hr
  split at hr
  · cases hr; exact absurd hb (Nat.lt_irrefl _)
  · exact hr

theorem blockVar_inv {w : World V T A} (hi : Inv w) (v : Nat) : Inv (w.blockVar v).1 := by
  cases h : w.ref v with
  | some b => rw [blockVar_of_some h]; exact hi
  | none => rw [blockVar_of_none h]; exact create_inv hi v

theorem blockVar_later (w : World V T A) (v : Nat) : Later w (w.blockVar v).1 := by
  cases h : w.ref v with
  | some b => rw [blockVar_of_some h]; exact Later.refl w
  | none => rw [blockVar_of_none h]; exact create_later w v

theorem blockVar_ref (w : World V T A) (v : Nat) :
    (w.blockVar v).1.ref v = some (w.blockVar v).2 := by
  cases h : w.ref v with
  | some b => rw [blockVar_of_some h]; exact h
  | none => rw [blockVar_of_none h]; simp [World.create]

theorem blockVar_ref_other (w : World V T A) (v u : Nat) (hu : u ≠ v) :
    (w.blockVar v).1.ref u = w.ref u := by
  cases h : w.ref v with
  | some b => rw [blockVar_of_some h]
  | none => rw [blockVar_of_none h]; simp [World.create, hu]

theorem blockVar_ref_some (w : World V T A) (v u : Nat) (b : BV) (hu : w.ref u = some b) :
    (w.blockVar v).1.ref u = some b := by
  by_cases h : u = v
  · subst h; rw [blockVar_of_some hu]; exact hu
  · rw [blockVar_ref_other w v u h, hu]

theorem blockVar_vals (w : World V T A) (v : Nat) : (w.blockVar v).1.vals = w.vals := by
  cases h : w.ref v with
  | some b => rw [blockVar_of_some h]
  | none => rw [blockVar_of_none h]; rfl

theorem blockVar_ckpt (w : World V T A) (v : Nat) : (w.blockVar v).1.ckpt = w.ckpt := by
  cases h : w.ref v with
  | some b => rw [blockVar_of_some h]
  | none => rw [blockVar_of_none h]; rfl

theorem blockVar_controls (w : World V T A) (v : Nat) : (w.blockVar v).1.controls = w.controls := by
  cases h : w.ref v with
  | some b => rw [blockVar_of_some h]
  | none => rw [blockVar_of_none h]; rfl

theorem blockVar_blocks (w : World V T A) (v : Nat) : (w.blockVar v).1.blocks = w.blocks := by
  cases h : w.ref v with
  | some b => rw [blockVar_of_some h]
  | none => rw [blockVar_of_none h]; rfl

/-! ## Adding dependencies -/

/-- The world after the value of block variable `b` was saved. -/
def World.save (w : World V T A) (b : BV) : World V T A :=
  { w with ckpt := fun c => if c = b then some ((w.ckpt b).getD (w.vals (w.owner b))) else w.ckpt c }

theorem addDep_eq (w : World V T A) (v : Nat) :
    w.addDep v = ((w.blockVar v).1.save (w.blockVar v).2, (w.blockVar v).2) := rfl

theorem addDeps_cons (w : World V T A) (v : Nat) (vs : List Nat) :
    w.addDeps (v :: vs) = (((w.addDep v).1.addDeps vs).1, (w.addDep v).2 :: ((w.addDep v).1.addDeps vs).2) :=
  rfl

theorem save_inv {w : World V T A} (hi : Inv w) (b : BV) (hb : b < w.next) : Inv (w.save b) := by
  refine ⟨hi.fresh, hi.own, hi.ctl, ?_, hi.deps, hi.form, ?_, hi.wf⟩
  · intro c hc
    have : c ≠ b := fun h => absurd (h ▸ hc) (Nat.not_le.2 hb)
    simp only [World.save, if_neg this]
    exact hi.ck c hc
  · intro B hB d hd
    simp only [World.save]
    split
    · simp
    · exact hi.outck B hB d hd

theorem save_later (w : World V T A) (b : BV) : Later w (w.save b) := by
  refine ⟨le_rfl, ?_, fun _ h => Or.inl h, fun _ h => h, ⟨[], by simp [World.save]⟩, fun _ _ _ h => h⟩
  intro c x hx
  simp only [World.save]
  split
  · rename_i h; subst h; rw [hx]; rfl
  · exact hx

theorem addDep_inv {w : World V T A} (hi : Inv w) (v : Nat) : Inv (w.addDep v).1 :=
  save_inv (blockVar_inv hi v) _ ((blockVar_inv hi v).fresh v _ (blockVar_ref w v))

theorem addDep_later (w : World V T A) (v : Nat) : Later w (w.addDep v).1 :=
  (blockVar_later w v).trans (save_later _ _)

theorem addDeps_inv (vs : List Nat) : ∀ {w : World V T A}, Inv w → Inv (w.addDeps vs).1 := by
  induction vs with
  | nil => exact fun h => h
  | cons v vs ih => intro w hi; rw [addDeps_cons]; exact ih (addDep_inv hi v)

theorem addDeps_later (vs : List Nat) : ∀ (w : World V T A), Later w (w.addDeps vs).1 := by
  induction vs with
  | nil => exact fun _ => Later.refl _
  | cons v vs ih => intro w; rw [addDeps_cons]; exact (addDep_later w v).trans (ih _)

theorem addDeps_vals (vs : List Nat) : ∀ (w : World V T A), (w.addDeps vs).1.vals = w.vals := by
  induction vs with
  | nil => exact fun _ => rfl
  | cons v vs ih => intro w; rw [addDeps_cons]; exact (ih _).trans (blockVar_vals w v)

theorem addDeps_controls (vs : List Nat) : ∀ (w : World V T A), (w.addDeps vs).1.controls = w.controls := by
  induction vs with
  | nil => exact fun _ => rfl
  | cons v vs ih => intro w; rw [addDeps_cons]; exact (ih _).trans (blockVar_controls w v)

theorem addDeps_blocks (vs : List Nat) : ∀ (w : World V T A), (w.addDeps vs).1.blocks = w.blocks := by
  induction vs with
  | nil => exact fun _ => rfl
  | cons v vs ih => intro w; rw [addDeps_cons]; exact (ih _).trans (blockVar_blocks w v)

theorem addDeps_ref_some (vs : List Nat) : ∀ (w : World V T A) (u : Nat) (b : BV), w.ref u = some b →
    (w.addDeps vs).1.ref u = some b := by
  induction vs with
  | nil => exact fun _ _ _ h => h
  | cons v vs ih => intro w u b h; rw [addDeps_cons]; exact ih _ u b (blockVar_ref_some w v u b h)

theorem addDeps_deps (vs : List Nat) : ∀ {w : World V T A}, Inv w →
    ∀ d ∈ (w.addDeps vs).2, d < (w.addDeps vs).1.next ∧ (w.addDeps vs).1.ckpt d ≠ none := by
  induction vs with
  | nil => intro w _ d hd; cases hd
  | cons v vs ih =>
    intro w hi d hd
    rw [addDeps_cons] at hd ⊢
    rcases List.mem_cons.1 hd with rfl | hd
    · have hl := addDeps_later vs (w.addDep v).1
      refine ⟨lt_of_lt_of_le ((addDep_inv hi v).fresh v _ (blockVar_ref w v)) hl.next, ?_⟩
      have : (w.addDep v).1.ckpt (w.addDep v).2
          = some (((w.blockVar v).1.ckpt (w.blockVar v).2).getD
              ((w.blockVar v).1.vals ((w.blockVar v).1.owner (w.blockVar v).2))) := by
        rw [addDep_eq]; simp [World.save]
      rw [hl.ck _ _ this]; simp
    · exact ih (addDep_inv hi v) d hd

/-! ## Statements -/

/-- The world after the result of an operation was stored and the block was added to the tape. -/
def World.write (w : World V T A) (k : Op V T A) (ds : List BV) (o : Nat) (x : V) : World V T A :=
  { (w.setVal o x).create o with blocks := w.blocks ++ [k.toBlock ds w.next] }

theorem step_op (w : World V T A) (k : Op V T A) (vs : List Nat) (o : Nat) :
    w.step (.op k vs o) = (w.addDeps vs).1.write k (w.addDeps vs).2 o (k.val (vs.map w.vals)) := rfl

theorem step_control (w : World V T A) (v : Nat) :
    w.step (.control v) = { (w.blockVar v).1 with controls := (w.blockVar v).1.controls ++ [(w.blockVar v).2] } :=
  rfl

theorem setVal_inv {w : World V T A} (hi : Inv w) (o : Nat) (x : V) : Inv (w.setVal o x) :=
  ⟨hi.fresh, hi.own, hi.ctl, hi.ck, hi.deps, hi.form, hi.outck, hi.wf⟩

theorem write_inv {w : World V T A} (hi : Inv w) (k : Op V T A) (ds : List BV) (o : Nat) (x : V)
    (hds : ∀ d ∈ ds, d < w.next ∧ w.ckpt d ≠ none) : Inv (w.write k ds o x) := by
  have hc := create_inv (setVal_inv hi o x) o
  refine ⟨hc.fresh, hc.own, hc.ctl, hc.ck, ?_, ?_, ?_, ?_⟩
  · intro B hB d hd
    rcases List.mem_append.1 hB with hB | hB
    · exact hc.deps B hB d hd
    · rw [List.mem_singleton.1 hB] at hd
      exact (hds d hd).1.trans (Nat.lt_succ_self _)
  · intro B hB
    rcases List.mem_append.1 hB with hB | hB
    · exact hc.form B hB
    · exact ⟨k, ds, w.next, List.mem_singleton.1 hB, Nat.lt_succ_self _⟩
  · intro B hB d hd
    rcases List.mem_append.1 hB with hB | hB
    · exact hi.outck B hB d hd
    · rw [List.mem_singleton.1 hB] at hd
      exact (hds d hd).2
  · refine ⟨?_, ?_, ?_⟩
    · intro B hB
      rcases List.mem_append.1 hB with hB | hB
      · exact hi.wf.nodup B hB
      · rw [List.mem_singleton.1 hB]; simp [Op.toBlock]
    · intro B hB d hd
      rcases List.mem_append.1 hB with hB | hB
      · exact hi.wf.self B hB d hd
      · rw [List.mem_singleton.1 hB] at hd ⊢
        simp only [Op.toBlock, List.mem_singleton]
        exact Nat.ne_of_lt (hds d hd).1
    · refine List.pairwise_append.2 ⟨hi.wf.later, List.pairwise_singleton _ _, ?_⟩
      intro B hB B' hB'
      rw [List.mem_singleton.1 hB']
      simp only [Op.toBlock, List.mem_singleton]
      refine ⟨fun d hd => Nat.ne_of_lt (hi.deps B hB d hd), ?_⟩
      obtain ⟨k', ds', o', rfl, ho'⟩ := hi.form B hB
      intro c hc
      simp only [Op.toBlock, List.mem_singleton] at hc
      rw [hc]; exact Nat.ne_of_lt ho'

theorem write_later (w : World V T A) (k : Op V T A) (ds : List BV) (o : Nat) (x : V) :
    Later w (w.write k ds o x) := by
  refine ⟨Nat.le_succ _, fun _ _ h => h, ?_, fun B hB => List.mem_append.2 (Or.inl hB),
    ⟨[], by simp [World.write, World.create, World.setVal]⟩, (create_later (w.setVal o x) o).gone⟩
  intro B hB
  rcases List.mem_append.1 hB with hB | hB
  · exact Or.inl hB
  · right
    rw [List.mem_singleton.1 hB]
    intro c hc
    simp only [Op.toBlock, List.mem_singleton] at hc
    exact hc ▸ le_rfl

theorem step_inv {w : World V T A} (hi : Inv w) (st : Stmt V T A) : Inv (w.step st) := by
  cases st with
  | op k vs o =>
    rw [step_op]
    exact write_inv (addDeps_inv vs hi) k _ o _ (addDeps_deps vs hi)
  | modify o x =>
    refine ⟨?_, ?_, hi.ctl, hi.ck, hi.deps, hi.form, hi.outck, hi.wf⟩
    · intro v b hb
      simp only [World.step] at hb
      split at hb
      · cases hb
      · exact hi.fresh v b hb
    · intro v b hb
      simp only [World.step] at hb
      split at hb
      · cases hb
      · exact hi.own v b hb
  | assign o x => exact setVal_inv hi o x
  | control v =>
    rw [step_control]
    have hb := blockVar_inv hi v
    refine ⟨hb.fresh, hb.own, ?_, hb.ck, hb.deps, hb.form, hb.outck, hb.wf⟩
    intro b hc
    rcases List.mem_append.1 hc with hc | hc
    · exact hb.ctl b hc
    · rw [List.mem_singleton.1 hc]; exact hb.fresh v _ (blockVar_ref w v)

theorem step_later (w : World V T A) (st : Stmt V T A) : Later w (w.step st) := by
  cases st with
  | op k vs o =>
    rw [step_op]
    exact (addDeps_later vs w).trans (write_later _ k _ o _)
  | modify o x =>
    refine ⟨le_rfl, fun _ _ h => h, fun _ h => Or.inl h, fun _ h => h, ⟨[], by simp [World.step, World.setVal]⟩, ?_⟩
    intro v b _ hr
    simp only [World.step] at hr
    split at hr
    · cases hr
    · exact hr
  | assign o x =>
    exact ⟨le_rfl, fun _ _ h => h, fun _ h => Or.inl h, fun _ h => h,
      ⟨[], by simp [World.step, World.setVal]⟩, fun _ _ _ h => h⟩
  | control v =>
    rw [step_control]
    refine (blockVar_later w v).trans ⟨le_rfl, fun _ _ h => h, fun _ h => Or.inl h, fun _ h => h,
      ⟨[_], rfl⟩, fun _ _ _ h => h⟩

theorem run_nil (w : World V T A) : w.run [] = w := rfl

theorem run_cons (w : World V T A) (st : Stmt V T A) (p : List (Stmt V T A)) :
    w.run (st :: p) = (w.step st).run p := rfl

theorem run_inv (p : List (Stmt V T A)) : ∀ {w : World V T A}, Inv w → Inv (w.run p) := by
  induction p with
  | nil => exact fun h => h
  | cons st p ih => exact fun h => ih (step_inv h st)

theorem run_later (p : List (Stmt V T A)) : ∀ (w : World V T A), Later w (w.run p) := by
  induction p with
  | nil => exact fun _ => Later.refl _
  | cons st p ih => exact fun w => (step_later w st).trans (ih _)

theorem start_inv (vals : Nat → V) : Inv (World.start (T := T) (A := A) vals) := by
  refine ⟨?_, ?_, ?_, fun _ _ => rfl, ?_, ?_, ?_, ⟨?_, ?_, List.Pairwise.nil⟩⟩ <;>
    intro _ h <;> simp [World.start] at *

/-- A block variable no object refers to is the block variable of no control made later. -/
theorem run_dead (p : List (Stmt V T A)) : ∀ (w : World V T A) (b : BV), b < w.next →
    (∀ v, w.ref v ≠ some b) → ∀ i, w.controls.length ≤ i → (w.run p).controls[i]? ≠ some b := by
  induction p with
  | nil =>
    intro w b _ _ i hi h
    rw [run_nil, List.getElem?_eq_none hi] at h
    cases h
  | cons st p ih =>
    intro w b hb hd i hi
    have hl := step_later w st
    have hd' : ∀ v, (w.step st).ref v ≠ some b := fun v h => hd v (hl.gone v b hb h)
    have hb' := hb.trans_le hl.next
    rw [run_cons]
    by_cases hlen : (w.step st).controls.length ≤ i
    · exact ih _ b hb' hd' i hlen
    · obtain ⟨l, hl'⟩ := (run_later p (w.step st)).ctl
      rw [hl', List.getElem?_append_left (Nat.lt_of_not_le hlen)]
      cases st with
      | op k vs o =>
        exfalso; apply hlen; rw [step_op]
        simpa [World.write, World.create, World.setVal, addDeps_controls] using hi
      | modify o x => exact absurd hi hlen
      | assign o x => exact absurd hi hlen
      | control v =>
        rw [step_control] at hlen ⊢
        simp only [blockVar_controls, List.length_append, List.length_singleton] at hlen ⊢
        have : i = w.controls.length := by omega
        subst this
        rw [List.getElem?_append_right le_rfl]
        simp only [Nat.sub_self, List.getElem?_cons_zero, ne_eq, Option.some.injEq]
        intro h
        have hr := blockVar_ref w v
        rw [h] at hr
        exact hd v ((blockVar_later w v).gone v b hb hr)

end InPlace
end Pyadjoint
