import Verif.Model.Core
import Mathlib.Data.List.Basic
import Mathlib.Tactic.Common

/-! Closed forms of the heap operations: what one block does to one variable. -/

namespace Pyadjoint

variable {V T A : Type*}

/-- Accumulating one more contribution into an optional value. -/
def accum [Add A] : Option A → Option A → Option A
  | o, none => o
  | none, some a => some a
  | some x, some a => some (x + a)

/-- Overwriting by a value that may be missing. -/
def orKeep : Option V → Option V → Option V
  | o, none => o
  | _, some c => some c

/-- A fold of updates, seen at one address. -/
theorem foldl_update_apply {α X : Type*} (f : α → BV) (g : X → α → X)
    (l : List α) (h : BV → X) (v : BV) :
    (l.foldl (fun h p => Function.update h (f p) (g (h (f p)) p)) h) v
      = (l.filter (fun p => f p = v)).foldl g (h v) := by
  induction l generalizing h with
  | nil => rfl
  | cons p l ih =>
    rw [List.foldl_cons, ih]
    by_cases hp : f p = v
    · subst hp
      rw [List.filter_cons]
      simp
    · rw [List.filter_cons]
      simp [hp, Function.update_of_ne (Ne.symm hp)]

theorem addAdj?_eq [Add A] (h : Heap V T A) (v : BV) (o : Option A) :
    addAdj? h v o
      = Function.update h v { h v with adj := accum (h v).adj o } := by
  cases o with
  | none => simp [accum, addAdj?]
  | some a =>
    simp only [addAdj, addAdj?]
    cases (h v).adj <;> rfl

theorem addTlm?_eq [Add T] (h : Heap V T A) (v : BV) (o : Option T) :
    addTlm? h v o
      = Function.update h v { h v with tlm := accum (h v).tlm o } := by
  cases o with
  | none => simp [accum, addTlm?]
  | some a =>
    simp only [addTlm, addTlm?]
    cases (h v).tlm <;> rfl

theorem addHess?_eq [Add A] (h : Heap V T A) (v : BV) (o : Option A) :
    addHess? h v o
      = Function.update h v { h v with hess := accum (h v).hess o } := by
  cases o with
  | none => simp [accum, addHess?]
  | some a =>
    simp only [addHess, addHess?]
    cases (h v).hess <;> rfl

/-- Entries of an index list that refer to the variable `v`. -/
def entries (bvs : List BV) (v : BV) : List (BV × Nat) :=
  bvs.zipIdx.filter fun p => p.1 = v

theorem relevant_filter (h : Heap V T A) (m : Bool) (bvs : List BV) (v : BV) :
    (relevant h m bvs).filter (fun p => p.1 = v)
      = if (h v).marked || !m then entries bvs v else [] := by
  unfold relevant entries
  rw [List.filter_filter]
  split
  · rename_i hm
    apply List.filter_congr
    intro p _
    by_cases hp : p.1 = v
    · simp only [hp, decide_true, Bool.true_and]; exact hm
    · simp [hp]
  · rename_i hm
    rw [List.filter_eq_nil_iff]
    intro p _
    by_cases hp : p.1 = v
    · simp only [hp, decide_true, Bool.true_and]; exact hm
    · simp [hp]

theorem entries_nil_of_not_mem {bvs : List BV} {v : BV} (hv : v ∉ bvs) : entries bvs v = [] := by
  unfold entries
  rw [List.filter_eq_nil_iff]
  rintro ⟨w, i⟩ hp
  have := List.mem_zipIdx hp
  simp only [decide_eq_true_eq]
  rintro rfl
  apply hv
  obtain ⟨_, _, h3⟩ := this
  rw [h3]; exact List.getElem_mem _

theorem foldl_const_field {X Y α : Type*} (mk : Y → X) (g : Y → α → Y) (l : List α) (y : Y)
    (G : X → α → X) (hG : ∀ y a, G (mk y) a = mk (g y a)) :
    l.foldl G (mk y) = mk (l.foldl g y) := by
  induction l generalizing y with
  | nil => rfl
  | cons a l ih => rw [List.foldl_cons, List.foldl_cons, hG, ih]

namespace Block

/-- The adjoint value block `b` leaves on `v`. -/
def adjAfter [Add A] (b : Block V T A) (m : Bool) (h : Heap V T A) (v : BV) : Option A :=
  if (b.outs.map fun o => (h o).adj).all Option.isNone then (h v).adj
  else if (h v).marked || !m then
    (entries b.deps v).foldl (fun o p => accum o
      (b.adjC (b.deps.map (saved h)) (b.outs.map fun o => (h o).adj) p.2)) (h v).adj
  else (h v).adj

theorem evaluateAdj_apply [Add A] (b : Block V T A) (m : Bool) (h : Heap V T A) (v : BV) :
    b.evaluateAdj m h v = { h v with adj := b.adjAfter m h v } := by
  unfold evaluateAdj adjAfter
  simp only []
  split
  · rfl
  · have key : ∀ (l : List (BV × Nat)) (c : Nat → Option A),
        (l.foldl (fun h p => addAdj? h p.1 (c p.2)) h) v
          = { h v with adj := (l.filter (fun p => p.1 = v)).foldl (fun o p => accum o (c p.2)) (h v).adj } := by
      intro l c
      simp only [addAdj?_eq]
      rw [foldl_update_apply (fun p : BV × Nat => p.1)
        (fun (x : Var V T A) p => { x with adj := accum x.adj (c p.2) })]
      exact foldl_const_field (fun y => { h v with adj := y })
        (fun o (p : BV × Nat) => accum o (c p.2)) _ _
        (fun (x : Var V T A) p => { x with adj := accum x.adj (c p.2) }) (fun _ _ => rfl)
    have hr := relevant_filter h m b.deps v
    have k := key (relevant h m b.deps)
      (b.adjC (b.deps.map (saved h)) (b.outs.map fun o => (h o).adj))
    rw [hr] at k
    split
    · rename_i he
      have he' : relevant h m b.deps = [] := by simpa using he
      rw [he'] at hr
      simp only [List.filter_nil] at hr
      split
      · rename_i hm; rw [if_pos hm] at hr; rw [← hr]; rfl
      · rfl
    · rw [k]
      split <;> rfl

/-- The tangent value block `b` leaves on `v`. -/
def tlmAfter [Add T] (b : Block V T A) (m : Bool) (h : Heap V T A) (v : BV) : Option T :=
  if (b.deps.map fun o => (h o).tlm).all Option.isNone then (h v).tlm
  else if (h v).marked || !m then
    (entries b.outs v).foldl (fun o p => accum o
      (b.tlmC (b.deps.map (saved h)) (b.deps.map fun o => (h o).tlm) p.2)) (h v).tlm
  else (h v).tlm

theorem evaluateTlm_apply [Add T] (b : Block V T A) (m : Bool) (h : Heap V T A) (v : BV) :
    b.evaluateTlm m h v = { h v with tlm := b.tlmAfter m h v } := by
  unfold evaluateTlm tlmAfter
  simp only []
  split
  · rfl
  · have key : ∀ (l : List (BV × Nat)) (c : Nat → Option T),
        (l.foldl (fun h p => addTlm? h p.1 (c p.2)) h) v
          = { h v with tlm := (l.filter (fun p => p.1 = v)).foldl (fun o p => accum o (c p.2)) (h v).tlm } := by
      intro l c
      simp only [addTlm?_eq]
      rw [foldl_update_apply (fun p : BV × Nat => p.1)
        (fun (x : Var V T A) p => { x with tlm := accum x.tlm (c p.2) })]
      exact foldl_const_field (fun y => { h v with tlm := y })
        (fun o (p : BV × Nat) => accum o (c p.2)) _ _
        (fun (x : Var V T A) p => { x with tlm := accum x.tlm (c p.2) }) (fun _ _ => rfl)
    have hr := relevant_filter h m b.outs v
    have k := key (relevant h m b.outs)
      (b.tlmC (b.deps.map (saved h)) (b.deps.map fun o => (h o).tlm))
    rw [hr] at k
    split
    · rename_i he
      have he' : relevant h m b.outs = [] := by simpa using he
      rw [he'] at hr
      simp only [List.filter_nil] at hr
      split
      · rename_i hm; rw [if_pos hm] at hr; rw [← hr]; rfl
      · rfl
    · rw [k]
      split <;> rfl

/-- The checkpoint block `b` leaves on `v` when recomputed. -/
def ckptAfter (b : Block V T A) (m : Bool) (h : Heap V T A) (v : BV) : Option V :=
  if b.outs.any fun o => (h o).isControl then (h v).ckpt
  else if (h v).marked || !m then
    (entries b.outs v).foldl (fun o p => orKeep o
      (b.recomputeC (b.deps.map (saved h)) p.2)) (h v).ckpt
  else (h v).ckpt

theorem recompute_apply (b : Block V T A) (m : Bool) (h : Heap V T A) (v : BV) :
    b.recompute m h v = { h v with ckpt := b.ckptAfter m h v } := by
  unfold recompute ckptAfter
  simp only []
  split
  · rfl
  · rename_i hctl
    have hctl' : ∀ o ∈ b.outs, (h o).isControl = false := by
      intro o ho
      by_contra hc
      exact hctl (List.any_eq_true.2 ⟨o, ho, by simpa using hc⟩)
    have key : ∀ (l : List (BV × Nat)) (c : Nat → Option V)
        (_hl : ∀ p ∈ l, p.1 ∈ b.outs) (h' : Heap V T A)
        (_hh : ∀ o ∈ b.outs, (h' o).isControl = false),
        (l.foldl (fun h p => setCkpt? h p.1 (c p.2)) h')
          = l.foldl (fun h p => Function.update h p.1 { h p.1 with ckpt := orKeep (h p.1).ckpt (c p.2) }) h' := by
      intro l c hl
      induction l with
      | nil => intros; rfl
      | cons p l ih =>
        intro h' hh
        rw [List.foldl_cons, List.foldl_cons]
        have hp := hl p (by simp)
        have e : setCkpt? h' p.1 (c p.2)
            = Function.update h' p.1 { h' p.1 with ckpt := orKeep (h' p.1).ckpt (c p.2) } := by
          cases c p.2 with
          | none => simp [orKeep, setCkpt?]
          | some a => simp [setCkpt?, setCkpt, hh _ hp, orKeep]
        rw [e]
        apply ih (fun q hq => hl q (by simp [hq]))
        intro o ho
        by_cases hop : o = p.1
        · subst hop; simp [hh _ ho]
        · rw [Function.update_of_ne hop]; exact hh _ ho
    have hmem : ∀ p ∈ relevant h m b.outs, p.1 ∈ b.outs := by
      rintro ⟨w, i⟩ hp
      have hp := List.mem_of_mem_filter hp
      obtain ⟨_, _, h3⟩ := List.mem_zipIdx hp
      rw [h3]; exact List.getElem_mem _
    have hr := relevant_filter h m b.outs v
    split
    · rename_i he
      have he' : relevant h m b.outs = [] := by simpa using he
      rw [he'] at hr
      simp only [List.filter_nil] at hr
      split
      · rename_i hm; rw [if_pos hm] at hr; rw [← hr]; rfl
      · rfl
    · rw [key _ _ hmem h hctl']
      rw [foldl_update_apply (fun p : BV × Nat => p.1)
        (fun (x : Var V T A) p => { x with ckpt := orKeep x.ckpt (b.recomputeC (b.deps.map (saved h)) p.2) }), hr]
      have := foldl_const_field (fun y => { h v with ckpt := y })
        (fun (o : Option V) (p : BV × Nat) => orKeep o (b.recomputeC (b.deps.map (saved h)) p.2))
        (if (h v).marked || !m then entries b.outs v else []) (h v).ckpt
        (fun (x : Var V T A) p => { x with ckpt := orKeep x.ckpt (b.recomputeC (b.deps.map (saved h)) p.2) }) (fun _ _ => rfl)
      rw [show h v = { h v with ckpt := (h v).ckpt } from rfl, this]
      split <;> rfl

theorem resetVariables_apply (b : Block V T A) (t : ResetType) (h : Heap V T A) (v : BV) :
    b.resetVariables t h v = if v ∈ b.deps ∨ v ∈ b.outs then (h v).reset t else h v := by
  unfold resetVariables
  rw [foldl_update_apply (fun w : BV => w) (fun (x : Var V T A) _ => x.reset t)]
  have idem : ∀ (l : List BV) (x : Var V T A), l ≠ [] →
      l.foldl (fun (x : Var V T A) _ => x.reset t) x = x.reset t := by
    intro l
    induction l with
    | nil => intro _ hl; exact absurd rfl hl
    | cons a l ih =>
      intro x _
      rw [List.foldl_cons]
      by_cases hl : l = []
      · subst hl; rfl
      · rw [ih _ hl]; cases t <;> rfl
  split
  · rename_i hv
    apply idem
    intro hnil
    rw [List.filter_eq_nil_iff] at hnil
    exact hnil v (List.mem_append.2 hv) (by simp)
  · rename_i hv
    rw [List.filter_eq_nil_iff.2]
    · rfl
    · intro w hw
      simp only [decide_eq_true_eq]
      rintro rfl
      exact hv (List.mem_append.1 hw)

end Block

theorem markAll_apply (nodes : List BV) (m : Bool) (h : Heap V T A) (v : BV) :
    markAll nodes m h v = if v ∈ nodes then { h v with marked := m } else h v := by
  unfold markAll
  induction nodes generalizing h with
  | nil => simp
  | cons a l ih =>
    rw [List.foldl_cons, ih]
    by_cases hv : v = a
    · subst hv; simp
    · simp [hv]

theorem markControls_apply (cs : List BV) (m : Bool) (h : Heap V T A) (v : BV) :
    markControls cs m h v = if v ∈ cs then { h v with isControl := m } else h v := by
  unfold markControls
  induction cs generalizing h with
  | nil => simp
  | cons a l ih =>
    rw [List.foldl_cons, ih]
    by_cases hv : v = a
    · subst hv; simp
    · simp [hv]

theorem Var.reset_reset (x : Var V T A) (t : ResetType) : (x.reset t).reset t = x.reset t := by
  cases t <;> rfl

open Classical in
theorem resetVariables_apply (bs : Blocks V T A) (t : ResetType) (h : Heap V T A) (v : BV) :
    resetVariables bs t h v = if OnTape bs v then (h v).reset t else h v := by
  unfold resetVariables
  induction bs generalizing h with
  | nil => simp [OnTape]
  | cons b bs ih =>
    rw [List.reverse_cons, List.foldl_append, List.foldl_cons, List.foldl_nil,
      Block.resetVariables_apply, ih]
    by_cases h1 : v ∈ b.deps ∨ v ∈ b.outs <;> by_cases h2 : OnTape bs v
    · have : OnTape (b :: bs) v := ⟨b, by simp, h1⟩
      simp [h1, h2, this, Var.reset_reset]
    · have : OnTape (b :: bs) v := ⟨b, by simp, h1⟩
      simp [h1, h2, this]
    · have : OnTape (b :: bs) v := by
        obtain ⟨b', hb', h'⟩ := h2
        exact ⟨b', by simp [hb'], h'⟩
      simp [h1, h2, this]
    · have : ¬ OnTape (b :: bs) v := by
        rintro ⟨b', hb', h'⟩
        rcases List.mem_cons.1 hb' with rfl | hb'
        · exact h1 h'
        · exact h2 ⟨b', hb', h'⟩
      simp [h1, h2, this]

/-- The adjoint sweep changes adjoint values only. -/
theorem evaluateAdj_frame [Add A] (bs : Blocks V T A) (m : Bool) (h : Heap V T A) (v : BV) :
    ∃ a, evaluateAdj bs m h v = { h v with adj := a } := by
  unfold evaluateAdj
  generalize bs.reverse = l
  induction l generalizing h with
  | nil => exact ⟨_, rfl⟩
  | cons b l ih =>
    rw [List.foldl_cons]
    obtain ⟨a, ha⟩ := ih (b.evaluateAdj m h)
    refine ⟨a, ?_⟩
    rw [ha, Block.evaluateAdj_apply]

theorem evaluateAdj_cons [Add A] (b : Block V T A) (bs : Blocks V T A) (m : Bool)
    (h : Heap V T A) :
    evaluateAdj (b :: bs) m h = b.evaluateAdj m (evaluateAdj bs m h) := by
  simp [evaluateAdj, List.foldl_append]

theorem evaluateTlm_frame [Add T] (bs : Blocks V T A) (m : Bool) (h : Heap V T A) (v : BV) :
    ∃ a, evaluateTlm bs m h v = { h v with tlm := a } := by
  unfold evaluateTlm
  induction bs generalizing h with
  | nil => exact ⟨_, rfl⟩
  | cons b l ih =>
    rw [List.foldl_cons]
    obtain ⟨a, ha⟩ := ih (b.evaluateTlm m h)
    refine ⟨a, ?_⟩
    rw [ha, Block.evaluateTlm_apply]

theorem recompute_frame (bs : Blocks V T A) (h : Heap V T A) (v : BV) :
    ∃ a, recompute bs h v = { h v with ckpt := a } := by
  unfold recompute
  induction bs generalizing h with
  | nil => exact ⟨_, rfl⟩
  | cons b l ih =>
    rw [List.foldl_cons]
    obtain ⟨a, ha⟩ := ih (b.recompute false h)
    refine ⟨a, ?_⟩
    rw [ha, Block.recompute_apply]

/-- `saved` reads the output and checkpoint fields only. -/
theorem saved_congr {h h' : Heap V T A} {v : BV} (ho : (h v).output = (h' v).output)
    (hc : (h v).ckpt = (h' v).ckpt) : saved h v = saved h' v := by
  unfold saved; rw [ho, hc]

@[simp] theorem markAll_output (ns : List BV) (m : Bool) (h : Heap V T A) (v : BV) :
    (markAll ns m h v).output = (h v).output := by rw [markAll_apply]; split <;> rfl

@[simp] theorem markControls_output (cs : List BV) (m : Bool) (h : Heap V T A) (v : BV) :
    (markControls cs m h v).output = (h v).output := by rw [markControls_apply]; split <;> rfl

@[simp] theorem evaluateAdj_output [Add A] (bs : Blocks V T A) (m : Bool) (h : Heap V T A) (v : BV) :
    (evaluateAdj bs m h v).output = (h v).output := by
  obtain ⟨a, ha⟩ := evaluateAdj_frame bs m h v; rw [ha]

@[simp] theorem resetAdj_output (bs : Blocks V T A) (h : Heap V T A) (v : BV) :
    (resetVariables bs .adjoint h v).output = (h v).output := by
  rw [resetVariables_apply]; split <;> rfl

@[simp] theorem evaluateTlm_output [Add T] (bs : Blocks V T A) (m : Bool) (h : Heap V T A) (v : BV) :
    (evaluateTlm bs m h v).output = (h v).output := by
  obtain ⟨a, ha⟩ := evaluateTlm_frame bs m h v; rw [ha]

@[simp] theorem resetTlm_output (bs : Blocks V T A) (h : Heap V T A) (v : BV) :
    (resetVariables bs .tlm h v).output = (h v).output := by
  rw [resetVariables_apply]; split <;> rfl

@[simp] theorem resetHess_output (bs : Blocks V T A) (h : Heap V T A) (v : BV) :
    (resetVariables bs .hessian h v).output = (h v).output := by
  rw [resetVariables_apply]; split <;> rfl

@[simp] theorem recompute_output (bs : Blocks V T A) (h : Heap V T A) (v : BV) :
    (recompute bs h v).output = (h v).output := by
  obtain ⟨a, ha⟩ := recompute_frame bs h v; rw [ha]

@[simp] theorem markAll_adj (ns : List BV) (m : Bool) (h : Heap V T A) (v : BV) :
    (markAll ns m h v).adj = (h v).adj := by rw [markAll_apply]; split <;> rfl

@[simp] theorem markControls_adj (cs : List BV) (m : Bool) (h : Heap V T A) (v : BV) :
    (markControls cs m h v).adj = (h v).adj := by rw [markControls_apply]; split <;> rfl

@[simp] theorem evaluateTlm_adj [Add T] (bs : Blocks V T A) (m : Bool) (h : Heap V T A) (v : BV) :
    (evaluateTlm bs m h v).adj = (h v).adj := by
  obtain ⟨a, ha⟩ := evaluateTlm_frame bs m h v; rw [ha]

@[simp] theorem resetTlm_adj (bs : Blocks V T A) (h : Heap V T A) (v : BV) :
    (resetVariables bs .tlm h v).adj = (h v).adj := by
  rw [resetVariables_apply]; split <;> rfl

@[simp] theorem resetHess_adj (bs : Blocks V T A) (h : Heap V T A) (v : BV) :
    (resetVariables bs .hessian h v).adj = (h v).adj := by
  rw [resetVariables_apply]; split <;> rfl

@[simp] theorem recompute_adj (bs : Blocks V T A) (h : Heap V T A) (v : BV) :
    (recompute bs h v).adj = (h v).adj := by
  obtain ⟨a, ha⟩ := recompute_frame bs h v; rw [ha]

@[simp] theorem markAll_tlm (ns : List BV) (m : Bool) (h : Heap V T A) (v : BV) :
    (markAll ns m h v).tlm = (h v).tlm := by rw [markAll_apply]; split <;> rfl

@[simp] theorem markControls_tlm (cs : List BV) (m : Bool) (h : Heap V T A) (v : BV) :
    (markControls cs m h v).tlm = (h v).tlm := by rw [markControls_apply]; split <;> rfl

@[simp] theorem evaluateAdj_tlm [Add A] (bs : Blocks V T A) (m : Bool) (h : Heap V T A) (v : BV) :
    (evaluateAdj bs m h v).tlm = (h v).tlm := by
  obtain ⟨a, ha⟩ := evaluateAdj_frame bs m h v; rw [ha]

@[simp] theorem resetAdj_tlm (bs : Blocks V T A) (h : Heap V T A) (v : BV) :
    (resetVariables bs .adjoint h v).tlm = (h v).tlm := by
  rw [resetVariables_apply]; split <;> rfl

@[simp] theorem resetHess_tlm (bs : Blocks V T A) (h : Heap V T A) (v : BV) :
    (resetVariables bs .hessian h v).tlm = (h v).tlm := by
  rw [resetVariables_apply]; split <;> rfl

@[simp] theorem recompute_tlm (bs : Blocks V T A) (h : Heap V T A) (v : BV) :
    (recompute bs h v).tlm = (h v).tlm := by
  obtain ⟨a, ha⟩ := recompute_frame bs h v; rw [ha]

@[simp] theorem markAll_hess (ns : List BV) (m : Bool) (h : Heap V T A) (v : BV) :
    (markAll ns m h v).hess = (h v).hess := by rw [markAll_apply]; split <;> rfl

@[simp] theorem markControls_hess (cs : List BV) (m : Bool) (h : Heap V T A) (v : BV) :
    (markControls cs m h v).hess = (h v).hess := by rw [markControls_apply]; split <;> rfl

@[simp] theorem evaluateAdj_hess [Add A] (bs : Blocks V T A) (m : Bool) (h : Heap V T A) (v : BV) :
    (evaluateAdj bs m h v).hess = (h v).hess := by
  obtain ⟨a, ha⟩ := evaluateAdj_frame bs m h v; rw [ha]

@[simp] theorem resetAdj_hess (bs : Blocks V T A) (h : Heap V T A) (v : BV) :
    (resetVariables bs .adjoint h v).hess = (h v).hess := by
  rw [resetVariables_apply]; split <;> rfl

@[simp] theorem evaluateTlm_hess [Add T] (bs : Blocks V T A) (m : Bool) (h : Heap V T A) (v : BV) :
    (evaluateTlm bs m h v).hess = (h v).hess := by
  obtain ⟨a, ha⟩ := evaluateTlm_frame bs m h v; rw [ha]

@[simp] theorem resetTlm_hess (bs : Blocks V T A) (h : Heap V T A) (v : BV) :
    (resetVariables bs .tlm h v).hess = (h v).hess := by
  rw [resetVariables_apply]; split <;> rfl

@[simp] theorem recompute_hess (bs : Blocks V T A) (h : Heap V T A) (v : BV) :
    (recompute bs h v).hess = (h v).hess := by
  obtain ⟨a, ha⟩ := recompute_frame bs h v; rw [ha]

@[simp] theorem markAll_ckpt (ns : List BV) (m : Bool) (h : Heap V T A) (v : BV) :
    (markAll ns m h v).ckpt = (h v).ckpt := by rw [markAll_apply]; split <;> rfl

@[simp] theorem markControls_ckpt (cs : List BV) (m : Bool) (h : Heap V T A) (v : BV) :
    (markControls cs m h v).ckpt = (h v).ckpt := by rw [markControls_apply]; split <;> rfl

@[simp] theorem evaluateAdj_ckpt [Add A] (bs : Blocks V T A) (m : Bool) (h : Heap V T A) (v : BV) :
    (evaluateAdj bs m h v).ckpt = (h v).ckpt := by
  obtain ⟨a, ha⟩ := evaluateAdj_frame bs m h v; rw [ha]

@[simp] theorem resetAdj_ckpt (bs : Blocks V T A) (h : Heap V T A) (v : BV) :
    (resetVariables bs .adjoint h v).ckpt = (h v).ckpt := by
  rw [resetVariables_apply]; split <;> rfl

@[simp] theorem evaluateTlm_ckpt [Add T] (bs : Blocks V T A) (m : Bool) (h : Heap V T A) (v : BV) :
    (evaluateTlm bs m h v).ckpt = (h v).ckpt := by
  obtain ⟨a, ha⟩ := evaluateTlm_frame bs m h v; rw [ha]

@[simp] theorem resetTlm_ckpt (bs : Blocks V T A) (h : Heap V T A) (v : BV) :
    (resetVariables bs .tlm h v).ckpt = (h v).ckpt := by
  rw [resetVariables_apply]; split <;> rfl

@[simp] theorem resetHess_ckpt (bs : Blocks V T A) (h : Heap V T A) (v : BV) :
    (resetVariables bs .hessian h v).ckpt = (h v).ckpt := by
  rw [resetVariables_apply]; split <;> rfl

@[simp] theorem markAll_isControl (ns : List BV) (m : Bool) (h : Heap V T A) (v : BV) :
    (markAll ns m h v).isControl = (h v).isControl := by rw [markAll_apply]; split <;> rfl

@[simp] theorem evaluateAdj_isControl [Add A] (bs : Blocks V T A) (m : Bool) (h : Heap V T A) (v : BV) :
    (evaluateAdj bs m h v).isControl = (h v).isControl := by
  obtain ⟨a, ha⟩ := evaluateAdj_frame bs m h v; rw [ha]

@[simp] theorem resetAdj_isControl (bs : Blocks V T A) (h : Heap V T A) (v : BV) :
    (resetVariables bs .adjoint h v).isControl = (h v).isControl := by
  rw [resetVariables_apply]; split <;> rfl

@[simp] theorem evaluateTlm_isControl [Add T] (bs : Blocks V T A) (m : Bool) (h : Heap V T A) (v : BV) :
    (evaluateTlm bs m h v).isControl = (h v).isControl := by
  obtain ⟨a, ha⟩ := evaluateTlm_frame bs m h v; rw [ha]

@[simp] theorem resetTlm_isControl (bs : Blocks V T A) (h : Heap V T A) (v : BV) :
    (resetVariables bs .tlm h v).isControl = (h v).isControl := by
  rw [resetVariables_apply]; split <;> rfl

@[simp] theorem resetHess_isControl (bs : Blocks V T A) (h : Heap V T A) (v : BV) :
    (resetVariables bs .hessian h v).isControl = (h v).isControl := by
  rw [resetVariables_apply]; split <;> rfl

@[simp] theorem recompute_isControl (bs : Blocks V T A) (h : Heap V T A) (v : BV) :
    (recompute bs h v).isControl = (h v).isControl := by
  obtain ⟨a, ha⟩ := recompute_frame bs h v; rw [ha]

@[simp] theorem markControls_marked (cs : List BV) (m : Bool) (h : Heap V T A) (v : BV) :
    (markControls cs m h v).marked = (h v).marked := by rw [markControls_apply]; split <;> rfl

@[simp] theorem evaluateAdj_marked [Add A] (bs : Blocks V T A) (m : Bool) (h : Heap V T A) (v : BV) :
    (evaluateAdj bs m h v).marked = (h v).marked := by
  obtain ⟨a, ha⟩ := evaluateAdj_frame bs m h v; rw [ha]

@[simp] theorem resetAdj_marked (bs : Blocks V T A) (h : Heap V T A) (v : BV) :
    (resetVariables bs .adjoint h v).marked = (h v).marked := by
  rw [resetVariables_apply]; split <;> rfl

@[simp] theorem evaluateTlm_marked [Add T] (bs : Blocks V T A) (m : Bool) (h : Heap V T A) (v : BV) :
    (evaluateTlm bs m h v).marked = (h v).marked := by
  obtain ⟨a, ha⟩ := evaluateTlm_frame bs m h v; rw [ha]

@[simp] theorem resetTlm_marked (bs : Blocks V T A) (h : Heap V T A) (v : BV) :
    (resetVariables bs .tlm h v).marked = (h v).marked := by
  rw [resetVariables_apply]; split <;> rfl

@[simp] theorem resetHess_marked (bs : Blocks V T A) (h : Heap V T A) (v : BV) :
    (resetVariables bs .hessian h v).marked = (h v).marked := by
  rw [resetVariables_apply]; split <;> rfl

@[simp] theorem recompute_marked (bs : Blocks V T A) (h : Heap V T A) (v : BV) :
    (recompute bs h v).marked = (h v).marked := by
  obtain ⟨a, ha⟩ := recompute_frame bs h v; rw [ha]

@[simp] theorem markAll_creation (ns : List BV) (m : Bool) (h : Heap V T A) (v : BV) :
    (markAll ns m h v).creation = (h v).creation := by rw [markAll_apply]; split <;> rfl

@[simp] theorem markControls_creation (cs : List BV) (m : Bool) (h : Heap V T A) (v : BV) :
    (markControls cs m h v).creation = (h v).creation := by rw [markControls_apply]; split <;> rfl

@[simp] theorem evaluateAdj_creation [Add A] (bs : Blocks V T A) (m : Bool) (h : Heap V T A) (v : BV) :
    (evaluateAdj bs m h v).creation = (h v).creation := by
  obtain ⟨a, ha⟩ := evaluateAdj_frame bs m h v; rw [ha]

@[simp] theorem resetAdj_creation (bs : Blocks V T A) (h : Heap V T A) (v : BV) :
    (resetVariables bs .adjoint h v).creation = (h v).creation := by
  rw [resetVariables_apply]; split <;> rfl

@[simp] theorem evaluateTlm_creation [Add T] (bs : Blocks V T A) (m : Bool) (h : Heap V T A) (v : BV) :
    (evaluateTlm bs m h v).creation = (h v).creation := by
  obtain ⟨a, ha⟩ := evaluateTlm_frame bs m h v; rw [ha]

@[simp] theorem resetTlm_creation (bs : Blocks V T A) (h : Heap V T A) (v : BV) :
    (resetVariables bs .tlm h v).creation = (h v).creation := by
  rw [resetVariables_apply]; split <;> rfl

@[simp] theorem resetHess_creation (bs : Blocks V T A) (h : Heap V T A) (v : BV) :
    (resetVariables bs .hessian h v).creation = (h v).creation := by
  rw [resetVariables_apply]; split <;> rfl

@[simp] theorem recompute_creation (bs : Blocks V T A) (h : Heap V T A) (v : BV) :
    (recompute bs h v).creation = (h v).creation := by
  obtain ⟨a, ha⟩ := recompute_frame bs h v; rw [ha]

@[simp] theorem markAll_lastUse (ns : List BV) (m : Bool) (h : Heap V T A) (v : BV) :
    (markAll ns m h v).lastUse = (h v).lastUse := by rw [markAll_apply]; split <;> rfl

@[simp] theorem markControls_lastUse (cs : List BV) (m : Bool) (h : Heap V T A) (v : BV) :
    (markControls cs m h v).lastUse = (h v).lastUse := by rw [markControls_apply]; split <;> rfl

@[simp] theorem evaluateAdj_lastUse [Add A] (bs : Blocks V T A) (m : Bool) (h : Heap V T A) (v : BV) :
    (evaluateAdj bs m h v).lastUse = (h v).lastUse := by
  obtain ⟨a, ha⟩ := evaluateAdj_frame bs m h v; rw [ha]

@[simp] theorem resetAdj_lastUse (bs : Blocks V T A) (h : Heap V T A) (v : BV) :
    (resetVariables bs .adjoint h v).lastUse = (h v).lastUse := by
  rw [resetVariables_apply]; split <;> rfl

@[simp] theorem evaluateTlm_lastUse [Add T] (bs : Blocks V T A) (m : Bool) (h : Heap V T A) (v : BV) :
    (evaluateTlm bs m h v).lastUse = (h v).lastUse := by
  obtain ⟨a, ha⟩ := evaluateTlm_frame bs m h v; rw [ha]

@[simp] theorem resetTlm_lastUse (bs : Blocks V T A) (h : Heap V T A) (v : BV) :
    (resetVariables bs .tlm h v).lastUse = (h v).lastUse := by
  rw [resetVariables_apply]; split <;> rfl

@[simp] theorem resetHess_lastUse (bs : Blocks V T A) (h : Heap V T A) (v : BV) :
    (resetVariables bs .hessian h v).lastUse = (h v).lastUse := by
  rw [resetVariables_apply]; split <;> rfl

@[simp] theorem recompute_lastUse (bs : Blocks V T A) (h : Heap V T A) (v : BV) :
    (recompute bs h v).lastUse = (h v).lastUse := by
  obtain ⟨a, ha⟩ := recompute_frame bs h v; rw [ha]

@[simp] theorem saved_markAll (ns : List BV) (m : Bool) (h : Heap V T A) (v : BV) :
    saved (markAll ns m h) v = saved h v := saved_congr (by simp) (by simp)

@[simp] theorem saved_markControls (cs : List BV) (m : Bool) (h : Heap V T A) (v : BV) :
    saved (markControls cs m h) v = saved h v := saved_congr (by simp) (by simp)

@[simp] theorem saved_evaluateAdj [Add A] (bs : Blocks V T A) (m : Bool) (h : Heap V T A) (v : BV) :
    saved (evaluateAdj bs m h) v = saved h v := saved_congr (by simp) (by simp)

@[simp] theorem saved_evaluateTlm [Add T] (bs : Blocks V T A) (m : Bool) (h : Heap V T A) (v : BV) :
    saved (evaluateTlm bs m h) v = saved h v := saved_congr (by simp) (by simp)

@[simp] theorem saved_resetVariables (bs : Blocks V T A) (t : ResetType) (h : Heap V T A) (v : BV) :
    saved (resetVariables bs t h) v = saved h v := by
  cases t <;> exact saved_congr (by simp) (by simp)

@[simp] theorem saved_update_adj (h : Heap V T A) (w v : BV) (a : Option A) :
    saved (Function.update h w { h w with adj := a }) v = saved h v := by
  by_cases hv : v = w
  · subst hv; simp [saved]
  · simp [saved, Function.update_of_ne hv]

end Pyadjoint
