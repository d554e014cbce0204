import Verif.Model.Float
import Verif.Model.Reduced
import Verif.Proofs.Engine

/-! Adjoint, tangent and Hessian sweeps commute with multiplying all adjoint and Hessian values by a
number. -/

namespace Pyadjoint

open Classical

/-- Multiply the adjoint and Hessian value of a variable. -/
noncomputable def scaleVar (r : ℝ) (x : Var ℝ ℝ ℝ) : Var ℝ ℝ ℝ :=
  { x with adj := x.adj.map (r * ·), hess := x.hess.map (r * ·) }

/-- Multiply the adjoint and Hessian values of the variables in `P`. -/
noncomputable def scaleOn (P : BV → Prop) (r : ℝ) (h : FHeap) : FHeap :=
  fun v => if P v then scaleVar r (h v) else h v

variable (P : BV → Prop) (r : ℝ)

theorem scaleOn_pos {v : BV} (hv : P v) (h : FHeap) : scaleOn P r h v = scaleVar r (h v) := if_pos hv

theorem scaleOn_neg {v : BV} (hv : ¬ P v) (h : FHeap) : scaleOn P r h v = h v := if_neg hv

@[simp] theorem scaleOn_tlm (h : FHeap) (v : BV) : (scaleOn P r h v).tlm = (h v).tlm := by
  unfold scaleOn; split <;> rfl

@[simp] theorem scaleOn_marked (h : FHeap) (v : BV) : (scaleOn P r h v).marked = (h v).marked := by
  unfold scaleOn; split <;> rfl

@[simp] theorem saved_scaleOn (h : FHeap) (v : BV) : saved (scaleOn P r h) v = saved h v := by
  apply saved_congr <;> (unfold scaleOn; split <;> rfl)

@[simp] theorem saved_scaleOn' (h : FHeap) : saved (scaleOn P r h) = saved h :=
  funext fun v => saved_scaleOn P r h v

theorem relevant_scaleOn (h : FHeap) (m : Bool) (l : List BV) :
    relevant (scaleOn P r h) m l = relevant h m l := by
  unfold relevant; simp

/-- Updating a variable. -/
theorem scaleOn_update (h : FHeap) (v : BV) (x x' : Var ℝ ℝ ℝ)
    (hx : x' = if P v then scaleVar r x else x) :
    Function.update (scaleOn P r h) v x' = scaleOn P r (Function.update h v x) := by
  funext w
  by_cases hw : w = v
  · subst hw
    rw [Function.update_self, hx]
    unfold scaleOn
    simp
  · rw [Function.update_of_ne hw]
    unfold scaleOn
    rw [Function.update_of_ne hw]

theorem addAdj_scaleOn (h : FHeap) {v : BV} (hv : P v) (a : ℝ) :
    addAdj (scaleOn P r h) v (r * a) = scaleOn P r (addAdj h v a) := by
  unfold addAdj
  apply scaleOn_update
  rw [if_pos hv, scaleOn_pos P r hv]
  cases ha : (h v).adj <;> simp [scaleVar, ha, mul_add]

theorem addAdj?_scaleOn (h : FHeap) {v : BV} (hv : P v) (a : Option ℝ) :
    addAdj? (scaleOn P r h) v (a.map (r * ·)) = scaleOn P r (addAdj? h v a) := by
  cases a with
  | none => rfl
  | some a => exact addAdj_scaleOn P r h hv a

theorem addHess_scaleOn (h : FHeap) {v : BV} (hv : P v) (a : ℝ) :
    addHess (scaleOn P r h) v (r * a) = scaleOn P r (addHess h v a) := by
  unfold addHess
  apply scaleOn_update
  rw [if_pos hv, scaleOn_pos P r hv]
  cases ha : (h v).hess <;> simp [scaleVar, ha, mul_add]

theorem addHess?_scaleOn (h : FHeap) {v : BV} (hv : P v) (a : Option ℝ) :
    addHess? (scaleOn P r h) v (a.map (r * ·)) = scaleOn P r (addHess? h v a) := by
  cases a with
  | none => rfl
  | some a => exact addHess_scaleOn P r h hv a

theorem addHess_scaleOn' (h : FHeap) {v : BV} (hv : P v) {a a' : ℝ} (e : a' = r * a) :
    addHess (scaleOn P r h) v a' = scaleOn P r (addHess h v a) := by
  rw [e]; exact addHess_scaleOn P r h hv a

theorem addHess?_scaleOn' (h : FHeap) {v : BV} (hv : P v) {a a' : Option ℝ}
    (e : a' = a.map (r * ·)) :
    addHess? (scaleOn P r h) v a' = scaleOn P r (addHess? h v a) := by
  rw [e]; exact addHess?_scaleOn P r h hv a

theorem addHess_tlm_at (h : FHeap) (v w : BV) (a : ℝ) : (addHess h v a w).tlm = (h w).tlm := by
  unfold addHess
  by_cases hw : w = v
  · subst hw; simp
  · rw [Function.update_of_ne hw]

theorem addHess?_tlm (h : FHeap) (v w : BV) (a : Option ℝ) : (addHess? h v a w).tlm = (h w).tlm := by
  cases a with
  | none => rfl
  | some a => exact addHess_tlm_at h v w a

theorem addTlm_scaleOn (h : FHeap) (v : BV) (a : ℝ) :
    addTlm (scaleOn P r h) v a = scaleOn P r (addTlm h v a) := by
  unfold addTlm
  apply scaleOn_update
  by_cases hv : P v
  · rw [if_pos hv, scaleOn_pos P r hv]; rfl
  · rw [if_neg hv, scaleOn_neg P r hv]

theorem addTlm?_scaleOn (h : FHeap) (v : BV) (a : Option ℝ) :
    addTlm? (scaleOn P r h) v a = scaleOn P r (addTlm? h v a) := by
  cases a with
  | none => rfl
  | some a => exact addTlm_scaleOn P r h v a

theorem mem_relevant {h : FHeap} {m : Bool} {l : List BV} {p : BV × Nat} (hp : p ∈ relevant h m l) :
    p.1 ∈ l := by
  unfold relevant at hp
  obtain ⟨_, hx⟩ := List.mem_zipIdx' (x := p.1) (i := p.2) (List.mem_of_mem_filter hp)
  rw [hx]; exact List.getElem_mem _

theorem evaluateAdj_scaleOn (b : Block ℝ ℝ ℝ)
    (hom : ∀ inputs x i, b.adjC inputs (x.map (Option.map (r * ·))) i = (b.adjC inputs x i).map (r * ·))
    (hd : ∀ d ∈ b.deps, P d) (ho : ∀ o ∈ b.outs, P o) (m : Bool) (h : FHeap) :
    b.evaluateAdj m (scaleOn P r h) = scaleOn P r (b.evaluateAdj m h) := by
  unfold Block.evaluateAdj
  simp only []
  have e1 : b.outs.map (fun o => (scaleOn P r h o).adj)
      = (b.outs.map fun o => (h o).adj).map (Option.map (r * ·)) := by
    rw [List.map_map]
    apply List.map_congr_left
    intro o hoo
    rw [scaleOn_pos P r (ho o hoo)]
    rfl
  have e2 : ((b.outs.map fun o => (h o).adj).map (Option.map (r * ·))).all Option.isNone
      = (b.outs.map fun o => (h o).adj).all Option.isNone := by
    rw [List.all_map]
    congr 1
    funext o
    cases o <;> rfl
  rw [e1, e2, relevant_scaleOn, saved_scaleOn']
  split
  · rfl
  rename_i n1
  clear n1
  · split
    · rfl
    rename_i n2
    clear n2
    · have hl : ∀ p ∈ relevant h m b.deps, P p.1 := fun p hp => hd _ (mem_relevant hp)
      clear e1 e2
      revert hl
      generalize relevant h m b.deps = l
      generalize b.deps.map (saved h) = inputs
      generalize (b.outs.map fun o => (h o).adj) = x
      intro hl
      induction l generalizing h with
      | nil => rfl
      | cons p l ih =>
        rw [List.foldl_cons, List.foldl_cons, hom, addAdj?_scaleOn P r h (hl p List.mem_cons_self)]
        exact ih _ fun q hq => hl q (List.mem_cons_of_mem _ hq)

theorem FBlock.adjC_hom (blk : FBlock) (inputs : List ℝ) (x : List (Option ℝ)) (i : Nat) :
    blk.toBlock.adjC inputs (x.map (Option.map (r * ·))) i
      = (blk.toBlock.adjC inputs x i).map (r * ·) := by
  cases blk with
  | un op a o =>
    simp only [FBlock.toBlock]
    match x with
    | [] => rfl
    | none :: _ => rfl
    | some l :: _ =>
      cases hi : inputs[0]? with
      | none => simp
      | some y =>
        simp only [List.map_cons, List.getElem?_cons_zero, Option.map_some, Option.join_some,
          Option.bind_some, Option.some.injEq]
        cases op <;> simp only [UOp.adjC] <;> ring
  | bin op a b o =>
    simp only [FBlock.toBlock]
    match x with
    | [] => rfl
    | none :: _ => rfl
    | some l :: _ =>
      cases hi : inputs[0]? with
      | none => simp
      | some y =>
        cases hi1 : inputs[1]? with
        | none => simp
        | some z =>
          simp only [List.map_cons, List.getElem?_cons_zero, Option.map_some, Option.join_some,
            Option.bind_some, Option.some.injEq]
          cases op <;> simp only [BOp.adjC] <;> (repeat' split) <;> ring

theorem FTape.evaluateAdj_scaleOn (t : FTape) (hP : ∀ v, OnTape t.blocks v → P v) (m : Bool)
    (h : FHeap) :
    Pyadjoint.evaluateAdj t.blocks m (scaleOn P r h)
      = scaleOn P r (Pyadjoint.evaluateAdj t.blocks m h) := by
  unfold Pyadjoint.evaluateAdj
  have : ∀ b ∈ t.blocks.reverse, b ∈ t.blocks := fun b hb => List.mem_reverse.1 hb
  revert this
  generalize t.blocks.reverse = l
  intro hl
  induction l generalizing h with
  | nil => rfl
  | cons b l ih =>
    have hb := hl b List.mem_cons_self
    rw [List.foldl_cons, List.foldl_cons, Pyadjoint.evaluateAdj_scaleOn P r b _
      (fun d hd => hP d ⟨b, hb, Or.inl hd⟩) (fun d hd => hP d ⟨b, hb, Or.inr hd⟩)]
    · exact ih _ fun q hq => hl q (List.mem_cons_of_mem _ hq)
    · obtain ⟨fb, -, rfl⟩ := List.mem_map.1 hb
      exact fb.adjC_hom r

theorem evaluateTlm_scaleOn (b : Block ℝ ℝ ℝ) (m : Bool) (h : FHeap) :
    b.evaluateTlm m (scaleOn P r h) = scaleOn P r (b.evaluateTlm m h) := by
  unfold Block.evaluateTlm
  simp only [scaleOn_tlm, relevant_scaleOn, saved_scaleOn']
  split
  · rfl
  rename_i n1
  clear n1
  · split
    · rfl
    rename_i n2
    clear n2
    · generalize relevant h m b.outs = l
      generalize b.deps.map (saved h) = inputs
      generalize (b.deps.map fun o => (h o).tlm) = x
      induction l generalizing h with
      | nil => rfl
      | cons p l ih =>
        rw [List.foldl_cons, List.foldl_cons, addTlm?_scaleOn]
        exact ih _

theorem FBlock.evaluateTlm_scaleOn (b : FBlock) (m : Bool) (h : FHeap) :
    b.evaluateTlm m (scaleOn P r h) = scaleOn P r (b.evaluateTlm m h) := by
  cases b with
  | un op a o => exact Pyadjoint.evaluateTlm_scaleOn P r _ m h
  | bin op a b o =>
    cases op <;> first
      | exact Pyadjoint.evaluateTlm_scaleOn P r _ m h
      | simp only [FBlock.evaluateTlm, scaleOn_tlm, saved_scaleOn, addTlm?_scaleOn]

theorem FTape.evaluateTlm_scaleOn (t : FTape) (m : Bool) (h : FHeap) :
    t.evaluateTlm m (scaleOn P r h) = scaleOn P r (t.evaluateTlm m h) := by
  unfold FTape.evaluateTlm
  induction t generalizing h with
  | nil => rfl
  | cons b t ih =>
    rw [List.foldl_cons, List.foldl_cons, FBlock.evaluateTlm_scaleOn]
    exact ih _

theorem markAll_scaleOn (ns : List BV) (m : Bool) (h : FHeap) :
    markAll ns m (scaleOn P r h) = scaleOn P r (markAll ns m h) := by
  funext v
  unfold scaleOn
  rw [markAll_apply, markAll_apply]
  split <;> split <;> rfl

theorem markControls_scaleOn (ns : List BV) (m : Bool) (h : FHeap) :
    markControls ns m (scaleOn P r h) = scaleOn P r (markControls ns m h) := by
  funext v
  unfold scaleOn
  rw [markControls_apply, markControls_apply]
  split <;> split <;> rfl

theorem resetTlm_scaleOn (bs : Blocks ℝ ℝ ℝ) (h : FHeap) :
    resetVariables bs .tlm (scaleOn P r h) = scaleOn P r (resetVariables bs .tlm h) := by
  funext v
  unfold scaleOn
  rw [resetVariables_apply, resetVariables_apply]
  split <;> split <;> rfl

theorem resetHess_scaleOn (bs : Blocks ℝ ℝ ℝ) (h : FHeap) :
    resetVariables bs .hessian (scaleOn P r h) = scaleOn P r (resetVariables bs .hessian h) := by
  funext v
  unfold scaleOn
  rw [resetVariables_apply, resetVariables_apply]
  split <;> split <;> rfl

theorem seedTlm_scaleOn (cs : List BV) (ds : List ℝ) (h : FHeap) :
    seedTlm cs ds (scaleOn P r h) = scaleOn P r (seedTlm cs ds h) := by
  unfold seedTlm
  generalize cs.zip ds = l
  induction l generalizing h with
  | nil => rfl
  | cons p l ih =>
    rw [List.foldl_cons, List.foldl_cons, ← ih]
    congr 1
    apply scaleOn_update
    split <;> rename_i hv
    · rw [scaleOn_pos P r hv]; rfl
    · rw [scaleOn_neg P r hv]

/-! ### The Hessian sweep -/

theorem foldlM_hess_scaleOn (l : List (BV × Nat)) (c c' : Nat → Except FBlock.PyErr ℝ)
    (hc : ∀ i, c' i = (c i).map (r * ·)) (hl : ∀ p ∈ l, P p.1) (h : FHeap) :
    l.foldlM (fun (h' : FHeap) (p : BV × Nat) => do
        let v ← c' p.2
        pure (addHess h' p.1 v)) (scaleOn P r h)
      = (l.foldlM (fun (h' : FHeap) (p : BV × Nat) => do
        let v ← c p.2
        pure (addHess h' p.1 v)) h : Except FBlock.PyErr FHeap).map (scaleOn P r) := by
  induction l generalizing h with
  | nil => rfl
  | cons p l ih =>
    rw [List.foldlM_cons, List.foldlM_cons, hc]
    cases hp : c p.2 with
    | error e => rfl
    | ok a =>
      show List.foldlM _ (addHess (scaleOn P r h) p.1 (r * a)) l
        = Except.map _ (List.foldlM _ (addHess h p.1 a) l)
      rw [addHess_scaleOn P r h (hl p List.mem_cons_self)]
      exact ih (fun q hq => hl q (List.mem_cons_of_mem _ hq)) _

theorem evaluateHessianDefault_scaleOn (deps : List BV) (o : BV) (m : Bool)
    (comp : List ℝ → ℝ → Option ℝ → Nat → List (Nat × Option ℝ) → Except FBlock.PyErr ℝ)
    (hom : ∀ inputs hin adj i rel, comp inputs (r * hin) (adj.map (r * ·)) i rel
      = (comp inputs hin adj i rel).map (r * ·))
    (hd : ∀ d ∈ deps, P d) (ho : P o) (h : FHeap) :
    FBlock.evaluateHessianDefault deps o m comp (scaleOn P r h)
      = (FBlock.evaluateHessianDefault deps o m comp h).map (scaleOn P r) := by
  unfold FBlock.evaluateHessianDefault
  simp only [saved_scaleOn', relevant_scaleOn, scaleOn_tlm]
  rw [scaleOn_pos P r ho]
  simp only [scaleVar]
  cases hh : (h o).hess with
  | none => rfl
  | some hin =>
    simp only [Option.map_some]
    exact foldlM_hess_scaleOn P r _ _ _ (fun i => hom _ _ _ i _)
      (fun p hp => hd _ (mem_relevant hp)) h

theorem foldlM_bind_scale {α ε : Type*} (f f' : ℝ × Nat → α → Except ε (ℝ × Nat))
    (g g' : ℝ × Nat → Except ε ℝ)
    (hf : ∀ x k q, f' (r * x, k) q = (f (x, k) q).map fun p => (r * p.1, p.2))
    (hg : ∀ x k, g' (r * x, k) = (g (x, k)).map (r * ·)) (l : List α) (x : ℝ) (k : Nat) :
    (l.foldlM f' (r * x, k) >>= g') = (l.foldlM f (x, k) >>= g).map (r * ·) := by
  induction l generalizing x k with
  | nil => exact hg x k
  | cons q l ih =>
    rw [List.foldlM_cons, List.foldlM_cons, hf]
    cases f (x, k) q with
    | error e => rfl
    | ok p => exact ih p.1 p.2

theorem mulHessC_hom (inputs : List ℝ) (hin : ℝ) (adj : Option ℝ) (i : Nat)
    (rel : List (Nat × Option ℝ)) :
    FBlock.mulHessC inputs (r * hin) (adj.map (r * ·)) i rel
      = (FBlock.mulHessC inputs hin adj i rel).map (r * ·) := by
  unfold FBlock.mulHessC
  simp only []
  have e0 : ((0 : ℝ), if i = 1 then 0 else 1) = (r * 0, if i = 1 then 0 else 1) := by rw [mul_zero]
  rw [show (List.foldlM _ ((0 : ℝ), if i = 1 then 0 else 1) rel : Except FBlock.PyErr (ℝ × Nat))
    = List.foldlM _ (r * 0, if i = 1 then 0 else 1) rel from by rw [← e0]]
  apply foldlM_bind_scale r
  · intro x k q
    obtain ⟨n, o⟩ := q
    by_cases hn : n = i
    · have : decide (n ≠ i) = false := by simp [hn]
      simp only [this]
      rfl
    · have : decide (n ≠ i) = true := by simp [hn]
      simp only [this]
      cases o with
      | none => rfl
      | some t =>
        cases adj with
        | none => rfl
        | some a =>
          show Except.ok (r * a * t, n) = Except.ok (r * (a * t), n)
          rw [mul_assoc]
  · intro x k
    show Except.ok _ = Except.ok _
    congr 1
    ring

theorem addHess_congr {X Y : FHeap} (v : BV) {x y : ℝ} (hX : X = Y) (hx : x = y) :
    addHess X v x = addHess Y v y := by rw [hX, hx]

theorem FBlock.evaluateHessian_scaleOn (blk : FBlock) (hd : ∀ d ∈ blk.deps, P d) (hout : P blk.out)
    (m : Bool) (h : FHeap) :
    blk.evaluateHessian m (scaleOn P r h) = (blk.evaluateHessian m h).map (scaleOn P r) := by
  cases blk with
  | un op a o =>
    have ho : P o := hout
    have ha : P a := hd a (by simp [FBlock.deps])
    have hd : ∀ d ∈ [a], P d := hd
    clear hout
    cases op with
    | neg =>
      simp only [FBlock.evaluateHessian]
      rw [scaleOn_pos P r ho]
      simp only [scaleVar]
      cases hh : (h o).hess with
      | none => rfl
      | some hin =>
        simp only [Option.map_some]
        rw [← mul_neg, addHess_scaleOn P r h ha]
        rfl
    | exp =>
      unfold FBlock.evaluateHessian
      refine evaluateHessianDefault_scaleOn P r _ o m _ ?_ hd ho h
      intro i hin adj k rel
      show Except.ok _ = Except.ok _
      congr 1; ring
    | log =>
      unfold FBlock.evaluateHessian
      refine evaluateHessianDefault_scaleOn P r _ o m _ ?_ hd ho h
      intro i hin adj k rel
      show Except.ok _ = Except.ok _
      congr 1; ring
  | bin op a b o =>
    have ho : P o := hout
    have ha : P a := hd a (by simp [FBlock.deps])
    have hb : P b := hd b (by simp [FBlock.deps])
    have hd : ∀ d ∈ [a, b], P d := hd
    clear hout
    cases op with
    | add =>
      unfold FBlock.evaluateHessian
      refine evaluateHessianDefault_scaleOn P r _ o m _ ?_ hd ho h
      intro i hin adj k rel
      rfl
    | mul => exact evaluateHessianDefault_scaleOn P r _ o m _ (mulHessC_hom r) hd ho h
    | min =>
      unfold FBlock.evaluateHessian
      refine evaluateHessianDefault_scaleOn P r _ o m _ ?_ hd ho h
      intro i hin adj k rel
      show Except.ok _ = Except.ok _
      congr 1
      simp only [BOp.adjC]
      (repeat' split) <;> ring
    | max =>
      unfold FBlock.evaluateHessian
      refine evaluateHessianDefault_scaleOn P r _ o m _ ?_ hd ho h
      intro i hin adj k rel
      show Except.ok _ = Except.ok _
      congr 1
      simp only [BOp.adjC]
      (repeat' split) <;> ring
    | sub =>
      simp only [FBlock.evaluateHessian]
      rw [scaleOn_pos P r ho]
      simp only [scaleVar]
      cases hh : (h o).hess with
      | none => rfl
      | some hin =>
        simp only [Option.map_some]
        rw [← mul_neg, addHess_scaleOn P r h ha, addHess_scaleOn P r _ hb]
        rfl
    | div =>
      simp only [FBlock.evaluateHessian]
      rw [scaleOn_pos P r ho]
      simp only [scaleVar, saved_scaleOn]
      cases hh : (h o).hess with
      | none => rfl
      | some hin =>
        cases hadj : (h o).adj with
        | none =>
          simp only [Option.map_some, Option.map_none, FBlock.needFloat]
          simp only [addHess_tlm_at, scaleOn_tlm]
          cases (h b).tlm <;> rfl
        | some l =>
          simp only [Option.map_some, FBlock.needFloat, addHess_tlm_at, addHess?_tlm, scaleOn_tlm]
          cases htb : (h b).tlm <;> cases hta : (h a).tlm <;>
            simp only [bind, Except.bind, pure, Except.pure, Except.map, addHess_tlm_at, addHess?_tlm,
              scaleOn_tlm, htb, hta, Option.map_some, Option.map_none, addHess?,
              ← addHess_scaleOn P r _ ha, ← addHess_scaleOn P r _ hb] <;>
            refine congrArg Except.ok ?_ <;>
            (repeat' (first | with_reducible rfl | refine addHess_congr _ ?_ ?_)) <;> ring
    | pow =>
      simp only [FBlock.evaluateHessian]
      rw [scaleOn_pos P r ho]
      simp only [scaleVar, saved_scaleOn]
      cases hh : (h o).hess with
      | none => rfl
      | some hin =>
        cases hadj : (h o).adj with
        | none =>
          simp only [Option.map_some, Option.map_none, FBlock.needFloat]
          simp only [addHess_tlm_at, scaleOn_tlm]
          cases htb : (h b).tlm <;> cases hta : (h a).tlm <;>
            simp only [bind, Except.bind, pure, Except.pure, Except.map, addHess_tlm_at, scaleOn_tlm, htb]
        | some l =>
          simp only [Option.map_some, FBlock.needFloat, addHess_tlm_at, addHess?_tlm, scaleOn_tlm]
          cases htb : (h b).tlm <;> cases hta : (h a).tlm <;>
            simp only [bind, Except.bind, pure, Except.pure, Except.map, addHess_tlm_at, addHess?_tlm,
              scaleOn_tlm, htb, hta, Option.map_some, Option.map_none, addHess?,
              ← addHess_scaleOn P r _ ha, ← addHess_scaleOn P r _ hb] <;>
            refine congrArg Except.ok ?_ <;>
            (repeat' (first | with_reducible rfl | refine addHess_congr _ ?_ ?_)) <;> ring

theorem FTape.evaluateHessian_scaleOn (t : FTape) (hP : ∀ v, OnTape t.blocks v → P v) (m : Bool)
    (h : FHeap) :
    t.evaluateHessian m (scaleOn P r h) = (t.evaluateHessian m h).map (scaleOn P r) := by
  unfold FTape.evaluateHessian
  have : ∀ b ∈ t.reverse, b ∈ t := fun b hb => List.mem_reverse.1 hb
  revert this
  generalize t.reverse = l
  intro hl
  induction l generalizing h with
  | nil => rfl
  | cons b l ih =>
    have hb := hl b List.mem_cons_self
    have hbt : b.toBlock ∈ t.blocks := List.mem_map.2 ⟨b, hb, rfl⟩
    rw [List.foldlM_cons, List.foldlM_cons, FBlock.evaluateHessian_scaleOn P r b]
    · cases b.evaluateHessian m h with
      | error e => rfl
      | ok h' => exact ih h' fun q hq => hl q (List.mem_cons_of_mem _ hq)
    · intro d hd
      exact hP d ⟨b.toBlock, hbt, Or.inl (by cases b <;> exact hd)⟩
    · exact hP _ ⟨b.toBlock, hbt, Or.inr (by cases b <;> exact List.mem_singleton.2 rfl)⟩

/-- `compute_hessian` is homogeneous in the adjoint values it starts from. -/
theorem FTape.computeHessian_scaleOn (t : FTape) (J : BV) (cs : List BV) (ds : List ℝ)
    (hP : ∀ v, OnTape t.blocks v → P v) (hJ : P J) (h : FHeap) :
    t.computeHessian J cs ds (scaleOn P r h)
      = (t.computeHessian J cs ds h).map fun p =>
          (cs.map (getHessian (scaleOn P r p.2)), scaleOn P r p.2) := by
  unfold FTape.computeHessian
  simp only []
  rw [resetTlm_scaleOn, resetHess_scaleOn, seedTlm_scaleOn, markAll_scaleOn,
    FTape.evaluateTlm_scaleOn, markAll_scaleOn]
  generalize markAll (findRelevantNodes t.blocks cs) false _ = g
  rw [scaleOn_update P r g J { g J with hess := some 0 } _ (by
    rw [if_pos hJ, scaleOn_pos P r hJ]; simp [scaleVar]), markAll_scaleOn,
    FTape.evaluateHessian_scaleOn P r t hP]
  cases t.evaluateHessian true _ with
  | error e => rfl
  | ok g' =>
    simp only [Except.map, markAll_scaleOn]

/-- `compute_gradient` is homogeneous in the adjoint value it starts from. -/
theorem computeGradientState_scale (t : FTape) (J : BV) (cs : List BV) (seed : ℝ) (h : FHeap)
    (hh : ∀ v, (h v).hess = none) :
    computeGradientState t.blocks J cs (r * seed) h
      = scaleOn (fun v => OnTape t.blocks v ∨ v = J) r (computeGradientState t.blocks J cs seed h) := by
  unfold computeGradientState markedAdjoint
  simp only []
  set Q : BV → Prop := fun v => OnTape t.blocks v ∨ v = J with hQ
  have e : Function.update (resetVariables t.blocks .adjoint h) J
        { resetVariables t.blocks .adjoint h J with adj := some (r * seed) }
      = scaleOn Q r (Function.update (resetVariables t.blocks .adjoint h) J
        { resetVariables t.blocks .adjoint h J with adj := some seed }) := by
    funext v
    have hh' : (resetVariables t.blocks .adjoint h v).hess = none := by rw [resetAdj_hess]; exact hh v
    by_cases hv : v = J
    · subst hv
      rw [scaleOn_pos Q r (Or.inr rfl)]
      simp [scaleVar, hh v]
    · unfold scaleOn
      rw [Function.update_of_ne hv, Function.update_of_ne hv]
      split
      · rename_i hq
        have hon : OnTape t.blocks v := hq.resolve_right hv
        have ha : (resetVariables t.blocks .adjoint h v).adj = none := by
          rw [resetVariables_apply, if_pos hon]; rfl
        unfold scaleVar
        rw [ha, hh']
        generalize hx : resetVariables t.blocks .adjoint h v = x at ha hh'
        cases x
        simp only at ha hh'
        subst ha hh'
        rfl
      · rfl
  rw [e, markAll_scaleOn, markControls_scaleOn, FTape.evaluateAdj_scaleOn Q r t (fun v hv => Or.inl hv),
    markControls_scaleOn, markAll_scaleOn]

end Pyadjoint
