import Verif.Proofs.Scale
import Verif.Proofs.Marking

/-! The tangent and Hessian sweeps read, of a variable on the tape, only the saved value, the derivative values and the marking. -/

namespace Pyadjoint

open Classical

/-- A variable reduced to what the sweeps read. -/
noncomputable def canonVar (x : Var ℝ ℝ ℝ) (s : ℝ) : Var ℝ ℝ ℝ :=
  { output := 0, ckpt := some s, adj := x.adj, tlm := x.tlm, hess := x.hess, marked := x.marked }

/-- All variables in `P` reduced to what the sweeps read, the others forgotten. -/
noncomputable def canon (P : BV → Prop) (h : FHeap) : FHeap :=
  fun v => if P v then canonVar (h v) (saved h v) else { output := 0 }

variable (P : BV → Prop)

theorem canon_pos {v : BV} (hv : P v) (h : FHeap) : canon P h v = canonVar (h v) (saved h v) := if_pos hv

theorem saved_canon {v : BV} (hv : P v) (h : FHeap) : saved (canon P h) v = saved h v := by
  show (canon P h v).ckpt.getD (canon P h v).output = _
  rw [canon_pos P hv]; rfl

theorem map_saved_canon {l : List BV} (hl : ∀ v ∈ l, P v) (h : FHeap) : l.map (saved (canon P h)) = l.map (saved h) :=
  List.map_congr_left fun v hv => saved_canon P (hl v hv) h

theorem canon_tlm {v : BV} (hv : P v) (h : FHeap) : (canon P h v).tlm = (h v).tlm := by rw [canon_pos P hv]; rfl

theorem canon_hess {v : BV} (hv : P v) (h : FHeap) : (canon P h v).hess = (h v).hess := by rw [canon_pos P hv]; rfl

theorem canon_adj {v : BV} (hv : P v) (h : FHeap) : (canon P h v).adj = (h v).adj := by rw [canon_pos P hv]; rfl

theorem map_tlm_canon {l : List BV} (hl : ∀ v ∈ l, P v) (h : FHeap) :
    (l.map fun v => (canon P h v).tlm) = l.map fun v => (h v).tlm :=
  List.map_congr_left fun v hv => canon_tlm P (hl v hv) h

theorem relevant_canon {l : List BV} (hl : ∀ v ∈ l, P v) (m : Bool) (h : FHeap) : relevant (canon P h) m l = relevant h m l := by
  unfold relevant
  apply List.filter_congr
  intro p hp
  obtain ⟨_, hx⟩ := List.mem_zipIdx' (x := p.1) (i := p.2) hp
  have : P p.1 := hl _ (by rw [hx]; exact List.getElem_mem _)
  rw [canon_pos P this]; rfl

/-- Changing the derivative values or the marking of a variable. -/
theorem canon_update (h : FHeap) {v : BV} (hv : P v) (x x' : Var ℝ ℝ ℝ) (ho : x.output = (h v).output) (hc : x.ckpt = (h v).ckpt)
    (hx : x' = canonVar x (saved h v)) :
    Function.update (canon P h) v x' = canon P (Function.update h v x) := by
  funext w
  have hs : saved (Function.update h v x) w = saved h w := by
    by_cases hw : w = v
    · subst hw; exact saved_congr (by simpa using ho) (by simpa using hc)
    · exact saved_congr (by rw [Function.update_of_ne hw]) (by rw [Function.update_of_ne hw])
  by_cases hw : w = v
  · subst hw
    rw [Function.update_self, canon_pos P hv, hs, Function.update_self, hx]
  · rw [Function.update_of_ne hw]
    unfold canon
    rw [hs, Function.update_of_ne hw]

theorem addHess_canon (h : FHeap) {v : BV} (hv : P v) (a : ℝ) : addHess (canon P h) v a = canon P (addHess h v a) := by
  unfold addHess
  refine canon_update P h hv _ _ rfl rfl ?_
  rw [canon_pos P hv]; rfl

theorem addHess?_canon (h : FHeap) {v : BV} (hv : P v) (a : Option ℝ) : addHess? (canon P h) v a = canon P (addHess? h v a) := by
  cases a with
  | none => rfl
  | some a => exact addHess_canon P h hv a

theorem addTlm_canon (h : FHeap) {v : BV} (hv : P v) (a : ℝ) : addTlm (canon P h) v a = canon P (addTlm h v a) := by
  unfold addTlm
  refine canon_update P h hv _ _ rfl rfl ?_
  rw [canon_pos P hv]; rfl

theorem addTlm?_canon (h : FHeap) {v : BV} (hv : P v) (a : Option ℝ) : addTlm? (canon P h) v a = canon P (addTlm? h v a) := by
  cases a with
  | none => rfl
  | some a => exact addTlm_canon P h hv a

theorem markAll_canon (ns : List BV) (hns : ∀ v ∈ ns, P v) (m : Bool) (h : FHeap) : markAll ns m (canon P h) = canon P (markAll ns m h) := by
  unfold markAll
  induction ns generalizing h with
  | nil => rfl
  | cons n ns ih =>
    simp only [List.foldl_cons]
    rw [canon_update P h (hns n List.mem_cons_self) { h n with marked := m } _ rfl rfl (by rw [canon_pos P (hns n List.mem_cons_self)]; rfl)]
    exact ih (fun v hv => hns v (List.mem_cons_of_mem _ hv)) _

theorem seedTlm_canon (cs : List BV) (ds : List ℝ) (hcs : ∀ v ∈ cs, P v) (h : FHeap) : seedTlm cs ds (canon P h) = canon P (seedTlm cs ds h) := by
  unfold seedTlm
  have hl : ∀ p ∈ cs.zip ds, P p.1 := fun p hp => hcs _ (List.of_mem_zip (a := p.1) (b := p.2) hp).1
  revert hl
  generalize cs.zip ds = l
  intro hl
  induction l generalizing h with
  | nil => rfl
  | cons p l ih =>
    simp only [List.foldl_cons]
    have hp := hl p List.mem_cons_self
    rw [canon_update P h hp { h p.1 with tlm := some p.2 } _ rfl rfl (by rw [canon_pos P hp]; rfl)]
    exact ih _ fun q hq => hl q (List.mem_cons_of_mem _ hq)

theorem evaluateTlm_canon (b : Block ℝ ℝ ℝ) (hd : ∀ d ∈ b.deps, P d) (ho : ∀ o ∈ b.outs, P o) (m : Bool) (h : FHeap) :
    b.evaluateTlm m (canon P h) = canon P (b.evaluateTlm m h) := by
  unfold Block.evaluateTlm
  simp only [map_tlm_canon P hd, relevant_canon P ho, map_saved_canon P hd]
  split
  · rfl
  rename_i n1
  clear n1
  · split
    · rfl
    rename_i n2
    clear n2
    · have hl : ∀ p ∈ relevant h m b.outs, P p.1 := fun p hp => ho _ (mem_relevant hp)
      revert hl
      generalize relevant h m b.outs = l
      generalize b.deps.map (saved h) = inputs
      generalize (b.deps.map fun o => (h o).tlm) = x
      intro hl
      induction l generalizing h with
      | nil => rfl
      | cons p l ih =>
        rw [List.foldl_cons, List.foldl_cons, addTlm?_canon P _ (hl p List.mem_cons_self)]
        exact ih _ fun q hq => hl q (List.mem_cons_of_mem _ hq)

theorem FBlock.evaluateTlm_canon (b : FBlock) (hd : ∀ d ∈ b.deps, P d) (ho : P b.out) (m : Bool) (h : FHeap) :
    b.evaluateTlm m (canon P h) = canon P (b.evaluateTlm m h) := by
  cases b with
  | un op a o =>
    refine Pyadjoint.evaluateTlm_canon P _ hd (fun x hx => ?_) m h
    rw [List.mem_singleton.1 hx]; exact ho
  | bin op a b o =>
    have ha : P a := hd a (by simp [FBlock.deps])
    have hb : P b := hd b (by simp [FBlock.deps])
    have hP : P o := ho
    have gen : ∀ op, (FBlock.bin op a b o).toBlock.evaluateTlm m (canon P h) = canon P ((FBlock.bin op a b o).toBlock.evaluateTlm m h) :=
      fun op => Pyadjoint.evaluateTlm_canon P _ hd (fun x hx => by rw [List.mem_singleton.1 hx]; exact hP) m h
    cases op <;> first
      | exact gen _
      | simp only [FBlock.evaluateTlm, canon_tlm P ha, saved_canon P ha, saved_canon P hb, addTlm?_canon P _ hP, canon_tlm P hb]

theorem FTape.evaluateTlm_canon (t : FTape) (hP : ∀ v, OnTape t.blocks v → P v) (m : Bool) (h : FHeap) :
    t.evaluateTlm m (canon P h) = canon P (t.evaluateTlm m h) := by
  unfold FTape.evaluateTlm
  have gen : ∀ (l : List FBlock) (h : FHeap), (∀ b ∈ l, b ∈ t) →
      l.foldl (fun h b => b.evaluateTlm m h) (canon P h) = canon P (l.foldl (fun h b => b.evaluateTlm m h) h) := by
    intro l
    induction l with
    | nil => intro h _; rfl
    | cons b l ih =>
      intro h hl
      have hb := hl b List.mem_cons_self
      have hbt : b.toBlock ∈ t.blocks := List.mem_map.2 ⟨b, hb, rfl⟩
      rw [List.foldl_cons, List.foldl_cons, FBlock.evaluateTlm_canon P b
        (fun d hd => hP d ⟨b.toBlock, hbt, Or.inl (by cases b <;> exact hd)⟩)
        (hP _ ⟨b.toBlock, hbt, Or.inr (by cases b <;> exact List.mem_singleton.2 rfl)⟩)]
      exact ih _ fun q hq => hl q (List.mem_cons_of_mem _ hq)
  exact gen t h fun _ h => h

theorem evaluateHessianDefault_canon (deps : List BV) (o : BV) (m : Bool)
    (comp : List ℝ → ℝ → Option ℝ → Nat → List (Nat × Option ℝ) → Except FBlock.PyErr ℝ)
    (hd : ∀ d ∈ deps, P d) (ho : P o) (h : FHeap) :
    FBlock.evaluateHessianDefault deps o m comp (canon P h) = (FBlock.evaluateHessianDefault deps o m comp h).map (canon P) := by
  unfold FBlock.evaluateHessianDefault
  rw [canon_hess P ho, canon_adj P ho]
  cases hh : (h o).hess with
  | none => rfl
  | some hin =>
    simp only [relevant_canon P hd, map_saved_canon P hd]
    have hl : ∀ p ∈ relevant h m deps, P p.1 := fun p hp => hd _ (mem_relevant hp)
    have e : ((relevant h m deps).map fun q => (q.2, (canon P h q.1).tlm)) = (relevant h m deps).map fun q => (q.2, (h q.1).tlm) :=
      List.map_congr_left fun q hq => by rw [canon_tlm P (hl q hq)]
    rw [e]
    clear e
    generalize ((relevant h m deps).map fun q => (q.2, (h q.1).tlm)) = rel
    generalize (h o).adj = adj
    generalize deps.map (saved h) = inputs
    revert hl
    generalize relevant h m deps = l
    intro hl
    clear hh
    induction l generalizing h with
    | nil => rfl
    | cons p l ih =>
      rw [List.foldlM_cons, List.foldlM_cons]
      cases hp : comp inputs hin adj p.2 rel with
      | error e => rfl
      | ok a =>
        show List.foldlM _ (addHess (canon P h) p.1 a) l = Except.map _ (List.foldlM _ (addHess h p.1 a) l)
        rw [addHess_canon P h (hl p List.mem_cons_self)]
        exact ih _ fun q hq => hl q (List.mem_cons_of_mem _ hq)

theorem FBlock.evaluateHessian_canon (blk : FBlock) (hd : ∀ d ∈ blk.deps, P d) (hout : P blk.out) (m : Bool) (h : FHeap) :
    blk.evaluateHessian m (canon P h) = (blk.evaluateHessian m h).map (canon P) := by
  cases blk with
  | un op a o =>
    have ho : P o := hout
    have ha : P a := hd a (by simp [FBlock.deps])
    have hd : ∀ d ∈ [a], P d := hd
    clear hout
    cases op with
    | neg =>
      simp only [FBlock.evaluateHessian]
      rw [canon_hess P ho]
      cases hh : (h o).hess with
      | none => rfl
      | some hin =>
        simp only []
        rw [addHess_canon P h ha]
        rfl
    | exp =>
      unfold FBlock.evaluateHessian
      exact evaluateHessianDefault_canon P _ o m _ hd ho h
    | log =>
      unfold FBlock.evaluateHessian
      exact evaluateHessianDefault_canon P _ o m _ hd ho h
  | bin op a b o =>
    have ho : P o := hout
    have ha : P a := hd a (by simp [FBlock.deps])
    have hb : P b := hd b (by simp [FBlock.deps])
    have hd : ∀ d ∈ [a, b], P d := hd
    clear hout
    cases op with
    | add =>
      unfold FBlock.evaluateHessian
      exact evaluateHessianDefault_canon P _ o m _ hd ho h
    | mul => exact evaluateHessianDefault_canon P _ o m _ hd ho h
    | min =>
      unfold FBlock.evaluateHessian
      exact evaluateHessianDefault_canon P _ o m _ hd ho h
    | max =>
      unfold FBlock.evaluateHessian
      exact evaluateHessianDefault_canon P _ o m _ hd ho h
    | sub =>
      simp only [FBlock.evaluateHessian]
      rw [canon_hess P ho]
      cases hh : (h o).hess with
      | none => rfl
      | some hin =>
        simp only []
        rw [addHess_canon P h ha, addHess_canon P _ hb]
        rfl
    | div =>
      simp only [FBlock.evaluateHessian]
      rw [canon_hess P ho, canon_adj P ho, saved_canon P ha, saved_canon P hb]
      cases hh : (h o).hess with
      | none => rfl
      | some hin =>
        cases hadj : (h o).adj with
        | none =>
          simp only [FBlock.needFloat, addHess_tlm_at, canon_tlm P hb]
          cases (h b).tlm <;> rfl
        | some l =>
          simp only [FBlock.needFloat, addHess_tlm_at, addHess?_tlm, canon_tlm P ha, canon_tlm P hb]
          cases htb : (h b).tlm <;> cases hta : (h a).tlm <;>
            simp only [bind, Except.bind, pure, Except.pure, Except.map, addHess_tlm_at, addHess?_tlm,
              canon_tlm P ha, canon_tlm P hb, htb, hta, Option.map_some, Option.map_none, addHess?,
              addHess_canon P _ ha, addHess_canon P _ hb]
    | pow =>
      simp only [FBlock.evaluateHessian]
      rw [canon_hess P ho, canon_adj P ho, saved_canon P ha, saved_canon P hb]
      cases hh : (h o).hess with
      | none => rfl
      | some hin =>
        cases hadj : (h o).adj with
        | none =>
          simp only [FBlock.needFloat, addHess_tlm_at, canon_tlm P ha, canon_tlm P hb]
          cases htb : (h b).tlm <;> cases hta : (h a).tlm <;>
            simp only [bind, Except.bind, pure, Except.pure, Except.map, addHess_tlm_at, canon_tlm P hb, htb]
        | some l =>
          simp only [FBlock.needFloat, addHess_tlm_at, addHess?_tlm, canon_tlm P ha, canon_tlm P hb]
          cases htb : (h b).tlm <;> cases hta : (h a).tlm <;>
            simp only [bind, Except.bind, pure, Except.pure, Except.map, addHess_tlm_at, addHess?_tlm,
              canon_tlm P ha, canon_tlm P hb, htb, hta, Option.map_some, Option.map_none, addHess?,
              addHess_canon P _ ha, addHess_canon P _ hb]

theorem FTape.evaluateHessian_canon (t : FTape) (hP : ∀ v, OnTape t.blocks v → P v) (m : Bool) (h : FHeap) :
    t.evaluateHessian m (canon P h) = (t.evaluateHessian m h).map (canon P) := by
  unfold FTape.evaluateHessian
  have : ∀ b ∈ t.reverse, b ∈ t := fun b hb => List.mem_reverse.1 hb
  revert this
  generalize t.reverse = l
  intro hl
  induction l generalizing h with
  | nil => rfl
  | cons b l ih =>
    have hb := hl b List.mem_cons_self
    have hbt : b.toBlock ∈ t.blocks := List.mem_map.2 ⟨b, hb, rfl⟩
    rw [List.foldlM_cons, List.foldlM_cons, FBlock.evaluateHessian_canon P b]
    · cases b.evaluateHessian m h with
      | error e => rfl
      | ok h' => exact ih h' fun q hq => hl q (List.mem_cons_of_mem _ hq)
    · intro d hd
      exact hP d ⟨b.toBlock, hbt, Or.inl (by cases b <;> exact hd)⟩
    · exact hP _ ⟨b.toBlock, hbt, Or.inr (by cases b <;> exact List.mem_singleton.2 rfl)⟩

/-- The variables `compute_hessian` touches. -/
def touched (t : FTape) (cs : List BV) (J : BV) (v : BV) : Prop := OnTape t.blocks v ∨ v ∈ cs ∨ v = J

theorem findRelevantNodes_touched (t : FTape) (cs : List BV) (J : BV) : ∀ v ∈ findRelevantNodes t.blocks cs, touched t cs J v := by
  intro v hv
  by_cases h : ∀ b ∈ t.blocks, v ∉ b.outs
  · exact Or.inr (Or.inl (mem_findRelevantNodes_of_not_out t.blocks cs v h hv))
  · push Not at h
    obtain ⟨b, hb, hvb⟩ := h
    exact Or.inl ⟨b, hb, Or.inr hvb⟩

/-- `compute_hessian` on the tape reduced to what the sweeps read. -/
theorem FTape.computeHessian_canon (t : FTape) (J : BV) (cs : List BV) (ds : List ℝ) (h : FHeap) :
    let P := touched t cs J
    (match t.evaluateHessian true (markAll (findRelevantNodes t.blocks cs) true
        (let g := markAll (findRelevantNodes t.blocks cs) false (t.evaluateTlm true (markAll (findRelevantNodes t.blocks cs) true
          (seedTlm cs ds (canon P (resetVariables t.blocks .hessian (resetVariables t.blocks .tlm h))))));
        Function.update g J { g J with hess := some 0 })) with
      | .error e => Except.error e
      | .ok h => .ok (cs.map (getHessian (markAll (findRelevantNodes t.blocks cs) false h)))) = (t.computeHessian J cs ds h).map (·.1) := by
  intro P
  have hns := findRelevantNodes_touched t cs J
  unfold FTape.computeHessian
  simp only []
  rw [seedTlm_canon P cs ds (fun v hv => Or.inr (Or.inl hv)), markAll_canon P _ hns, FTape.evaluateTlm_canon P t (fun v hv => Or.inl hv),
    markAll_canon P _ hns]
  generalize markAll (findRelevantNodes t.blocks cs) false _ = g
  have hJ : P J := Or.inr (Or.inr rfl)
  rw [canon_update P g hJ { g J with hess := some 0 } _ rfl rfl (by rw [canon_pos P hJ]; rfl), markAll_canon P _ hns,
    FTape.evaluateHessian_canon P t (fun v hv => Or.inl hv)]
  cases t.evaluateHessian true _ with
  | error e => rfl
  | ok g' =>
    simp only [Except.map]
    rw [markAll_canon P _ hns]
    congr 1
    apply List.map_congr_left
    intro c hc
    unfold getHessian
    rw [canon_hess P (Or.inr (Or.inl hc))]

/-- **The Hessian action is a function of the saved values and the adjoint values.** -/
theorem hessian_of_saved (t : FTape) (J : BV) (cs : List BV) (ds : List ℝ) (h₁ h₂ : FHeap)
    (hsv : ∀ v, touched t cs J v → saved h₁ v = saved h₂ v) (had : ∀ v, touched t cs J v → (h₁ v).adj = (h₂ v).adj)
    (hmk : ∀ v, touched t cs J v → (h₁ v).marked = (h₂ v).marked)
    (hoff : ∀ v, touched t cs J v → OnTape t.blocks v ∨ ((h₁ v).tlm = (h₂ v).tlm ∧ (h₁ v).hess = (h₂ v).hess)) :
    (t.computeHessian J cs ds h₁).map (·.1) = (t.computeHessian J cs ds h₂).map (·.1) := by
  rw [← FTape.computeHessian_canon, ← FTape.computeHessian_canon]
  have e : canon (touched t cs J) (resetVariables t.blocks .hessian (resetVariables t.blocks .tlm h₁))
      = canon (touched t cs J) (resetVariables t.blocks .hessian (resetVariables t.blocks .tlm h₂)) := by
    funext v
    by_cases hv : touched t cs J v
    · rw [canon_pos _ hv, canon_pos _ hv]
      have hs : ∀ h : FHeap, saved (resetVariables t.blocks .hessian (resetVariables t.blocks .tlm h)) v = saved h v := by
        intro h; simp
      rw [hs, hs, hsv v hv]
      simp only [resetVariables_apply]
      rcases hoff v hv with ht | ⟨h1, h2⟩
      · rw [if_pos ht, if_pos ht, if_pos ht, if_pos ht]
        unfold canonVar
        simp only [Var.reset, had v hv, hmk v hv]
      · unfold canonVar
        by_cases ht : OnTape t.blocks v
        · rw [if_pos ht, if_pos ht, if_pos ht, if_pos ht]
          simp only [Var.reset, had v hv, hmk v hv]
        · rw [if_neg ht, if_neg ht, if_neg ht, if_neg ht]
          simp only [had v hv, hmk v hv, h1, h2]
    · unfold canon
      rw [if_neg hv, if_neg hv]
  simp only []
  rw [e]

/-- Two states of the tape of `y = x ** c; J = y + x` with the same saved values that differ in the objects, in the tangents and in the
second-order values: the Hessian action is the same in both, for every direction. -/
example (h : FHeap) (o : BV → ℝ) (a b : BV → Option ℝ) (d : ℝ) :
    (FTape.computeHessian [.bin .pow 0 1 2, .bin .add 2 0 3] 3 [0] [d] fun v => { h v with output := o v, ckpt := some (saved h v), tlm := a v, hess := b v }).map (·.1)
      = (FTape.computeHessian [.bin .pow 0 1 2, .bin .add 2 0 3] 3 [0] [d] h).map (·.1) := by
  have on : ∀ v, touched [.bin .pow 0 1 2, .bin .add 2 0 3] [0] 3 v →
      OnTape (FTape.blocks [.bin .pow 0 1 2, .bin .add 2 0 3]) v := by
    rintro v (hv | hv | rfl)
    · exact hv
    · rw [List.mem_singleton.1 hv]
      exact ⟨_, List.mem_cons_self, Or.inl (by simp [FBlock.toBlock, FBlock.deps])⟩
    · exact ⟨_, List.mem_cons_of_mem _ List.mem_cons_self, Or.inr (by simp [FBlock.toBlock])⟩
  exact hessian_of_saved _ _ _ _ _ _ (fun v _ => rfl) (fun v _ => rfl) (fun v _ => rfl) fun v hv => Or.inl (on v hv)

end Pyadjoint
