import Verif.Model.Placeholder
import Verif.Props.ReducedApi
import Verif.Props.Pruning
import Verif.Props.Gradient

/-!
# Placeholders substitute values, not derivatives (C36)
-/

namespace Pyadjoint
namespace Ph

variable {V T A : Type*}

/-! ## Specification -/

/-- The state in which every placeholder is an ordinary variable that holds the value `κ`. -/
def hold (res : BV → BV) (κ : BV → V) (h : Heap V T A) : Heap V T A := fun v =>
  if res v = v then h v else { h v with ckpt := some (κ v) }

/-- The states after a sequence of evaluations. -/
def runs (res : BV → BV) (bs : Blocks V T A) (cs : List BV) (l : List (List V)) (h : Heap V T A) : Heap V T A :=
  l.foldl (fun h xs => rfEval res bs cs xs h) h

/-- No block uses a placeholder after the block that computes the variable it stands for, and no block computes a placeholder.  This is
the use placeholders are made for: an earlier block reads what a later block computed in the previous evaluation. -/
structure Early (res : BV → BV) (bs : Blocks V T A) : Prop where
  order : bs.Pairwise fun b b' => ∀ d ∈ b'.deps, res d ≠ d → res d ∉ b.outs
  outs : ∀ b ∈ bs, ∀ o ∈ b.outs, res o = o

/-! ## Resolving -/

theorem resolve_succ (pl : Places) (n : Nat) (v w : BV) (h : resolve pl n v = some w) : resolve pl (n + 1) v = some w := by
  induction n generalizing v with
  | zero =>
    unfold resolve at h ⊢
    cases hv : pl v with
    | none => rw [hv] at h; exact h
    | some q => rw [hv] at h; cases h
  | succ n ih =>
    rw [resolve] at h
    rw [resolve]
    cases hv : pl v with
    | none => rw [hv] at h; exact h
    | some q =>
      rw [hv] at h
      exact ih _ h

/-- What a placeholder resolves to is an ordinary variable. -/
theorem resolve_ordinary (pl : Places) (n : Nat) (v w : BV) (h : resolve pl n v = some w) : pl w = none := by
  induction n generalizing v with
  | zero =>
    unfold resolve at h
    cases hv : pl v with
    | none => rw [hv] at h; cases h; exact hv
    | some q => rw [hv] at h; cases h
  | succ n ih =>
    rw [resolve] at h
    cases hv : pl v with
    | none => rw [hv] at h; cases h; exact hv
    | some q => rw [hv] at h; exact ih _ h

/-- Ordinary variables resolve to themselves; placeholders to what their target resolves to. -/
theorem Resolves.spec {pl : Places} {n : Nat} {res : BV → BV} (hr : Resolves pl n res) (v : BV) :
    (pl v = none → res v = v) ∧ (∀ q, pl v = some q → res v = res q.next) ∧ pl (res v) = none ∧ (res v = v ↔ pl v = none) := by
  have h1 : pl v = none → res v = v := by
    intro h
    have := hr v
    cases n <;> rw [resolve, h] at this <;> exact (Option.some.inj this).symm
  refine ⟨h1, ?_, resolve_ordinary pl n v _ (hr v), fun h => ?_, h1⟩
  · intro q hq
    have hv := hr v
    cases n with
    | zero => rw [resolve, hq] at hv; cases hv
    | succ n =>
      rw [resolve, hq] at hv
      have := resolve_succ pl n _ _ hv
      rw [hr] at this
      exact (Option.some.inj this).symm
  · have := resolve_ordinary pl n v _ (hr v)
    rw [h] at this
    exact this

/-- **C36, what placeholders stand for.**  If links do not run in circles (there is a rank, at most the recursion limit, that falls along
every link), every placeholder stands for exactly one ordinary variable: that of the end of its chain of links. -/
theorem resolves_of_rank {pl : Places} (rank : BV → Nat) (hrank : ∀ v q, pl v = some q → rank q.next < rank v) {n : Nat}
    (hn : ∀ v, rank v ≤ n) : ∃ res : BV → BV, Resolves pl n res ∧ ∀ res', Resolves pl n res' → res' = res := by
  have key : ∀ (k : Nat) (v : BV), rank v ≤ k → ∃ w, resolve pl k v = some w := by
    intro k
    induction k with
    | zero =>
      intro v hv
      cases hp : pl v with
      | none => exact ⟨v, by rw [resolve, hp]⟩
      | some q => exact absurd (hrank v q hp) (by omega)
    | succ k ih =>
      intro v hv
      cases hp : pl v with
      | none => exact ⟨v, by rw [resolve, hp]⟩
      | some q =>
        obtain ⟨w, hw⟩ := ih q.next (by have := hrank v q hp; omega)
        exact ⟨w, by rw [resolve, hp]; exact hw⟩
  choose res hres using fun v => key n v (hn v)
  refine ⟨res, hres, fun res' h' => funext fun v => ?_⟩
  have := h' v
  rw [hres v] at this
  exact (Option.some.inj this).symm

/-- Placeholder 1 linked to placeholder 2, which stands for 5. -/
example : ∃ res : BV → BV, Resolves (fun v => if v = 1 then some ⟨7, some 2⟩ else if v = 2 then some ⟨5, none⟩ else none) 2 res ∧ res 1 = 5 := by
  obtain ⟨res, h, -⟩ := resolves_of_rank (pl := fun v => if v = 1 then some ⟨7, some 2⟩ else if v = 2 then some ⟨5, none⟩ else none)
    (fun v => if v = 1 then 2 else if v = 2 then 1 else 0)
    (fun v q hq => by
      by_cases h1 : v = 1
      · rw [if_pos h1] at hq; cases hq; simp [h1, Place.next]
      · rw [if_neg h1] at hq
        by_cases h2 : v = 2
        · rw [if_pos h2] at hq; cases hq; simp [h2, Place.next]
        · rw [if_neg h2] at hq; cases hq) (n := 2)
    (fun v => by split <;> [rfl; (split <;> simp)])
  exact ⟨res, h, (Option.some.inj (h 1)).symm⟩

/-- A fresh placeholder stands for the object's block variable, a linked one for the linked block variable, if that is an ordinary one. -/
theorem resolve_fresh (pl : Places) (p o : BV) (hp : pl p = some ⟨o, none⟩) (ho : pl o = none) (n : Nat) : resolve pl (n + 1) p = some o := by
  rw [resolve, hp]
  show resolve pl n o = some o
  cases n <;> rw [resolve, ho]

theorem resolve_linked (pl : Places) (p o v : BV) (l : Option BV) (hp : pl p = some ⟨o, l⟩) (hpv : v ≠ p) (hv : pl v = none) (n : Nat) :
    resolve (setValue pl p v) (n + 1) p = some v := by
  have h1 : setValue pl p v p = some ⟨o, some v⟩ := by simp [setValue, hp]
  have h2 : setValue pl p v v = none := by simp [setValue, Function.update_of_ne hpv, hv]
  rw [resolve, h1]
  show resolve _ n v = some v
  cases n <;> rw [resolve, h2]

/-- `p = Placeholder(u); p.set_value(u)`: `u.block_variable` is now `p` itself, so `p` is linked to `p`, and `saved_output` never returns. -/
theorem self_link_diverges (pl : Places) (p o : BV) (l : Option BV) (hp : pl p = some ⟨o, l⟩) (n : Nat) :
    resolve (setValue pl p p) n p = none := by
  have h1 : setValue pl p p p = some ⟨o, some p⟩ := by simp [setValue, hp]
  induction n with
  | zero => rw [resolve, h1]
  | succ n ih => rw [resolve, h1]; exact ih

/-! ## The sweeps -/

variable {res : BV → BV} {κ : BV → V}

theorem hold_apply (h : Heap V T A) (v : BV) : ∃ c, hold res κ h v = { h v with ckpt := c } := by
  unfold hold
  split
  · exact ⟨_, rfl⟩
  · exact ⟨_, rfl⟩

@[simp] theorem hold_adj (h : Heap V T A) (v : BV) : (hold res κ h v).adj = (h v).adj := by
  obtain ⟨c, hc⟩ := hold_apply (res := res) (κ := κ) h v; rw [hc]

@[simp] theorem hold_marked (h : Heap V T A) (v : BV) : (hold res κ h v).marked = (h v).marked := by
  obtain ⟨c, hc⟩ := hold_apply (res := res) (κ := κ) h v; rw [hc]

@[simp] theorem hold_isControl (h : Heap V T A) (v : BV) : (hold res κ h v).isControl = (h v).isControl := by
  obtain ⟨c, hc⟩ := hold_apply (res := res) (κ := κ) h v; rw [hc]

@[simp] theorem hold_output (h : Heap V T A) (v : BV) : (hold res κ h v).output = (h v).output := by
  obtain ⟨c, hc⟩ := hold_apply (res := res) (κ := κ) h v; rw [hc]

theorem hold_ordinary (h : Heap V T A) (v : BV) (hv : res v = v) : hold res κ h v = h v := if_pos hv

theorem hold_place (h : Heap V T A) (v : BV) (hv : res v ≠ v) : hold res κ h v = { h v with ckpt := some (κ v) } := if_neg hv

theorem saved_hold (h : Heap V T A) (v : BV) : saved (hold res κ h) v = if res v = v then saved h v else κ v := by
  unfold saved
  by_cases hv : res v = v
  · rw [hold_ordinary h v hv, if_pos hv]
  · rw [hold_place h v hv, if_neg hv]

theorem saved_hold_deps (h : Heap V T A) (l : List BV) (hκ : ∀ d ∈ l, res d ≠ d → κ d = saved h (res d)) :
    l.map (saved (hold res κ h)) = l.map fun d => saved h (res d) := by
  refine List.map_congr_left fun d hd => ?_
  rw [saved_hold]
  split
  · rename_i e; rw [e]
  · rename_i e; exact hκ d hd e

/-- Replaying one block. -/
theorem block_recompute_hold (b : Block V T A) (hout : ∀ o ∈ b.outs, res o = o) (h : Heap V T A)
    (hκ : ∀ d ∈ b.deps, res d ≠ d → κ d = saved h (res d)) :
    b.recompute false (hold res κ h) = hold res κ (Ph.Block.recompute res b false h) ∧
    ∀ v, v ∉ b.outs → Ph.Block.recompute res b false h v = h v := by
  -- the block with its inputs fixed
  let b' : Block V T A := { b with recomputeC := fun _ i => b.recomputeC (b.deps.map fun d => saved h (res d)) i }
  have e : Ph.Block.recompute res b false h = b'.recompute false h := rfl
  have hnot : ∀ v, v ∉ b.outs → Ph.Block.recompute res b false h v = h v := by
    intro v hv
    rw [e, Block.recompute_apply]
    unfold Block.ckptAfter
    rw [entries_nil_of_not_mem (show v ∉ b'.outs from hv)]
    simp
  refine ⟨?_, hnot⟩
  funext v
  by_cases hv : v ∈ b.outs
  · have hvv := hout v hv
    rw [hold_ordinary _ v hvv, e, Block.recompute_apply, Block.recompute_apply, hold_ordinary _ v hvv]
    congr 1
    unfold Block.ckptAfter
    simp only [hold_isControl, hold_ordinary h v hvv]
    rw [saved_hold_deps h b.deps hκ]
  · have h1 : b.recompute false (hold res κ h) v = hold res κ h v := by
      rw [Block.recompute_apply]
      unfold Block.ckptAfter
      rw [entries_nil_of_not_mem hv]
      simp only [List.foldl_nil, ite_self]
    rw [h1]
    unfold hold
    rw [hnot v hv]

/-- Replaying the tape: ordinary replay with the values of the placeholders' targets from before. -/
theorem recompute_hold (bs : Blocks V T A) (he : Early res bs) (h : Heap V T A)
    (hκ : ∀ b ∈ bs, ∀ d ∈ b.deps, res d ≠ d → κ d = saved h (res d)) :
    Pyadjoint.recompute bs (hold res κ h) = hold res κ (recompute res bs h) := by
  induction bs generalizing h with
  | nil => rfl
  | cons b bs ih =>
    obtain ⟨h1, h2⟩ := block_recompute_hold (κ := κ) b (he.outs b (by simp)) h (hκ b (by simp))
    show Pyadjoint.recompute bs (b.recompute false (hold res κ h)) = hold res κ (recompute res bs (Ph.Block.recompute res b false h))
    rw [h1]
    have ho := List.pairwise_cons.1 he.order
    refine ih ⟨ho.2, fun b' hb' => he.outs b' (by simp [hb'])⟩ _ fun b' hb' d hd hne => ?_
    rw [hκ b' (by simp [hb']) d hd hne]
    have := h2 _ (ho.1 b' hb' d hd hne)
    unfold saved
    rw [this]

theorem markControls_hold (cs : List BV) (m : Bool) (h : Heap V T A) :
    markControls cs m (hold res κ h) = hold res κ (markControls cs m h) := by
  funext v
  rw [markControls_apply]
  unfold hold
  rw [markControls_apply]
  split <;> split <;> rfl

theorem markAll_hold (cs : List BV) (m : Bool) (h : Heap V T A) :
    markAll cs m (hold res κ h) = hold res κ (markAll cs m h) := by
  funext v
  rw [markAll_apply]
  unfold hold
  rw [markAll_apply]
  split <;> split <;> rfl

theorem resetVariables_hold (bs : Blocks V T A) (t : ResetType) (h : Heap V T A) :
    resetVariables bs t (hold res κ h) = hold res κ (resetVariables bs t h) := by
  classical
  funext v
  rw [resetVariables_apply]
  unfold hold
  rw [resetVariables_apply]
  split <;> split <;> cases t <;> rfl

theorem setCkpt_hold (h : Heap V T A) (c : BV) (x : Option V) (hc : res c = c) :
    setCkpt (hold res κ h) c x = hold res κ (setCkpt h c x) := by
  unfold setCkpt
  rw [hold_isControl]
  split
  · rfl
  · funext v
    by_cases hv : v = c
    · subst hv
      rw [Function.update_self, hold_ordinary _ v hc, hold_ordinary _ v hc, Function.update_self]
    · rw [Function.update_of_ne hv]
      unfold hold
      rw [Function.update_of_ne hv]

theorem updateControls_hold (cs : List BV) (xs : List V) (h : Heap V T A) (hcs : ∀ c ∈ cs, res c = c) :
    updateControls cs xs (hold res κ h) = hold res κ (updateControls cs xs h) := by
  unfold updateControls
  have : ∀ p ∈ cs.zip xs, res p.1 = p.1 := fun p hp => hcs _ (List.of_mem_zip hp).1
  generalize cs.zip xs = l at this
  induction l generalizing h with
  | nil => rfl
  | cons p l ih =>
    rw [List.foldl_cons, List.foldl_cons, setCkpt_hold h p.1 _ (this p (by simp))]
    exact ih _ fun q hq => this q (by simp [hq])

/-- **C36, one evaluation.** `rf(x)` on a tape with placeholders that are used early is `rf(x)` on the same tape with every placeholder an ordinary
variable that holds the value of its target from before the replay. -/
theorem placeholder_evaluation (bs : Blocks V T A) (he : Early res bs) (cs : List BV) (hcs : ∀ c ∈ cs, res c = c) (xs : List V)
    (h : Heap V T A) (hκ : ∀ b ∈ bs, ∀ d ∈ b.deps, res d ≠ d → κ d = saved (updateControls cs xs h) (res d)) :
    Pyadjoint.rfEval bs cs xs (hold res κ h) = hold res κ (rfEval res bs cs xs h) := by
  unfold Pyadjoint.rfEval rfEval
  simp only []
  rw [updateControls_hold cs xs h hcs, markControls_hold, recompute_hold bs he, markControls_hold]
  intro b hb d hd hne
  rw [hκ b hb d hd hne, saved_markControls]

theorem saved_updateControls_of_not_mem (cs : List BV) (xs : List V) (h : Heap V T A) (v : BV) (hv : v ∉ cs) :
    saved (updateControls cs xs h) v = saved h v := by
  unfold saved
  rw [updateControls_of_not_mem cs xs h v hv]

/-- `rf(x)` leaves what the tape does not compute. -/
theorem rfEval_kept {bs : Blocks V T A} (wf : WF bs) (he : Early res bs) (cs : List BV) (hcs : ∀ c ∈ cs, res c = c)
    (xs : List V) (h : Heap V T A) (hfl : ∀ v, (h v).isControl = false) :
    (∀ v, (rfEval res bs cs xs h v).output = (h v).output ∧ (rfEval res bs cs xs h v).isControl = false) ∧
    ∀ v, res v = v → Kept bs cs v → (rfEval res bs cs xs h v).ckpt = (h v).ckpt := by
  have key := placeholder_evaluation (κ := fun d => saved (updateControls cs xs h) (res d)) bs he cs hcs xs h (fun _ _ _ _ _ => rfl)
  have hfl' : ∀ v, (hold res (fun d => saved (updateControls cs xs h) (res d)) h v).isControl = false := by simp [hfl]
  constructor
  · intro v
    obtain ⟨c, hc⟩ := rfEval_frame bs cs xs (hold res (fun d => saved (updateControls cs xs h) (res d)) h) v (fun c _ => hfl' c)
    rw [key] at hc
    have h1 := congrArg Var.output hc
    have h2 := congrArg Var.isControl hc
    simp only [hold_output, hold_isControl] at h1 h2
    exact ⟨h1, h2.trans (hfl v)⟩
  · intro v hv hk
    have e := congrFun key v
    rw [hold_ordinary _ v hv] at e
    rw [← e]
    have hk2 : (Pyadjoint.rfEval bs cs xs (hold res (fun d => saved (updateControls cs xs h) (res d)) h) v).ckpt
        = (hold res (fun d => saved (updateControls cs xs h) (res d)) h v).ckpt := by
      rcases hk.2 with hl | ⟨b, hb, hvb, o, ho, hoc⟩
      · rw [rfEval_leaf bs cs xs _ v hk.1 hl]
      · obtain ⟨i, hi, rfl⟩ := List.mem_iff_getElem.1 hvb
        exact rfEval_block_control wf cs xs _ b hb ⟨o, ho, hoc⟩ i hi hk.1
    rw [hk2, hold_ordinary _ v hv]

/-- **C36, all sequences of evaluations.** After any evaluations, `rf(x)` is the ordinary evaluation on the recorded tape in which every placeholder
holds the value its target had at the end of the previous evaluation.  Nothing else of the history matters. -/
theorem placeholder_history {bs : Blocks V T A} (wf : WF bs) (he : Early res bs) (cs : List BV) (hnd : cs.Nodup)
    (hcs : ∀ c ∈ cs, res c = c) (htgt : ∀ b ∈ bs, ∀ d ∈ b.deps, res d ≠ d → res d ∉ cs)
    (htot : ∀ b ∈ bs, ∀ inputs i, inputs.length = b.deps.length → i < b.outs.length → (b.recomputeC inputs i).isSome)
    (h : Heap V T A) (hfl : ∀ v, (h v).isControl = false) (l : List (List V)) (xs : List V) (hlen : xs.length = cs.length)
    (v : BV) (hv : res v = v) :
    saved (runs res bs cs (l ++ [xs]) h) v
      = saved (Pyadjoint.rfEval bs cs xs (hold res (fun d => saved (runs res bs cs l h) (res d)) h)) v := by
  have hinv : ∀ (l : List (List V)) (g : Heap V T A), (∀ v, (g v).isControl = false) →
      (∀ v, (runs res bs cs l g v).output = (g v).output ∧ (runs res bs cs l g v).isControl = false) ∧
      ∀ v, res v = v → Kept bs cs v → (runs res bs cs l g v).ckpt = (g v).ckpt := by
    intro l
    induction l with
    | nil => intro g hg; exact ⟨fun v => ⟨rfl, hg v⟩, fun _ _ _ => rfl⟩
    | cons ys l ih =>
      intro g hg
      obtain ⟨k1, k2⟩ := rfEval_kept wf he cs hcs ys g hg
      obtain ⟨i1, i2⟩ := ih (rfEval res bs cs ys g) fun v => (k1 v).2
      exact ⟨fun v => ⟨(i1 v).1.trans (k1 v).1, (i1 v).2⟩, fun v hv hk => (i2 v hv hk).trans (k2 v hv hk)⟩
  obtain ⟨i1, i2⟩ := hinv l h hfl
  set g := runs res bs cs l h with hg
  have e : runs res bs cs (l ++ [xs]) h = rfEval res bs cs xs g := by
    unfold runs; rw [List.foldl_append]; rfl
  have key := placeholder_evaluation (κ := fun d => saved g (res d)) bs he cs hcs xs g (by
    intro b hb d hd hne
    exact (saved_updateControls_of_not_mem cs xs g _ (htgt b hb d hd hne)).symm)
  rw [e]
  have e2 : saved (rfEval res bs cs xs g) v = saved (hold res (fun d => saved g (res d)) (rfEval res bs cs xs g)) v := by
    rw [saved_hold, if_pos hv]
  rw [e2, ← key]
  refine evaluation_history_independent wf cs hnd xs hlen htot _ _ (by simp [fun v => (i1 v).2]) (by simp [hfl])
    (by simp [fun v => (i1 v).1]) ?_ v
  intro w hw
  by_cases hr : res w = w
  · rw [hold_ordinary _ w hr, hold_ordinary _ w hr]
    exact i2 w hr hw
  · rw [hold_place _ w hr, hold_place _ w hr]

/-! ## Derivatives -/

theorem block_evaluateAdj_hold [Add A] (b : Block V T A) (m : Bool) (h : Heap V T A)
    (hκ : ∀ d ∈ b.deps, res d ≠ d → κ d = saved h (res d)) :
    b.evaluateAdj m (hold res κ h) = hold res κ (Ph.Block.evaluateAdj res b m h) ∧
    ∀ v, saved (Ph.Block.evaluateAdj res b m h) v = saved h v := by
  let b' : Block V T A := { b with adjC := fun _ a i => b.adjC (b.deps.map fun d => saved h (res d)) a i }
  have e : Ph.Block.evaluateAdj res b m h = b'.evaluateAdj m h := rfl
  constructor
  · funext v
    rw [e, Block.evaluateAdj_apply]
    have h1 : b.adjAfter m (hold res κ h) v = b'.adjAfter m h v := by
      unfold Block.adjAfter
      simp only [hold_adj, hold_marked]
      rw [saved_hold_deps h b.deps hκ]
    rw [h1]
    unfold hold
    rw [Block.evaluateAdj_apply]
    split <;> rfl
  · intro v
    rw [e]
    exact saved_congr (by rw [Block.evaluateAdj_apply]) (by rw [Block.evaluateAdj_apply])

theorem evaluateAdj_hold [Add A] (bs : Blocks V T A) (m : Bool) (h : Heap V T A)
    (hκ : ∀ b ∈ bs, ∀ d ∈ b.deps, res d ≠ d → κ d = saved h (res d)) :
    Pyadjoint.evaluateAdj bs m (hold res κ h) = hold res κ (evaluateAdj res bs m h) := by
  unfold Pyadjoint.evaluateAdj evaluateAdj
  have hκ' : ∀ b ∈ bs.reverse, ∀ d ∈ b.deps, res d ≠ d → κ d = saved h (res d) := fun b hb => hκ b (List.mem_reverse.1 hb)
  clear hκ
  generalize bs.reverse = l at hκ'
  induction l generalizing h with
  | nil => rfl
  | cons b l ih =>
    obtain ⟨h1, h2⟩ := block_evaluateAdj_hold (κ := κ) b m h (hκ' b (by simp))
    rw [List.foldl_cons, List.foldl_cons, h1]
    refine ih _ fun b' hb' d hd hne => ?_
    rw [h2]
    exact hκ' b' (by simp [hb']) d hd hne

/-- **C36, derivatives.** The adjoint sweep on a tape with placeholders is the one on the same tape with every placeholder an ordinary variable that
holds its target's value; every adjoint value is the same.  So nothing flows from a placeholder to its target or to the variable it replaced. -/
theorem placeholder_gradient [Add A] [Zero A] (bs : Blocks V T A) (J : BV) (cs : List BV) (seed : A) (h : Heap V T A)
    (hκ : ∀ b ∈ bs, ∀ d ∈ b.deps, res d ≠ d → κ d = saved h (res d)) :
    Pyadjoint.computeGradient bs J cs seed (hold res κ h)
      = ((computeGradient res bs J cs seed h).1, hold res κ (computeGradient res bs J cs seed h).2) := by
  have e0 : Function.update (resetVariables bs .adjoint (hold res κ h)) J
        { resetVariables bs .adjoint (hold res κ h) J with adj := some seed }
      = hold res κ (Function.update (resetVariables bs .adjoint h) J { resetVariables bs .adjoint h J with adj := some seed }) := by
    rw [resetVariables_hold]
    funext v
    by_cases hv : v = J
    · subst hv
      rw [Function.update_self]
      unfold hold
      rw [Function.update_self]
      split <;> rfl
    · rw [Function.update_of_ne hv]
      unfold hold
      rw [Function.update_of_ne hv]
  have e1 : computeGradientState bs J cs seed (hold res κ h) = hold res κ (computeGradient res bs J cs seed h).2 := by
    unfold computeGradientState markedAdjoint computeGradient
    simp only []
    rw [e0, markAll_hold, markControls_hold, evaluateAdj_hold, markControls_hold, markAll_hold]
    intro b hb d hd hne
    rw [hκ b hb d hd hne, saved_markControls, saved_markAll, saved_update_adj, saved_resetVariables]
  unfold Pyadjoint.computeGradient
  simp only []
  rw [e1]
  refine Prod.ext ?_ rfl
  show cs.map _ = cs.map _
  refine List.map_congr_left fun c _ => ?_
  unfold getDerivative
  rw [hold_adj]
  rfl

/-- **C36, no derivative through a placeholder.** If `J` is computed from `v` only through placeholders (on the tape, where placeholders are sources,
`J` is not computed from `v`), the derivative reported for `v` is zero. -/
theorem placeholder_stops_derivative [Add A] [Zero A] (bs : Blocks V T A) (J v : BV) (cs : List BV) (seed : A) (h : Heap V T A)
    (hon : OnTape bs v) (hind : ¬ CoReach bs (· = J) v) :
    getDerivative (computeGradient res bs J cs seed h).2 v = 0 := by
  have key := placeholder_gradient (κ := fun d => saved h (res d)) bs J cs seed h (fun _ _ _ _ _ => rfl)
  have hz := independent_control_zero_partial bs J v cs seed (hold res (fun d => saved h (res d)) h) hon hind
  rw [key] at hz
  rw [← hz]
  unfold getDerivative
  rw [hold_adj]

/-- **C36, exactness at convergence.** If the evaluation left the targets' values as they were when the placeholders were read, then the gradient is
the derivative of the functional with the placeholders' values held fixed. -/
theorem placeholder_gradient_converged_partial [NormedAddCommGroup V] [NormedSpace ℝ V] [AddCommMonoid A]
    {bs : Blocks V T A} (wf : WF bs) (he : Early res bs) (J : BV) (cs : List BV) (hnd : cs.Nodup) (hcs : ∀ c ∈ cs, res c = c)
    (h : Heap V T A) (hfl : ∀ v, (h v).isControl = false) (hind : IndependentControls bs cs)
    (x₀ : Fin cs.length → V) (ι : A →+ (V →L[ℝ] ℝ)) (seed : A)
    (hold₀ : ∀ b ∈ bs, ∀ d ∈ b.deps, res d ≠ d → κ d = saved (updateControls cs (List.ofFn x₀) h) (res d))
    (hconv : ∀ b ∈ bs, ∀ d ∈ b.deps, res d ≠ d → κ d = saved (rfEval res bs cs (List.ofFn x₀) h) (res d))
    (hcorrect : ∀ b ∈ bs, (∃ d ∈ b.deps, Reach bs (· ∈ cs) d) →
      CorrectAdjoint ι b (fun j => saved (Pyadjoint.rfEval bs cs (List.ofFn x₀) (hold res κ h)) b.deps[j])
        (fun j => Reach bs (· ∈ cs) b.deps[j]))
    (hon : ∀ c ∈ cs, OnTape bs c ∨ c = J ∨ (h c).adj = none) :
    ∃ grad : Fin cs.length → A,
      (computeGradient res bs J cs seed (rfEval res bs cs (List.ofFn x₀) h)).1 = List.ofFn grad ∧
      HasFDerivAt (fun x : Fin cs.length → V => ι seed (saved (Pyadjoint.rfEval bs cs (List.ofFn x) (hold res κ h)) J))
        (∑ i, (ι (grad i)).comp (ContinuousLinearMap.proj i)) x₀ := by
  obtain ⟨grad, hg, hd⟩ := gradient_exact wf J cs hnd (hold res κ h) (by simp [hfl]) hind x₀ ι seed hcorrect (by simpa using hon)
  refine ⟨grad, ?_, hd⟩
  rw [← hg, placeholder_evaluation bs he cs hcs _ h hold₀, placeholder_gradient bs J cs seed _ hconv]

/-! ## Examples, and what placeholders do not give -/

/-- `e = c * d` with `c` variable 0, the placeholder of `d` variable 1, `e` variable 2. -/
noncomputable def phTape : FTape := [.bin .mul 0 1 2]

/-- `c = 2`, `d = 5` (block variable 3 before it was replaced), `e = 10`. -/
noncomputable def phHeap : FHeap := fun v =>
  { output := if v = 0 then 2 else if v = 2 then 10 else 5, ckpt := if v = 1 then none else some (if v = 0 then 2 else if v = 2 then 10 else 5) }

/-- Variable 1 is `Placeholder(d)`. -/
def phPlaces : Places := Function.update (fun _ => none) 1 (some ⟨3, none⟩)

/-- What the placeholder stands for before linking, and after `p.set_value(e)`. -/
def phRes (b : BV) : BV → BV := fun v => if v = 1 then b else v

theorem phRes_fresh : Resolves phPlaces 1 (phRes 3) := by
  intro v
  by_cases hv : v = 1
  · subst hv; rfl
  · have h1 : phPlaces v = none := by simp [phPlaces, Function.update_of_ne hv]
    simp only [resolve, h1, phRes, hv, if_false]

theorem phRes_linked : Resolves (setValue phPlaces 1 2) 1 (phRes 2) := by
  intro v
  by_cases hv : v = 1
  · subst hv; rfl
  · have h1 : setValue phPlaces 1 2 v = none := by simp [setValue, phPlaces, Function.update_of_ne hv]
    simp only [resolve, h1, phRes, hv, if_false]

theorem phTape_wf : WF phTape.blocks where
  nodup := by intro b hb; simp [phTape, FTape.blocks, FBlock.toBlock] at hb; subst hb; simp
  self := by intro b hb; simp [phTape, FTape.blocks, FBlock.toBlock] at hb; subst hb; simp
  later := by simp [phTape, FTape.blocks]

theorem phTape_early : Early (phRes 2) phTape.blocks where
  order := by simp [phTape, FTape.blocks]
  outs := by intro b hb; simp [phTape, FTape.blocks, FBlock.toBlock] at hb; subst hb; simp [phRes]

/-- The hypotheses of `placeholder_history` hold for this tape. -/
example (l : List (List ℝ)) (x : ℝ) :
    saved (runs (phRes 2) phTape.blocks [0] (l ++ [[x]]) phHeap) 2
      = saved (Pyadjoint.rfEval phTape.blocks [0] [x]
          (hold (phRes 2) (fun d => saved (runs (phRes 2) phTape.blocks [0] l phHeap) (phRes 2 d)) phHeap)) 2 :=
  placeholder_history phTape_wf phTape_early [0] (by simp) (by simp [phRes])
    (by
      intro b hb d hd hne
      simp [phTape, FTape.blocks, FBlock.toBlock] at hb
      subst hb
      simp at hd
      rcases hd with rfl | rfl <;> simp [phRes] at hne ⊢)
    (by
      intro b hb inputs i hi ho
      simp [phTape, FTape.blocks, FBlock.toBlock] at hb
      subst hb
      match inputs, hi with
      | [a, c], _ => rfl)
    phHeap (fun _ => rfl) l [x] rfl 2 (by simp [phRes])

/-- The value sequence: each evaluation multiplies the previous result by the control (`tests/pyadjoint/test_placeholder.py:16-22`); before linking
the recorded `d` is used. -/
theorem ph_values (x : ℝ) (h : FHeap) (hfl : ∀ v, (h v).isControl = false) :
    saved (rfEval (phRes 2) phTape.blocks [0] [x] h) 2 = x * saved h 2 ∧
    saved (rfEval (phRes 3) phTape.blocks [0] [x] h) 2 = x * saved h 3 := by
  have h0 := hfl 0
  have h2 := hfl 2
  constructor <;>
    simp [rfEval, recompute, phTape, FTape.blocks, FBlock.toBlock, Ph.Block.recompute, updateControls, setCkpt, markControls, h0, h2, relevant,
      setCkpt?, saved, phRes, BOp.val]

/-- **The derivative is not that of the value returned.** The sweep reads the placeholder after the evaluation.  The evaluation at `x` returned
`10 * x`, whose derivative (the previous result 10 held fixed) is 10; reported is `10 * x`. -/
theorem ph_derivative (x : ℝ) :
    ∃ g, (computeGradient (phRes 2) phTape.blocks 2 [0] 1 (rfEval (phRes 2) phTape.blocks [0] [x] phHeap)).1 = [g] ∧
      g = x * 10 := by
  refine ⟨_, rfl, ?_⟩
  show (1 : ℝ) * (x * 10) = x * 10
  ring

/-- **A control made from the object after the placeholder has no effect.** `Control(d)` is then a control on the placeholder: assigning it changes
nothing, for any tape, but its derivative is reported as if it did. -/
theorem placeholder_control_ignored (bs : Blocks V T A) (p : BV) (hres : ∀ v, res v ≠ p) (hp : ∀ b ∈ bs, p ∉ b.outs) (x y : V) (h : Heap V T A)
    (v : BV) : saved (rfEval res bs [p] [x] h) (res v) = saved (rfEval res bs [p] [y] h) (res v) := by
  have step : ∀ (b : Block V T A) (h h' : Heap V T A), p ∉ b.outs → (∀ v, v ≠ p → h v = h' v) →
      ∀ v, v ≠ p → Ph.Block.recompute res b false h v = Ph.Block.recompute res b false h' v := by
    intro b h h' hpb hh v hv
    have hin : (b.deps.map fun d => saved h (res d)) = b.deps.map fun d => saved h' (res d) :=
      List.map_congr_left fun d _ => by unfold saved; rw [hh _ (hres d)]
    have hctl : (b.outs.any fun o => (h o).isControl) = b.outs.any fun o => (h' o).isControl := by
      rw [Bool.eq_iff_iff, List.any_eq_true, List.any_eq_true]
      constructor
      · rintro ⟨o, ho, hc⟩; exact ⟨o, ho, by rw [← hh o (fun e => hpb (e ▸ ho))]; exact hc⟩
      · rintro ⟨o, ho, hc⟩; exact ⟨o, ho, by rw [hh o (fun e => hpb (e ▸ ho))]; exact hc⟩
    have e : ∀ g : Heap V T A, Ph.Block.recompute res b false g
        = ({ b with recomputeC := fun _ i => b.recomputeC (b.deps.map fun d => saved g (res d)) i } : Block V T A).recompute false g := fun _ => rfl
    rw [e, e, Block.recompute_apply, Block.recompute_apply, hh v hv]
    congr 1
    unfold Block.ckptAfter
    simp only []
    rw [hin, hctl, hh v hv]
  have all : ∀ (bs : Blocks V T A) (h h' : Heap V T A), (∀ b ∈ bs, p ∉ b.outs) → (∀ v, v ≠ p → h v = h' v) →
      ∀ v, v ≠ p → recompute res bs h v = recompute res bs h' v := by
    intro bs
    induction bs with
    | nil => intro h h' _ hh; exact hh
    | cons b bs ih =>
      intro h h' hb hh
      exact ih _ _ (fun b' hb' => hb b' (by simp [hb'])) (step b h h' (hb b (by simp)) hh)
  have hv := hres v
  unfold rfEval
  simp only [saved_markControls]
  have := all bs (markControls [p] true (updateControls [p] [x] h)) (markControls [p] true (updateControls [p] [y] h)) hp (by
    intro v hv
    rw [markControls_apply, markControls_apply, if_neg (by simpa using hv), if_neg (by simpa using hv),
      updateControls_of_not_mem _ _ _ _ (by simpa using hv), updateControls_of_not_mem _ _ _ _ (by simpa using hv)]) (res v) hv
  unfold saved
  rw [this]

theorem ph_control_derivative (x : ℝ) :
    ∃ g, (computeGradient (phRes 2) phTape.blocks 2 [1] 1 (rfEval (phRes 2) phTape.blocks [1] [x] phHeap)).1 = [g] ∧ g = 2 := by
  refine ⟨_, rfl, ?_⟩
  show (1 : ℝ) * 2 = 2
  ring

/-- The hypotheses of `placeholder_gradient_converged_partial`: the evaluation at `x = 1` reproduces the linked value. -/
example : ∃ grad : Fin 1 → ℝ,
    (computeGradient (phRes 2) phTape.blocks 2 [0] 1 (rfEval (phRes 2) phTape.blocks [0] (List.ofFn fun _ : Fin 1 => (1 : ℝ)) phHeap)).1 = List.ofFn grad ∧
    HasFDerivAt (fun x : Fin 1 → ℝ => mulFunctional 1 (saved (Pyadjoint.rfEval phTape.blocks [0] (List.ofFn x) (hold (phRes 2) (fun _ => 10) phHeap)) 2))
      (∑ i, (mulFunctional (grad i)).comp (ContinuousLinearMap.proj i)) (fun _ => 1) := by
  refine placeholder_gradient_converged_partial (κ := fun _ => (10 : ℝ)) phTape_wf phTape_early 2 [0] (by simp) (by simp [phRes]) phHeap (fun _ => rfl) ?_
    (fun _ => 1) mulFunctional 1 ?_ ?_ ?_ (fun c _ => Or.inr (Or.inr rfl))
  · intro c hc b hb ho
    simp [phTape, FTape.blocks, FBlock.toBlock] at hb hc
    subst hb hc
    simp at ho
  · intro b hb d hd hne
    simp [phTape, FTape.blocks, FBlock.toBlock] at hb
    subst hb
    simp at hd
    rcases hd with rfl | rfl
    · simp [phRes] at hne
    · simp [phRes, updateControls, saved, setCkpt, phHeap]
  · intro b hb d hd hne
    simp [phTape, FTape.blocks, FBlock.toBlock] at hb
    subst hb
    simp at hd
    rcases hd with rfl | rfl
    · simp [phRes] at hne
    · have := (ph_values 1 phHeap (fun _ => rfl)).1
      simp [phRes] at this ⊢
      rw [this]
      simp [saved, phHeap]
  · intro b hb hdep
    obtain ⟨fb, hfb, rfl⟩ := List.mem_map.1 hb
    apply FBlock.correctAdjoint fb
    simp [phTape] at hfb
    subst hfb
    trivial

end Ph
end Pyadjoint
