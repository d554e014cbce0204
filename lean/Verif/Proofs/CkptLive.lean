import Verif.Proofs.CkptClean
import Verif.Props.CheckpointMisuse

/-! # Recording under a checkpoint manager: live-in sets and recorded values -/

namespace Pyadjoint
namespace CTape

variable {V T A : Type*}

theorem getElem?_take_map_drop {α : Type*} (f : α → α) (l : List α) (k i : Nat) :
    (l.take k ++ (l.drop k).map f)[i]? = if i < k then l[i]? else l[i]?.map f := by
  split
  · rename_i h
    by_cases hi : i < l.length
    · rw [List.getElem?_append_left (by simp; omega), List.getElem?_take_of_lt h]
    · rw [List.getElem?_eq_none (l := l) (by omega), List.getElem?_eq_none (by simp; omega)]
  · rename_i h
    by_cases hk : k ≤ l.length
    · rw [List.getElem?_append_right (by simp; omega), List.getElem?_map, List.getElem?_drop,
        List.length_take]
      congr 2; omega
    · rw [List.getElem?_eq_none (l := l) (by omega), List.getElem?_eq_none (by simp; omega)]
      rfl

theorem OSet_mem_add (s : OSet BV) (v u : BV) : u ∈ (s.add v).elems ↔ u ∈ s.elems ∨ u = v := by
  unfold OSet.add
  split
  · exact ⟨Or.inl, fun h => h.elim id fun e => by rw [e]; assumption⟩
  · simp

/-- The dependencies of a block: what they do to the heap and to the states of the steps. -/
theorem depends_closed (vs : List BV) (τ : CTape V T A) (hpos : 0 < τ.steps.length)
    (hge : ∀ v, -1 ≤ (τ.heap v).lastUse) :
    let τ' := vs.foldl (fun τ v => τ.depend v) τ
    (∀ v, (τ'.heap v).lastUse = if v ∈ vs then (τ.latest : Int) else (τ.heap v).lastUse) ∧
    (∀ v, (τ'.heap v).creation = (τ.heap v).creation) ∧
    (∀ v, (τ'.heap v).output = (τ.heap v).output) ∧
    (∀ v, (τ'.heap v).isControl = (τ.heap v).isControl) ∧
    (∀ v, (τ'.heap v).marked = (τ.heap v).marked) ∧
    (∀ v, (τ'.heap v).ckpt = (τ.heap v).ckpt ∨ (τ'.heap v).ckpt = some (τ.heap v).output) ∧
    τ'.steps.length = τ.steps.length ∧
    (∀ (k : Nat) s', τ'.steps[k]? = some s' → ∃ s, τ.steps[k]? = some s ∧ s'.blocks = s.blocks ∧
      s'.ckpt = s.ckpt ∧ s'.revised = s.revised ∧
      ∀ v, v ∈ s'.state.elems ↔ v ∈ s.state.elems ∨ (v ∈ vs ∧ (τ.heap v).lastUse < k)) := by
  induction vs generalizing τ with
  | nil =>
    refine ⟨by simp, fun _ => rfl, fun _ => rfl, fun _ => rfl, fun _ => rfl, fun _ => Or.inl rfl, rfl, ?_⟩
    intro k s' hs
    exact ⟨s', hs, rfl, rfl, rfl, by simp⟩
  | cons w vs ih =>
    have h1 : ∀ v, ((τ.depend w).heap v).lastUse = if v = w then (τ.latest : Int) else (τ.heap v).lastUse := by
      intro v
      unfold depend saveOutput
      by_cases hv : v = w
      · subst hv; simp
      · simp only [Function.update_of_ne hv, hv, if_false]
        split
        · rw [Function.update_of_ne hv]
        · rfl
    have h2 : ∀ v, ((τ.depend w).heap v).creation = (τ.heap v).creation ∧
        ((τ.depend w).heap v).output = (τ.heap v).output ∧
        ((τ.depend w).heap v).isControl = (τ.heap v).isControl ∧
        ((τ.depend w).heap v).marked = (τ.heap v).marked ∧
        (((τ.depend w).heap v).ckpt = (τ.heap v).ckpt ∨
          ((τ.depend w).heap v).ckpt = some (τ.heap v).output) := by
      intro v
      unfold depend saveOutput
      by_cases hv : v = w
      · subst hv
        simp only [Function.update_self]
        split <;> simp
      · simp only [Function.update_of_ne hv]
        split
        · rw [Function.update_of_ne hv]; simp
        · simp
    have hlen : (τ.depend w).steps.length = τ.steps.length := (depend_frame w τ).2.2.1
    have hlat : (τ.depend w).latest = τ.latest := by unfold latest; rw [hlen]
    have h3 : ∀ (k : Nat) s', (τ.depend w).steps[k]? = some s' → ∃ s, τ.steps[k]? = some s ∧
        s'.blocks = s.blocks ∧ s'.ckpt = s.ckpt ∧ s'.revised = s.revised ∧
        ∀ v, v ∈ s'.state.elems ↔ v ∈ s.state.elems ∨ (v = w ∧ (τ.heap v).lastUse < k) := by
      intro k s' hs
      have hs : (τ.steps.take ((τ.heap w).lastUse + 1).toNat ++
        (τ.steps.drop ((τ.heap w).lastUse + 1).toNat).map
          fun s => { s with state := s.state.add w })[k]? = some s' := hs
      rw [getElem?_take_map_drop] at hs
      have hw := hge w
      split at hs
      · rename_i hk
        refine ⟨s', hs, rfl, rfl, rfl, fun v => ⟨Or.inl, ?_⟩⟩
        rintro (h | ⟨rfl, h⟩)
        · exact h
        · omega
      · rename_i hk
        rw [Option.map_eq_some_iff] at hs
        obtain ⟨s, hs', rfl⟩ := hs
        refine ⟨s, hs', rfl, rfl, rfl, fun v => ?_⟩
        rw [OSet_mem_add]
        constructor
        · rintro (h | rfl)
          · exact Or.inl h
          · exact Or.inr ⟨rfl, by omega⟩
        · rintro (h | ⟨h, _⟩)
          · exact Or.inl h
          · exact Or.inr h
    have hge' : ∀ v, -1 ≤ ((τ.depend w).heap v).lastUse := by
      intro v
      rw [h1]
      split
      · omega
      · exact hge v
    obtain ⟨i1, i2, i3, i4, i5, i6, i7, i8⟩ := ih (τ.depend w) (by rw [hlen]; exact hpos) hge'
    simp only [List.foldl_cons]
    refine ⟨fun v => ?_, fun v => (i2 v).trans (h2 v).1, fun v => (i3 v).trans (h2 v).2.1,
      fun v => (i4 v).trans (h2 v).2.2.1, fun v => (i5 v).trans (h2 v).2.2.2.1, fun v => ?_,
      i7.trans hlen, fun k s' hs => ?_⟩
    · rw [i1, hlat, h1]
      by_cases hv : v = w
      · simp [hv]
      · simp [hv]
    · rcases i6 v with e | e
      · rw [e]; exact (h2 v).2.2.2.2
      · rw [e, (h2 v).2.1]; exact Or.inr rfl
    · obtain ⟨s₁, g1, g2, g3, g4, g5⟩ := i8 k s' hs
      obtain ⟨s, f1, f2, f3, f4, f5⟩ := h3 k s₁ g1
      have hk : k < τ.steps.length := by
        by_contra hc
        rw [List.getElem?_eq_none (by omega)] at f1
        cases f1
      refine ⟨s, f1, g2.trans f2, g3.trans f3, g4.trans f4, fun v => ?_⟩
      rw [g5, f5, h1]
      by_cases hv : v = w
      · subst hv
        have : ¬ ((τ.latest : Int) < k) := by unfold latest; omega
        simp [this]
      · simp [hv]

/-- The outputs of a block. -/
theorem outputs_closed (vs : List BV) (τ : CTape V T A) :
    let τ' := vs.foldl (fun τ v => τ.output v) τ
    (∀ v, (τ'.heap v).lastUse = if v ∈ vs then (τ.latest : Int) else (τ.heap v).lastUse) ∧
    (∀ v, (τ'.heap v).creation = if v ∈ vs then (τ.latest : Int) else (τ.heap v).creation) ∧
    (∀ v, (τ'.heap v).output = (τ.heap v).output) ∧
    (∀ v, (τ'.heap v).isControl = (τ.heap v).isControl) ∧
    (∀ v, (τ'.heap v).marked = (τ.heap v).marked) ∧
    (∀ v, (τ'.heap v).ckpt = (τ.heap v).ckpt ∨ (τ'.heap v).ckpt = some (τ.heap v).output) ∧
    τ'.steps.length = τ.steps.length ∧
    (∀ (k : Nat) s', τ'.steps[k]? = some s' → ∃ s, τ.steps[k]? = some s ∧ s'.blocks = s.blocks ∧
      s'.ckpt = s.ckpt ∧ s'.revised = s.revised ∧ s'.state = s.state) := by
  induction vs generalizing τ with
  | nil =>
    refine ⟨by simp, by simp, fun _ => rfl, fun _ => rfl, fun _ => rfl, fun _ => Or.inl rfl, rfl, ?_⟩
    intro k s' hs
    exact ⟨s', hs, rfl, rfl, rfl, rfl⟩
  | cons w vs ih =>
    have h1 : ∀ v, ((τ.output w).heap v).lastUse = (if v = w then (τ.latest : Int) else (τ.heap v).lastUse) ∧
        ((τ.output w).heap v).creation = (if v = w then (τ.latest : Int) else (τ.heap v).creation) ∧
        ((τ.output w).heap v).output = (τ.heap v).output ∧
        ((τ.output w).heap v).isControl = (τ.heap v).isControl ∧
        ((τ.output w).heap v).marked = (τ.heap v).marked ∧
        (((τ.output w).heap v).ckpt = (τ.heap v).ckpt ∨
          ((τ.output w).heap v).ckpt = some (τ.heap v).output) := by
      intro v
      unfold output saveOutput
      by_cases hv : v = w
      · subst hv
        cases τ.eager <;> simp
      · cases τ.eager <;> simp [hv]
    have hlen : (τ.output w).steps.length = τ.steps.length := (output_frame w τ).2.2.1
    have hlat : (τ.output w).latest = τ.latest := by unfold latest; rw [hlen]
    have h3 : ∀ (k : Nat) s', (τ.output w).steps[k]? = some s' → ∃ s, τ.steps[k]? = some s ∧
        s'.blocks = s.blocks ∧ s'.ckpt = s.ckpt ∧ s'.revised = s.revised ∧ s'.state = s.state := by
      intro k s' hs
      have hs : (τ.steps.take τ.latest ++
        (τ.steps.drop τ.latest).map
          fun s => { s with adjDeps := s.adjDeps.add w })[k]? = some s' := hs
      rw [getElem?_take_map_drop] at hs
      split at hs
      · exact ⟨s', hs, rfl, rfl, rfl, rfl⟩
      · rw [Option.map_eq_some_iff] at hs
        obtain ⟨s, hs', rfl⟩ := hs
        exact ⟨s, hs', rfl, rfl, rfl, rfl⟩
    obtain ⟨i1, i2, i3, i4, i5, i6, i7, i8⟩ := ih (τ.output w)
    simp only [List.foldl_cons]
    refine ⟨fun v => ?_, fun v => ?_, fun v => (i3 v).trans (h1 v).2.2.1,
      fun v => (i4 v).trans (h1 v).2.2.2.1, fun v => (i5 v).trans (h1 v).2.2.2.2.1, fun v => ?_,
      i7.trans hlen, fun k s' hs => ?_⟩
    · rw [i1, hlat, (h1 v).1]
      by_cases hv : v = w
      · simp [hv]
      · simp [hv]
    · rw [i2, hlat, (h1 v).2.1]
      by_cases hv : v = w
      · simp [hv]
      · simp [hv]
    · rcases i6 v with e | e
      · rw [e]; exact (h1 v).2.2.2.2.2
      · rw [e, (h1 v).2.2.1]; exact Or.inr rfl
    · obtain ⟨s₁, g1, g2, g3, g4, g5⟩ := i8 k s' hs
      obtain ⟨s, f1, f2, f3, f4, f5⟩ := h3 k s₁ g1
      exact ⟨s, f1, g2.trans f2, g3.trans f3, g4.trans f4, g5.trans f5⟩

/-- Recording a block. -/
theorem recordBlock_closed (b : Block V T A) (τ : CTape V T A) (hpos : 0 < τ.steps.length)
    (hge : ∀ v, -1 ≤ (τ.heap v).lastUse) :
    (∀ v, ((τ.recordBlock b).heap v).lastUse =
      if v ∈ b.outs ∨ v ∈ b.deps then (τ.latest : Int) else (τ.heap v).lastUse) ∧
    (∀ v, ((τ.recordBlock b).heap v).creation = if v ∈ b.outs then (τ.latest : Int) else (τ.heap v).creation) ∧
    (∀ v, ((τ.recordBlock b).heap v).output = (τ.heap v).output) ∧
    (∀ v, ((τ.recordBlock b).heap v).isControl = (τ.heap v).isControl) ∧
    (∀ v, ((τ.recordBlock b).heap v).marked = (τ.heap v).marked) ∧
    (∀ v, ((τ.recordBlock b).heap v).ckpt = (τ.heap v).ckpt ∨
      ((τ.recordBlock b).heap v).ckpt = some (τ.heap v).output) ∧
    (τ.recordBlock b).steps.length = τ.steps.length ∧
    (∀ (k : Nat) s', (τ.recordBlock b).steps[k]? = some s' → ∃ s, τ.steps[k]? = some s ∧
      s'.blocks = (if k = τ.latest then s.blocks ++ [b] else s.blocks) ∧ s'.ckpt = s.ckpt ∧
      s'.revised = s.revised ∧
      ∀ v, v ∈ s'.state.elems ↔ v ∈ s.state.elems ∨ (v ∈ b.deps ∧ (τ.heap v).lastUse < k)) := by
  obtain ⟨d1, d2, d3, d4, d5, d6, d7, d8⟩ := depends_closed b.deps τ hpos hge
  generalize hτ₁ : b.deps.foldl (fun τ v => τ.depend v) τ = τ₁ at d1 d2 d3 d4 d5 d6 d7 d8
  obtain ⟨o1, o2, o3, o4, o5, o6, o7, o8⟩ := outputs_closed b.outs (τ₁.addBlock b)
  have e : τ.recordBlock b = b.outs.foldl (fun τ v => τ.output v) (τ₁.addBlock b) := by
    unfold recordBlock; rw [hτ₁]
  have hlat : (τ₁.addBlock b).latest = τ.latest := by
    unfold latest addBlock modStep; simp [d7]
  have hlat1 : τ₁.latest = τ.latest := by unfold latest; rw [d7]
  have hh : (τ₁.addBlock b).heap = τ₁.heap := rfl
  rw [e]
  simp only [hh, hlat] at o1 o2 o3 o4 o5 o6
  refine ⟨fun v => ?_, fun v => ?_, fun v => (o3 v).trans (d3 v), fun v => (o4 v).trans (d4 v),
    fun v => (o5 v).trans (d5 v), fun v => ?_, ?_, fun k s' hs => ?_⟩
  · rw [o1, d1]
    by_cases h1 : v ∈ b.outs <;> by_cases h2 : v ∈ b.deps <;> simp [h1, h2]
  · rw [o2, d2]
  · rcases o6 v with e | e
    · rw [e]; exact d6 v
    · rw [e, d3]; exact Or.inr rfl
  · rw [o7]
    unfold addBlock modStep
    simp [d7]
  · obtain ⟨s₁, g1, g2, g3, g4, g5⟩ := o8 k s' hs
    unfold addBlock modStep at g1
    simp only [List.getElem?_modify, Option.map_eq_map] at g1
    rw [Option.map_eq_some_iff] at g1
    obtain ⟨s₂, g6, g7⟩ := g1
    obtain ⟨s, f1, f2, f3, f4, f5⟩ := d8 k s₂ g6
    rw [hlat1] at g7
    refine ⟨s, f1, ?_, ?_, ?_, fun v => ?_⟩
    · rw [g2, ← g7, ← f2]
      by_cases hk : τ.latest = k
      · simp [hk]
      · rw [if_neg hk, if_neg (fun h => hk h.symm)]
    · rw [g3, ← g7, ← f3]; split <;> rfl
    · rw [g4, ← g7, ← f4]; split <;> rfl
    · rw [g5, ← f5, ← g7]
      split <;> rfl

/-- The invariant of recording: a step's state consists of the variables created before it and used in it or
later. -/
structure LInv (τ : CTape V T A) : Prop where
  pos : 0 < τ.steps.length
  creGe : ∀ v, -1 ≤ (τ.heap v).creation
  creLe : ∀ v, (τ.heap v).creation ≤ (τ.heap v).lastUse
  lastLe : ∀ v, (τ.heap v).lastUse ≤ τ.latest
  used : ∀ v, 0 ≤ (τ.heap v).lastUse → ∃ (k : Nat) (s : CStep V T A), τ.steps[k]? = some s ∧ (τ.heap v).lastUse = k ∧
    ∃ b ∈ s.blocks, v ∈ b.deps ∨ v ∈ b.outs
  state : ∀ (k : Nat) s, τ.steps[k]? = some s → ∀ v,
    v ∈ s.state.elems ↔ (τ.heap v).creation < k ∧ k ≤ (τ.heap v).lastUse
  deps : ∀ (k : Nat) s, τ.steps[k]? = some s → ∀ pre b post, s.blocks = pre ++ b :: post → ∀ d ∈ b.deps,
    (k : Int) ≤ (τ.heap d).lastUse ∧ (τ.heap d).creation ≤ k ∧
      ((τ.heap d).creation = k → ∃ b' ∈ pre, d ∈ b'.outs)
  outs : ∀ (k : Nat) s, τ.steps[k]? = some s → ∀ v ∈ s.outs, (τ.heap v).creation = k
  created : ∀ v, 0 ≤ (τ.heap v).creation →
    ∃ (k : Nat) (s : CStep V T A), τ.steps[k]? = some s ∧ (τ.heap v).creation = k ∧ v ∈ s.outs

theorem lt_length {α : Type*} {l : List α} {k : Nat} {x : α} (h : l[k]? = some x) : k < l.length := by
  by_contra hc
  rw [List.getElem?_eq_none (by omega)] at h
  cases h

theorem LInv.touched {τ : CTape V T A} (h : LInv τ) (v : BV) (hv : 0 ≤ (τ.heap v).lastUse) : ∃ b ∈ τ.blocks, v ∈ b.deps ∨ v ∈ b.outs := by
  obtain ⟨k, s, hs, -, b, hb, hv⟩ := h.used v hv
  exact ⟨b, List.mem_flatMap.2 ⟨s, List.mem_of_getElem? hs, hb⟩, hv⟩

theorem LInv.recordBlock {τ : CTape V T A} (h : LInv τ) (b : Block V T A)
    (hself : ∀ d ∈ b.deps, d ∉ b.outs)
    (hfresh : ∀ b' ∈ τ.blocks, (∀ d ∈ b'.deps, d ∉ b.outs) ∧ (∀ o ∈ b'.outs, o ∉ b.outs)) :
    LInv (τ.recordBlock b) := by
  obtain ⟨c1, c2, c3, c4, c5, c6, c7, c8⟩ := recordBlock_closed b τ h.pos
    (fun v => Int.le_trans (h.creGe v) (h.creLe v))
  have hlat : (τ.recordBlock b).latest = τ.latest := by unfold latest; rw [c7]
  have hnew : ∀ o ∈ b.outs, (τ.heap o).lastUse < 0 := by
    intro o ho
    by_contra hc
    obtain ⟨b', hb', hv⟩ := h.touched o (by omega)
    rcases hv with hv | hv
    · exact (hfresh b' hb').1 o hv ho
    · exact (hfresh b' hb').2 o hv ho
  refine ⟨by rw [c7]; exact h.pos, fun v => ?_, fun v => ?_, fun v => ?_, fun v hv => ?_,
    fun k s' hs v => ?_, fun k s' hs pre b₁ post hb d hd => ?_, fun k s' hs v hv => ?_, fun v hv => ?_⟩
  · rw [c2]
    split
    · omega
    · exact h.creGe v
  · rw [c1, c2]
    by_cases h1 : v ∈ b.outs
    · simp [h1]
    · by_cases h2 : v ∈ b.deps
      · simp only [h1, h2, or_true, if_true, if_false]
        exact Int.le_trans (h.creLe v) (h.lastLe v)
      · simp only [h1, h2, or_self, if_false]
        exact h.creLe v
  · rw [c1, hlat]
    split
    · exact Int.le_refl _
    · exact h.lastLe v
  · rw [c1] at hv ⊢
    have get : ∀ (k : Nat) s, τ.steps[k]? = some s → ∃ s', (τ.recordBlock b).steps[k]? = some s' ∧
        s'.blocks = if k = τ.latest then s.blocks ++ [b] else s.blocks := by
      intro k s hs
      have hk : k < (τ.recordBlock b).steps.length := by rw [c7]; exact lt_length hs
      obtain ⟨s₁, g1, g2, -⟩ := c8 k _ (List.getElem?_eq_getElem hk)
      rw [hs] at g1
      cases g1
      exact ⟨_, List.getElem?_eq_getElem hk, g2⟩
    split at hv
    · rename_i hm
      have hlt : τ.latest < τ.steps.length := by have := h.pos; unfold latest; omega
      obtain ⟨s', g1, g2⟩ := get τ.latest _ (List.getElem?_eq_getElem hlt)
      rw [if_pos hm]
      exact ⟨τ.latest, s', g1, rfl, b, by rw [g2]; simp, hm.symm⟩
    · rename_i hm
      obtain ⟨k, s, hs, hk, b', hb', hv'⟩ := h.used v hv
      obtain ⟨s', g1, g2⟩ := get k s hs
      rw [if_neg hm]
      refine ⟨k, s', g1, hk, b', ?_, hv'⟩
      rw [g2]
      split
      · exact List.mem_append_left _ hb'
      · exact hb'
  · obtain ⟨s, f1, f2, f3, f4, f5⟩ := c8 k s' hs
    have hk : k < τ.steps.length := lt_length f1
    have hk' : (k : Int) ≤ τ.latest := by unfold latest; omega
    rw [f5, h.state k s f1, c1, c2]
    have hcl := h.creLe v
    have hll := h.lastLe v
    by_cases h1 : v ∈ b.outs
    · have := hnew v h1
      have hd : v ∉ b.deps := fun hd => hself v hd h1
      simp only [h1, hd, if_true, false_and, or_false]
      omega
    · by_cases h2 : v ∈ b.deps
      · simp only [h1, h2, or_true, if_true, if_false, true_and]
        omega
      · simp only [h1, h2, or_self, if_false, false_and, or_false]
  · obtain ⟨s, f1, f2, f3, f4, f5⟩ := c8 k s' hs
    have hk : k < τ.steps.length := lt_length f1
    have hk' : (k : Int) ≤ τ.latest := by unfold latest; omega
    have old : ∀ pre b₁ post, s.blocks = pre ++ b₁ :: post → ∀ d ∈ b₁.deps,
        (k : Int) ≤ ((τ.recordBlock b).heap d).lastUse ∧ ((τ.recordBlock b).heap d).creation ≤ k ∧
        (((τ.recordBlock b).heap d).creation = k → ∃ b' ∈ pre, d ∈ b'.outs) := by
      intro pre b₁ post hb d hd
      obtain ⟨g1, g2, g3⟩ := h.deps k s f1 pre b₁ post hb d hd
      have hb₁ : b₁ ∈ τ.blocks := mem_blocks_of_step f1 (by rw [hb]; simp)
      have hno : d ∉ b.outs := (hfresh b₁ hb₁).1 d hd
      rw [c1, c2]
      simp only [hno, false_or, if_false]
      refine ⟨?_, g2, g3⟩
      split
      · exact hk'
      · exact g1
    rw [f2] at hb
    split at hb
    · rename_i hkl
      rcases List.eq_nil_or_concat post with rfl | ⟨post', x, rfl⟩
      · have hb : s.blocks ++ [b] = pre ++ [b₁] := hb
        have hi := List.append_inj' hb rfl
        have e1 : b = b₁ := by simpa using hi.2
        subst e1
        have hno : d ∉ b.outs := hself d hd
        rw [c1, c2]
        simp only [hno, hd, or_true, if_true, if_false]
        refine ⟨hk', ?_, fun hc => ?_⟩
        · have := h.creLe d
          have := h.lastLe d
          omega
        · obtain ⟨k₁, s₁, g1, g2, g3⟩ := h.created d (by omega)
          have : k₁ = k := by omega
          subst this
          rw [f1] at g1
          cases g1
          rw [CStep.mem_outs] at g3
          rw [← hi.1]
          exact g3
      · have hb : s.blocks ++ [b] = (pre ++ b₁ :: post') ++ [x] := by rw [hb]; simp
        have hi := List.append_inj' hb rfl
        exact old pre b₁ post' hi.1 d hd
    · exact old pre b₁ post hb d hd
  · obtain ⟨s, f1, f2, f3, f4, f5⟩ := c8 k s' hs
    rw [CStep.mem_outs, f2] at hv
    obtain ⟨b₁, hb₁, hv⟩ := hv
    rw [c2]
    by_cases hkl : k = τ.latest
    · rw [if_pos hkl, List.mem_append, List.mem_singleton] at hb₁
      split
      · rw [hkl]
      · rename_i hno
        rcases hb₁ with hb₁ | rfl
        · exact h.outs k s f1 v (CStep.mem_outs.2 ⟨b₁, hb₁, hv⟩)
        · exact absurd hv hno
    · rw [if_neg hkl] at hb₁
      have hno : v ∉ b.outs := (hfresh b₁ (mem_blocks_of_step f1 hb₁)).2 v hv
      rw [if_neg hno]
      exact h.outs k s f1 v (CStep.mem_outs.2 ⟨b₁, hb₁, hv⟩)
  · have get : ∀ (k : Nat) s, τ.steps[k]? = some s → ∃ s', (τ.recordBlock b).steps[k]? = some s' ∧
        s'.blocks = if k = τ.latest then s.blocks ++ [b] else s.blocks := by
      intro k s hs
      have hk := lt_length hs
      have : k < (τ.recordBlock b).steps.length := by rw [c7]; exact hk
      obtain ⟨s₁, f1, f2, -⟩ := c8 k _ (List.getElem?_eq_getElem this)
      rw [hs] at f1
      cases f1
      exact ⟨_, List.getElem?_eq_getElem this, f2⟩
    rw [c2] at hv ⊢
    split
    · rename_i hm
      have hk : τ.latest < τ.steps.length := by have := h.pos; unfold latest; omega
      obtain ⟨s', g1, g2⟩ := get τ.latest _ (List.getElem?_eq_getElem hk)
      refine ⟨τ.latest, s', g1, rfl, CStep.mem_outs.2 ⟨b, ?_, hm⟩⟩
      rw [g2, if_pos rfl]
      simp
    · rename_i hm
      rw [if_neg hm] at hv
      obtain ⟨k, s, f1, f2, f3⟩ := h.created v hv
      obtain ⟨s', g1, g2⟩ := get k s f1
      refine ⟨k, s', g1, f2, ?_⟩
      rw [CStep.mem_outs] at f3 ⊢
      obtain ⟨b', hb', ho⟩ := f3
      refine ⟨b', ?_, ho⟩
      rw [g2]
      split
      · simp [hb']
      · exact hb'

/-! ### The end of a time step -/

/-- What ending time steps may do: append empty steps, store, and forget. -/
structure Ended (P : BV → Prop) (out : BV → V) (τ τ' : CTape V T A) : Prop where
  steps : ∃ m, τ'.steps.map static = τ.steps.map static ++ List.replicate m ([], ⟨[]⟩)
  heap : ∀ v, ∃ c, τ'.heap v = { τ.heap v with ckpt := c }
  clean : Clean P out τ → Clean P out τ'

theorem Ended.refl (P : BV → Prop) (out : BV → V) (τ : CTape V T A) : Ended P out τ τ :=
  ⟨⟨0, by simp⟩, fun v => ⟨(τ.heap v).ckpt, rfl⟩, id⟩

theorem Ended.trans {P : BV → Prop} {out : BV → V} {τ₁ τ₂ τ₃ : CTape V T A} (h : Ended P out τ₁ τ₂)
    (h' : Ended P out τ₂ τ₃) : Ended P out τ₁ τ₃ := by
  refine ⟨?_, fun v => ?_, h'.clean ∘ h.clean⟩
  · obtain ⟨m, e⟩ := h.steps
    obtain ⟨m', e'⟩ := h'.steps
    exact ⟨m + m', by rw [e', e, List.append_assoc, List.replicate_append_replicate]⟩
  · obtain ⟨c, e⟩ := h.heap v
    obtain ⟨c', e'⟩ := h'.heap v
    exact ⟨c', by rw [e', e]⟩

theorem CleanHeap.clearAll {P : BV → Prop} {out : BV → V} {h : Heap V T A} (hc : CleanHeap P out h)
    (vs : List BV) : CleanHeap P out (clearAll vs h) := by
  refine hc.mono (fun v => ?_) (fun v _ => ?_)
  · rw [clearAll_apply]; split <;> rfl
  · rw [clearAll_apply]; split
    · exact Or.inr rfl
    · exact Or.inl rfl

theorem clearAll_frame (vs : List BV) (h : Heap V T A) (v : BV) :
    ∃ c, clearAll vs h v = { h v with ckpt := c } := by
  rw [clearAll_apply]
  split
  · exact ⟨none, rfl⟩
  · exact ⟨(h v).ckpt, rfl⟩

theorem storeEnded_ended (P : BV → Prop) (out : BV → V) {t : Nat} {ss sa : Bool} {τ τ' : CTape V T A}
    (h : storeEnded t ss sa τ = .ok τ') : Ended P out τ τ' := by
  unfold storeEnded at h
  split at h
  · cases h
  · rename_i s hs
    simp only [Except.ok.injEq] at h
    subst h
    refine ⟨⟨0, ?_⟩, fun v => ?_, fun hc => ?_⟩
    · simp only [List.replicate_zero, List.append_nil]
      exact map_static_set hs rfl
    · dsimp only
      obtain ⟨c, e⟩ := clearAll_frame s.outs _ v
      rw [e]
      obtain ⟨c', e'⟩ := clearAll_frame _ _ v
      rw [e']
      obtain ⟨c'', e''⟩ := clearAll_frame _ τ.heap v
      rw [e'']
      exact ⟨c, rfl⟩
    · have h1 := hc.cleanHeap.clearAll
        (if t = 1 then [] else τ.mgr.globalDeps.filter (· ∉ s.state.elems))
      have h2 := (h1.clearAll (s.state.elems.filter (· ∉ if t = 1 then τ.mgr.globalDeps ++ s.state.elems
          else τ.mgr.globalDeps.filter (· ∈ s.state.elems)))).clearAll s.outs
      refine ⟨h2.output, h2.heap, ?_⟩
      exact stored_set hc.stored (checkpoint_clean h1 (hc.stored s (List.mem_of_getElem? hs)))

theorem Ended.frame (P : BV → Prop) (out : BV → V) {τ τ' : CTape V T A} (hs : τ'.steps = τ.steps)
    (hh : τ'.heap = τ.heap) : Ended P out τ τ' :=
  ⟨⟨0, by rw [hs]; simp⟩, fun v => ⟨(τ.heap v).ckpt, by rw [hh]⟩, fun hc =>
    ⟨by rw [hh]; exact hc.output, by rw [hh]; exact hc.heap, by rw [hs]; exact hc.stored⟩⟩

theorem appendStep_ended (P : BV → Prop) (out : BV → V) (τ : CTape V T A) : Ended P out τ τ.appendStep := by
  refine ⟨⟨1, by simp [appendStep, static]⟩, fun v => ⟨(τ.heap v).ckpt, rfl⟩, fun hc => ?_⟩
  refine ⟨hc.output, hc.heap, ?_⟩
  intro s hs
  unfold appendStep at hs
  rw [List.mem_append, List.mem_singleton] at hs
  rcases hs with hs | rfl
  · exact hc.stored s hs
  · intro v _ c hk; cases hk

theorem tapingForward_ended (P : BV → Prop) (out : BV → V) {n0 : Nat} {n1 : Option Nat} {wi wa : Bool}
    {st : Storage} {t : Nat} {τ τ' : CTape V T A} {d : Bool}
    (h : tapingForward n0 n1 wi wa st t τ = .ok (d, τ')) : Ended P out τ τ' := by
  unfold tapingForward at h
  split at h
  · cases h
  · dsimp only at h
    generalize hr : (if n0 < t ∧ st ≠ .work then
      storeEnded t (wi && decide (t = n0 + 1)) wa { τ with eager := wa }
      else .ok { τ with eager := wa }) = r at h
    cases r with
    | error e => cases h
    | ok τ₁ =>
      have h1 : Ended P out τ τ₁ := by
        refine Ended.trans (τ₂ := { τ with eager := wa }) (Ended.frame P out rfl rfl) ?_
        split at hr
        · exact storeEnded_ended P out hr
        · cases hr; exact Ended.refl _ _ _
      dsimp only at h
      split at h
      · cases h
      · split at h
        · cases h; exact h1.trans (appendStep_ended P out τ₁)
        · cases h; exact h1

theorem processTaping_ended (P : BV → Prop) (out : BV → V) {a : Action} {t : Nat} {τ τ' : CTape V T A}
    {d : Bool} (h : processTaping a t τ = .ok (d, τ')) : Ended P out τ τ' := by
  cases a with
  | forward n0 n1 wi wa st => exact tapingForward_ended P out h
  | endForward =>
    simp only [processTaping] at h
    split at h
    · cases h
    · cases h; exact Ended.frame P out rfl rfl
  | reverse _ _ _ => cases h
  | copy _ _ => cases h
  | move _ _ => cases h
  | endReverse => cases h

/-- No action before the last of the recorded forward schedule is `EndForward`. -/
def NoEnd (τ : CTape V T A) : Prop := ∀ a ∈ τ.mgr.fwd.dropLast, a ≠ Action.endForward

theorem endTimestepLoop_ended (P : BV → Prop) (out : BV → V) {t : Nat} {acts : List Action}
    {τ τ' : CTape V T A} (h : endTimestepLoop t acts τ = .ok τ') :
    Ended P out τ τ' ∧ (NoEnd τ → τ.mgr.fwd.getLast? = some τ.mgr.current → NoEnd τ') := by
  induction acts generalizing τ with
  | nil =>
    unfold endTimestepLoop at h
    split at h
    · cases h
    · rename_i τ₁ h₁
      cases h
      refine ⟨(processTaping_ended P out h₁).trans (Ended.frame P out rfl rfl), fun hn _ => ?_⟩
      have := (processTaping_ok h₁).1.fwd
      unfold NoEnd at hn ⊢
      dsimp only
      rw [this]; exact hn
    · cases h
  | cons a acts ih =>
    unfold endTimestepLoop at h
    split at h
    · cases h
    · rename_i τ₁ h₁
      cases h
      refine ⟨(processTaping_ended P out h₁).trans (Ended.frame P out rfl rfl), fun hn _ => ?_⟩
      have := (processTaping_ok h₁).1.fwd
      unfold NoEnd at hn ⊢
      dsimp only
      rw [this]; exact hn
    · rename_i τ₁ h₁
      obtain ⟨i1, i2⟩ := ih h
      refine ⟨(processTaping_ended P out h₁).trans
        (Ended.trans (τ₂ := { τ₁ with mgr := { τ₁.mgr with current := a, fwd := τ₁.mgr.fwd ++ [a] } })
          (Ended.frame P out rfl rfl) i1), fun hn hl => ?_⟩
      obtain ⟨g1, g2⟩ := processTaping_ok h₁
      apply i2
      · unfold NoEnd at hn ⊢
        dsimp only
        rw [List.dropLast_concat, g1.fwd]
        intro x hx
        by_cases hx' : x ∈ τ.mgr.fwd.dropLast
        · exact hn x hx'
        · have : x = τ.mgr.current := by
            rw [List.getLast?_eq_some_iff] at hl
            obtain ⟨ys, e⟩ := hl
            rw [e] at hx hx'
            rw [List.dropLast_concat] at hx'
            rw [List.mem_append, List.mem_singleton] at hx
            exact hx.resolve_left hx'
          rw [this]
          rcases g2 with ⟨hd, _⟩ | ⟨hd, _⟩ | ⟨_, hc, _⟩
          · cases hd
          · cases hd
          · exact hc
      · simp

theorem LInv.ended {P : BV → Prop} {out : BV → V} {τ τ' : CTape V T A} (h : LInv τ)
    (he : Ended P out τ τ') : LInv τ' := by
  obtain ⟨⟨m, hs⟩, hh, -⟩ := he
  have hc : ∀ v, (τ'.heap v).creation = (τ.heap v).creation := fun v => by
    obtain ⟨c, e⟩ := hh v; rw [e]
  have hl : ∀ v, (τ'.heap v).lastUse = (τ.heap v).lastUse := fun v => by
    obtain ⟨c, e⟩ := hh v; rw [e]
  have hlen : τ'.steps.length = τ.steps.length + m := by
    have := congrArg List.length hs
    simpa using this
  have get : ∀ (k : Nat) s', τ'.steps[k]? = some s' →
      (∃ s, τ.steps[k]? = some s ∧ s'.blocks = s.blocks ∧ s'.state = s.state) ∨
      (τ.steps.length ≤ k ∧ s'.blocks = [] ∧ s'.state = ⟨[]⟩) := by
    intro k s' hk
    have e := congrArg (fun l => l[k]?) hs
    simp only [List.getElem?_map, hk, Option.map_some] at e
    by_cases hlt : k < τ.steps.length
    · left
      rw [List.getElem?_append_left (by simpa using hlt), List.getElem?_map,
        List.getElem?_eq_getElem hlt] at e
      simp only [Option.map_some, Option.some.injEq, static, Prod.mk.injEq] at e
      exact ⟨_, List.getElem?_eq_getElem hlt, e.1, e.2⟩
    · right
      rw [List.getElem?_append_right (by simpa using hlt), List.getElem?_replicate] at e
      split at e
      · simp only [Option.some.injEq, static, Prod.mk.injEq] at e
        exact ⟨by omega, e.1, e.2⟩
      · cases e
  refine ⟨by rw [hlen]; have := h.pos; omega, fun v => by rw [hc]; exact h.creGe v,
    fun v => by rw [hc, hl]; exact h.creLe v, fun v => ?_, fun v hv => ?_, fun k s' hk v => ?_,
    fun k s' hk pre b post hbb d hd => ?_, fun k s' hk v hv => ?_, fun v hv => ?_⟩
  · rw [hl]
    have := h.lastLe v
    unfold latest at this ⊢
    omega
  · rw [hl] at hv ⊢
    obtain ⟨k, s, h1, h2, h3⟩ := h.used v hv
    have hk : k < τ'.steps.length := by have := lt_length h1; omega
    have e := List.getElem?_eq_getElem hk
    refine ⟨k, τ'.steps[k], e, h2, ?_⟩
    rcases get k _ e with ⟨s₁, g1, g2, -⟩ | ⟨g1, -⟩
    · rw [h1] at g1
      cases g1
      rw [g2]; exact h3
    · have := lt_length h1; omega
  · rw [hc, hl]
    rcases get k s' hk with ⟨s, h1, -, h2⟩ | ⟨h1, -, h2⟩
    · rw [h2]; exact h.state k s h1 v
    · rw [h2]
      have := h.lastLe v
      have := h.pos
      simp only [List.not_mem_nil, false_iff, not_and]
      unfold latest at *
      omega
  · rw [hc, hl]
    rcases get k s' hk with ⟨s, h1, h2, -⟩ | ⟨h1, h2, -⟩
    · rw [h2] at hbb; exact h.deps k s h1 pre b post hbb d hd
    · rw [h2] at hbb; simp at hbb
  · rw [hc]
    rw [CStep.mem_outs] at hv
    rcases get k s' hk with ⟨s, h1, h2, -⟩ | ⟨h1, h2, -⟩
    · rw [h2] at hv; exact h.outs k s h1 v (CStep.mem_outs.2 hv)
    · rw [h2] at hv; simp at hv
  · rw [hc] at hv ⊢
    obtain ⟨k, s, h1, h2, h3⟩ := h.created v hv
    have hk : k < τ'.steps.length := by have := lt_length h1; omega
    have e := List.getElem?_eq_getElem hk
    refine ⟨k, τ'.steps[k], e, h2, ?_⟩
    rcases get k _ e with ⟨s₁, g1, g2, -⟩ | ⟨g1, -⟩
    · rw [h1] at g1
      cases g1
      rw [CStep.mem_outs] at h3 ⊢
      rw [g2]; exact h3
    · have := lt_length h1; omega

end CTape
end Pyadjoint
