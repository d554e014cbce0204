import Verif.Model.Ownership
import Verif.Proofs.Engine

/-!
# Values passed to and returned by a reduced functional (C75)
-/

namespace Pyadjoint
namespace Own

variable {V T A : Type*}

/-! ## Specification: every value the caller holds is its own -/

/-- The block variables with their values, and the values the caller holds: independent of the tape and of each other. -/
structure Ideal (V T A : Type*) where
  heap : Heap V T A
  vals : List V

/-- One event, with values instead of objects. -/
def Ideal.step [Add T] [Add A] [Zero A] (mul : V → V) (bs : Blocks V T A) (t : Ideal V T A) : Event V T A → Seen V A × Ideal V T A
  | .new x => (.nothing, { t with vals := t.vals ++ [x] })
  | .modify i x => (.nothing, { t with vals := t.vals.set i x })
  | .read i => (.value t.vals[i]?, t)
  | .call J cs ks =>
    let h := Pyadjoint.rfEval bs cs (ks.filterMap fun i => t.vals[i]?) t.heap
    (.value (some (mul (saved h J))), ⟨h, t.vals ++ [mul (saved h J)]⟩)
  | .derivative J cs a => (.list (computeGradient bs J cs a t.heap).1, { t with heap := (computeGradient bs J cs a t.heap).2 })
  | .hessian J cs ds => (.list (computeHessianOf bs J cs ds t.heap).1, { t with heap := (computeHessianOf bs J cs ds t.heap).2 })

/-- A sequence of events, with values. -/
def Ideal.run [Add T] [Add A] [Zero A] (mul : V → V) (bs : Blocks V T A) : List (Event V T A) → Ideal V T A → List (Seen V A)
  | [], _ => []
  | e :: l, t => (t.step mul bs e).1 :: Ideal.run mul bs l (t.step mul bs e).2

/-- The caller changes no object that an evaluation returned, unless `fresh`.  `own` says of each object held whether it may be changed. -/
def OnlyOwn (fresh : Bool) : List Bool → List (Event V T A) → Prop
  | _, [] => True
  | own, .new _ :: l => OnlyOwn fresh (own ++ [true]) l
  | own, .call _ _ _ :: l => OnlyOwn fresh (own ++ [fresh]) l
  | own, .modify i _ :: l => own[i]? ≠ some false ∧ OnlyOwn fresh own l
  | own, _ :: l => OnlyOwn fresh own l

/-- Types for which evaluations return new objects: those that copy on restoring, and those whose `*=` makes a new object. -/
def Kind.fresh (k : Kind) : Bool := k.copies || !k.inplace

/-- The block returns one of its inputs only where that is the value it computes. -/
def OBlock.Honest (b : OBlock V T A) : Prop := ∀ xs i j x, b.same i = some j → b.block.recomputeC xs i = some x → xs[j]? = some x

/-- The objects the block variables refer to exist. -/
def State.Ok (s : State V T A) : Prop := (∀ v o, s.ref v = some o → o < s.next) ∧ ∀ v, s.out v < s.next

/-! ## Proof -/

/-- What an evaluation may do to the objects: make new ones, and refer to new ones or to ones already referred to. -/
structure Ext (s s' : State V T A) : Prop where
  out : s'.out = s.out
  handles : s'.handles = s.handles
  next : s.next ≤ s'.next
  obj : ∀ o < s.next, s'.obj o = s.obj o
  bounded : ∀ v o, s'.ref v = some o → o < s'.next
  prov : ∀ v o, s'.ref v = some o → s.next ≤ o ∨ (∃ w, s.ref w = some o) ∨ ∃ w, s.out w = o
  isSome : ∀ v, (s.ref v).isSome → (s'.ref v).isSome

theorem Ext.refl {s : State V T A} (h : s.Ok) : Ext s s :=
  ⟨rfl, rfl, le_rfl, fun _ _ => rfl, h.1, fun v _ ho => Or.inr (Or.inl ⟨v, ho⟩), fun _ h => h⟩

theorem Ext.ok {s s' : State V T A} (e : Ext s s') (h : s.Ok) : s'.Ok :=
  ⟨e.bounded, fun v => by rw [e.out]; exact lt_of_lt_of_le (h.2 v) e.next⟩

theorem Ext.trans {s s' s'' : State V T A} (e : Ext s s') (e' : Ext s' s'') : Ext s s'' := by
  refine ⟨e'.out.trans e.out, e'.handles.trans e.handles, e.next.trans e'.next, fun o ho => ?_, e'.bounded, fun v o ho => ?_,
    fun v hv => e'.isSome v (e.isSome v hv)⟩
  · rw [e'.obj o (lt_of_lt_of_le ho e.next), e.obj o ho]
  · rcases e'.prov v o ho with h | ⟨w, h⟩ | ⟨w, h⟩
    · exact Or.inl (e.next.trans h)
    · exact e.prov w o h
    · rw [e.out] at h; exact Or.inr (Or.inr ⟨w, h⟩)

theorem heap_setRef (s : State V T A) (v : BV) (o : Nat) : (s.setRef v o).heap = setCkpt s.heap v (some (s.obj o)) := by
  unfold State.setRef setCkpt
  by_cases hc : (s.base v).isControl = true
  · rw [if_pos hc, if_pos (show (s.heap v).isControl = true from hc)]
  · rw [if_neg hc, if_neg (show ¬ (s.heap v).isControl = true from hc)]
    funext w
    by_cases hw : w = v
    · subst hw; simp [State.heap]
    · simp [State.heap, hw]

theorem heap_alloc {s : State V T A} (h : s.Ok) (x : V) : (s.alloc x).heap = s.heap := by
  funext v
  have h1 : (s.alloc x).obj (s.out v) = s.obj (s.out v) := Function.update_of_ne (Nat.ne_of_lt (h.2 v)) _ _
  have h2 : (s.ref v).map (s.alloc x).obj = (s.ref v).map s.obj := by
    cases hr : s.ref v with
    | none => rfl
    | some o => exact congrArg some (Function.update_of_ne (Nat.ne_of_lt (h.1 v o hr)) _ _)
  show ({ s.base v with output := (s.alloc x).obj (s.out v), ckpt := (s.ref v).map (s.alloc x).obj } : Var V T A) = _
  rw [h1, h2]; rfl

theorem alloc_ok {s : State V T A} (h : s.Ok) (x : V) : (s.alloc x).Ok :=
  ⟨fun v o ho => Nat.lt_succ_of_lt (h.1 v o ho), fun v => Nat.lt_succ_of_lt (h.2 v)⟩

theorem Ext.setRef {s₀ s : State V T A} (h₀ : s₀.Ok) (e : Ext s₀ s) (v : BV) (o : Nat) (ho : (∃ w, s₀.ref w = some o) ∨ ∃ w, s₀.out w = o) :
    Ext s₀ (s.setRef v o) := by
  have hlt : o < s₀.next := by
    rcases ho with ⟨w, h⟩ | ⟨w, h⟩
    · exact h₀.1 w o h
    · rw [← h]; exact h₀.2 w
  unfold State.setRef
  by_cases hc : (s.base v).isControl = true
  · rw [if_pos hc]; exact e
  · rw [if_neg hc]
    refine ⟨e.out, e.handles, e.next, e.obj, fun w p hp => ?_, fun w p hp => ?_, fun w hw => ?_⟩
    · by_cases hwv : w = v
      · subst hwv
        simp only [Function.update_self, Option.some.injEq] at hp
        exact hp ▸ lt_of_lt_of_le hlt e.next
      · simp only [Function.update_of_ne hwv] at hp; exact e.bounded w p hp
    · by_cases hwv : w = v
      · subst hwv
        simp only [Function.update_self, Option.some.injEq] at hp
        exact Or.inr (hp ▸ ho)
      · simp only [Function.update_of_ne hwv] at hp; exact e.prov w p hp
    · by_cases hwv : w = v
      · subst hwv; simp
      · simp only [Function.update_of_ne hwv]; exact e.isSome w hw

theorem Ext.fresh {s₀ s : State V T A} (e : Ext s₀ s) (v : BV) (x : V) : Ext s₀ ((s.alloc x).setRef v s.next) := by
  have ea : Ext s₀ (s.alloc x) :=
    ⟨e.out, e.handles, e.next.trans (Nat.le_succ _),
      fun o ho => (Function.update_of_ne (Nat.ne_of_lt (lt_of_lt_of_le ho e.next)) _ _).trans (e.obj o ho),
      fun v o ho => Nat.lt_succ_of_lt (e.bounded v o ho), e.prov, e.isSome⟩
  unfold State.setRef
  by_cases hc : ((s.alloc x).base v).isControl = true
  · rw [if_pos hc]; exact ea
  · rw [if_neg hc]
    refine ⟨ea.out, ea.handles, ea.next, ea.obj, fun w p hp => ?_, fun w p hp => ?_, fun w hw => ?_⟩
    · by_cases hwv : w = v
      · subst hwv
        simp only [Function.update_self, Option.some.injEq] at hp
        exact hp ▸ Nat.lt_succ_self _
      · simp only [Function.update_of_ne hwv] at hp; exact ea.bounded w p hp
    · by_cases hwv : w = v
      · subst hwv
        simp only [Function.update_self, Option.some.injEq] at hp
        exact Or.inl (hp ▸ e.next)
      · simp only [Function.update_of_ne hwv] at hp; exact ea.prov w p hp
    · by_cases hwv : w = v
      · subst hwv; simp
      · simp only [Function.update_of_ne hwv]; exact ea.isSome w hw

theorem heap_fresh {s : State V T A} (h : s.Ok) (v : BV) (x : V) : ((s.alloc x).setRef v s.next).heap = setCkpt s.heap v (some x) := by
  rw [heap_setRef, heap_alloc h]
  simp [State.alloc]

theorem saved_heap (s : State V T A) (v : BV) : saved s.heap v = s.obj (s.savedObj v) := by
  unfold saved State.heap State.savedObj
  cases s.ref v <;> rfl

theorem savedObj_prov (s : State V T A) (v : BV) : (∃ w, s.ref w = some (s.savedObj v)) ∨ ∃ w, s.out w = s.savedObj v := by
  unfold State.savedObj
  cases hr : s.ref v with
  | none => exact Or.inr ⟨v, rfl⟩
  | some o => exact Or.inl ⟨v, hr⟩

theorem heap_withBase (s : State V T A) (g : Heap V T A → Heap V T A) (ho : ∀ v, (g s.heap v).output = (s.heap v).output)
    (hc : ∀ v, (g s.heap v).ckpt = (s.heap v).ckpt) : (s.withBase g).heap = g s.heap := by
  funext v
  show ({ g s.heap v with output := (s.heap v).output, ckpt := (s.heap v).ckpt } : Var V T A) = _
  rw [← ho v, ← hc v]

theorem Ext.withBase {s₀ s : State V T A} (e : Ext s₀ s) (g : Heap V T A → Heap V T A) : Ext s₀ (s.withBase g) :=
  ⟨e.out, e.handles, e.next, e.obj, e.bounded, e.prov, e.isSome⟩

theorem updateControls_spec (cs : List BV) (os : List Nat) {s : State V T A} (h : s.Ok) (ho : ∀ o ∈ os, o < s.next) :
    Ext s (s.updateControls cs os) ∧ (s.updateControls cs os).heap = Pyadjoint.updateControls cs (os.map s.obj) s.heap := by
  unfold State.updateControls Pyadjoint.updateControls
  suffices H : ∀ (l : List (BV × Nat)) (r : State V T A), (∀ p ∈ l, p.2 < s.next) → Ext s r →
      Ext s (l.foldl (fun s p => (s.alloc (s.obj p.2)).setRef p.1 s.next) r) ∧
      (l.foldl (fun s p => (s.alloc (s.obj p.2)).setRef p.1 s.next) r).heap =
        (l.map fun p => (p.1, s.obj p.2)).foldl (fun h p => setCkpt h p.1 (some p.2)) r.heap by
    have := H (cs.zip os) s (fun p hp => ho _ (List.of_mem_zip hp).2) (Ext.refl h)
    rw [List.zip_map_right]
    exact this
  intro l
  induction l with
  | nil => exact fun r _ e => ⟨e, rfl⟩
  | cons p l ih =>
    intro r hl e
    have hp := hl p List.mem_cons_self
    have := ih _ (fun q hq => hl q (List.mem_cons_of_mem _ hq)) (e.fresh p.1 (r.obj p.2))
    rw [heap_fresh (e.ok h), e.obj p.2 hp] at this
    rw [List.foldl_cons, List.map_cons, List.foldl_cons, e.obj p.2 hp]
    exact this

theorem recompute_spec (k : Kind) (b : OBlock V T A) (hb : b.Honest) {s : State V T A} (h : s.Ok) :
    Ext s (b.recompute k s) ∧ (b.recompute k s).heap = b.block.recompute false s.heap := by
  unfold OBlock.recompute Block.recompute
  have e1 : (b.block.outs.any fun o => (s.base o).isControl) = b.block.outs.any fun o => (s.heap o).isControl := rfl
  rw [e1]
  split
  · exact ⟨Ext.refl h, rfl⟩
  dsimp only
  split
  · exact ⟨Ext.refl h, rfl⟩
  suffices H : ∀ (l : List (BV × Nat)) (r : State V T A), Ext s r →
      Ext s (l.foldl (fun s' p => s'.give p.1 (b.block.recomputeC (b.block.deps.map (saved s.heap)) p.2)
        ((b.same p.2).bind fun j => ((b.block.deps.map (s.inputObj k))[j]?).join)) r) ∧
      (l.foldl (fun s' p => s'.give p.1 (b.block.recomputeC (b.block.deps.map (saved s.heap)) p.2)
        ((b.same p.2).bind fun j => ((b.block.deps.map (s.inputObj k))[j]?).join)) r).heap =
        l.foldl (fun h p => setCkpt? h p.1 (b.block.recomputeC (b.block.deps.map (saved s.heap)) p.2)) r.heap from
    H _ s (Ext.refl h)
  intro l
  induction l with
  | nil => exact fun r e => ⟨e, rfl⟩
  | cons p l ih =>
    intro r e
    have key : Ext s (r.give p.1 (b.block.recomputeC (b.block.deps.map (saved s.heap)) p.2)
          ((b.same p.2).bind fun j => ((b.block.deps.map (s.inputObj k))[j]?).join)) ∧
        (r.give p.1 (b.block.recomputeC (b.block.deps.map (saved s.heap)) p.2)
          ((b.same p.2).bind fun j => ((b.block.deps.map (s.inputObj k))[j]?).join)).heap =
        setCkpt? r.heap p.1 (b.block.recomputeC (b.block.deps.map (saved s.heap)) p.2) := by
      cases hr : b.block.recomputeC (b.block.deps.map (saved s.heap)) p.2 with
      | none => exact ⟨e, rfl⟩
      | some x =>
        cases ho : (b.same p.2).bind fun j => ((b.block.deps.map (s.inputObj k))[j]?).join with
        | none => exact ⟨e.fresh p.1 x, heap_fresh (e.ok h) p.1 x⟩
        | some o =>
          obtain ⟨j, hj, hj'⟩ := Option.bind_eq_some_iff.1 ho
          have hx := hb _ _ _ _ hj hr
          rw [List.getElem?_map] at hx hj'
          cases hd : b.block.deps[j]? with
          | none => simp [hd] at hx
          | some d =>
            rw [hd] at hx hj'
            have hx' : saved s.heap d = x := by simpa using hx
            have ho' : o = s.savedObj d := by
              have : s.inputObj k d = some o := by simpa using hj'
              unfold State.inputObj at this
              split at this
              · exact absurd this (by simp)
              · exact (Option.some.inj this).symm
            have hlt : o < s.next := by
              rcases savedObj_prov s d with ⟨w, hw⟩ | ⟨w, hw⟩
              · exact ho' ▸ h.1 w _ hw
              · rw [ho', ← hw]; exact h.2 w
            refine ⟨e.setRef h p.1 o (ho' ▸ savedObj_prov s d), ?_⟩
            show (r.setRef p.1 o).heap = setCkpt r.heap p.1 (some x)
            rw [heap_setRef, e.obj o hlt, ho', ← saved_heap, hx']
    have := ih _ key.1
    rw [key.2] at this
    exact this

theorem rfEval_spec (k : Kind) (bs : List (OBlock V T A)) (hb : ∀ b ∈ bs, b.Honest) (cs : List BV) (os : List Nat) {s : State V T A} (h : s.Ok)
    (ho : ∀ o ∈ os, o < s.next) :
    Ext s (s.rfEval k bs cs os) ∧ (s.rfEval k bs cs os).heap = Pyadjoint.rfEval (bs.map OBlock.block) cs (os.map s.obj) s.heap := by
  obtain ⟨e1, h1⟩ := updateControls_spec cs os h ho
  have e2 := e1.withBase (markControls cs true)
  have h2 : ((s.updateControls cs os).withBase (markControls cs true)).heap = markControls cs true (s.updateControls cs os).heap :=
    heap_withBase _ _ (fun v => markControls_output _ _ _ _) (fun v => markControls_ckpt _ _ _ _)
  rw [h1] at h2
  have H : ∀ (l : List (OBlock V T A)) (r : State V T A), (∀ b ∈ l, b.Honest) → Ext s r →
      Ext s (l.foldl (fun s b => b.recompute k s) r) ∧
      (l.foldl (fun s b => b.recompute k s) r).heap = recompute (l.map OBlock.block) r.heap := by
    intro l
    induction l with
    | nil => exact fun r _ e => ⟨e, rfl⟩
    | cons b l ih =>
      intro r hl e
      obtain ⟨e', h'⟩ := recompute_spec k b (hl b List.mem_cons_self) (e.ok h)
      have := ih _ (fun c hc => hl c (List.mem_cons_of_mem _ hc)) (e.trans e')
      rw [h'] at this
      exact this
  obtain ⟨e3, h3⟩ := H bs _ hb e2
  refine ⟨e3.withBase _, ?_⟩
  show (State.withBase _ (markControls cs false)).heap = _
  rw [heap_withBase _ _ (fun v => markControls_output _ _ _ _) (fun v => markControls_ckpt _ _ _ _), h3, h2]
  rfl

/-- The objects stand for the values: the tape's, and the caller's; an object the caller may change is referred to by nothing else. -/
structure Rel (own : List Bool) (s : State V T A) (t : Ideal V T A) : Prop where
  ok : s.Ok
  heap : s.heap = t.heap
  vals : s.handles.map s.obj = t.vals
  held : ∀ o ∈ s.handles, o < s.next
  len : own.length = s.handles.length
  sep : ∀ (i o : Nat), s.handles[i]? = some o → own[i]? = some true →
    (∀ v, s.ref v ≠ some o) ∧ (∀ v, s.out v ≠ o) ∧ ∀ j, s.handles[j]? = some o → j = i

theorem Rel.ext {own : List Bool} {s s' : State V T A} {t : Ideal V T A} (r : Rel own s t) (e : Ext s s') {h : Heap V T A} (hh : s'.heap = h) :
    Rel own s' { t with heap := h } where
  ok := e.ok r.ok
  heap := hh
  vals := by
    show s'.handles.map s'.obj = t.vals
    rw [e.handles, ← r.vals]
    exact List.map_congr_left fun o ho => e.obj o (r.held o ho)
  held o ho := by rw [e.handles] at ho; exact lt_of_lt_of_le (r.held o ho) e.next
  len := by rw [e.handles]; exact r.len
  sep i o hi hown := by
    rw [e.handles] at hi ⊢
    obtain ⟨h1, h2, h3⟩ := r.sep i o hi hown
    refine ⟨fun v hv => ?_, fun v => by rw [e.out]; exact h2 v, h3⟩
    rcases e.prov v o hv with h | ⟨w, h⟩ | ⟨w, h⟩
    · exact absurd (r.held o (List.mem_of_getElem? hi)) (Nat.not_lt.2 h)
    · exact h1 w h
    · exact h2 w h

/-- The caller obtains a new object. -/
theorem Rel.obtain {own : List Bool} {s : State V T A} {t : Ideal V T A} (r : Rel own s t) (x : V) (c : Bool) :
    Rel (own ++ [c]) { s.alloc x with handles := s.handles ++ [s.next] } { t with vals := t.vals ++ [x] } where
  ok := alloc_ok r.ok x
  heap := by rw [← r.heap]; exact heap_alloc r.ok x
  vals := by
    show (s.handles ++ [s.next]).map (s.alloc x).obj = t.vals ++ [x]
    rw [List.map_append, ← r.vals]
    congr 1
    · exact List.map_congr_left fun o ho => Function.update_of_ne (Nat.ne_of_lt (r.held o ho)) _ _
    · simp [State.alloc]
  held o ho := by
    rcases List.mem_append.1 ho with h | h
    · exact Nat.lt_succ_of_lt (r.held o h)
    · rw [List.mem_singleton.1 h]; exact Nat.lt_succ_self _
  len := by simp [r.len]
  sep i o hi hown := by
    have hi : (s.handles ++ [s.next])[i]? = some o := hi
    show (∀ v, s.ref v ≠ some o) ∧ (∀ v, s.out v ≠ o) ∧ ∀ j, (s.handles ++ [s.next])[j]? = some o → j = i
    have hlast : ∀ j, s.handles.length ≤ j → (s.handles ++ [s.next])[j]? = some o → j = s.handles.length ∧ o = s.next := by
      intro j hj hjo
      rw [List.getElem?_append_right hj] at hjo
      have : j - s.handles.length = 0 := by
        by_contra h
        rw [List.getElem?_eq_none (by simp; omega)] at hjo
        exact absurd hjo (by simp)
      rw [this] at hjo
      exact ⟨by omega, by simpa using hjo.symm⟩
    by_cases hlt : i < s.handles.length
    · rw [List.getElem?_append_left hlt] at hi
      rw [List.getElem?_append_left (r.len ▸ hlt)] at hown
      obtain ⟨h1, h2, h3⟩ := r.sep i o hi hown
      refine ⟨h1, h2, fun j hj => ?_⟩
      by_cases hj' : j < s.handles.length
      · rw [List.getElem?_append_left hj'] at hj; exact h3 j hj
      · have := hlast j (Nat.not_lt.1 hj') hj
        exact absurd (r.held o (List.mem_of_getElem? hi)) (by rw [this.2]; exact Nat.lt_irrefl _)
    · obtain ⟨e1, e2⟩ := hlast i (Nat.not_lt.1 hlt) hi
      refine ⟨fun v hv => ?_, fun v hv => ?_, fun j hj => ?_⟩
      · exact absurd (r.ok.1 v o hv) (by rw [e2]; exact Nat.lt_irrefl _)
      · exact absurd (r.ok.2 v) (by rw [hv, e2]; exact Nat.lt_irrefl _)
      · by_cases hj' : j < s.handles.length
        · rw [List.getElem?_append_left hj'] at hj
          exact absurd (r.held o (List.mem_of_getElem? hj)) (by rw [e2]; exact Nat.lt_irrefl _)
        · rw [(hlast j (Nat.not_lt.1 hj') hj).1, e1]

/-- The caller obtains an object the tape refers to; it may not be changed. -/
theorem Rel.share {own : List Bool} {s : State V T A} {t : Ideal V T A} (r : Rel own s t) (J : BV) :
    Rel (own ++ [false]) { s with handles := s.handles ++ [s.savedObj J] } { t with vals := t.vals ++ [saved t.heap J] } where
  ok := r.ok
  heap := r.heap
  vals := by
    show (s.handles ++ [s.savedObj J]).map s.obj = _
    rw [List.map_append, ← r.vals, ← r.heap, saved_heap]; rfl
  held o ho := by
    rcases List.mem_append.1 ho with h | h
    · exact r.held o h
    · rw [List.mem_singleton.1 h]
      rcases savedObj_prov s J with ⟨w, hw⟩ | ⟨w, hw⟩
      · exact r.ok.1 w _ hw
      · rw [← hw]; exact r.ok.2 w
  len := by simp [r.len]
  sep i o hi hown := by
    have hi : (s.handles ++ [s.savedObj J])[i]? = some o := hi
    show (∀ v, s.ref v ≠ some o) ∧ (∀ v, s.out v ≠ o) ∧ ∀ j, (s.handles ++ [s.savedObj J])[j]? = some o → j = i
    have hlt : i < s.handles.length := by
      by_contra h
      rw [List.getElem?_append_right (by rw [r.len]; exact Nat.not_lt.1 h)] at hown
      have h0 := List.mem_of_getElem? hown
      simp at h0
    rw [List.getElem?_append_left hlt] at hi
    rw [List.getElem?_append_left (r.len ▸ hlt)] at hown
    obtain ⟨h1, h2, h3⟩ := r.sep i o hi hown
    refine ⟨h1, h2, fun j hj => ?_⟩
    by_cases hj' : j < s.handles.length
    · rw [List.getElem?_append_left hj'] at hj; exact h3 j hj
    · rw [List.getElem?_append_right (Nat.not_lt.1 hj')] at hj
      have h0 : o = s.savedObj J := by simpa using List.mem_of_getElem? hj
      rcases savedObj_prov s J with ⟨w, hw⟩ | ⟨w, hw⟩
      · exact absurd (h0 ▸ hw) (h1 w)
      · exact absurd (h0 ▸ hw) (h2 w)

/-- The caller changes an object of its own. -/
theorem Rel.modify {own : List Bool} {s : State V T A} {t : Ideal V T A} (r : Rel own s t) (i : Nat) (x : V) (hown : own[i]? ≠ some false) :
    Rel own ((s.handles[i]?).elim s fun o => { s with obj := Function.update s.obj o x }) { t with vals := t.vals.set i x } := by
  cases hi : s.handles[i]? with
  | none =>
    have hl : t.vals.length ≤ i := by rw [← r.vals, List.length_map]; exact List.getElem?_eq_none_iff.1 hi
    rw [List.set_eq_of_length_le hl]
    exact r
  | some o =>
    have hlt : i < own.length := by rw [r.len]; exact (List.getElem?_eq_some_iff.1 hi).1
    have ht : own[i]? = some true := by
      rw [List.getElem?_eq_getElem hlt] at hown ⊢
      cases hb : own[i] with
      | true => rfl
      | false => rw [hb] at hown; exact absurd rfl hown
    obtain ⟨h1, h2, h3⟩ := r.sep i o hi ht
    refine ⟨r.ok, ?_, ?_, r.held, r.len, r.sep⟩
    · rw [← r.heap]
      funext v
      have e1 : Function.update s.obj o x (s.out v) = s.obj (s.out v) := Function.update_of_ne (h2 v) _ _
      have e2 : (s.ref v).map (Function.update s.obj o x) = (s.ref v).map s.obj := by
        cases hr : s.ref v with
        | none => rfl
        | some p => exact congrArg some (Function.update_of_ne (fun e => h1 v (by rw [hr, e])) _ _)
      show ({ s.base v with output := Function.update s.obj o x (s.out v), ckpt := (s.ref v).map (Function.update s.obj o x) } : Var V T A) = _
      rw [e1, e2]; rfl
    · show s.handles.map (Function.update s.obj o x) = t.vals.set i x
      rw [← r.vals]
      apply List.ext_getElem?
      intro j
      rw [List.getElem?_map, List.getElem?_set, List.getElem?_map]
      by_cases hj : i = j
      · subst hj
        rw [hi, if_pos rfl, if_pos (by rw [List.length_map]; exact (List.getElem?_eq_some_iff.1 hi).1)]
        simp
      · rw [if_neg hj]
        cases hjo : s.handles[j]? with
        | none => rfl
        | some p => exact congrArg some (Function.update_of_ne (fun e => hj (h3 j (by rw [hjo, e])).symm) _ _)

/-- The value handed out. -/
theorem Rel.returned {own : List Bool} {s : State V T A} {t : Ideal V T A} (r : Rel own s t) (k : Kind) (mul : V → V) (J : BV)
    (hs : k.copies = true ∨ k.inplace = false ∨ ∀ x, mul x = x) (hJ : k.copies = true → (s.ref J).isSome = true) :
    Rel (own ++ [k.fresh]) (s.returned k mul J) { t with vals := t.vals ++ [mul (saved t.heap J)] } ∧
    ((s.returned k mul J).handles.getLast?).map (s.returned k mul J).obj = some (mul (saved t.heap J)) := by
  suffices H : Rel (own ++ [k.fresh]) (s.returned k mul J) { t with vals := t.vals ++ [mul (saved t.heap J)] } by
    refine ⟨H, ?_⟩
    rw [← List.getLast?_map, H.vals]; simp
  have hx : saved t.heap J = s.obj (s.savedObj J) := by rw [← r.heap, saved_heap]
  unfold State.returned
  by_cases hc : k.copies = true
  · have hcond : k.copies = true ∧ (s.ref J).isSome = true := ⟨hc, hJ hc⟩
    simp only [if_pos hcond]
    by_cases hi : k.inplace = true
    · rw [if_pos hi]
      have := r.obtain (mul (saved t.heap J)) k.fresh
      have e : ({ s.alloc (s.obj (s.savedObj J)) with
            obj := Function.update (s.alloc (s.obj (s.savedObj J))).obj s.next (mul ((s.alloc (s.obj (s.savedObj J))).obj s.next)),
            handles := (s.alloc (s.obj (s.savedObj J))).handles ++ [s.next] } : State V T A) =
          { s.alloc (mul (saved t.heap J)) with handles := s.handles ++ [s.next] } := by
        simp [State.alloc, hx]
      rw [e]; exact this
    · rw [if_neg hi]
      -- a copy that nobody keeps, then a new object
      have r' : Rel own (s.alloc (s.obj (s.savedObj J))) t := by
        have := r.ext (s' := s.alloc (s.obj (s.savedObj J)))
          ⟨rfl, rfl, Nat.le_succ _, fun o ho => Function.update_of_ne (Nat.ne_of_lt ho) _ _, (alloc_ok r.ok _).1, fun v o ho => Or.inr (Or.inl ⟨v, ho⟩),
            fun _ h => h⟩ (h := t.heap) (by rw [heap_alloc r.ok, r.heap])
        exact this
      have := r'.obtain (mul (saved t.heap J)) k.fresh
      have e : (s.alloc (s.obj (s.savedObj J))).obj s.next = saved t.heap J := by simp [State.alloc, hx]
      rw [e]; exact this
  · have hcond : ¬ (k.copies = true ∧ (s.ref J).isSome = true) := fun h => hc h.1
    simp only [if_neg hcond]
    have hcf : k.copies = false := by simpa using hc
    by_cases hi : k.inplace = true
    · have hm : ∀ x, mul x = x := by
        rcases hs with h | h | h
        · exact absurd h hc
        · rw [h] at hi; exact absurd hi (by simp)
        · exact h
      have hf : k.fresh = false := by simp [Kind.fresh, hcf, hi]
      rw [if_pos hi, hm, hm, Function.update_eq_self, hf]
      exact r.share J
    · rw [if_neg hi]
      have := r.obtain (mul (saved t.heap J)) k.fresh
      rw [← hx]; exact this

theorem gradient_values [Add A] [Zero A] (bs : Blocks V T A) (J : BV) (cs : List BV) (a : A) (h : Heap V T A) (v : BV) :
    ((computeGradient bs J cs a h).2 v).output = (h v).output ∧ ((computeGradient bs J cs a h).2 v).ckpt = (h v).ckpt := by
  show (computeGradientState bs J cs a h v).output = _ ∧ (computeGradientState bs J cs a h v).ckpt = _
  unfold computeGradientState markedAdjoint
  simp only [markAll_output, markControls_output, evaluateAdj_output, markAll_ckpt, markControls_ckpt, evaluateAdj_ckpt]
  by_cases hv : v = J
  · subst hv; simp
  · simp [hv]

theorem foldl_keeps {α β : Type*} (p : Heap V T A → β) (f : Heap V T A → α → Heap V T A) (hf : ∀ h a, p (f h a) = p h) (l : List α) (h : Heap V T A) :
    p (l.foldl f h) = p h := by
  induction l generalizing h with
  | nil => rfl
  | cons a l ih => rw [List.foldl_cons, ih, hf]

theorem blockHessian_values [Add A] (b : Block V T A) (m : Bool) (h : Heap V T A) (v : BV) :
    ((b.evaluateHessian m h v).output, (b.evaluateHessian m h v).ckpt) = ((h v).output, (h v).ckpt) := by
  unfold Block.evaluateHessian
  dsimp only
  split
  · rfl
  split
  · rfl
  refine foldl_keeps (fun h : Heap V T A => ((h v).output, (h v).ckpt)) _ (fun g p => ?_) _ h
  cases b.hessC (b.deps.map (saved h)) (b.outs.map fun o => (h o).hess) (b.outs.map fun o => (h o).adj) p.2
      ((relevant h m b.deps).map fun q => (q.2, (h q.1).tlm)) with
  | none => rfl
  | some a =>
    by_cases hv : v = p.1
    · subst hv; simp [addHess?, addHess]
    · simp [addHess?, addHess, hv]

theorem hessian_values [Add T] [Add A] [Zero A] (bs : Blocks V T A) (J : BV) (cs : List BV) (ds : List T) (h : Heap V T A) (v : BV) :
    ((computeHessianOf bs J cs ds h).2 v).output = (h v).output ∧ ((computeHessianOf bs J cs ds h).2 v).ckpt = (h v).ckpt := by
  have hseed : ∀ g : Heap V T A, ((seedTlm cs ds g v).output, (seedTlm cs ds g v).ckpt) = ((g v).output, (g v).ckpt) := by
    intro g
    refine foldl_keeps (fun h : Heap V T A => ((h v).output, (h v).ckpt)) _ (fun g p => ?_) _ g
    by_cases hv : v = p.1
    · subst hv; simp
    · simp [hv]
  have hhess : ∀ g : Heap V T A, ((evaluateHessian bs true g v).output, (evaluateHessian bs true g v).ckpt) = ((g v).output, (g v).ckpt) := fun g =>
    foldl_keeps (fun h : Heap V T A => ((h v).output, (h v).ckpt)) _ (fun g b => blockHessian_values b true g v) _ g
  have hJ : ∀ g : Heap V T A, ((Function.update g J { g J with hess := some 0 } v).output, (Function.update g J { g J with hess := some 0 } v).ckpt) =
      ((g v).output, (g v).ckpt) := by
    intro g
    by_cases hv : v = J
    · subst hv; simp
    · simp [hv]
  unfold computeHessianOf
  have H := hhess (markAll (findRelevantNodes bs cs) true (Function.update (markAll (findRelevantNodes bs cs) false
    (evaluateTlm bs true (markAll (findRelevantNodes bs cs) true (seedTlm cs ds (resetVariables bs .hessian (resetVariables bs .tlm h)))))) J
    { markAll (findRelevantNodes bs cs) false (evaluateTlm bs true (markAll (findRelevantNodes bs cs) true (seedTlm cs ds
      (resetVariables bs .hessian (resetVariables bs .tlm h))))) J with hess := some 0 }))
  have H2 := hJ (markAll (findRelevantNodes bs cs) false
    (evaluateTlm bs true (markAll (findRelevantNodes bs cs) true (seedTlm cs ds (resetVariables bs .hessian (resetVariables bs .tlm h))))))
  have H3 := hseed (resetVariables bs .hessian (resetVariables bs .tlm h))
  simp only [Prod.mk.injEq, markAll_output, markAll_ckpt, evaluateTlm_output, evaluateTlm_ckpt, resetTlm_output, resetTlm_ckpt, resetHess_output,
    resetHess_ckpt] at H H2 H3 ⊢
  exact ⟨H.1.trans (H2.1.trans H3.1), H.2.trans (H2.2.trans H3.2)⟩

theorem map_filterMap_handles {V : Type*} (ks hs : List Nat) (f : Nat → V) :
    (ks.filterMap fun i => hs[i]?).map f = ks.filterMap fun i => (hs.map f)[i]? := by
  rw [List.map_filterMap]
  congr 1
  funext i
  rw [List.getElem?_map]

/-- The same from any state in which the objects stand for the values. -/
theorem run_of_rel [Add T] [Add A] [Zero A] (k : Kind) (mul : V → V) (bs : List (OBlock V T A)) (hb : ∀ b ∈ bs, b.Honest)
    (hscale : k.copies = true ∨ k.inplace = false ∨ ∀ x, mul x = x) :
    ∀ (l : List (Event V T A)) (own : List Bool) (s : State V T A) (t : Ideal V T A), OnlyOwn k.fresh own l →
      (k.copies = true → ∀ J cs ks, .call J cs ks ∈ l → (s.ref J).isSome = true) → Rel own s t →
      s.run k mul bs l = Ideal.run mul (bs.map OBlock.block) l t := by
  intro l
  induction l with
  | nil => intros; rfl
  | cons e l ih =>
    intro own s t hown hJ r
    have hJ' : k.copies = true → ∀ J cs ks, .call J cs ks ∈ l → (s.ref J).isSome = true := fun h J cs ks hm => hJ h J cs ks (List.mem_cons_of_mem _ hm)
    unfold State.run Ideal.run
    cases e with
    | new x => exact congrArg₂ List.cons rfl (ih _ _ _ hown hJ' (r.obtain x true))
    | modify i x =>
      refine congrArg₂ List.cons rfl (ih _ _ _ hown.2 (fun h J cs ks hm => ?_) (r.modify i x hown.1))
      show (((s.handles[i]?).elim s fun o => { s with obj := Function.update s.obj o x }).ref J).isSome = true
      cases s.handles[i]? with
      | none => exact hJ' h J cs ks hm
      | some o => exact hJ' h J cs ks hm
    | read i =>
      refine congrArg₂ List.cons ?_ (ih _ _ _ hown hJ' r)
      show Seen.value ((s.handles[i]?).map s.obj) = Seen.value t.vals[i]?
      rw [← r.vals, List.getElem?_map]
    | call J cs ks =>
      have hos : ∀ o ∈ ks.filterMap (fun i => s.handles[i]?), o < s.next := by
        intro o ho
        obtain ⟨i, -, hi⟩ := List.mem_filterMap.1 ho
        exact r.held o (List.mem_of_getElem? hi)
      obtain ⟨e1, h1⟩ := rfEval_spec k bs hb cs _ r.ok hos
      rw [map_filterMap_handles, r.vals, r.heap] at h1
      have r1 := r.ext e1 h1
      obtain ⟨r2, v2⟩ := r1.returned k mul J hscale (fun h => e1.isSome J (hJ h J cs ks List.mem_cons_self))
      refine congrArg₂ List.cons (congrArg Seen.value v2) (ih _ _ _ hown (fun h J' cs' ks' hm => ?_) r2)
      have h0 := e1.isSome J' (hJ' h J' cs' ks' hm)
      show ((State.returned k mul J _).ref J').isSome = true
      unfold State.returned
      dsimp only
      split <;> split <;> exact h0
    | derivative J cs a =>
      have hg : (s.withBase fun h => (computeGradient (bs.map OBlock.block) J cs a h).2).heap = (computeGradient (bs.map OBlock.block) J cs a t.heap).2 := by
        rw [← r.heap]
        exact heap_withBase _ _ (fun v => (gradient_values _ J cs a _ v).1) (fun v => (gradient_values _ J cs a _ v).2)
      refine congrArg₂ List.cons ?_ (ih own _ _ hown hJ' (r.ext ((Ext.refl r.ok).withBase _) hg))
      show Seen.list _ = Seen.list _
      rw [r.heap]
    | hessian J cs ds =>
      have hg : (s.withBase fun h => (computeHessianOf (bs.map OBlock.block) J cs ds h).2).heap = (computeHessianOf (bs.map OBlock.block) J cs ds t.heap).2 := by
        rw [← r.heap]
        exact heap_withBase _ _ (fun v => (hessian_values _ J cs ds _ v).1) (fun v => (hessian_values _ J cs ds _ v).2)
      refine congrArg₂ List.cons ?_ (ih own _ _ hown hJ' (r.ext ((Ext.refl r.ok).withBase _) hg))
      show Seen.list _ = Seen.list _
      rw [r.heap]

/-- Sequences of evaluations through any functionals and controls on the tape, derivatives and Hessian actions, in between which the caller makes objects,
looks at objects it holds, and changes some of them: all that is seen is as if every object held were a value of its own.  The caller may change the objects
it made itself, and, if evaluations return new objects, also those.  Provisos for types like arrays, which do not copy and whose `*=` changes the object: the
scale is 1; for types that copy: something is saved for the functionals.  Missing for such types: changes of returned objects and other scales, for which it is
false (`returned_array_is_the_tapes`, `scaling_changes_the_tape`). -/
theorem callers_values_partial [Add T] [Add A] [Zero A] (k : Kind) (mul : V → V) (bs : List (OBlock V T A)) (hb : ∀ b ∈ bs, b.Honest)
    (s : State V T A) (hs : s.Ok) (hh : s.handles = []) (l : List (Event V T A)) (hown : OnlyOwn k.fresh [] l)
    (hscale : k.copies = true ∨ k.inplace = false ∨ ∀ x, mul x = x)
    (hJ : k.copies = true → ∀ J cs ks, .call J cs ks ∈ l → (s.ref J).isSome = true) :
    s.run k mul bs l = Ideal.run mul (bs.map OBlock.block) l ⟨s.heap, []⟩ := by
  exact run_of_rel k mul bs hb hscale l [] s ⟨s.heap, []⟩ hown hJ ⟨hs, rfl, by simp [hh], by simp [hh], by simp [hh], by simp [hh]⟩

theorem onlyOwn_fresh (l : List (Event V T A)) (own : List Bool) (h : ∀ b ∈ own, b = true) : OnlyOwn true own l := by
  have happ : ∀ b ∈ own ++ [true], b = true := by
    intro b hb
    rcases List.mem_append.1 hb with hb | hb
    · exact h b hb
    · exact List.mem_singleton.1 hb
  induction l generalizing own with
  | nil => trivial
  | cons e l ih =>
    cases e with
    | new x => exact ih _ happ (by
        intro b hb
        rcases List.mem_append.1 hb with hb | hb
        · exact happ b hb
        · exact List.mem_singleton.1 hb)
    | call J cs ks => exact ih _ happ (by
        intro b hb
        rcases List.mem_append.1 hb with hb | hb
        · exact happ b hb
        · exact List.mem_singleton.1 hb)
    | modify i x => exact ⟨fun hf => absurd (h _ (List.mem_of_getElem? hf)) (by simp), ih _ h happ⟩
    | read i => exact ih _ h happ
    | derivative J cs a => exact ih _ h happ
    | hessian J cs ds => exact ih _ h happ

/-- **The caller's values are its own**, for types that copy on restoring and for types whose `*=` makes a new object: whatever the caller does to objects it
made and to objects evaluations returned, before, between and after evaluations, derivatives and Hessian actions, all that is seen is as if every object held
were a value of its own. -/
theorem callers_values [Add T] [Add A] [Zero A] (k : Kind) (mul : V → V) (bs : List (OBlock V T A)) (hb : ∀ b ∈ bs, b.Honest) (s : State V T A)
    (hs : s.Ok) (hh : s.handles = []) (l : List (Event V T A)) (hk : k.copies = true ∨ k.inplace = false)
    (hJ : k.copies = true → ∀ J cs ks, .call J cs ks ∈ l → (s.ref J).isSome = true) :
    s.run k mul bs l = Ideal.run mul (bs.map OBlock.block) l ⟨s.heap, []⟩ := by
  have hf : k.fresh = true := by
    unfold Kind.fresh
    rcases hk with h | h <;> simp [h]
  refine callers_values_partial k mul bs hb s hs hh l (hf ▸ onlyOwn_fresh l [] (by simp)) ?_ hJ
  rcases hk with h | h
  · exact Or.inl h
  · exact Or.inr (Or.inl h)

/-! ## Witnesses -/

/-- `y = x²` on integers. -/
def square (x y : BV) : OBlock Int Int Int where
  block :=
    { deps := [x], outs := [y],
      recomputeC := fun xs _ => (xs[0]?).map fun x => x * x,
      adjC := fun xs as _ => some (2 * (xs[0]?).getD 0 * ((as[0]?).join.getD 0)),
      tlmC := fun xs ts _ => some (2 * (xs[0]?).getD 0 * ((ts[0]?).join.getD 0)),
      hessC := fun xs hs as _ rel => some (2 * (xs[0]?).getD 0 * ((hs[0]?).join.getD 0) + 2 * (as[0]?).join.getD 0 * ((rel.head?).bind (·.2)).getD 0) }
  same := fun _ => none

/-- `y = x`, handing on the object: `return inputs[0]`. -/
def handOn (x y : BV) : OBlock Int Int Int where
  block :=
    { deps := [x], outs := [y],
      recomputeC := fun xs _ => xs[0]?,
      adjC := fun _ as _ => some ((as[0]?).join.getD 0),
      tlmC := fun _ ts _ => some ((ts[0]?).join.getD 0),
      hessC := fun _ hs _ _ _ => some ((hs[0]?).join.getD 0) }
  same := fun _ => some 0

theorem square_honest (x y : BV) : (square x y).Honest := fun _ _ _ _ h => absurd h (by simp [square])

theorem handOn_honest (x y : BV) : (handOn x y).Honest := by
  intro xs i j x h hx
  have : 0 = j := by simpa [handOn] using h
  subst this
  exact hx

/-- After recording, with objects `0, …, 9` for the outputs, `10, …, 19` for the checkpoints of the first ten variables. -/
def recorded : State Int Int Int where
  base := fun _ => { output := 0, adj := none, tlm := none, hess := none, ckpt := none, isControl := false, marked := false, creation := -1, lastUse := -1 }
  out := fun v => if v < 10 then v else 0
  ref := fun v => if v < 10 then some (10 + v) else none
  obj := fun _ => 1
  next := 20
  handles := []

theorem recorded_ok : recorded.Ok := by
  refine ⟨fun v o h => ?_, fun v => ?_⟩
  · simp only [recorded] at h
    split at h
    next hv =>
      have h' : 10 + (v : Nat) = o := Option.some.inj h
      have hv' : (v : Nat) < 10 := hv
      exact h' ▸ Nat.add_lt_add_left hv' 10
    next => exact absurd h (by simp)
  · simp only [recorded]
    split
    next hv =>
      have hv' : (v : Nat) < 10 := hv
      exact Nat.lt_trans hv' (by decide)
    next => exact Nat.zero_lt_succ _

/-- Arrays: `_ad_restore_at_checkpoint` returns the checkpoint, `*=` changes the array. -/
def array : Kind := ⟨false, true⟩

/-- Types that copy, such as finite element functions restored by `copy`. -/
def copying : Kind := ⟨true, true⟩

/-- `AdjFloat`. -/
def float : Kind := ⟨false, false⟩

/-- `y = x²`, `z = y²`. -/
def twoSquares : List (OBlock Int Int Int) := [square 0 1, square 1 2]

/-- Evaluate `z` and `y` at 3, set the array returned for `y` to 0, differentiate `z`. -/
def spoil : List (Event Int Int Int) := [.new 3, .call 2 [0] [0], .call 1 [0] [0], .modify 2 0, .derivative 2 [0] 1]

/-- The array an evaluation returns is the one on the tape: changing it changes later derivatives. -/
theorem returned_array_is_the_tapes :
    recorded.run array id twoSquares spoil = [.nothing, .value (some 81), .value (some 9), .nothing, .list [0]] ∧
    Ideal.run id (twoSquares.map OBlock.block) spoil ⟨recorded.heap, []⟩ = [.nothing, .value (some 81), .value (some 9), .nothing, .list [108]] := by
  decide +kernel

/-- With a scale the evaluation itself changes the array on the tape: the derivative of another functional is wrong although the caller changes nothing. -/
theorem scaling_changes_the_tape :
    recorded.run array (fun x => 2 * x) twoSquares [.new 3, .call 1 [0] [0], .derivative 2 [0] 1] = [.nothing, .value (some 18), .list [216]] ∧
    Ideal.run (fun x => 2 * x) (twoSquares.map OBlock.block) [.new 3, .call 1 [0] [0], .derivative 2 [0] 1] ⟨recorded.heap, []⟩ =
      [.nothing, .value (some 18), .list [108]] := by
  decide +kernel

/-- An array handed on by a block is scaled in place where it came from: here the control's own checkpoint, seen in the derivative of `w = x²`. -/
theorem scaling_changes_the_control :
    recorded.run array (fun x => 2 * x) [square 0 2, handOn 0 1] [.new 3, .call 1 [0] [0], .derivative 2 [0] 1] =
      [.nothing, .value (some 6), .list [12]] ∧
    Ideal.run (fun x => 2 * x) ([square 0 2, handOn 0 1].map OBlock.block) [.new 3, .call 1 [0] [0], .derivative 2 [0] 1] ⟨recorded.heap, []⟩ =
      [.nothing, .value (some 6), .list [6]] := by
  decide +kernel

-- the hypotheses hold: the caller changes what it passed, for arrays, and what was returned, for types that copy and for floats
example : recorded.run array id (twoSquares ++ [handOn 2 3]) [.new 3, .call 3 [0] [0], .modify 0 7, .read 1, .derivative 3 [0] 1, .hessian 3 [0] [1]] =
    Ideal.run id ((twoSquares ++ [handOn 2 3]).map OBlock.block)
      [.new 3, .call 3 [0] [0], .modify 0 7, .read 1, .derivative 3 [0] 1, .hessian 3 [0] [1]] ⟨recorded.heap, []⟩ :=
  callers_values_partial array id _ (by simp [twoSquares, square_honest, handOn_honest]) recorded recorded_ok rfl _ (by simp [OnlyOwn])
    (Or.inr (Or.inr fun _ => rfl)) (by simp [array])

example : Ideal.run id ((twoSquares ++ [handOn 2 3]).map OBlock.block) [.new 3, .call 3 [0] [0], .modify 0 7, .read 1, .derivative 3 [0] 1]
    ⟨recorded.heap, []⟩ = [.nothing, .value (some 81), .nothing, .value (some 81), .list [108]] := by
  decide +kernel

example : recorded.run copying (fun x => 2 * x) twoSquares (spoil ++ [.read 2]) =
    Ideal.run (fun x => 2 * x) (twoSquares.map OBlock.block) (spoil ++ [.read 2]) ⟨recorded.heap, []⟩ :=
  callers_values copying _ _ (by simp [twoSquares, square_honest]) recorded recorded_ok rfl _ (Or.inl rfl) (fun _ J cs ks h => by
    have : J = 2 ∨ J = 1 := by
      simp [spoil] at h
      rcases h with h | h
      · exact Or.inl h.1
      · exact Or.inr h.1
    rcases this with rfl | rfl <;> rfl)

example : recorded.run float (fun x => 2 * x) twoSquares (spoil ++ [.read 2]) =
    Ideal.run (fun x => 2 * x) (twoSquares.map OBlock.block) (spoil ++ [.read 2]) ⟨recorded.heap, []⟩ :=
  callers_values float _ _ (by simp [twoSquares, square_honest]) recorded recorded_ok rfl _ (Or.inr rfl) (by simp [float])

end Own
end Pyadjoint
