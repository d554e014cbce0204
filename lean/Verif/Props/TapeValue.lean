import Verif.Model.TapeValue
import Verif.Props.Ownership

/-!
# Optimisation started from the values on the tape (C78)
-/

namespace Pyadjoint
namespace Own

variable {V T A : Type*}

/-! ## Specification

What is seen is as if the vector of controls were values of its own (`Ideal`), which are at first the values of the controls on the tape. -/

/-- The checkpoints of the controls are objects of their own, as recording leaves them (`_ad_create_checkpoint` makes a copy). -/
def State.Distinct (s : State V T A) (cs : List BV) : Prop :=
  ∀ c ∈ cs, ∀ o, s.ref c = some o → (∀ w, s.ref w = some o → w = c) ∧ ∀ w, s.out w ≠ o

/-! ## Proof -/

theorem range_filterMap {α : Type*} (l : List α) : (List.range l.length).filterMap (fun i => l[i]?) = l := by
  induction l using List.reverseRecOn with
  | nil => rfl
  | append_singleton l x ih =>
    rw [List.length_append, List.length_singleton, List.range_succ, List.filterMap_append]
    congr 1
    · refine Eq.trans (List.filterMap_congr fun i hi => ?_) ih
      exact List.getElem?_append_left (List.mem_range.1 hi)
    · simp

theorem onlyOwn_reads (fresh : Bool) (own : List Bool) (l : List (Event V T A)) (h : OnlyOwn fresh own l) (n : List Nat) :
    OnlyOwn fresh own (l ++ n.map .read) := by
  induction l generalizing own with
  | nil =>
    show OnlyOwn fresh own (n.map .read)
    induction n with
    | nil => trivial
    | cons i n ih => exact ih
  | cons e l ih =>
    cases e with
    | new x => exact ih _ h
    | call J cs ks => exact ih _ h
    | modify i x => exact ⟨h.1, ih _ h.2⟩
    | read i => exact ih _ h
    | derivative J cs a => exact ih _ h
    | hessian J cs ds => exact ih _ h

/-- Some steps leave references alone or make them refer to new objects. -/
def Renews (s s' : State V T A) : Prop :=
  s.next ≤ s'.next ∧ ∀ v, s'.ref v = s.ref v ∨ ∃ o, s.next ≤ o ∧ s'.ref v = some o

theorem Renews.refl (s : State V T A) : Renews s s := ⟨Nat.le_refl _, fun _ => Or.inl rfl⟩

theorem Renews.trans {s s' s'' : State V T A} (h : Renews s s') (h' : Renews s' s'') : Renews s s'' := by
  refine ⟨Nat.le_trans h.1 h'.1, fun v => ?_⟩
  rcases h'.2 v with e | ⟨o, ho, e⟩
  · rw [e]; exact h.2 v
  · exact Or.inr ⟨o, Nat.le_trans h.1 ho, e⟩

theorem Renews.new (s : State V T A) (v : BV) (x : V) : Renews s ((s.alloc x).setRef v s.next) := by
  unfold State.setRef
  split
  · exact ⟨Nat.le_succ _, fun _ => Or.inl rfl⟩
  · refine ⟨Nat.le_succ _, fun w => ?_⟩
    by_cases h : w = v
    · subst h; exact Or.inr ⟨s.next, Nat.le_refl _, Function.update_self _ _ _⟩
    · exact Or.inl (Function.update_of_ne h _ _)

theorem setRef_base (s : State V T A) (v : BV) (o : Nat) : (s.setRef v o).base = s.base := by
  unfold State.setRef; split <;> rfl

theorem updateControls_fresh (cs : List BV) (os : List Nat) (s : State V T A) (hlen : os.length = cs.length)
    (hfl : ∀ c ∈ cs, (s.base c).isControl = false) :
    Renews s (s.updateControls cs os) ∧ ∀ c ∈ cs, ∃ o, s.next ≤ o ∧ (s.updateControls cs os).ref c = some o := by
  unfold State.updateControls
  induction cs generalizing os s with
  | nil => exact ⟨Renews.refl s, fun _ h => by cases h⟩
  | cons c cs ih =>
    cases os with
    | nil => cases hlen
    | cons o os =>
      have hb : ((s.alloc (s.obj o)).setRef c s.next).base = s.base := setRef_base _ _ _
      obtain ⟨h1, h2⟩ := ih os ((s.alloc (s.obj o)).setRef c s.next) (by simpa using hlen)
        (fun c' hc' => by rw [hb]; exact hfl c' (List.mem_cons_of_mem _ hc'))
      have h0 := Renews.new s c (s.obj o)
      refine ⟨h0.trans h1, fun c' hc' => ?_⟩
      rcases List.mem_cons.1 hc' with rfl | hc'
      · have e : ((s.alloc (s.obj o)).setRef c' s.next).ref c' = some s.next := by
          unfold State.setRef
          rw [if_neg (by
            show ¬ (s.base c').isControl = true
            rw [hfl c' List.mem_cons_self]; simp)]
          exact Function.update_self _ _ _
        rcases h1.2 c' with h | ⟨q, hq, h⟩
        · exact ⟨s.next, Nat.le_refl _, h.trans e⟩
        · exact ⟨q, Nat.le_trans h0.1 hq, h⟩
      · obtain ⟨q, hq, e⟩ := h2 c' hc'
        exact ⟨q, Nat.le_trans h0.1 hq, e⟩

/-- After an evaluation nothing refers to an object that only a control referred to. -/
theorem rfEval_forgets (k : Kind) (bs : List (OBlock V T A)) (hb : ∀ b ∈ bs, b.Honest) (cs : List BV) (os : List Nat) (s : State V T A) (hok : s.Ok)
    (hos : ∀ o ∈ os, o < s.next) (hlen : os.length = cs.length) (hfl : ∀ c ∈ cs, (s.base c).isControl = false) (o : Nat) (ho : o < s.next)
    (hr : ∀ v, s.ref v = some o → v ∈ cs) (hout : ∀ v, s.out v ≠ o) (v : BV) : (s.rfEval k bs cs os).ref v ≠ some o := by
  obtain ⟨e1, -⟩ := updateControls_spec cs os hok hos
  obtain ⟨h1, h2⟩ := updateControls_fresh cs os s hlen hfl
  have h3 : ∀ w, (s.updateControls cs os).ref w ≠ some o := by
    intro w hw
    have : ¬ ∃ q, s.next ≤ q ∧ (s.updateControls cs os).ref w = some q := by
      rintro ⟨q, hq, e⟩
      rw [hw] at e
      exact absurd ho (by rw [Option.some.inj e]; exact Nat.not_lt.2 hq)
    rcases h1.2 w with h | h
    · exact this (h2 w (hr w (h.symm.trans hw)))
    · exact this h
  have hok1 := e1.ok hok
  have H : ∀ (l : List (OBlock V T A)) (r : State V T A), (∀ b ∈ l, b.Honest) → Ext (s.updateControls cs os) r →
      Ext (s.updateControls cs os) (l.foldl (fun s b => b.recompute k s) r) := by
    intro l
    induction l with
    | nil => exact fun r _ e => e
    | cons b l ih =>
      exact fun r hl e => ih _ (fun c hc => hl c (List.mem_cons_of_mem _ hc)) (e.trans (recompute_spec k b (hl b List.mem_cons_self) (e.ok hok1)).1)
  have e2 : Ext (s.updateControls cs os) (s.rfEval k bs cs os) := (H bs _ hb ((Ext.refl hok1).withBase _)).withBase _
  intro hv
  rcases e2.prov v o hv with h | ⟨w, h⟩ | ⟨w, h⟩
  · exact absurd (lt_of_lt_of_le ho e1.next) (Nat.not_lt.2 h)
  · exact h3 w h
  · exact hout w (by rw [← e1.out]; exact h)

/-- The vector of a type that does not copy: the objects of the tape. -/
theorem tapeValues_shared (k : Kind) (hk : k.copies = false) (cs : List BV) (s : State V T A) :
    s.tapeValues k cs = { s with handles := s.handles ++ cs.map s.savedObj } := by
  unfold State.tapeValues
  induction cs generalizing s with
  | nil => simp
  | cons c cs ih =>
    rw [List.foldl_cons, ih]
    have e : s.tapeValue k c = { s with handles := s.handles ++ [s.savedObj c] } := by
      unfold State.tapeValue
      rw [if_neg (by simp [hk])]
    rw [e]
    have e' : ({ s with handles := s.handles ++ [s.savedObj c] } : State V T A).savedObj = s.savedObj := rfl
    rw [e']
    simp

/-- The vector of a type that copies: objects of its own. -/
theorem tapeValues_copied (k : Kind) (hk : k.copies = true) (cs : List BV) {own : List Bool} {s : State V T A} {t : Ideal V T A} (r : Rel own s t)
    (hsv : ∀ c ∈ cs, (s.ref c).isSome = true) :
    Rel (own ++ List.replicate cs.length true) (s.tapeValues k cs) { t with vals := t.vals ++ cs.map (saved t.heap) } ∧
    (s.tapeValues k cs).ref = s.ref := by
  unfold State.tapeValues
  induction cs generalizing own s t with
  | nil => simpa using r
  | cons c cs ih =>
    rw [List.foldl_cons]
    have hx : saved t.heap c = s.obj (s.savedObj c) := by rw [← r.heap, saved_heap]
    have e : s.tapeValue k c = { s.alloc (saved t.heap c) with handles := s.handles ++ [s.next] } := by
      unfold State.tapeValue
      rw [if_pos ⟨hk, hsv c List.mem_cons_self⟩, hx]
    have r' := r.obtain (saved t.heap c) true
    rw [← e] at r'
    have er : (s.tapeValue k c).ref = s.ref := by rw [e]; rfl
    obtain ⟨h1, h2⟩ := ih r' (fun c' hc' => by rw [er]; exact hsv c' (List.mem_cons_of_mem _ hc'))
    refine ⟨?_, h2.trans er⟩
    have e1 : own ++ List.replicate (c :: cs).length true = own ++ [true] ++ List.replicate cs.length true := by
      rw [List.length_cons, List.replicate_succ]; simp
    have e2 : t.vals ++ (c :: cs).map (saved t.heap) = t.vals ++ [saved t.heap c] ++ cs.map (saved t.heap) := by simp
    rw [e1, e2]
    exact h1

/-! ## Theorems -/

/-- A type that copies on restoring: whatever ROL does, what it and the caller see is what they would see if the vector were its own, starting at the
values on the tape. -/
theorem rol_vector_copied [Add T] [Add A] [Zero A] (k : Kind) (hk : k.copies = true) (mul : V → V) (bs : List (OBlock V T A))
    (hb : ∀ b ∈ bs, b.Honest) (s : State V T A) (hok : s.Ok) (hh : s.handles = []) (J : BV) (cs : List BV) (rest : List (Event V T A))
    (hcs : ∀ c ∈ cs, (s.ref c).isSome = true) (hJ : ∀ J' cs' ks, .call J' cs' ks ∈ solveEvents J cs rest → (s.ref J').isSome = true) :
    s.rolSolve k mul bs J cs rest =
      Ideal.run mul (bs.map OBlock.block) (solveEvents J cs rest) ⟨s.heap, cs.map (saved s.heap)⟩ := by
  have r0 : Rel [] s ⟨s.heap, []⟩ :=
    { ok := hok
      heap := rfl
      vals := by rw [hh]; rfl
      held := fun o ho => by rw [hh] at ho; cases ho
      len := by rw [hh]; rfl
      sep := fun i o hi => by rw [hh] at hi; simp at hi }
  obtain ⟨r1, hr⟩ := tapeValues_copied k hk cs r0 hcs
  have hf : k.fresh = true := by simp [Kind.fresh, hk]
  refine (run_of_rel k mul bs hb (Or.inl hk) _ _ _ _ ?_ (fun _ J' cs' ks h => by rw [hr]; exact hJ J' cs' ks h) r1).trans ?_
  · rw [hf]
    exact onlyOwn_fresh _ _ (by simp)
  · simp

/-- A type that does not copy, such as NumPy arrays: the same, if the checkpoints of the controls are objects of their own, and as far as ROL
changes nothing but its vector and values that are its own.  The vector consists of the checkpoints on the tape until the first evaluation, which
replaces them on the tape.  Missing:
changes of the vector before that evaluation, another vector started from the same tape (`vector_changed_before_the_first_evaluation`,
`two_vectors_of_one_tape`). -/
theorem rol_vector_partial [Add T] [Add A] [Zero A] (k : Kind) (hk : k.copies = false) (mul : V → V) (bs : List (OBlock V T A))
    (hb : ∀ b ∈ bs, b.Honest) (hscale : k.inplace = false ∨ ∀ x, mul x = x)
    (s : State V T A) (hok : s.Ok) (hh : s.handles = []) (J : BV) (cs : List BV) (hnd : cs.Nodup) (hd : s.Distinct cs)
    (hcs : ∀ c ∈ cs, (s.ref c).isSome = true) (hfl : ∀ c ∈ cs, (s.base c).isControl = false)
    (rest : List (Event V T A)) (hown : OnlyOwn k.fresh (List.replicate cs.length true ++ [k.fresh]) rest) :
    s.rolSolve k mul bs J cs rest =
      Ideal.run mul (bs.map OBlock.block) (solveEvents J cs rest) ⟨s.heap, cs.map (saved s.heap)⟩ := by
  unfold State.rolSolve
  rw [tapeValues_shared k hk, hh, List.nil_append]
  have hlt : ∀ o ∈ cs.map s.savedObj, o < s.next := by
    intro o ho
    obtain ⟨c, hc, rfl⟩ := List.mem_map.1 ho
    rcases savedObj_prov s c with ⟨w, h⟩ | ⟨w, h⟩
    · exact hok.1 w _ h
    · exact h ▸ hok.2 w
  have hsv : ∀ c ∈ cs, s.ref c = some (s.savedObj c) := by
    intro c hc
    obtain ⟨o, ho⟩ := Option.isSome_iff_exists.1 (hcs c hc)
    unfold State.savedObj
    rw [ho]; rfl
  have r0 : Rel (List.replicate cs.length false) { s with handles := cs.map s.savedObj } ⟨s.heap, cs.map (saved s.heap)⟩ :=
    { ok := hok
      heap := rfl
      vals := by
        show (cs.map s.savedObj).map s.obj = cs.map (saved s.heap)
        rw [List.map_map]
        exact List.map_congr_left fun c _ => (saved_heap s c).symm
      held := hlt
      len := by simp
      sep := fun i o _ h => by
        rw [List.getElem?_replicate] at h
        split at h <;> simp at h }
  have hos : (List.range cs.length).filterMap (fun i => (cs.map s.savedObj)[i]?) = cs.map s.savedObj := by
    have := range_filterMap (cs.map s.savedObj)
    rwa [List.length_map] at this
  have hvs : (List.range cs.length).filterMap (fun i => (cs.map (saved s.heap))[i]?) = cs.map (saved s.heap) := by
    have := range_filterMap (cs.map (saved s.heap))
    rwa [List.length_map] at this
  obtain ⟨e1, h1⟩ := rfEval_spec k bs hb cs (cs.map s.savedObj) r0.ok hlt
  have hv0 : (cs.map s.savedObj).map s.obj = cs.map (saved s.heap) := r0.vals
  have r1 := r0.ext e1 h1
  have hnew : ∀ c ∈ cs, ∀ v, (({ s with handles := cs.map s.savedObj } : State V T A).rfEval k bs cs (cs.map s.savedObj)).ref v ≠
      some (s.savedObj c) := fun c hc =>
    rfEval_forgets k bs hb cs _ { s with handles := cs.map s.savedObj } hok hlt (by simp) hfl _ (hlt _ (List.mem_map_of_mem hc))
      (fun v hv => ((hd c hc _ (hsv c hc)).1 v hv) ▸ hc) (hd c hc _ (hsv c hc)).2
  generalize hs' : ({ s with handles := cs.map s.savedObj } : State V T A).rfEval k bs cs (cs.map s.savedObj) = s' at e1 h1 r1 hnew
  have hhs : s'.handles = cs.map s.savedObj := e1.handles
  have r2 : Rel (List.replicate cs.length true) s'
      ⟨Pyadjoint.rfEval (bs.map OBlock.block) cs (cs.map (saved s.heap)) s.heap, cs.map (saved s.heap)⟩ :=
    { ok := r1.ok
      heap := by rw [h1, ← hv0]; rfl
      vals := r1.vals
      held := r1.held
      len := by rw [hhs]; simp
      sep := fun i o hi _ => by
        rw [hhs] at hi ⊢
        rw [List.getElem?_map, Option.map_eq_some_iff] at hi
        obtain ⟨c, hc, rfl⟩ := hi
        have hcm := List.mem_of_getElem? hc
        refine ⟨hnew c hcm, fun v hv => ?_, fun j hj => ?_⟩
        · rw [e1.out] at hv
          exact (hd c hcm _ (hsv c hcm)).2 v hv
        · rw [List.getElem?_map, Option.map_eq_some_iff] at hj
          obtain ⟨c', hc', e⟩ := hj
          have : c' = c := (hd c hcm _ (hsv c hcm)).1 c' ((hsv c' (List.mem_of_getElem? hc')).trans (congrArg some e))
          subst this
          obtain ⟨hi', hie⟩ := List.getElem?_eq_some_iff.1 hc
          obtain ⟨hj', hje⟩ := List.getElem?_eq_some_iff.1 hc'
          exact (List.Nodup.getElem_inj_iff hnd).1 (hje.trans hie.symm) }
  have hsc : k.copies = true ∨ k.inplace = false ∨ ∀ x, mul x = x := Or.inr hscale
  obtain ⟨r3, v3⟩ := r2.returned k mul J hsc (fun h => by rw [hk] at h; cases h)
  have hl := run_of_rel k mul bs hb hsc (rest ++ (List.range cs.length).map .read) _ _ _ (onlyOwn_reads _ _ _ hown _)
    (fun h => by rw [hk] at h; cases h) r3
  have es : ({ s with handles := cs.map s.savedObj } : State V T A).step k mul bs (.call J cs (List.range cs.length)) =
      (.value (((s'.returned k mul J).handles.getLast?).map (s'.returned k mul J).obj), s'.returned k mul J) := by
    rw [← hs']
    unfold State.step
    dsimp only
    rw [hos]
  have ei : (⟨s.heap, cs.map (saved s.heap)⟩ : Ideal V T A).step mul (bs.map OBlock.block) (.call J cs (List.range cs.length)) =
      (.value (some (mul (saved (Pyadjoint.rfEval (bs.map OBlock.block) cs (cs.map (saved s.heap)) s.heap) J))),
        ⟨Pyadjoint.rfEval (bs.map OBlock.block) cs (cs.map (saved s.heap)) s.heap,
          cs.map (saved s.heap) ++ [mul (saved (Pyadjoint.rfEval (bs.map OBlock.block) cs (cs.map (saved s.heap)) s.heap) J)]⟩) := by
    unfold Ideal.step
    dsimp only
    rw [hvs]
  show State.run k mul bs (.call J cs (List.range cs.length) :: (rest ++ (List.range cs.length).map .read)) _ =
    Ideal.run mul _ (.call J cs (List.range cs.length) :: (rest ++ (List.range cs.length).map .read)) _
  unfold State.run Ideal.run
  rw [es, ei]
  exact congrArg₂ List.cons (congrArg Seen.value v3) hl

/-! ## Witnesses and examples -/

/-- Until the first evaluation the vector is the tape: setting it changes the derivative at the recorded values. -/
theorem vector_changed_before_the_first_evaluation :
    (recorded.tapeValues array [0]).run array id twoSquares [.modify 0 5, .derivative 2 [0] 1] = [.nothing, .list [20]] ∧
    Ideal.run id (twoSquares.map OBlock.block) [.modify 0 5, .derivative 2 [0] 1] ⟨recorded.heap, [1]⟩ = [.nothing, .list [4]] := by
  decide +kernel

/-- Two vectors started from one tape are one vector: what the first solver does changes where the second starts. -/
theorem two_vectors_of_one_tape :
    ((recorded.tapeValues array [0]).tapeValues array [0]).run array id twoSquares [.call 2 [0] [0], .modify 0 3, .call 2 [0] [1]] =
      [.value (some 1), .nothing, .value (some 81)] ∧
    Ideal.run id (twoSquares.map OBlock.block) [.call 2 [0] [0], .modify 0 3, .call 2 [0] [1]] ⟨recorded.heap, [1, 1]⟩ =
      [.value (some 1), .nothing, .value (some 1)] := by
  decide +kernel

theorem recorded_distinct : recorded.Distinct [0] := by
  intro c hc o ho
  rw [List.mem_singleton.1 hc] at ho ⊢
  have ho' : o = 10 := (Option.some.inj ho).symm
  subst ho'
  refine ⟨fun w hw => ?_, fun w => ?_⟩
  · simp only [recorded] at hw
    split at hw
    next h =>
      have h' : 10 + (w : Nat) = 10 := Option.some.inj hw
      exact Nat.add_left_cancel (h'.trans (Nat.add_zero 10).symm)
    next => simp at hw
  · simp only [recorded]
    split
    next h => exact Nat.ne_of_lt h
    next => decide

/-- ROL sets the vector to 3, evaluates, differentiates, sets it to 2 and stops; a block hands on its input. -/
example : recorded.rolSolve array id (twoSquares ++ [handOn 2 3]) 3 [0] [.modify 0 3, .call 3 [0] [0], .derivative 3 [0] 1, .modify 0 2] =
    Ideal.run id ((twoSquares ++ [handOn 2 3]).map OBlock.block) (solveEvents 3 [0] [.modify 0 3, .call 3 [0] [0], .derivative 3 [0] 1, .modify 0 2])
      ⟨recorded.heap, [0].map (saved recorded.heap)⟩ :=
  rol_vector_partial array rfl id _ (by simp [twoSquares, square_honest, handOn_honest]) (Or.inr fun _ => rfl) recorded recorded_ok rfl
    3 [0] (by simp) recorded_distinct (by simp [recorded]) (by simp [recorded]) _ (by simp [OnlyOwn])

example : recorded.rolSolve array id (twoSquares ++ [handOn 2 3]) 3 [0] [.modify 0 3, .call 3 [0] [0], .derivative 3 [0] 1, .modify 0 2] =
    [.value (some 1), .nothing, .value (some 81), .list [108], .nothing, .value (some 2)] := by
  decide +kernel

example : recorded.rolSolve copying id twoSquares 2 [0] [.modify 0 3, .modify 1 8, .derivative 2 [0] 1] =
    Ideal.run id (twoSquares.map OBlock.block) (solveEvents 2 [0] [.modify 0 3, .modify 1 8, .derivative 2 [0] 1])
      ⟨recorded.heap, [0].map (saved recorded.heap)⟩ :=
  rol_vector_copied copying rfl id _ (by simp [twoSquares, square_honest]) recorded recorded_ok rfl 2 [0] _ (by simp [recorded])
    (fun J' cs' ks h => by
      have : J' = 2 := by
        simp [solveEvents] at h
        exact h.1
      subst this; rfl)

end Own
end Pyadjoint
