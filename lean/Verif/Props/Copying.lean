import Verif.Model.Copying
import Mathlib.Data.List.Basic

/-!
# Copies of tapes, controls and reduced functionals (C74)
-/

namespace Pyadjoint
namespace Copying

/-! ## Attribute lookup through `__getattr__` -/

/-- While the attribute that `__getattr__` forwards to is missing, looking up anything the class does not define ends in `RecursionError`,
whatever the recursion limit. -/
theorem bare_lookup_recurses (σ : Nat → PyObject) (o : Nat) (d : String) (hf : (σ o).cls.forward = some d) (hd : (σ o).dict d = none)
    (hc : (σ o).cls.attrs d = false) (n : Nat) (name : String) (hn : (σ o).dict name = none) (hcn : (σ o).cls.attrs name = false) :
    getAttr σ n o name = .error .recursionError := by
  have key : ∀ n, getAttr σ n o d = .error .recursionError := by
    intro n
    induction n with
    | zero => rfl
    | succ n ih => simp [getAttr, hd, hc, hf, ih]
  cases n with
  | zero => rfl
  | succ n => simp [getAttr, hn, hcn, hf, key n]

/-- Once the attribute is there, every name resolves: the object's own attribute, its class's, or else exactly what the other object gives. -/
theorem forwarded_lookup (σ : Nat → PyObject) (o c : Nat) (d : String) (hf : (σ o).cls.forward = some d) (hd : (σ o).dict d = some c)
    (n : Nat) (name : String) :
    getAttr σ (n + 2) o name =
      if ((σ o).dict name).isSome then .ok (.value (((σ o).dict name).getD 0))
      else if (σ o).cls.attrs name then .ok (.bound o)
      else getAttr σ (n + 1) c name := by
  cases hv : (σ o).dict name with
  | some v => simp [getAttr, hv]
  | none =>
    by_cases hc : (σ o).cls.attrs name = true
    · simp [getAttr, hv, hc]
    · have e : getAttr σ (n + 1) o d = .ok (.value c) := by simp [getAttr, hd]
      rw [getAttr]
      simp [hv, hc, hf, e]

/-- Copying (or unpickling) an object whose class forwards missing attributes raises `RecursionError`, whatever the recursion limit, however the
attributes are copied, and whatever the object holds. -/
theorem forwarding_copy_raises (limit : Nat) (σ : Nat → PyObject) (κ : Nat → Nat) (x new : Nat) (d : String) (hf : (σ x).cls.forward = some d)
    (hd : (σ x).cls.attrs d = false) (hs : (σ x).cls.attrs "__setstate__" = false) :
    reconstruct limit σ κ x new = .error .recursionError := by
  have e := bare_lookup_recurses (Function.update σ new { cls := (σ x).cls, dict := fun _ => none }) new d (by simpa using hf) (by simp)
    (by simpa using hd) limit "__setstate__" (by simp) (by simpa using hs)
  rw [reconstruct, e]

/-- `copy.copy(control)` and `pickle.loads(pickle.dumps(control))` raise `RecursionError` for every control. -/
theorem control_copy_raises (limit : Nat) (σ : Nat → PyObject) (κ : Nat → Nat) (x new : Nat) (hx : (σ x).cls = controlClass) :
    reconstruct limit σ κ x new = .error .recursionError :=
  forwarding_copy_raises limit σ κ x new "control" (by rw [hx]; rfl) (by rw [hx]; decide) (by rw [hx]; decide)

/-- The same for every `ReducedFunctionalNumPy`. -/
theorem numpy_copy_raises (limit : Nat) (σ : Nat → PyObject) (κ : Nat → Nat) (x new : Nat) (hx : (σ x).cls = numpyClass) :
    reconstruct limit σ κ x new = .error .recursionError :=
  forwarding_copy_raises limit σ κ x new "rf" (by rw [hx]; rfl) (by rw [hx]; decide) (by rw [hx]; decide)

/-- `copy.deepcopy(control)` for a control of a type that defines `__deepcopy__` (numpy arrays do) returns what that method makes of the array: a
copy of the array, not a control. -/
theorem control_deepcopy_of_array (limit : Nat) (hl : 2 ≤ limit) (σ : Nat → PyObject) (κ : Nat → Nat) (x c new : Nat) (hx : (σ x).cls = controlClass)
    (hc : (σ x).dict "control" = some c) (hx' : (σ x).dict "__deepcopy__" = none) (hd : (σ c).cls.attrs "__deepcopy__" = true)
    (hd' : (σ c).dict "__deepcopy__" = none) : deepcopy limit σ κ x new = .ok (.madeBy c) := by
  obtain ⟨n, rfl⟩ : ∃ n, limit = n + 2 := ⟨limit - 2, by omega⟩
  have e := forwarded_lookup σ x c "control" (by rw [hx]; rfl) hc n "__deepcopy__"
  have h1 : (σ x).cls.attrs "__deepcopy__" = false := by rw [hx]; decide
  have e2 : getAttr σ (n + 1) c "__deepcopy__" = .ok (.bound c) := by simp [getAttr, hd, hd']
  rw [hx', h1, e2] at e
  rw [deepcopy, e]
  rfl

/-- `copy.deepcopy` never gives a new control: for every control, whatever it is a control of and whatever the recursion limit. -/
theorem control_never_deepcopied (limit : Nat) (σ : Nat → PyObject) (κ : Nat → Nat) (x new : Nat) (hx : (σ x).cls = controlClass)
    (σ' : Nat → PyObject) (y : Nat) : deepcopy limit σ κ x new ≠ .ok (.object σ' y) := by
  rw [deepcopy]
  cases hg : getAttr σ limit x "__deepcopy__" with
  | error e =>
    cases e with
    | recursionError => simp
    | attributeError => simp [control_copy_raises limit σ κ x new hx]
  | ok f => cases f <;> simp

/-- For objects of a class without `__getattr__` (blocks, block variables, tapes, `ReducedFunctional` itself) the copy is a new object with the
copies of the attributes, and the other objects stay as they are. -/
theorem plain_copy (limit : Nat) (hl : 0 < limit) (σ : Nat → PyObject) (κ : Nat → Nat) (x new : Nat) (hf : (σ x).cls.forward = none) :
    ∃ σ', reconstruct limit σ κ x new = .ok (.object σ' new) ∧ (∀ o, o ≠ new → σ' o = σ o) ∧ (σ' new).cls = (σ x).cls ∧
      ∀ n name, getAttr σ' n new name = (match getAttr σ n x name with
        | .ok (.value v) => .ok (.value (κ v))
        | .ok (.bound _) => .ok (.bound new)
        | .error e => .error e) := by
  obtain ⟨n, rfl⟩ : ∃ n, limit = n + 1 := ⟨limit - 1, by omega⟩
  refine ⟨withState σ κ x new, ?_, fun o ho => by simp [withState, ho], by simp [withState], ?_⟩
  · rw [reconstruct]
    by_cases hs : (σ x).cls.attrs "__setstate__" = true
    · simp [getAttr, hs]
    · simp [getAttr, hs, hf]
  · intro n name
    cases n with
    | zero => rfl
    | succ n =>
      cases hv : (σ x).dict name with
      | some v => simp [getAttr, withState, hv]
      | none => by_cases ha : (σ x).cls.attrs name = true <;> simp [getAttr, withState, hv, ha, hf]

/-! ## Copying a tape -/

variable {β : Type*}

theorem appendLast_eq (l : List (List β)) (s : List β) (b : β) : appendLast (l ++ [s]) b = l ++ [s ++ [b]] := by
  induction l with
  | nil => rfl
  | cons t l ih =>
    cases hl : l ++ [s] with
    | nil => simp at hl
    | cons u l' =>
      show appendLast (t :: (l ++ [s])) b = _
      rw [hl, appendLast, ← hl, ih]; rfl

theorem append_foldl (bs : List β) (l : List (List β)) (s f : List β) :
    bs.foldl Seq.append ⟨l ++ [s], f⟩ = ⟨l ++ [s ++ bs], f ++ bs⟩ := by
  induction bs generalizing s f with
  | nil => simp
  | cons b bs ih =>
    have e : Seq.append ⟨l ++ [s], f⟩ b = ⟨l ++ [s ++ [b]], f ++ [b]⟩ := by simp [Seq.append, appendLast_eq]
    rw [List.foldl_cons, e, ih]; simp

theorem append_foldl_nil (bs : List β) (f : List β) (h : bs ≠ []) : bs.foldl Seq.append ⟨[], f⟩ = ⟨[bs], f ++ bs⟩ := by
  cases bs with
  | nil => exact absurd rfl h
  | cons b bs =>
    have e : Seq.append (⟨[], f⟩ : Seq β) b = ⟨[] ++ [[b]], f ++ [b]⟩ := by simp [Seq.append, appendLast]
    rw [List.foldl_cons, e, append_foldl]; simp

/-- On a recorded tape the blocks of the timesteps in order are the blocks of the tape. -/
theorem record_flat (l : List (Option β)) : (Seq.record l).flat = (Seq.record l).steps.flatten := by
  suffices h : ∀ (l : List (Option β)) (q : Seq β), q.flat = q.steps.flatten →
      (l.foldl (fun q o => match o with | some b => q.append b | none => q.appendStep) q).flat =
      (l.foldl (fun q o => match o with | some b => q.append b | none => q.appendStep) q).steps.flatten from h l ⟨[], []⟩ rfl
  intro l
  induction l with
  | nil => exact fun q h => h
  | cons o l ih =>
    intro q hq
    rw [List.foldl_cons]
    refine ih _ ?_
    cases o with
    | none => simp [Seq.appendStep, hq]
    | some b =>
      rcases List.eq_nil_or_concat q.steps with h | ⟨L, s, h⟩
      · simp [Seq.append, h, appendLast, hq]
      · simp only [List.concat_eq_append] at h
        simp [Seq.append, h, hq, appendLast_eq]

/-- The blocks recorded before the next `end_timestep`, before the one after that, and so on. -/
def groups : List (Option β) → List (List β)
  | [] => [[]]
  | none :: l => [] :: groups l
  | some b :: l => (b :: (groups l).headD []) :: (groups l).tail

/-- The timesteps of a recording.  `end_timestep` on an empty tape opens the first one. -/
def timestepsOf : List (Option β) → List (List β)
  | [] => []
  | none :: l => groups l
  | some b :: l => groups (some b :: l)

theorem groups_ne (l : List (Option β)) : groups l ≠ [] := by
  cases l with
  | nil => simp [groups]
  | cons o l => cases o <;> simp [groups]

/-- Each block is recorded in the timestep that was open. -/
theorem record_timesteps (l : List (Option β)) : (Seq.record l).steps = timestepsOf l := by
  have key : ∀ (l : List (Option β)) (q : Seq β) (L : List (List β)) (s : List β), q.steps = L ++ [s] →
      (l.foldl (fun q o => match o with | some b => q.append b | none => q.appendStep) q).steps =
        L ++ (s ++ (groups l).headD []) :: (groups l).tail := by
    intro l
    induction l with
    | nil => intro q L s h; simp [groups, h]
    | cons o l ih =>
      intro q L s h
      rw [List.foldl_cons]
      cases o with
      | none =>
        rw [ih (q.appendStep) (L ++ [s]) [] (by simp [Seq.appendStep, h])]
        have : (groups l).headD [] :: (groups l).tail = groups l := by
          cases hg : groups l with
          | nil => exact absurd hg (groups_ne l)
          | cons a r => rfl
        simp only [groups, List.append_assoc, List.cons_append, List.nil_append, List.headD_cons, List.tail_cons, List.append_nil, this]
      | some b =>
        rw [ih (q.append b) L (s ++ [b]) (by simp [Seq.append, h, appendLast_eq])]
        simp [groups]
  have hg : ∀ l : List (Option β), ((groups l).headD [] :: (groups l).tail) = groups l := by
    intro l
    cases hg : groups l with
    | nil => exact absurd hg (groups_ne l)
    | cons a r => rfl
  cases l with
  | nil => rfl
  | cons o l =>
    unfold Seq.record
    rw [List.foldl_cons]
    cases o with
    | none =>
      exact (key l _ [] [] rfl).trans (hg l)
    | some b =>
      exact key l _ [] [b] rfl

example : timestepsOf [some 1, none, some 2, some 3, none] = [[1], [2, 3], []] ∧ timestepsOf [none, some 2, none, some 3] = [[2], [3]] := ⟨rfl, rfl⟩

/-- The list of blocks of a deep copy is right. -/
theorem deepcopy_blocks (κ : β → β) (q : Seq β) : (q.deepcopy κ).flat = q.flat.map κ := by
  rw [Seq.deepcopy]
  rcases List.eq_nil_or_concat q.steps with h | ⟨L, s, h⟩
  · by_cases hf : q.flat.map κ = []
    · rw [hf]; rfl
    · rw [h]; show ((q.flat.map κ).foldl Seq.append ⟨[], []⟩).flat = _
      rw [append_foldl_nil _ _ hf]; simp
  · simp only [List.concat_eq_append] at h
    rw [h, List.map_append]
    show ((q.flat.map κ).foldl Seq.append ⟨L.map (List.map κ) ++ [s.map κ], []⟩).flat = _
    rw [append_foldl]; simp

/-- The timesteps of a deep copy: the last one has all blocks of the tape appended to it. -/
theorem deepcopy_timesteps (κ : β → β) (q : Seq β) (L : List (List β)) (s : List β) (h : q.steps = L ++ [s]) :
    (q.deepcopy κ).steps = L.map (List.map κ) ++ [s.map κ ++ q.flat.map κ] := by
  rw [Seq.deepcopy, h, List.map_append]
  show ((q.flat.map κ).foldl Seq.append ⟨L.map (List.map κ) ++ [s.map κ], []⟩).steps = _
  rw [append_foldl]

/-- A deep copy of a recorded tape has the timesteps of the original exactly if nothing was recorded. -/
theorem deepcopy_timesteps_iff (κ : β → β) (l : List (Option β)) :
    ((Seq.record l).deepcopy κ).steps = (Seq.record l).steps.map (List.map κ) ↔ (Seq.record l).flat = [] := by
  have hc := record_flat l
  rcases List.eq_nil_or_concat (Seq.record l).steps with h | ⟨L, s, h⟩
  · have hf : (Seq.record l).flat = [] := by rw [hc, h]; rfl
    simp [Seq.deepcopy, h, hf]
  · simp only [List.concat_eq_append] at h
    rw [deepcopy_timesteps κ _ L s h, h]
    simp

/-- `Tape.copy()` of a deep copy has every block of the tape twice. -/
theorem copy_of_deepcopy_doubles (κ : β → β) (l : List (Option β)) :
    ((Seq.record l).deepcopy κ).copy.flat = (Seq.record l).flat.map κ ++ (Seq.record l).flat.map κ := by
  have hc := record_flat l
  rcases List.eq_nil_or_concat (Seq.record l).steps with h | ⟨L, s, h⟩
  · have hf : (Seq.record l).flat = [] := by rw [hc, h]; rfl
    simp [Seq.deepcopy, Seq.copy, h, hf]
  · simp only [List.concat_eq_append] at h
    have e : (Seq.record l).flat.map κ = (L.map (List.map κ)).flatten ++ s.map κ := by rw [hc, h]; simp [List.map_flatten]
    show ((Seq.record l).deepcopy κ).steps.flatten = _
    rw [deepcopy_timesteps κ _ L s h, List.flatten_append, List.flatten_singleton, ← List.append_assoc, ← e]

/-- Unpickling a pickled tape gives back blocks and timesteps, and `Tape.copy()` of it is right too. -/
theorem unpickled_tape (κ : β → β) (l : List (Option β)) :
    ((Seq.record l).unpickle κ).flat = (Seq.record l).flat.map κ ∧ ((Seq.record l).unpickle κ).steps = (Seq.record l).steps.map (List.map κ) ∧
    ((Seq.record l).unpickle κ).copy.flat = (Seq.record l).flat.map κ := by
  refine ⟨rfl, rfl, ?_⟩
  show ((Seq.record l).steps.map (List.map κ)).flatten = _
  rw [record_flat l, List.map_flatten]

/-! ## The copied blocks behave like the originals and apart from them -/

variable {V T A : Type*}

/-- The variables satisfying `P` have been copied to `ρ`: in the heap `h'` the copies hold what the originals hold in `h`; and `h'` agrees with `k`
on the variables that are not copies. -/
structure CopyOf (P : BV → Prop) (ρ : BV → BV) (k h h' : Heap V T A) : Prop where
  copies : ∀ v, P v → h' (ρ v) = h v
  others : ∀ u, (∀ v, P v → ρ v ≠ u) → h' u = k u

/-- `ρ` takes different variables to different copies. -/
def InjOn (P : BV → Prop) (ρ : BV → BV) : Prop := ∀ a b, P a → P b → ρ a = ρ b → a = b

/-- All variables of the block were copied. -/
def Within (P : BV → Prop) (b : Block V T A) : Prop := (∀ d ∈ b.deps, P d) ∧ ∀ o ∈ b.outs, P o

section
variable {P : BV → Prop} {ρ : BV → BV} {k h h' : Heap V T A}

theorem CopyOf.update (hρ : InjOn P ρ) (s : CopyOf P ρ k h h') {v : BV} (hv : P v) (x : Var V T A) :
    CopyOf P ρ k (Function.update h v x) (Function.update h' (ρ v) x) := by
  refine ⟨fun w hw => ?_, fun u hu => ?_⟩
  · by_cases e : w = v
    · subst e; simp
    · rw [Function.update_of_ne e, Function.update_of_ne (fun e' => e (hρ _ _ hw hv e')), s.copies w hw]
  · rw [Function.update_of_ne (fun e => hu v hv e.symm), s.others u hu]

theorem CopyOf.foldl {α α' : Type*} (r : α → α') (Q : α → Prop) (f : Heap V T A → α → Heap V T A) (f' : Heap V T A → α' → Heap V T A)
    (step : ∀ h h' a, Q a → CopyOf P ρ k h h' → CopyOf P ρ k (f h a) (f' h' (r a))) (l : List α) (hl : ∀ a ∈ l, Q a) {h h' : Heap V T A}
    (s : CopyOf P ρ k h h') : CopyOf P ρ k (l.foldl f h) ((l.map r).foldl f' h') := by
  induction l generalizing h h' with
  | nil => exact s
  | cons a l ih =>
    exact ih (fun b hb => hl b (List.mem_cons_of_mem _ hb)) (step h h' a (hl a List.mem_cons_self) s)

theorem CopyOf.saved (s : CopyOf P ρ k h h') {v : BV} (hv : P v) : saved h' (ρ v) = saved h v := by
  simp only [Pyadjoint.saved, s.copies v hv]

theorem CopyOf.map {γ : Type*} (s : CopyOf P ρ k h h') (f : Var V T A → γ) (l : List BV) (hl : ∀ v ∈ l, P v) :
    (l.map ρ).map (fun v => f (h' v)) = l.map fun v => f (h v) := by
  rw [List.map_map]
  exact List.map_congr_left fun v hv => by rw [Function.comp, s.copies v (hl v hv)]

theorem CopyOf.map_saved (s : CopyOf P ρ k h h') (l : List BV) (hl : ∀ v ∈ l, P v) :
    (l.map ρ).map (Pyadjoint.saved h') = l.map (Pyadjoint.saved h) := by
  rw [List.map_map]
  exact List.map_congr_left fun v hv => s.saved (hl v hv)

theorem CopyOf.relevant (s : CopyOf P ρ k h h') (m : Bool) (l : List BV) (hl : ∀ v ∈ l, P v) :
    relevant h' m (l.map ρ) = (relevant h m l).map (Prod.map ρ id) := by
  rw [Pyadjoint.relevant, Pyadjoint.relevant, List.zipIdx_map, List.filter_map]
  congr 1
  refine List.filter_congr fun p hp => ?_
  have hm : p.1 ∈ l := (List.mem_zipIdx' hp).2 ▸ List.getElem_mem _
  simp only [Function.comp, Prod.map_fst, s.copies p.1 (hl _ hm)]

theorem mem_relevant {m : Bool} {l : List BV} {p : BV × Nat} (hp : p ∈ relevant h m l) : p.1 ∈ l := by
  have := (List.mem_filter.1 hp).1
  exact (List.mem_zipIdx' this).2 ▸ List.getElem_mem _

theorem CopyOf.addAdj? [Add A] (hρ : InjOn P ρ) (s : CopyOf P ρ k h h') {v : BV} (hv : P v) (a : Option A) :
    CopyOf P ρ k (addAdj? h v a) (addAdj? h' (ρ v) a) := by
  cases a with
  | none => exact s
  | some a => simp only [Pyadjoint.addAdj?, addAdj, s.copies v hv]; exact s.update hρ hv _

theorem CopyOf.addTlm? [Add T] (hρ : InjOn P ρ) (s : CopyOf P ρ k h h') {v : BV} (hv : P v) (a : Option T) :
    CopyOf P ρ k (addTlm? h v a) (addTlm? h' (ρ v) a) := by
  cases a with
  | none => exact s
  | some a => simp only [Pyadjoint.addTlm?, addTlm, s.copies v hv]; exact s.update hρ hv _

theorem CopyOf.addHess? [Add A] (hρ : InjOn P ρ) (s : CopyOf P ρ k h h') {v : BV} (hv : P v) (a : Option A) :
    CopyOf P ρ k (addHess? h v a) (addHess? h' (ρ v) a) := by
  cases a with
  | none => exact s
  | some a => simp only [Pyadjoint.addHess?, addHess, s.copies v hv]; exact s.update hρ hv _

theorem CopyOf.setCkpt (hρ : InjOn P ρ) (s : CopyOf P ρ k h h') {v : BV} (hv : P v) (a : Option V) :
    CopyOf P ρ k (setCkpt h v a) (setCkpt h' (ρ v) a) := by
  simp only [Pyadjoint.setCkpt, s.copies v hv]
  by_cases hc : (h v).isControl = true
  · rw [if_pos hc, if_pos hc]; exact s
  · rw [if_neg hc, if_neg hc]; exact s.update hρ hv _

theorem CopyOf.setCkpt? (hρ : InjOn P ρ) (s : CopyOf P ρ k h h') {v : BV} (hv : P v) (a : Option V) :
    CopyOf P ρ k (setCkpt? h v a) (setCkpt? h' (ρ v) a) := by
  cases a with
  | none => exact s
  | some a => exact s.setCkpt hρ hv _

theorem CopyOf.blockReset (hρ : InjOn P ρ) (s : CopyOf P ρ k h h') (b : Block V T A) (hb : Within P b) (t : ResetType) :
    CopyOf P ρ k (b.resetVariables t h) ((renameBlock ρ b).resetVariables t h') := by
  simp only [Block.resetVariables, renameBlock, ← List.map_append]
  refine CopyOf.foldl ρ P _ _ (fun g g' v hv s => ?_) _ (fun v hv => ?_) s
  · rw [s.copies v hv]; exact s.update hρ hv _
  · exact (List.mem_append.1 hv).elim (hb.1 v) (hb.2 v)

theorem CopyOf.blockAdj [Add A] (hρ : InjOn P ρ) (s : CopyOf P ρ k h h') (b : Block V T A) (hb : Within P b) (m : Bool) :
    CopyOf P ρ k (b.evaluateAdj m h) ((renameBlock ρ b).evaluateAdj m h') := by
  simp only [Block.evaluateAdj, renameBlock, s.map Var.adj b.outs hb.2, s.map_saved b.deps hb.1, s.relevant m b.deps hb.1, List.isEmpty_map]
  split
  · exact s
  split
  · exact s
  exact CopyOf.foldl (Prod.map ρ id) (fun p => P p.1) _ _ (fun g g' p hp s => s.addAdj? hρ hp _) _ (fun p hp => hb.1 _ (mem_relevant hp)) s

theorem CopyOf.blockTlm [Add T] (hρ : InjOn P ρ) (s : CopyOf P ρ k h h') (b : Block V T A) (hb : Within P b) (m : Bool) :
    CopyOf P ρ k (b.evaluateTlm m h) ((renameBlock ρ b).evaluateTlm m h') := by
  simp only [Block.evaluateTlm, renameBlock, s.map Var.tlm b.deps hb.1, s.map_saved b.deps hb.1, s.relevant m b.outs hb.2, List.isEmpty_map]
  split
  · exact s
  split
  · exact s
  exact CopyOf.foldl (Prod.map ρ id) (fun p => P p.1) _ _ (fun g g' p hp s => s.addTlm? hρ hp _) _ (fun p hp => hb.2 _ (mem_relevant hp)) s

theorem CopyOf.blockHessian [Add A] (hρ : InjOn P ρ) (s : CopyOf P ρ k h h') (b : Block V T A) (hb : Within P b) (m : Bool) :
    CopyOf P ρ k (b.evaluateHessian m h) ((renameBlock ρ b).evaluateHessian m h') := by
  have e : ((Pyadjoint.relevant h m b.deps).map (Prod.map ρ id)).map (fun q => (q.2, (h' q.1).tlm)) =
      (Pyadjoint.relevant h m b.deps).map fun q => (q.2, (h q.1).tlm) := by
    rw [List.map_map]
    exact List.map_congr_left fun q hq => by simp only [Function.comp, Prod.map_fst, Prod.map_snd, id, s.copies _ (hb.1 _ (mem_relevant hq))]
  simp only [Block.evaluateHessian, renameBlock, s.map Var.adj b.outs hb.2, s.map Var.hess b.outs hb.2, s.map_saved b.deps hb.1,
    s.relevant m b.deps hb.1, List.isEmpty_map, e]
  split
  · exact s
  split
  · exact s
  exact CopyOf.foldl (Prod.map ρ id) (fun p => P p.1) _ _ (fun g g' p hp s => s.addHess? hρ hp _) _ (fun p hp => hb.1 _ (mem_relevant hp)) s

theorem CopyOf.blockRecompute (hρ : InjOn P ρ) (s : CopyOf P ρ k h h') (b : Block V T A) (hb : Within P b) (m : Bool) :
    CopyOf P ρ k (b.recompute m h) ((renameBlock ρ b).recompute m h') := by
  have e : ((b.outs.map ρ).any fun o => (h' o).isControl) = b.outs.any fun o => (h o).isControl := by
    have aux : ∀ (f : BV → Bool) (l : List BV), l.any f = (l.map f).any id := fun f l => by simp [List.any_map]
    rw [aux, aux, s.map Var.isControl b.outs hb.2]
  simp only [Block.recompute, renameBlock, e, s.map_saved b.deps hb.1, s.relevant m b.outs hb.2, List.isEmpty_map]
  split
  · exact s
  split
  · exact s
  exact CopyOf.foldl (Prod.map ρ id) (fun p => P p.1) _ _ (fun g g' p hp s => s.setCkpt? hρ hp _) _ (fun p hp => hb.2 _ (mem_relevant hp)) s

theorem nodes_rename (hρ : InjOn P ρ) (bs : Blocks V T A) (hb : ∀ b ∈ bs, Within P b) (cs : List BV) (hc : ∀ c ∈ cs, P c) :
    findRelevantNodes (renameTape ρ bs) (cs.map ρ) = (findRelevantNodes bs cs).map ρ ∧ ∀ v ∈ findRelevantNodes bs cs, P v := by
  unfold findRelevantNodes renameTape
  induction bs generalizing cs with
  | nil => exact ⟨rfl, hc⟩
  | cons b bs ih =>
    have hw := hb b List.mem_cons_self
    have e : ((renameBlock ρ b).deps.any fun d => decide (d ∈ cs.map ρ)) = b.deps.any fun d => decide (d ∈ cs) := by
      rw [Bool.eq_iff_iff]
      simp only [renameBlock, List.any_eq_true, List.mem_map, decide_eq_true_eq]
      constructor
      · rintro ⟨_, ⟨d, hd, rfl⟩, c, hc', he⟩
        exact ⟨d, hd, hρ c d (hc c hc') (hw.1 d hd) he ▸ hc'⟩
      · rintro ⟨d, hd, hd'⟩
        exact ⟨ρ d, ⟨d, hd, rfl⟩, d, hd', rfl⟩
    simp only [List.map_cons, List.foldl_cons, e]
    split
    · have := ih (fun b' hb' => hb b' (List.mem_cons_of_mem _ hb')) (cs ++ b.outs) (fun c hc' => (List.mem_append.1 hc').elim (hc c) (hw.2 c))
      rw [List.map_append] at this
      exact this
    · exact ih (fun b' hb' => hb b' (List.mem_cons_of_mem _ hb')) cs hc

theorem CopyOf.markAll (hρ : InjOn P ρ) (s : CopyOf P ρ k h h') (ns : List BV) (hn : ∀ v ∈ ns, P v) (m : Bool) :
    CopyOf P ρ k (markAll ns m h) (markAll (ns.map ρ) m h') :=
  CopyOf.foldl ρ P _ _ (fun g g' v hv s => by rw [s.copies v hv]; exact s.update hρ hv _) ns hn s

theorem CopyOf.markControls (hρ : InjOn P ρ) (s : CopyOf P ρ k h h') (cs : List BV) (hc : ∀ v ∈ cs, P v) (m : Bool) :
    CopyOf P ρ k (markControls cs m h) (markControls (cs.map ρ) m h') :=
  CopyOf.foldl ρ P _ _ (fun g g' v hv s => by rw [s.copies v hv]; exact s.update hρ hv _) cs hc s

theorem zip_map_left {α α' γ : Type*} (r : α → α') (l : List α) (m : List γ) : (l.map r).zip m = (l.zip m).map (Prod.map r id) := by
  induction l generalizing m with
  | nil => rfl
  | cons a l ih => cases m <;> simp [ih]

theorem CopyOf.updateControls (hρ : InjOn P ρ) (s : CopyOf P ρ k h h') (cs : List BV) (hc : ∀ v ∈ cs, P v) (xs : List V) :
    CopyOf P ρ k (updateControls cs xs h) (updateControls (cs.map ρ) xs h') := by
  unfold Pyadjoint.updateControls
  rw [zip_map_left]
  exact CopyOf.foldl (Prod.map ρ id) (fun p => P p.1) _ _ (fun g g' p hp s => s.setCkpt hρ hp _) _ (fun p hp => hc _ (List.of_mem_zip hp).1) s

theorem CopyOf.seedTlm (hρ : InjOn P ρ) (s : CopyOf P ρ k h h') (cs : List BV) (hc : ∀ v ∈ cs, P v) (ds : List T) :
    CopyOf P ρ k (seedTlm cs ds h) (seedTlm (cs.map ρ) ds h') := by
  unfold Pyadjoint.seedTlm
  rw [zip_map_left]
  refine CopyOf.foldl (Prod.map ρ id) (fun p => P p.1) _ _ (fun g g' p hp s => ?_) _ (fun p hp => hc _ (List.of_mem_zip hp).1) s
  simp only [Prod.map_fst, Prod.map_snd, id, s.copies _ hp]
  exact s.update hρ hp _

theorem CopyOf.sweep (f : Block V T A → Heap V T A → Heap V T A)
    (step : ∀ (h h' : Heap V T A) b, Within P b → CopyOf P ρ k h h' → CopyOf P ρ k (f b h) (f (renameBlock ρ b) h')) (bs : Blocks V T A)
    (hb : ∀ b ∈ bs, Within P b) (s : CopyOf P ρ k h h') :
    CopyOf P ρ k (bs.foldl (fun h b => f b h) h) ((renameTape ρ bs).foldl (fun h b => f b h) h') :=
  CopyOf.foldl (renameBlock ρ) (Within P) _ _ (fun g g' b hb s => step g g' b hb s) bs hb s

theorem CopyOf.sweepRev (f : Block V T A → Heap V T A → Heap V T A)
    (step : ∀ (h h' : Heap V T A) b, Within P b → CopyOf P ρ k h h' → CopyOf P ρ k (f b h) (f (renameBlock ρ b) h')) (bs : Blocks V T A)
    (hb : ∀ b ∈ bs, Within P b) (s : CopyOf P ρ k h h') :
    CopyOf P ρ k (bs.reverse.foldl (fun h b => f b h) h) ((renameTape ρ bs).reverse.foldl (fun h b => f b h) h') := by
  rw [renameTape, ← List.map_reverse]
  exact CopyOf.foldl (renameBlock ρ) (Within P) _ _ (fun g g' b hb s => step g g' b hb s) bs.reverse (fun b h => hb b (List.mem_reverse.1 h)) s

/-- Evaluating a functional on a copied tape. -/
theorem CopyOf.rfEval (hρ : InjOn P ρ) (s : CopyOf P ρ k h h') (bs : Blocks V T A) (hb : ∀ b ∈ bs, Within P b) (cs : List BV) (hc : ∀ v ∈ cs, P v)
    (xs : List V) : CopyOf P ρ k (rfEval bs cs xs h) (rfEval (renameTape ρ bs) (cs.map ρ) xs h') :=
  (CopyOf.sweep (fun b h => b.recompute false h) (fun _ _ b hb s => s.blockRecompute hρ b hb false) bs hb
    ((s.updateControls hρ cs hc xs).markControls hρ cs hc true)).markControls hρ cs hc false

theorem CopyOf.reset (hρ : InjOn P ρ) (s : CopyOf P ρ k h h') (bs : Blocks V T A) (hb : ∀ b ∈ bs, Within P b) (t : ResetType) :
    CopyOf P ρ k (resetVariables bs t h) (resetVariables (renameTape ρ bs) t h') :=
  CopyOf.sweepRev (fun b h => b.resetVariables t h) (fun _ _ b hb s => s.blockReset hρ b hb t) bs hb s

/-- The gradient on a copied tape: the heap. -/
theorem CopyOf.gradientState [Add A] (hρ : InjOn P ρ) (s : CopyOf P ρ k h h') (bs : Blocks V T A) (hb : ∀ b ∈ bs, Within P b) (J : BV) (hJ : P J)
    (cs : List BV) (hc : ∀ v ∈ cs, P v) (a : A) :
    CopyOf P ρ k (computeGradientState bs J cs a h) (computeGradientState (renameTape ρ bs) (ρ J) (cs.map ρ) a h') := by
  have hn := nodes_rename hρ bs hb cs hc
  have s1 := s.reset hρ bs hb .adjoint
  simp only [computeGradientState, markedAdjoint, hn.1, s1.copies J hJ]
  exact ((CopyOf.sweepRev (fun b h => b.evaluateAdj true h) (fun _ _ b hb s => s.blockAdj hρ b hb true) bs hb
    (((s1.update hρ hJ _).markAll hρ _ hn.2 true).markControls hρ cs hc true)).markControls hρ cs hc false).markAll hρ _ hn.2 false

/-- The gradient on a copied tape. -/
theorem CopyOf.gradient [Add A] [Zero A] (hρ : InjOn P ρ) (s : CopyOf P ρ k h h') (bs : Blocks V T A) (hb : ∀ b ∈ bs, Within P b) (J : BV) (hJ : P J)
    (cs : List BV) (hc : ∀ v ∈ cs, P v) (a : A) :
    (computeGradient (renameTape ρ bs) (ρ J) (cs.map ρ) a h').1 = (computeGradient bs J cs a h).1 ∧
    CopyOf P ρ k (computeGradient bs J cs a h).2 (computeGradient (renameTape ρ bs) (ρ J) (cs.map ρ) a h').2 := by
  have s1 := s.gradientState hρ bs hb J hJ cs hc a
  refine ⟨?_, s1⟩
  show (cs.map ρ).map _ = cs.map _
  rw [List.map_map]
  exact List.map_congr_left fun c hc' => by simp only [Function.comp, getDerivative, s1.copies c (hc c hc')]

theorem CopyOf.seedHess [Zero A] (hρ : InjOn P ρ) (s : CopyOf P ρ k h h') {J : BV} (hJ : P J) :
    CopyOf P ρ k (Function.update h J { h J with hess := some 0 }) (Function.update h' (ρ J) { h' (ρ J) with hess := some 0 }) := by
  rw [s.copies J hJ]; exact s.update hρ hJ _

/-- The Hessian action on a copied tape. -/
theorem CopyOf.hessian [Add T] [Add A] [Zero A] (hρ : InjOn P ρ) (s : CopyOf P ρ k h h') (bs : Blocks V T A) (hb : ∀ b ∈ bs, Within P b) (J : BV)
    (hJ : P J) (cs : List BV) (hc : ∀ v ∈ cs, P v) (ds : List T) :
    (computeHessianOf (renameTape ρ bs) (ρ J) (cs.map ρ) ds h').1 = (computeHessianOf bs J cs ds h).1 ∧
    CopyOf P ρ k (computeHessianOf bs J cs ds h).2 (computeHessianOf (renameTape ρ bs) (ρ J) (cs.map ρ) ds h').2 := by
  have hn := nodes_rename hρ bs hb cs hc
  have s1 := ((s.reset hρ bs hb .tlm).reset hρ bs hb .hessian).seedTlm hρ cs hc ds
  have s2 := (CopyOf.sweep (fun b h => b.evaluateTlm true h) (fun _ _ b hb s => s.blockTlm hρ b hb true) bs hb
    (s1.markAll hρ _ hn.2 true)).markAll hρ _ hn.2 false
  have s3 := (CopyOf.sweepRev (fun b h => b.evaluateHessian true h) (fun _ _ b hb s => s.blockHessian hρ b hb true) bs hb
    ((s2.seedHess hρ hJ).markAll hρ _ hn.2 true)).markAll hρ _ hn.2 false
  have s4 : CopyOf P ρ k (computeHessianOf bs J cs ds h).2 (computeHessianOf (renameTape ρ bs) (ρ J) (cs.map ρ) ds h').2 := by
    simp only [computeHessianOf, hn.1]; exact s3
  refine ⟨?_, s4⟩
  show (cs.map ρ).map (getHessian (computeHessianOf (renameTape ρ bs) (ρ J) (cs.map ρ) ds h').2) = cs.map (getHessian (computeHessianOf bs J cs ds h).2)
  rw [List.map_map]
  exact List.map_congr_left fun c hc' => by simp only [Function.comp, getHessian, s4.copies c (hc c hc')]

end

/-! ### Specification: any sequence of calls -/

/-- The calls a user makes through a reduced functional. -/
inductive RfCall (V T A : Type*)
  | eval (xs : List V)
  | derivative (adjInput : A)
  | hessian (mdot : List T)

/-- What a call returns: the value of the functional, or a list of derivatives. -/
inductive RfResult (V A : Type*)
  | val (v : V)
  | list (l : List A)
  deriving DecidableEq

/-- One call through the reduced functional with functional `J` and controls `cs` on the tape `bs`. -/
def callOn [Add T] [Add A] [Zero A] (bs : Blocks V T A) (J : BV) (cs : List BV) : RfCall V T A → Heap V T A → RfResult V A × Heap V T A
  | .eval xs, h => (.val (saved (rfEval bs cs xs h) J), rfEval bs cs xs h)
  | .derivative a, h => (.list (computeGradient bs J cs a h).1, (computeGradient bs J cs a h).2)
  | .hessian ds, h => (.list (computeHessianOf bs J cs ds h).1, (computeHessianOf bs J cs ds h).2)

/-- The results of a sequence of calls, and the state they leave. -/
def callsOn [Add T] [Add A] [Zero A] (bs : Blocks V T A) (J : BV) (cs : List BV) : List (RfCall V T A) → Heap V T A → List (RfResult V A) × Heap V T A
  | [], h => ([], h)
  | c :: l, h => ((callOn bs J cs c h).1 :: (callsOn bs J cs l (callOn bs J cs c h).2).1, (callsOn bs J cs l (callOn bs J cs c h).2).2)

/-- The tape and its variables are copied (pickled and unpickled together): the copies are new variables, pairwise different, and hold what the
originals hold.  Then a reduced functional on the copy gives, in any sequence of evaluations, derivatives and Hessian actions, what the original gives
in that sequence, and these calls leave every other variable, in particular every variable of the original tape, as it is. -/
theorem copied_tape_behaves_partial [Add T] [Add A] [Zero A] (bs : Blocks V T A) (J : BV) (cs : List BV) (P : BV → Prop) (hb : ∀ v, OnTape bs v → P v)
    (hJ : P J) (hc : ∀ c ∈ cs, P c) (ρ : BV → BV) (hρ : InjOn P ρ) (h h' : Heap V T A) (hcopy : ∀ v, P v → h' (ρ v) = h v) (l : List (RfCall V T A)) :
    (callsOn (renameTape ρ bs) (ρ J) (cs.map ρ) l h').1 = (callsOn bs J cs l h).1 ∧
    (∀ v, P v → (callsOn (renameTape ρ bs) (ρ J) (cs.map ρ) l h').2 (ρ v) = (callsOn bs J cs l h).2 v) ∧
    ∀ u, (∀ v, P v → ρ v ≠ u) → (callsOn (renameTape ρ bs) (ρ J) (cs.map ρ) l h').2 u = h' u := by
  have hw : ∀ b ∈ bs, Within P b := fun b hb' => ⟨fun d hd => hb d ⟨b, hb', Or.inl hd⟩, fun o ho => hb o ⟨b, hb', Or.inr ho⟩⟩
  suffices H : ∀ (l : List (RfCall V T A)) (g g' : Heap V T A), CopyOf P ρ h' g g' →
      (callsOn (renameTape ρ bs) (ρ J) (cs.map ρ) l g').1 = (callsOn bs J cs l g).1 ∧
      CopyOf P ρ h' (callsOn bs J cs l g).2 (callsOn (renameTape ρ bs) (ρ J) (cs.map ρ) l g').2 by
    obtain ⟨e, s⟩ := H l h h' ⟨hcopy, fun _ _ => rfl⟩
    exact ⟨e, s.copies, s.others⟩
  intro l
  induction l with
  | nil => exact fun g g' s => ⟨rfl, s⟩
  | cons c l ih =>
    intro g g' s
    have step : (callOn (renameTape ρ bs) (ρ J) (cs.map ρ) c g').1 = (callOn bs J cs c g).1 ∧
        CopyOf P ρ h' (callOn bs J cs c g).2 (callOn (renameTape ρ bs) (ρ J) (cs.map ρ) c g').2 := by
      cases c with
      | eval xs =>
        have s1 := s.rfEval hρ bs hw cs hc xs
        exact ⟨congrArg RfResult.val (s1.saved hJ), s1⟩
      | derivative a =>
        have s1 := s.gradient hρ bs hw J hJ cs hc a
        exact ⟨congrArg RfResult.list s1.1, s1.2⟩
      | hessian ds =>
        have s1 := s.hessian hρ bs hw J hJ cs hc ds
        exact ⟨congrArg RfResult.list s1.1, s1.2⟩
    obtain ⟨e1, s1⟩ := ih _ _ step.2
    exact ⟨by simp only [callsOn]; rw [step.1, e1], s1⟩

/-! ## Witnesses and examples -/

/-- `y = x * x` as a block on integers. -/
def squareBlock : Block Int Int Int where
  deps := [0]
  outs := [1]
  recomputeC x _ := some (x.headD 0 * x.headD 0)
  adjC x a _ := some (2 * x.headD 0 * (a.headD none).getD 0)
  tlmC x t _ := some (2 * x.headD 0 * (t.headD none).getD 0)
  hessC x e a _ r := some (2 * x.headD 0 * (e.headD none).getD 0 + 2 * (a.headD none).getD 0 * ((r.headD (0, none)).2).getD 0)

/-- A tape with `x = 3`, `y = 9`, and copies of both variables at 10 and 11. -/
def squareHeap : Heap Int Int Int := fun v => { output := if v % 10 = 0 then 3 else 9 }

/-- Copying a variable. -/
def shift (v : BV) : BV := v + 10

/-- `copy.deepcopy(tape).copy()` gives the wrong gradient: 12 for the derivative of `x * x` at 3, where the copy of the tape and the unpickled tape
give 6. -/
theorem deepcopied_tape_gradient_doubled :
    (computeGradient (((Seq.record [some squareBlock]).deepcopy (renameBlock shift)).copy.flat) 11 [10] 1 squareHeap).1 = [12] ∧
    (computeGradient ((Seq.record [some squareBlock]).copy.flat) 1 [0] 1 squareHeap).1 = [6] ∧
    (computeGradient (((Seq.record [some squareBlock]).unpickle (renameBlock shift)).copy.flat) 11 [10] 1 squareHeap).1 = [6] := by
  decide +kernel

/-- The hypotheses of `copied_tape_behaves_partial` are met by the square tape and its copy. -/
example : (callsOn (renameTape shift [squareBlock]) 11 [10] [.eval [5], .derivative 1, .hessian [1]] squareHeap).1 =
    (callsOn [squareBlock] 1 [0] [.eval [5], .derivative 1, .hessian [1]] squareHeap).1 :=
  (copied_tape_behaves_partial [squareBlock] 1 [0] (fun v => v < 2)
    (by rintro v ⟨b, hb, h⟩; simp at hb; subst hb; simp [squareBlock] at h; show v < 2; rcases h with rfl | rfl <;> decide) (by decide) (by simp) shift
    (fun a b _ _ e => by simpa [shift] using e) squareHeap squareHeap
    (fun v _ => by simp [squareHeap, shift]) _).1

/-- ... with the values 25, [10] and [2]. -/
example : (callsOn [squareBlock] 1 [0] [.eval [5], .derivative 1, .hessian [1]] squareHeap).1 = [.val 25, .list [10], .list [2]] := by
  decide +kernel

/-- The objects of an example: 0 is an `AdjFloat`, 1 a control of it, 2 an array (which has `__deepcopy__`), 3 a control of it, 4 a
`ReducedFunctional`, 5 a `ReducedFunctionalNumPy` made from 4. -/
def exampleObjects : Nat → PyObject := fun i =>
  if i = 1 then ⟨controlClass, fun s => if s = "control" then some 0 else none⟩
  else if i = 2 then ⟨⟨fun s => s == "__deepcopy__" || s == "_ad_dim", none⟩, fun _ => none⟩
  else if i = 3 then ⟨controlClass, fun s => if s = "control" then some 2 else none⟩
  else if i = 4 then ⟨⟨fun s => s == "derivative", none⟩, fun s => if s = "tape" then some 7 else none⟩
  else if i = 5 then ⟨numpyClass, fun s => if s = "rf" then some 4 else none⟩
  else ⟨⟨fun s => s == "_ad_dim", none⟩, fun _ => none⟩

example : reconstruct 1000 exampleObjects id 1 9 = .error .recursionError := control_copy_raises _ _ _ _ _ rfl
example : reconstruct 1000 exampleObjects id 5 9 = .error .recursionError := numpy_copy_raises _ _ _ _ _ rfl
example : deepcopy 1000 exampleObjects id 3 9 = .ok (.madeBy 2) :=
  control_deepcopy_of_array 1000 (by omega) _ _ _ _ _ rfl rfl rfl rfl rfl
example : ∀ σ y, deepcopy 1000 exampleObjects id 1 9 ≠ .ok (.object σ y) := control_never_deepcopied _ _ _ _ _ rfl
example : ∃ σ', reconstruct 1000 exampleObjects id 4 9 = .ok (.object σ' 9) :=
  let ⟨σ', h, _⟩ := plain_copy 1000 (by omega) exampleObjects id 4 9 rfl; ⟨σ', h⟩
/-- `rf_np.tape` is `rf.tape`; `control._ad_dim` is the method of the object controlled. -/
example : getAttr exampleObjects 10 5 "tape" = .ok (.value 7) ∧ getAttr exampleObjects 10 1 "_ad_dim" = .ok (.bound 0) ∧
    getAttr exampleObjects 10 1 "nothing" = .error .attributeError := by decide
example : getAttr exampleObjects (8 + 2) 5 "tape" = getAttr exampleObjects (8 + 1) 4 "tape" := by
  rw [forwarded_lookup exampleObjects 5 4 "rf" rfl rfl]; rfl
/-- Two timesteps with three blocks. -/
example : ((Seq.record [some 1, none, some 2, some 3]).deepcopy id).steps = [[1], [2, 3, 1, 2, 3]] := by decide
example : ((Seq.record [some 1, none, some 2, some 3]).unpickle id).steps = [[1], [2, 3]] := by decide

end Copying
end Pyadjoint
