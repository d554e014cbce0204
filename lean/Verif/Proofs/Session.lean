import Verif.Spec.Program
import Verif.Proofs.HessSymm

/-! The session refines the source-level reading of the program: the invariant and its preservation. -/

namespace Pyadjoint
open Source

namespace Session

/-- Object `i` currently has block variable `v`. -/
def RefAt (s : Session) (i : Nat) (v : BV) : Prop := ∃ o, s.objs[i]? = some o ∧ o.ref = some v

/-- `v` is a dependency that stands for object `a`. -/
def Opd (s : Session) (a : Nat) (v : BV) : Prop :=
  ∃ o, s.objs[a]? = some o ∧ (o.adj = true → o.ref = some v) ∧
    (o.adj = false → saved s.heap v = o.value ∧ (∀ b ∈ s.tape, b.out ≠ v) ∧ (∀ j, ¬ s.RefAt j v) ∧
      v < s.next)

structure Refines (s : Session) (A : State) : Prop where
  len : s.objs.length = A.regs.length
  val : ∀ {i : Nat} {o : Obj} {r : Reg}, s.objs[i]? = some o → A.regs[i]? = some r → o.value = r.value ∧ o.adj = r.adj
  ann : s.annotate = A.annotate
  ref_lt : ∀ {i : Nat} {v : BV}, s.RefAt i v → v < s.next
  inj : ∀ {i : Nat} {j : Nat} {v : BV}, s.RefAt i v → s.RefAt j v → i = j
  plain : ∀ {i : Nat} {o : Obj}, s.objs[i]? = some o → o.adj = false → o.ref = none
  tape_lt : ∀ b ∈ s.tape, (∀ d ∈ b.deps, d < s.next) ∧ b.out < s.next
  held : ∀ v ∈ s.held, ∃ i, s.RefAt i v
  wf : WF s.tape.blocks
  output : ∀ {i : Nat} {o : Obj} {v : BV}, s.objs[i]? = some o → o.ref = some v → (s.heap v).output = o.value
  flags : ∀ v, (s.heap v).isControl = false
  quiet : ∀ {i : Nat} {o : Obj} {v : BV}, s.objs[i]? = some o → o.ref = some v → v ∉ s.held →
    (∀ b ∈ s.tape, v ∉ b.deps ∧ v ≠ b.out) → saved s.heap v = o.value
  leaf : ∀ {i : Nat} {o : Obj} {r : Reg}, s.objs[i]? = some o → A.regs[i]? = some r → r.origin = .free →
    r.leaf = (o.ref.map (saved s.heap)).getD o.value
  free : ∀ {i : Nat} {r : Reg} {v : BV}, A.regs[i]? = some r → r.origin = .free → s.RefAt i v → ∀ b ∈ s.tape, b.out ≠ v
  un : ∀ {i : Nat} {r : Reg} {op : UOp} {a : Nat}, A.regs[i]? = some r → r.origin = .un op a →
    a < i ∧ ∃ v av, s.RefAt i v ∧ .un op av v ∈ s.tape ∧ s.Opd a av
  bin : ∀ {i : Nat} {r : Reg} {op : BOp} {a : Nat} {b : Nat}, A.regs[i]? = some r → r.origin = .bin op a b →
    a < i ∧ b < i ∧ ∃ v av bv, s.RefAt i v ∧ s.Opd a av ∧ s.Opd b bv ∧
      (.bin op av bv v ∈ s.tape ∨ ((op = .add ∨ op = .mul) ∧ .bin op bv av v ∈ s.tape))
  src : ∀ b ∈ s.tape, ∃ (i : Nat) (r : Reg), A.regs[i]? = some r ∧ r.origin ≠ .free ∧ s.RefAt i b.out
  count : s.tape.length = (A.regs.map (·.origin)).countP (fun d => !d.isFree)

theorem refines_init : Refines {} {} where
  len := rfl
  val := by simp
  ann := rfl
  ref_lt := by simp [RefAt]
  inj := by simp [RefAt]
  plain := by simp
  tape_lt := by simp
  held := by simp
  wf := ⟨by simp [FTape.blocks], by simp [FTape.blocks], by simp [FTape.blocks]⟩
  output := by simp
  flags := by simp
  quiet := by simp
  leaf := by simp
  free := by simp
  un := by simp
  bin := by simp
  src := by simp
  count := rfl

variable {s : Session} {A : State}

theorem Refines.lt_of_objs (R : Refines s A) {i o} (h : s.objs[i]? = some o) : i < A.regs.length := by
  rw [← R.len]; exact (List.getElem?_eq_some_iff.1 h).1

/-- Changing the heap without changing what is saved. -/
theorem Refines.heap (R : Refines s A) (h' : FHeap) (ho : ∀ v, (h' v).output = (s.heap v).output)
    (hf : ∀ v, (h' v).isControl = false) (hs : ∀ v, saved h' v = saved s.heap v) :
    Refines { s with heap := h' } A where
  len := R.len
  val := R.val
  ann := R.ann
  ref_lt := R.ref_lt
  inj := R.inj
  plain := R.plain
  tape_lt := R.tape_lt
  held := R.held
  wf := R.wf
  output := by intro i o v h1 h2; rw [ho]; exact R.output h1 h2
  flags := hf
  quiet := by intro i o v h1 h2 h3 h4; rw [hs]; exact R.quiet h1 h2 h3 h4
  leaf := by
    intro i o r h1 h2 h3
    rw [funext hs]; exact R.leaf h1 h2 h3
  free := R.free
  un := by
    intro i r op a h1 h2
    obtain ⟨h3, v, av, h4, h5, o, h6, h7, h8⟩ := R.un h1 h2
    exact ⟨h3, v, av, h4, h5, o, h6, h7, fun h => ⟨(hs _).trans (h8 h).1, (h8 h).2⟩⟩
  bin := by
    intro i r op a b h1 h2
    obtain ⟨h3, h3', v, av, bv, h4, ⟨o, h6, h7, h8⟩, ⟨o', h6', h7', h8'⟩, h5⟩ := R.bin h1 h2
    exact ⟨h3, h3', v, av, bv, h4, ⟨o, h6, h7, fun h => ⟨(hs _).trans (h8 h).1, (h8 h).2⟩⟩,
      ⟨o', h6', h7', fun h => ⟨(hs _).trans (h8' h).1, (h8' h).2⟩⟩, h5⟩
  src := R.src
  count := R.count

theorem saved_update_of_ne (h : FHeap) (v u : BV) (x : Var ℝ ℝ ℝ) (hne : u ≠ v) :
    saved (Function.update h v x) u = saved h u := by
  simp [saved, Function.update_of_ne hne]

/-- A new block variable nobody refers to. -/
theorem Refines.alloc (R : Refines s A) (value : ℝ) : Refines (s.alloc value).2 A := by
  have hs : ∀ u, u < s.next → saved (s.alloc value).2.heap u = saved s.heap u := fun u hu =>
    saved_update_of_ne _ _ _ _ (Nat.ne_of_lt hu)
  have hopd : ∀ {a v}, s.Opd a v → (s.alloc value).2.Opd a v := by
    rintro a v ⟨o, h1, h2, h3⟩
    refine ⟨o, h1, h2, fun h => ?_⟩
    obtain ⟨h4, h5, h6, h7⟩ := h3 h
    exact ⟨by rw [hs _ h7, h4], h5, h6, Nat.lt_succ_of_lt h7⟩
  refine ⟨R.len, R.val, R.ann, fun h => Nat.lt_succ_of_lt (R.ref_lt h), R.inj, R.plain, ?_, R.held,
    R.wf, ?_, ?_, ?_, ?_, R.free, ?_, ?_, R.src, R.count⟩
  · intro b hb
    exact ⟨fun d hd => Nat.lt_succ_of_lt ((R.tape_lt b hb).1 d hd), Nat.lt_succ_of_lt (R.tape_lt b hb).2⟩
  · intro i o v h1 h2
    have : v ≠ s.next := Nat.ne_of_lt (R.ref_lt ⟨o, h1, h2⟩)
    simp only [Session.alloc, Function.update_of_ne this]
    exact R.output h1 h2
  · intro v
    by_cases hv : v = s.next
    · subst hv; simp [Session.alloc]
    · simp only [Session.alloc, Function.update_of_ne hv]; exact R.flags v
  · intro i o v h1 h2 h3 h4
    rw [hs v (R.ref_lt ⟨o, h1, h2⟩)]
    exact R.quiet h1 h2 h3 h4
  · intro i o r h1 h2 h3
    rw [R.leaf h1 h2 h3]
    cases ho : o.ref with
    | none => rfl
    | some v => simp [hs v (R.ref_lt ⟨o, h1, ho⟩)]
  · intro i r op a h1 h2
    obtain ⟨h3, v, av, h4, h5, h6⟩ := R.un h1 h2
    exact ⟨h3, v, av, h4, h5, hopd h6⟩
  · intro i r op a b h1 h2
    obtain ⟨h3, h3', v, av, bv, h4, h6, h6', h5⟩ := R.bin h1 h2
    exact ⟨h3, h3', v, av, bv, h4, hopd h6, hopd h6', h5⟩

/-- What is known about the variable `alloc` returns. -/
theorem Refines.alloc_new (R : Refines s A) (value : ℝ) :
    (s.alloc value).1 = s.next ∧ (s.alloc value).2.next = s.next + 1 ∧
    saved (s.alloc value).2.heap s.next = value ∧ (∀ b ∈ s.tape, b.out ≠ s.next) ∧
    (∀ b ∈ s.tape, s.next ∉ b.deps) ∧ (∀ j, ¬ s.RefAt j s.next) ∧ s.next ∉ s.held := by
  refine ⟨rfl, rfl, by simp [Session.alloc, saved], ?_, ?_, ?_, ?_⟩
  · intro b hb h; exact absurd (h ▸ (R.tape_lt b hb).2) (lt_irrefl s.next)
  · intro b hb h; exact absurd ((R.tape_lt b hb).1 _ h) (lt_irrefl _)
  · intro j h; exact absurd (R.ref_lt h) (lt_irrefl _)
  · intro h
    obtain ⟨i, hi⟩ := R.held _ h
    exact absurd (R.ref_lt hi) (lt_irrefl _)

/-- Setting the reference of an `AdjFloat` that has none to a variable nobody uses. -/
theorem Refines.setRef (R : Refines s A) {i : Nat} {o : Obj} {v : BV} (hi : s.objs[i]? = some o)
    (hadj : o.adj = true) (hnone : o.ref = none) (hv : v < s.next) (hout : (s.heap v).output = o.value)
    (hsv : saved s.heap v = o.value) (hno : ∀ b ∈ s.tape, b.out ≠ v) (hr : ∀ j, ¬ s.RefAt j v)
    (hd : ∀ b ∈ s.tape, v ∉ b.deps) :
    Refines { s with objs := s.objs.set i { o with ref := some v } } A := by
  have hil : i < s.objs.length := (List.getElem?_eq_some_iff.1 hi).1
  have key : ∀ {k o'}, (s.objs.set i { o with ref := some v })[k]? = some o' →
      (k = i ∧ o' = { o with ref := some v }) ∨ (k ≠ i ∧ s.objs[k]? = some o') := by
    intro k o' h
    rw [List.getElem?_set] at h
    by_cases hk : i = k
    · subst hk
      simp only [if_true, hil] at h
      exact Or.inl ⟨rfl, (Option.some.inj h).symm⟩
    · simp only [if_neg hk] at h
      exact Or.inr ⟨fun h' => hk h'.symm, h⟩
  have fwd : ∀ {k o'}, k ≠ i → s.objs[k]? = some o' →
      (s.objs.set i { o with ref := some v })[k]? = some o' := by
    intro k o' hk h
    rw [List.getElem?_set, if_neg (fun h' => hk h'.symm)]; exact h
  have self : (s.objs.set i { o with ref := some v })[i]? = some { o with ref := some v } := by
    rw [List.getElem?_set]; simp [hil]
  have refkey : ∀ {k u}, RefAt { s with objs := s.objs.set i { o with ref := some v } } k u →
      (k = i ∧ u = v) ∨ (k ≠ i ∧ s.RefAt k u) := by
    rintro k u ⟨o', h1, h2⟩
    rcases key h1 with ⟨rfl, rfl⟩ | ⟨h3, h4⟩
    · exact Or.inl ⟨rfl, (Option.some.inj h2).symm⟩
    · exact Or.inr ⟨h3, o', h4, h2⟩
  have reffwd : ∀ {k u}, s.RefAt k u →
      RefAt { s with objs := s.objs.set i { o with ref := some v } } k u := by
    rintro k u ⟨o', h1, h2⟩
    refine ⟨o', fwd ?_ h1, h2⟩
    rintro rfl
    rw [hi] at h1; cases h1; rw [hnone] at h2; cases h2
  have hopd : ∀ {a u}, s.Opd a u → (∃ b ∈ s.tape, u ∈ b.deps) →
      Opd { s with objs := s.objs.set i { o with ref := some v } } a u := by
    rintro a u ⟨o', h1, h2, h3⟩ ⟨b, hb, hub⟩
    have huv : u ≠ v := by rintro rfl; exact hd b hb hub
    by_cases ha : a = i
    · subst ha
      rw [hi] at h1; cases h1
      rw [hnone] at h2
      exact absurd (h2 hadj) (by simp)
    · refine ⟨o', fwd ha h1, h2, fun h => ?_⟩
      obtain ⟨h4, h5, h6, h7⟩ := h3 h
      refine ⟨h4, h5, fun j hj => ?_, h7⟩
      rcases refkey hj with ⟨_, h8⟩ | ⟨_, h8⟩
      · exact huv h8
      · exact h6 j h8
  refine ⟨by simpa using R.len, ?_, R.ann, ?_, ?_, ?_, R.tape_lt, ?_, R.wf, ?_, R.flags, ?_, ?_, ?_,
    ?_, ?_, ?_, R.count⟩
  · intro k o' r h1 h2
    rcases key h1 with ⟨rfl, rfl⟩ | ⟨_, h3⟩
    · exact (R.val hi h2 : o.value = _ ∧ o.adj = _)
    · exact R.val h3 h2
  · intro k u h
    rcases refkey h with ⟨_, rfl⟩ | ⟨_, h⟩
    · exact hv
    · exact R.ref_lt h
  · intro k l u h h'
    rcases refkey h with ⟨rfl, rfl⟩ | ⟨_, h1⟩ <;> rcases refkey h' with ⟨rfl, h3⟩ | ⟨_, h2⟩
    · rfl
    · exact absurd h2 (hr _)
    · subst h3; exact absurd h1 (hr _)
    · exact R.inj h1 h2
  · intro k o' h1 h2
    rcases key h1 with ⟨rfl, rfl⟩ | ⟨_, h3⟩
    · simp only at h2; rw [hadj] at h2; cases h2
    · exact R.plain h3 h2
  · intro u hu
    obtain ⟨k, hk⟩ := R.held u hu
    exact ⟨k, reffwd hk⟩
  · intro k o' u h1 h2
    rcases key h1 with ⟨rfl, rfl⟩ | ⟨_, h3⟩
    · cases h2; exact hout
    · exact R.output h3 h2
  · intro k o' u h1 h2 h3 h4
    rcases key h1 with ⟨rfl, rfl⟩ | ⟨_, h5⟩
    · cases h2; exact hsv
    · exact R.quiet h5 h2 h3 h4
  · intro k o' r h1 h2 h3
    rcases key h1 with ⟨rfl, rfl⟩ | ⟨_, h5⟩
    · rw [R.leaf hi h2 h3, hnone]; exact hsv.symm
    · exact R.leaf h5 h2 h3
  · intro k r u h1 h2 h3
    rcases refkey h3 with ⟨rfl, rfl⟩ | ⟨_, h5⟩
    · exact hno
    · exact R.free h1 h2 h5
  · intro k r op a h1 h2
    obtain ⟨h3, w, av, h4, h5, h6⟩ := R.un h1 h2
    exact ⟨h3, w, av, reffwd h4, h5, hopd h6 ⟨_, h5, by simp [FBlock.deps]⟩⟩
  · intro k r op a b h1 h2
    obtain ⟨h3, h3', w, av, bv, h4, h6, h6', h5⟩ := R.bin h1 h2
    refine ⟨h3, h3', w, av, bv, reffwd h4, hopd h6 ?_, hopd h6' ?_, h5⟩
    · rcases h5 with h5 | ⟨_, h5⟩ <;> exact ⟨_, h5, by simp [FBlock.deps]⟩
    · rcases h5 with h5 | ⟨_, h5⟩ <;> exact ⟨_, h5, by simp [FBlock.deps]⟩
  · intro b hb
    obtain ⟨k, r, h1, h2, h3⟩ := R.src b hb
    exact ⟨k, r, h1, h2, reffwd h3⟩

theorem Refines.alloc_setRef (R : Refines s A) {i : Nat} {o : Obj} (hi : s.objs[i]? = some o)
    (hadj : o.adj = true) (hnone : o.ref = none) :
    Refines { (s.alloc o.value).2 with objs := s.objs.set i { o with ref := some s.next } } A := by
  obtain ⟨h1, h2, h3, h4, h5, h6, h7⟩ := R.alloc_new o.value
  exact (R.alloc o.value).setRef (v := s.next) hi hadj hnone (by rw [h2]; exact Nat.lt_succ_self _)
    (by simp [Session.alloc]) h3 h4 h6 h5

/-- `block_variable` of an `AdjFloat`. -/
theorem Refines.touch (R : Refines s A) {i : Nat} {o : Obj} (hi : s.objs[i]? = some o)
    (hadj : o.adj = true) : Refines (s.touch i o).2 A := by
  unfold Session.touch
  cases ho : o.ref with
  | some v => exact R
  | none => exact R.alloc_setRef hi hadj ho

theorem touch_refAt {i : Nat} {o : Obj} (hi : s.objs[i]? = some o) :
    RefAt (s.touch i o).2 i (s.touch i o).1 := by
  have hil : i < s.objs.length := (List.getElem?_eq_some_iff.1 hi).1
  unfold Session.touch
  cases ho : o.ref with
  | some v => exact ⟨o, hi, ho⟩
  | none => exact ⟨{ o with ref := some s.next }, by simp [Session.alloc, List.getElem?_set, hil], rfl⟩

/-- What `touch` changes of the objects. -/
theorem touch_objs {i : Nat} {o : Obj} (hi : s.objs[i]? = some o) (k : Nat) (p : Obj)
    (hp : s.objs[k]? = some p) : ∃ q, (s.touch i o).2.objs[k]? = some q ∧ q.value = p.value ∧
      q.adj = p.adj ∧ (∀ v, p.ref = some v → q.ref = some v) := by
  have hil : i < s.objs.length := (List.getElem?_eq_some_iff.1 hi).1
  unfold Session.touch
  cases ho : o.ref with
  | some v => exact ⟨p, hp, rfl, rfl, fun _ h => h⟩
  | none =>
    by_cases hk : k = i
    · subst hk
      rw [hi] at hp; cases hp
      exact ⟨{ o with ref := some s.next }, by simp [Session.alloc, List.getElem?_set, hil], rfl, rfl,
        by intro v h; rw [ho] at h; cases h⟩
    · exact ⟨p, by simp [Session.alloc, List.getElem?_set, Ne.symm hk, hp], rfl, rfl, fun _ h => h⟩

theorem touch_fields (s : Session) (i : Nat) (o : Obj) :
    (s.touch i o).2.tape = s.tape ∧ (s.touch i o).2.annotate = s.annotate ∧
    (s.touch i o).2.held = s.held ∧ s.next ≤ (s.touch i o).2.next ∧
    (s.touch i o).2.objs.length = s.objs.length := by
  unfold Session.touch
  cases o.ref with
  | some v => exact ⟨rfl, rfl, rfl, le_rfl, rfl⟩
  | none => exact ⟨rfl, rfl, rfl, Nat.le_succ _, by simp [Session.alloc]⟩

/-- `add_dependency` changes no saved value. -/
theorem saved_addDependency (s : Session) (v u : BV) :
    saved (s.addDependency v).heap u = saved s.heap u := by
  by_cases hu : u = v
  · subst hu
    simp only [addDependency, saved, Function.update_self]
    cases (s.heap u).ckpt <;> rfl
  · exact saved_update_of_ne _ _ _ _ hu

theorem Refines.addDependency (R : Refines s A) (v : BV) : Refines (s.addDependency v) A := by
  refine R.heap _ ?_ ?_ (saved_addDependency s v)
  · intro u
    by_cases hu : u = v
    · subst hu; simp
    · simp [Function.update_of_ne hu]
  · intro u
    by_cases hu : u = v
    · subst hu; simpa using R.flags u
    · rw [Function.update_of_ne hu]; exact R.flags u

theorem getElem?_append_singleton {α : Type*} {l : List α} {x y : α} {k : Nat}
    (h : (l ++ [x])[k]? = some y) : (k = l.length ∧ y = x) ∨ (k < l.length ∧ l[k]? = some y) := by
  have hk : k < (l ++ [x]).length := (List.getElem?_eq_some_iff.1 h).1
  rw [List.length_append, List.length_singleton] at hk
  rcases Nat.lt_succ_iff_lt_or_eq.1 hk with h1 | h1
  · rw [List.getElem?_append_left h1] at h; exact Or.inr ⟨h1, h⟩
  · subst h1; simp at h; exact Or.inl ⟨rfl, h.symm⟩

theorem getElem?_append_left' {α : Type*} {l : List α} {x y : α} {k : Nat}
    (h : l[k]? = some y) : (l ++ [x])[k]? = some y := by
  rw [List.getElem?_append_left (List.getElem?_eq_some_iff.1 h).1]; exact h

/-- A new object without block variable, free. -/
theorem Refines.push (R : Refines s A) (value : ℝ) (adj : Bool) (r : Reg) (h1 : r.value = value)
    (h2 : r.adj = adj) (h3 : r.origin = .free) (h4 : r.leaf = value) :
    Refines (s.push value adj) { A with regs := A.regs ++ [r] } := by
  have refkey : ∀ {k u}, RefAt (s.push value adj) k u → s.RefAt k u := by
    rintro k u ⟨o, h, h'⟩
    rcases getElem?_append_singleton h with ⟨_, rfl⟩ | ⟨_, h⟩
    · cases h'
    · exact ⟨o, h, h'⟩
  have reffwd : ∀ {k u}, s.RefAt k u → RefAt (s.push value adj) k u := by
    rintro k u ⟨o, h, h'⟩
    exact ⟨o, getElem?_append_left' h, h'⟩
  have hopd : ∀ {a u}, s.Opd a u → Opd (s.push value adj) a u := by
    rintro a u ⟨o, h5, h6, h7⟩
    refine ⟨o, getElem?_append_left' h5, h6, fun h => ?_⟩
    obtain ⟨h8, h9, h10, h11⟩ := h7 h
    exact ⟨h8, h9, fun j hj => h10 j (refkey hj), h11⟩
  have both : ∀ {k : Nat} {o : Obj} {r' : Reg}, (s.objs ++ [(⟨value, adj, none⟩ : Obj)])[k]? = some o →
      (A.regs ++ [r])[k]? = some r' →
      (o = ⟨value, adj, none⟩ ∧ r' = r) ∨ (s.objs[k]? = some o ∧ A.regs[k]? = some r') := by
    intro k o r' h h'
    rcases getElem?_append_singleton h with ⟨h5, h6⟩ | ⟨h5, h6⟩ <;>
      rcases getElem?_append_singleton h' with ⟨h7, h8⟩ | ⟨h7, h8⟩
    · exact Or.inl ⟨h6, h8⟩
    · rw [← R.len, h5] at h7; exact absurd h7 (lt_irrefl _)
    · rw [← R.len] at h7; subst h7; exact absurd h5 (lt_irrefl _)
    · exact Or.inr ⟨h6, h8⟩
  refine ⟨?_, ?_, R.ann, fun h => R.ref_lt (refkey h), fun h h' => R.inj (refkey h) (refkey h'), ?_,
    R.tape_lt, ?_, R.wf, ?_, R.flags, ?_, ?_, ?_, ?_, ?_, ?_, ?_⟩
  · simp [Session.push, R.len]
  · intro k o r' h h'
    rcases both h h' with ⟨rfl, rfl⟩ | ⟨h5, h6⟩
    · exact ⟨h1.symm, h2.symm⟩
    · exact R.val h5 h6
  · intro k o h h'
    rcases getElem?_append_singleton h with ⟨_, rfl⟩ | ⟨_, h⟩
    · rfl
    · exact R.plain h h'
  · intro v hv
    obtain ⟨i, hi⟩ := R.held v hv
    exact ⟨i, reffwd hi⟩
  · intro k o v h h'
    rcases getElem?_append_singleton h with ⟨_, rfl⟩ | ⟨_, h⟩
    · cases h'
    · exact R.output h h'
  · intro k o v h h' h5 h6
    rcases getElem?_append_singleton h with ⟨_, rfl⟩ | ⟨_, h⟩
    · cases h'
    · exact R.quiet h h' h5 h6
  · intro k o r' h h' h5
    rcases both h h' with ⟨rfl, rfl⟩ | ⟨h6, h7⟩
    · exact h4
    · exact R.leaf h6 h7 h5
  · intro k r' v h h5 h6
    rcases getElem?_append_singleton h with ⟨h7, rfl⟩ | ⟨_, h⟩
    · obtain ⟨o, ho, _⟩ := refkey h6
      exact absurd (R.lt_of_objs ho) (by rw [h7]; exact lt_irrefl _)
    · exact R.free h h5 (refkey h6)
  · intro k r' op a h h5
    rcases getElem?_append_singleton h with ⟨_, rfl⟩ | ⟨_, h⟩
    · rw [h3] at h5; cases h5
    · obtain ⟨h6, w, av, h7, h8, h9⟩ := R.un h h5
      exact ⟨h6, w, av, reffwd h7, h8, hopd h9⟩
  · intro k r' op a b h h5
    rcases getElem?_append_singleton h with ⟨_, rfl⟩ | ⟨_, h⟩
    · rw [h3] at h5; cases h5
    · obtain ⟨h6, h6', w, av, bv, h7, h8, h9, h10⟩ := R.bin h h5
      exact ⟨h6, h6', w, av, bv, reffwd h7, hopd h8, hopd h9, h10⟩
  · intro b hb
    obtain ⟨k, r', h5, h6, h7⟩ := R.src b hb
    exact ⟨k, r', getElem?_append_left' h5, h6, reffwd h7⟩
  · simp [Session.push, R.count, h3, Def.isFree]

/-- Appending a block whose output is new. -/
theorem wf_append {t : FTape} (wf : WF t.blocks) (b : FBlock) (hself : b.out ∉ b.deps)
    (hout : ∀ c ∈ t, b.out ∉ c.deps ∧ b.out ≠ c.out) : WF (FTape.blocks (t ++ [b])) := by
  have hb : FTape.blocks (t ++ [b]) = t.blocks ++ [b.toBlock] := by simp [FTape.blocks]
  have ho : b.toBlock.outs = [b.out] := by cases b <;> rfl
  have hd : b.toBlock.deps = b.deps := by cases b <;> rfl
  rw [hb]
  refine ⟨?_, ?_, ?_⟩
  · intro c hc
    rcases List.mem_append.1 hc with hc | hc
    · exact wf.nodup c hc
    · rw [List.mem_singleton] at hc; subst hc; rw [ho]; exact List.nodup_singleton _
  · intro c hc
    rcases List.mem_append.1 hc with hc | hc
    · exact wf.self c hc
    · rw [List.mem_singleton] at hc; subst hc
      rw [ho, hd]
      intro d hd hd'
      rw [List.mem_singleton] at hd'; subst hd'; exact hself hd
  · rw [List.pairwise_append]
    refine ⟨wf.later, List.pairwise_singleton _ _, ?_⟩
    intro c hc c' hc'
    rw [List.mem_singleton] at hc'; subst hc'
    obtain ⟨f, hf, rfl⟩ := List.mem_map.1 hc
    obtain ⟨h1, h2⟩ := hout f hf
    have ho' : f.toBlock.outs = [f.out] := by cases f <;> rfl
    have hd' : f.toBlock.deps = f.deps := by cases f <;> rfl
    rw [ho, ho', hd']
    refine ⟨?_, ?_⟩
    · intro d hd h3; rw [List.mem_singleton] at h3; subst h3; exact h1 hd
    · intro o ho h3; rw [List.mem_singleton] at h3 ho; subst h3; exact h2 ho

/-- The output object and its block. -/
theorem Refines.addBlock (R : Refines s A) (mk : BV → FBlock) (value : ℝ) (r : Reg)
    (hmo : ∀ o, (mk o).out = o) (hmd : ∀ o, ∀ d ∈ (mk o).deps, d < s.next)
    (h1 : r.value = value) (h2 : r.adj = true)
    (h3 : r.origin ≠ .free)
    (hun : ∀ {op a}, r.origin = .un op a → a < s.objs.length ∧ ∃ av, s.Opd a av ∧
      ∀ o, mk o = .un op av o)
    (hbin : ∀ {op a b}, r.origin = .bin op a b → a < s.objs.length ∧ b < s.objs.length ∧
      ∃ av bv, s.Opd a av ∧ s.Opd b bv ∧ ((∀ o, mk o = .bin op av bv o) ∨
        ((op = .add ∨ op = .mul) ∧ ∀ o, mk o = .bin op bv av o))) :
    Refines (s.addBlock mk value) { A with regs := A.regs ++ [r] } := by
  obtain ⟨n1, n2, n3, n4, n5, n6, n7⟩ := R.alloc_new value
  have R' := R.alloc value
  have hs : ∀ u, u < s.next → saved (s.alloc value).2.heap u = saved s.heap u := fun u hu =>
    saved_update_of_ne _ _ _ _ (Nat.ne_of_lt hu)
  have refkey : ∀ {k u}, RefAt (s.addBlock mk value) k u →
      (k = s.objs.length ∧ u = s.next) ∨ (k < s.objs.length ∧ s.RefAt k u) := by
    rintro k u ⟨o, h, h'⟩
    rcases getElem?_append_singleton h with ⟨h5, rfl⟩ | ⟨h5, h⟩
    · exact Or.inl ⟨h5, (Option.some.inj h').symm⟩
    · exact Or.inr ⟨h5, o, h, h'⟩
  have reffwd : ∀ {k u}, s.RefAt k u → RefAt (s.addBlock mk value) k u := by
    rintro k u ⟨o, h, h'⟩
    exact ⟨o, getElem?_append_left' h, h'⟩
  have refnew : RefAt (s.addBlock mk value) s.objs.length s.next :=
    ⟨⟨value, true, some s.next⟩, by simp [Session.addBlock, Session.alloc], rfl⟩
  have hopd : ∀ {a u}, s.Opd a u → Opd (s.addBlock mk value) a u := by
    rintro a u ⟨o, h5, h6, h7⟩
    refine ⟨o, getElem?_append_left' h5, h6, fun h => ?_⟩
    obtain ⟨h8, h9, h10, h11⟩ := h7 h
    refine ⟨(hs u h11).trans h8, ?_, ?_, Nat.lt_succ_of_lt h11⟩
    · intro b hb
      rcases List.mem_append.1 hb with hb | hb
      · exact h9 b hb
      · rw [List.mem_singleton] at hb; subst hb
        rw [hmo]; exact Nat.ne_of_gt h11
    · intro j hj
      rcases refkey hj with ⟨_, rfl⟩ | ⟨_, hj⟩
      · exact absurd h11 (lt_irrefl _)
      · exact h10 j hj
  have both : ∀ {k : Nat} {o : Obj} {r' : Reg}, (s.objs ++ [(⟨value, true, some s.next⟩ : Obj)])[k]? = some o →
      (A.regs ++ [r])[k]? = some r' →
      (k = s.objs.length ∧ o = ⟨value, true, some s.next⟩ ∧ r' = r) ∨
        (s.objs[k]? = some o ∧ A.regs[k]? = some r') := by
    intro k o r' h h'
    rcases getElem?_append_singleton h with ⟨h5, h6⟩ | ⟨h5, h6⟩ <;>
      rcases getElem?_append_singleton h' with ⟨h7, h8⟩ | ⟨h7, h8⟩
    · exact Or.inl ⟨h5, h6, h8⟩
    · rw [← R.len, h5] at h7; exact absurd h7 (lt_irrefl _)
    · rw [← R.len] at h7; subst h7; exact absurd h5 (lt_irrefl _)
    · exact Or.inr ⟨h6, h8⟩
  have hnd : s.next ∉ (mk s.next).deps := fun h => absurd (hmd _ _ h) (lt_irrefl _)
  have hwf := wf_append R.wf (mk s.next) (by rw [hmo]; exact hnd)
    (fun c hc => by rw [hmo]; exact ⟨n5 c hc, fun h => n4 c hc h.symm⟩)
  refine ⟨?_, ?_, R.ann, ?_, ?_, ?_, ?_, ?_, hwf, ?_, R'.flags, ?_, ?_, ?_, ?_, ?_, ?_, ?_⟩
  · simp [Session.addBlock, Session.alloc, R.len]
  · intro k o r' h h'
    rcases both h h' with ⟨_, rfl, rfl⟩ | ⟨h5, h6⟩
    · exact ⟨h1.symm, h2.symm⟩
    · exact R.val h5 h6
  · intro k v h
    rcases refkey h with ⟨_, rfl⟩ | ⟨_, h⟩
    · exact Nat.lt_succ_self _
    · exact Nat.lt_succ_of_lt (R.ref_lt h)
  · intro k l v h h'
    rcases refkey h with ⟨rfl, rfl⟩ | ⟨_, h5⟩ <;> rcases refkey h' with ⟨h6, h7⟩ | ⟨_, h6⟩
    · exact h6.symm
    · exact absurd h6 (n6 _)
    · subst h7; exact absurd h5 (n6 _)
    · exact R.inj h5 h6
  · intro k o h h'
    rcases getElem?_append_singleton h with ⟨_, rfl⟩ | ⟨_, h⟩
    · cases h'
    · exact R.plain h h'
  · intro b hb
    rcases List.mem_append.1 hb with hb | hb
    · exact ⟨fun d hd => Nat.lt_succ_of_lt ((R.tape_lt b hb).1 d hd),
        Nat.lt_succ_of_lt (R.tape_lt b hb).2⟩
    · rw [List.mem_singleton] at hb; subst hb
      refine ⟨fun d hd => Nat.lt_succ_of_lt (hmd _ d hd), ?_⟩
      rw [hmo]; exact Nat.lt_succ_self _
  · intro v hv
    obtain ⟨i, hi⟩ := R.held v hv
    exact ⟨i, reffwd hi⟩
  · intro k o v h h'
    rcases getElem?_append_singleton h with ⟨_, rfl⟩ | ⟨_, h⟩
    · cases h'; simp [Session.addBlock, Session.alloc]
    · exact R'.output h h'
  · intro k o v h h' h5 h6
    rcases getElem?_append_singleton h with ⟨_, rfl⟩ | ⟨_, h⟩
    · cases h'; exact n3
    · exact R'.quiet h h' h5 (fun b hb => h6 b (List.mem_append_left _ hb))
  · intro k o r' h h' h5
    rcases both h h' with ⟨_, rfl, rfl⟩ | ⟨h6, h7⟩
    · exact absurd h5 h3
    · exact R'.leaf h6 h7 h5
  · intro k r' v h h5 h6 b hb
    rcases getElem?_append_singleton h with ⟨h7, rfl⟩ | ⟨h7, h⟩
    · exact absurd h5 h3
    · rcases refkey h6 with ⟨h8, _⟩ | ⟨_, h8⟩
      · rw [← R.len, h8] at h7; exact absurd h7 (lt_irrefl _)
      rcases List.mem_append.1 hb with hb | hb
      · exact R.free h h5 h8 b hb
      · rw [List.mem_singleton] at hb; subst hb
        rw [hmo]; exact Nat.ne_of_gt (R.ref_lt h8)
  · intro k r' op a h h5
    rcases getElem?_append_singleton h with ⟨h7, rfl⟩ | ⟨_, h⟩
    · obtain ⟨h8, av, h9, h10⟩ := hun h5
      rw [← R.len] at h7; subst h7
      exact ⟨h8, s.next, av, refnew, List.mem_append_right _ (by rw [h10]; exact List.mem_singleton.2 rfl),
        hopd h9⟩
    · obtain ⟨h6, w, av, h7, h8, h9⟩ := R.un h h5
      exact ⟨h6, w, av, reffwd h7, List.mem_append_left _ h8, hopd h9⟩
  · intro k r' op a b h h5
    rcases getElem?_append_singleton h with ⟨h7, rfl⟩ | ⟨_, h⟩
    · obtain ⟨h8, h8', av, bv, h9, h10, h11⟩ := hbin h5
      rw [← R.len] at h7; subst h7
      refine ⟨h8, h8', s.next, av, bv, refnew, hopd h9, hopd h10, ?_⟩
      rcases h11 with h11 | ⟨h11, h12⟩
      · exact Or.inl (List.mem_append_right _ (List.mem_singleton.2 (h11 _).symm))
      · exact Or.inr ⟨h11, List.mem_append_right _ (List.mem_singleton.2 (h12 _).symm)⟩
    · obtain ⟨h6, h6', w, av, bv, h7, h8, h9, h10⟩ := R.bin h h5
      refine ⟨h6, h6', w, av, bv, reffwd h7, hopd h8, hopd h9, ?_⟩
      rcases h10 with h10 | ⟨h10, h11⟩
      · exact Or.inl (List.mem_append_left _ h10)
      · exact Or.inr ⟨h10, List.mem_append_left _ h11⟩
  · intro b hb
    rcases List.mem_append.1 hb with hb | hb
    · obtain ⟨k, r', h5, h6, h7⟩ := R.src b hb
      exact ⟨k, r', getElem?_append_left' h5, h6, reffwd h7⟩
    · rw [List.mem_singleton] at hb; subst hb
      refine ⟨s.objs.length, r, ?_, h3, ?_⟩
      · rw [R.len]; simp
      · rw [hmo]; exact refnew
  · have : r.origin.isFree = false := by
      cases h : r.origin with
      | free => exact absurd h h3
      | un _ _ => rfl
      | bin _ _ _ => rfl
    simp [Session.addBlock, Session.alloc, R.count, this]

end Session
end Pyadjoint
