import Verif.Proofs.Session

/-! Every instruction preserves the refinement of `Verif.Proofs.Session`. -/

namespace Pyadjoint
open Source

namespace Session

variable {s : Session} {A : State}

/-- What creating the block variables of arguments may change. -/
structure Grows (s s' : Session) : Prop where
  tape : s'.tape = s.tape
  annotate : s'.annotate = s.annotate
  held : ∀ v ∈ s.held, v ∈ s'.held
  len : s'.objs.length = s.objs.length
  next : s.next ≤ s'.next
  objs : ∀ {k : Nat} {p : Obj}, s.objs[k]? = some p → ∃ q : Obj, s'.objs[k]? = some q ∧ q.value = p.value ∧
    q.adj = p.adj ∧ (∀ v, p.ref = some v → q.ref = some v)
  opd : ∀ {a : Nat} {u : BV}, s.Opd a u → s'.Opd a u

theorem Grows.refl (s : Session) : Grows s s :=
  ⟨rfl, rfl, fun _ h => h, rfl, le_rfl, fun h => ⟨_, h, rfl, rfl, fun _ h => h⟩, fun h => h⟩

theorem Grows.trans {s₁ s₂ s₃ : Session} (h : Grows s₁ s₂) (h' : Grows s₂ s₃) : Grows s₁ s₃ where
  tape := h'.tape.trans h.tape
  annotate := h'.annotate.trans h.annotate
  held := fun v hv => h'.held v (h.held v hv)
  len := h'.len.trans h.len
  next := h.next.trans h'.next
  objs := by
    intro k p hp
    obtain ⟨q, h1, h2, h3, h4⟩ := h.objs hp
    obtain ⟨q', h1', h2', h3', h4'⟩ := h'.objs h1
    exact ⟨q', h1', h2'.trans h2, h3'.trans h3, fun v hv => h4' v (h4 v hv)⟩
  opd := fun hu => h'.opd (h.opd hu)

theorem Grows.refAt {s s' : Session} (h : Grows s s') {k v} (hr : s.RefAt k v) : s'.RefAt k v := by
  obtain ⟨o, h1, h2⟩ := hr
  obtain ⟨q, h3, _, _, h4⟩ := h.objs h1
  exact ⟨q, h3, h4 v h2⟩

theorem grows_alloc (s : Session) (value : ℝ) : Grows s (s.alloc value).2 where
  tape := rfl
  annotate := rfl
  held := fun _ h => h
  len := rfl
  next := Nat.le_succ _
  objs := fun h => ⟨_, h, rfl, rfl, fun _ h => h⟩
  opd := by
    rintro a v ⟨o, h1, h2, h3⟩
    refine ⟨o, h1, h2, fun h => ?_⟩
    obtain ⟨h4, h5, h6, h7⟩ := h3 h
    exact ⟨(saved_update_of_ne _ _ _ _ (Nat.ne_of_lt h7)).trans h4, h5, h6, Nat.lt_succ_of_lt h7⟩

theorem Refines.grows_touch (_R : Refines s A) {i : Nat} {o : Obj} (hi : s.objs[i]? = some o) :
    Grows s (s.touch i o).2 := by
  obtain ⟨h1, h2, h3, h4, h5⟩ := touch_fields s i o
  refine ⟨h1, h2, fun v hv => h3 ▸ hv, h5, h4, fun hp => touch_objs hi _ _ hp, ?_⟩
  rintro a v ⟨p, q1, q2, q3⟩
  obtain ⟨q, k1, k2, k3, k4⟩ := touch_objs hi a p q1
  refine ⟨q, k1, fun h => k4 v (q2 (k3 ▸ h)), fun h => ?_⟩
  obtain ⟨q4, q5, q6, q7⟩ := q3 (k3 ▸ h)
  refine ⟨?_, by rw [h1]; exact q5, ?_, lt_of_lt_of_le q7 h4⟩
  · rw [k2, ← q4]
    unfold Session.touch
    cases o.ref with
    | some u => rfl
    | none => exact saved_update_of_ne _ _ _ _ (Nat.ne_of_lt q7)
  · intro j hj
    revert hj
    unfold Session.touch
    cases ho : o.ref with
    | some u => exact q6 j
    | none =>
      rintro ⟨o', h6, h7⟩
      simp only [Session.alloc, List.getElem?_set] at h6
      split at h6
      · split at h6
        · cases h6; cases h7; exact absurd q7 (lt_irrefl _)
        · cases h6
      · exact q6 j ⟨o', h6, h7⟩

theorem Refines.operand (R : Refines s A) {i : Nat} {o : Obj} (hi : s.objs[i]? = some o) :
    Refines (s.operand i o).2 A ∧ Grows s (s.operand i o).2 ∧
    (s.operand i o).2.Opd i (s.operand i o).1 ∧ (s.operand i o).1 < (s.operand i o).2.next := by
  unfold Session.operand
  cases hadj : o.adj with
  | true =>
    simp only [if_true]
    have R' := R.touch hi hadj
    have hr := touch_refAt hi
    refine ⟨R', R.grows_touch hi, ?_, R'.ref_lt hr⟩
    obtain ⟨q, h1, h2⟩ := hr
    refine ⟨q, h1, fun _ => h2, fun h => ?_⟩
    rw [R'.plain h1 h] at h2; cases h2
  | false =>
    simp only [Bool.false_eq_true, if_false]
    obtain ⟨n1, n2, n3, n4, n5, n6, n7⟩ := R.alloc_new o.value
    refine ⟨R.alloc _, grows_alloc s _, ⟨o, hi, fun h => ?_, fun _ => ⟨n3, n4, n6, ?_⟩⟩, ?_⟩
    · rw [hadj] at h; cases h
    · rw [n2]; exact Nat.lt_succ_self _
    · rw [n2]; exact Nat.lt_succ_self _

theorem opd_addDependency {a : Nat} {u v : BV} (h : s.Opd a u) : (s.addDependency v).Opd a u := by
  obtain ⟨o, h1, h2, h3⟩ := h
  exact ⟨o, h1, h2, fun h => ⟨(saved_addDependency s v u).trans (h3 h).1, (h3 h).2⟩⟩

theorem Refines.recordUn (R : Refines s A) (op : UOp) {i : Nat} {o : Obj} (hi : s.objs[i]? = some o)
    (r : Reg) (h1 : r.value = op.val o.value) (h2 : r.adj = true) (h3 : r.origin = .un op i) :
    Refines (s.recordUn op i o) { A with regs := A.regs ++ [r] } := by
  obtain ⟨R', G, hopd, hlt⟩ := R.operand hi
  unfold Session.recordUn
  have R'' := R'.addDependency (s.operand i o).1
  refine R''.addBlock (.un op (s.operand i o).1) _ r (fun _ => rfl) ?_ h1 h2 (by rw [h3]; simp) ?_ ?_
  · intro _ d hd
    rw [show (FBlock.un op (s.operand i o).1 _).deps = [(s.operand i o).1] from rfl,
      List.mem_singleton] at hd
    subst hd; exact hlt
  · intro op' a h
    rw [h3] at h; cases h
    refine ⟨?_, _, opd_addDependency hopd, fun _ => rfl⟩
    exact (show _ < (s.operand i o).2.objs.length from G.len ▸ (List.getElem?_eq_some_iff.1 hi).1)
  · intro op' a b h
    rw [h3] at h; cases h

theorem Refines.recordBin (R : Refines s A) (op : BOp) {i j : Nat} {o p : Obj}
    (hi : s.objs[i]? = some o) (hj : s.objs[j]? = some p) (value : ℝ)
    (r : Reg) (h1 : r.value = value) (h2 : r.adj = true)
    (h3 : r.origin = .bin op i j ∨ (op = .add ∨ op = .mul) ∧ r.origin = .bin op j i) :
    ∃ s', s.recordBin op i j value = some s' ∧
      Refines s' { A with regs := A.regs ++ [r] } := by
  obtain ⟨R₁, G₁, hopd₁, hlt₁⟩ := R.operand hi
  obtain ⟨p', hp', _⟩ := G₁.objs hj
  obtain ⟨R₂, G₂, hopd₂, hlt₂⟩ := R₁.operand hp'
  have hopd₁' := G₂.opd hopd₁
  have hlen := G₂.len.trans G₁.len
  have hilt : i < s.objs.length := (List.getElem?_eq_some_iff.1 hi).1
  have hjlt : j < s.objs.length := (List.getElem?_eq_some_iff.1 hj).1
  have hlt₁' := lt_of_lt_of_le hlt₁ G₂.next
  refine ⟨_, by simp only [Session.recordBin, hi, hp', Option.bind_eq_bind, Option.bind_some,
    Option.pure_def]; rfl, ?_⟩
  have R₃ := (R₂.addDependency (s.operand i o).1).addDependency
    ((s.operand i o).2.operand j p').1
  have ho : r.origin ≠ .free := by rcases h3 with h | ⟨_, h⟩ <;> rw [h] <;> simp
  refine R₃.addBlock (.bin op (s.operand i o).1 ((s.operand i o).2.operand j p').1) _ r
    (fun _ => rfl) ?_ h1 h2 ho ?_ ?_
  · intro _ d hd
    rw [show (FBlock.bin op (s.operand i o).1 ((s.operand i o).2.operand j p').1 _).deps
        = [(s.operand i o).1, ((s.operand i o).2.operand j p').1] from rfl,
      List.mem_cons, List.mem_singleton] at hd
    rcases hd with rfl | rfl
    · exact hlt₁'
    · exact hlt₂
  · intro op' a h
    rcases h3 with h3 | ⟨_, h3⟩ <;> rw [h3] at h <;> cases h
  · intro op' a b h
    have hl : ∀ {k}, k < s.objs.length → k <
        ((((s.operand i o).2.operand j p').2.addDependency (s.operand i o).1).addDependency
          ((s.operand i o).2.operand j p').1).objs.length := by
      intro k hk; exact (show k < ((s.operand i o).2.operand j p').2.objs.length from hlen ▸ hk)
    rcases h3 with h3 | ⟨h4, h3⟩
    · rw [h3] at h; cases h
      exact ⟨hl hilt, hl hjlt, _, _, opd_addDependency (opd_addDependency hopd₁'),
        opd_addDependency (opd_addDependency hopd₂), Or.inl fun _ => rfl⟩
    · rw [h3] at h; cases h
      exact ⟨hl hjlt, hl hilt, _, _, opd_addDependency (opd_addDependency hopd₂),
        opd_addDependency (opd_addDependency hopd₁'), Or.inr ⟨h4, fun _ => rfl⟩⟩

/-- Holding a variable that belongs to an object. -/
theorem Refines.hold (R : Refines s A) {i : Nat} {v : BV} (h : s.RefAt i v) :
    Refines { s with held := v :: s.held } A where
  len := R.len
  val := R.val
  ann := R.ann
  ref_lt := R.ref_lt
  inj := R.inj
  plain := R.plain
  tape_lt := R.tape_lt
  held := by
    intro u hu
    rcases List.mem_cons.1 hu with rfl | hu
    · exact ⟨i, h⟩
    · exact R.held u hu
  wf := R.wf
  output := R.output
  flags := R.flags
  quiet := fun h1 h2 h3 h4 => R.quiet h1 h2 (fun h5 => h3 (List.mem_cons_of_mem _ h5)) h4
  leaf := R.leaf
  free := R.free
  un := R.un
  bin := R.bin
  src := R.src
  count := R.count

/-- Creating controls. -/
theorem Refines.controls (cs : List Nat) (R : Refines s A) {vs : List BV} {s' : Session}
    (h : Session.controls cs s = some (vs, s')) :
    Refines s' A ∧ Grows s s' ∧ List.Forall₂ s'.RefAt cs vs ∧ (∀ v ∈ vs, v ∈ s'.held) := by
  induction cs generalizing s vs s' with
  | nil =>
    simp only [Session.controls, Option.some.injEq, Prod.mk.injEq] at h
    obtain ⟨rfl, rfl⟩ := h
    exact ⟨R, Grows.refl s, List.Forall₂.nil, by simp⟩
  | cons c cs ih =>
    unfold Session.controls at h
    cases hc : s.objs[c]? with
    | none => rw [hc] at h; simp at h
    | some o =>
      rw [hc] at h
      cases hadj : o.adj with
      | false => simp [hadj] at h
      | true =>
        simp only [hadj, if_true, Option.bind_eq_bind, Option.bind_some] at h
        have R₁ := R.touch hc hadj
        have hr := touch_refAt hc
        have R₂ := R₁.hold hr
        have G₁ := R.grows_touch hc
        have G₂ : Grows (s.touch c o).2
            { (s.touch c o).2 with held := (s.touch c o).1 :: (s.touch c o).2.held } :=
          ⟨rfl, rfl, fun _ h => List.mem_cons_of_mem _ h, rfl, le_rfl,
            fun h => ⟨_, h, rfl, rfl, fun _ h => h⟩, fun h => h⟩
        cases hrec : Session.controls cs
            { (s.touch c o).2 with held := (s.touch c o).1 :: (s.touch c o).2.held } with
        | none => rw [hrec] at h; simp at h
        | some q =>
          obtain ⟨vs', s''⟩ := q
          rw [hrec] at h
          simp only [Option.bind_some, Option.pure_def, Option.some.injEq, Prod.mk.injEq] at h
          obtain ⟨rfl, rfl⟩ := h
          obtain ⟨R₃, G₃, h5, h6⟩ := ih R₂ hrec
          refine ⟨R₃, (G₁.trans G₂).trans G₃, List.Forall₂.cons (G₃.refAt hr) h5, ?_⟩
          intro v hv
          rcases List.mem_cons.1 hv with rfl | hv
          · exact G₃.held _ (List.mem_cons_self)
          · exact h6 v hv

/-- When creating controls succeeds. -/
theorem Refines.controls_isSome (cs : List Nat) (R : Refines s A) :
    (Session.controls cs s).isSome = true ↔ A.AreAdj cs := by
  induction cs generalizing s with
  | nil => simp [Session.controls, State.AreAdj]
  | cons c cs ih =>
    unfold Session.controls
    cases hc : s.objs[c]? with
    | none =>
      have : A.regs[c]? = none := by
        rw [List.getElem?_eq_none_iff] at hc ⊢; rw [← R.len]; exact hc
      simp [State.AreAdj, this]
    | some o =>
      obtain ⟨r, hr⟩ : ∃ r, A.regs[c]? = some r :=
        ⟨_, List.getElem?_eq_getElem (R.lt_of_objs hc)⟩
      have hv := (R.val hc hr).2
      cases hadj : o.adj with
      | false =>
        rw [hadj] at hv
        simp [State.AreAdj, hr, ← hv, hadj]
      | true =>
        rw [hadj] at hv
        have R₂ := (R.touch hc hadj).hold (touch_refAt hc)
        have := ih R₂
        simp only [Option.bind_eq_bind, Option.bind_some, hadj, if_true]
        rw [show A.AreAdj (c :: cs) ↔ A.AreAdj cs from by
          simp [State.AreAdj, hr, ← hv], ← this]
        cases Session.controls cs
            { (s.touch c o).2 with held := (s.touch c o).1 :: (s.touch c o).2.held } <;> simp

/-- The garbage collector takes a variable that neither the tape nor a control refers to. -/
theorem Refines.collect (R : Refines s A) {i : Nat} {o : Obj} {v : BV} (hi : s.objs[i]? = some o)
    (hv : o.ref = some v) (hh : v ∉ s.held) (ht : ∀ b ∈ s.tape, v ∉ b.deps ∧ v ≠ b.out) :
    Refines { s with objs := s.objs.set i { o with ref := none } } A := by
  have hil : i < s.objs.length := (List.getElem?_eq_some_iff.1 hi).1
  have key : ∀ {k : Nat} {o' : Obj}, (s.objs.set i { o with ref := none })[k]? = some o' →
      (k = i ∧ o' = { o with ref := none }) ∨ (k ≠ i ∧ s.objs[k]? = some o') := by
    intro k o' h
    rw [List.getElem?_set] at h
    by_cases hk : i = k
    · subst hk
      simp only [if_true, hil] at h
      exact Or.inl ⟨rfl, (Option.some.inj h).symm⟩
    · simp only [if_neg hk] at h
      exact Or.inr ⟨fun h' => hk h'.symm, h⟩
  have fwd : ∀ {k : Nat} {o' : Obj}, k ≠ i → s.objs[k]? = some o' →
      (s.objs.set i { o with ref := none })[k]? = some o' := by
    intro k o' hk h
    rw [List.getElem?_set, if_neg (fun h' => hk h'.symm)]; exact h
  have refkey : ∀ {k u}, RefAt { s with objs := s.objs.set i { o with ref := none } } k u →
      s.RefAt k u := by
    rintro k u ⟨o', h1, h2⟩
    rcases key h1 with ⟨rfl, rfl⟩ | ⟨h3, h4⟩
    · cases h2
    · exact ⟨o', h4, h2⟩
  have reffwd : ∀ {k u}, s.RefAt k u → u ≠ v →
      RefAt { s with objs := s.objs.set i { o with ref := none } } k u := by
    rintro k u ⟨o', h1, h2⟩ huv
    refine ⟨o', fwd ?_ h1, h2⟩
    rintro rfl
    rw [hi] at h1; cases h1; rw [hv] at h2; cases h2; exact huv rfl
  have hopd : ∀ {a u}, s.Opd a u → u ≠ v →
      Opd { s with objs := s.objs.set i { o with ref := none } } a u := by
    rintro a u ⟨o', h1, h2, h3⟩ huv
    by_cases ha : a = i
    · subst ha
      rw [hi] at h1; cases h1
      cases hadj : o.adj with
      | true =>
        have := h2 hadj
        rw [hv] at this; cases this; exact absurd rfl huv
      | false => have := R.plain hi hadj; rw [hv] at this; cases this
    · exact ⟨o', fwd ha h1, h2, fun h => ⟨(h3 h).1, (h3 h).2.1, fun j hj => (h3 h).2.2.1 j (refkey hj),
        (h3 h).2.2.2⟩⟩
  refine ⟨by simpa using R.len, ?_, R.ann, fun h => R.ref_lt (refkey h),
    fun h h' => R.inj (refkey h) (refkey h'), ?_, R.tape_lt, ?_, R.wf, ?_, R.flags, ?_, ?_, ?_,
    ?_, ?_, ?_, R.count⟩
  · intro k o' r h1 h2
    rcases key h1 with ⟨rfl, rfl⟩ | ⟨_, h3⟩
    · exact (R.val hi h2 : o.value = _ ∧ o.adj = _)
    · exact R.val h3 h2
  · intro k o' h1 h2
    rcases key h1 with ⟨rfl, rfl⟩ | ⟨_, h3⟩
    · rfl
    · exact R.plain h3 h2
  · intro u hu
    obtain ⟨k, hk⟩ := R.held u hu
    exact ⟨k, reffwd hk (by rintro rfl; exact hh hu)⟩
  · intro k o' u h1 h2
    rcases key h1 with ⟨rfl, rfl⟩ | ⟨_, h3⟩
    · cases h2
    · exact R.output h3 h2
  · intro k o' u h1 h2 h3 h4
    rcases key h1 with ⟨rfl, rfl⟩ | ⟨_, h5⟩
    · cases h2
    · exact R.quiet h5 h2 h3 h4
  · intro k o' r h1 h2 h3
    rcases key h1 with ⟨rfl, rfl⟩ | ⟨_, h5⟩
    · have q := R.quiet hi hv hh ht
      rw [R.leaf hi h2 h3, hv]; exact q
    · exact R.leaf h5 h2 h3
  · intro k r u h1 h2 h3
    exact R.free h1 h2 (refkey h3)
  · intro k r op a h1 h2
    obtain ⟨h3, w, av, h4, h5, h6⟩ := R.un h1 h2
    refine ⟨h3, w, av, reffwd h4 ?_, h5, hopd h6 ?_⟩
    · rintro rfl; exact (ht _ h5).2 rfl
    · rintro rfl; exact (ht _ h5).1 (by simp [FBlock.deps])
  · intro k r op a b h1 h2
    obtain ⟨h3, h3', w, av, bv, h4, h6, h6', h5⟩ := R.bin h1 h2
    have hb : ∃ c ∈ s.tape, av ∈ c.deps ∧ bv ∈ c.deps ∧ c.out = w := by
      rcases h5 with h5 | ⟨_, h5⟩ <;> exact ⟨_, h5, by simp [FBlock.deps], by simp [FBlock.deps], rfl⟩
    obtain ⟨c, hc, hca, hcb, hco⟩ := hb
    refine ⟨h3, h3', w, av, bv, reffwd h4 ?_, hopd h6 ?_, hopd h6' ?_, h5⟩
    · rintro rfl; exact (ht _ hc).2 hco.symm
    · rintro rfl; exact (ht _ hc).1 hca
    · rintro rfl; exact (ht _ hc).1 hcb
  · intro b hb
    obtain ⟨k, r, h1, h2, h3⟩ := R.src b hb
    exact ⟨k, r, h1, h2, reffwd h3 (fun h => (ht b hb).2 h.symm)⟩

end Session
end Pyadjoint
