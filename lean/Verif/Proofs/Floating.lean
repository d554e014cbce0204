import Verif.Spec.Views
import Verif.Proofs.Chain
import Mathlib.Data.List.Nodup

/-! Recording a program on views: the invariant. -/

namespace Pyadjoint.Floating

variable {V : Type*}

/-- The recorded state describes the memory `mem`, when the initial memory is `σ`; `val` are the values of the block variables.  `P` are block variables
not yet put in the outputs of their block. -/
structure Inv (σ : Obj → V) (P : List BV) (s : FS V) (mem : Obj → V) (val : BV → V) : Prop where
  cur_lt : ∀ o v, s.cur o = some v → v < s.next
  cur_val : ∀ o v, s.cur o = some v → val v = mem o
  cur_none : ∀ o, s.cur o = none → mem o = σ o
  leaf : ∀ v, v < s.next → v ∉ P → (∀ b ∈ s.tape, v ∉ b.outs) → val v = σ (s.owner v)
  eqs : ∀ b ∈ s.tape, ∀ (k : Nat) (hk : k < b.outs.length), val b.outs[k] = b.fn (b.deps.map val) k
  deps_lt : ∀ b ∈ s.tape, ∀ d ∈ b.deps, d < b.birth
  outs_ge : ∀ b ∈ s.tape, ∀ o ∈ b.outs, b.birth ≤ o ∧ o < s.next
  birth_le : ∀ b ∈ s.tape, b.birth ≤ s.next
  sorted : s.tape.Pairwise fun b b' => b.birth ≤ b'.birth
  nodup : (s.tape.flatMap Rec.outs).Nodup
  pend : ∀ v ∈ P, v < s.next ∧ ∀ b ∈ s.tape, v ∉ b.outs

/-- The values of the variables that existed are kept. -/
def Keep (n : Nat) (val val' : BV → V) : Prop := ∀ v : Nat, v < n → val' v = val v

theorem Keep.refl (n : Nat) (val : BV → V) : Keep n val val := fun _ _ => rfl

theorem Keep.trans {n m : Nat} {val val' val'' : BV → V} (h : Keep n val val') (hnm : n ≤ m) (h' : Keep m val' val'') : Keep n val val'' :=
  fun v hv => (h' v (lt_of_lt_of_le hv hnm)).trans (h v hv)

theorem FS.init_inv (σ : Obj → V) (val : BV → V) : Inv σ [] (FS.init : FS V) σ val where
  cur_lt := by intro o v h; cases h
  cur_val := by intro o v h; cases h
  cur_none := fun _ _ => rfl
  leaf := by intro v h; exact absurd h (Nat.not_lt_zero _)
  eqs := by intro b hb; cases hb
  deps_lt := by intro b hb; cases hb
  outs_ge := by intro b hb; cases hb
  birth_le := by intro b hb; cases hb
  sorted := List.Pairwise.nil
  nodup := List.nodup_nil
  pend := by intro v hv; cases hv

theorem Inv.deps_next {σ : Obj → V} {P : List BV} {s : FS V} {mem : Obj → V} {val : BV → V} (h : Inv σ P s mem val) {b : Rec V} (hb : b ∈ s.tape)
    {d : BV} (hd : d ∈ b.deps) : d < s.next := lt_of_lt_of_le (h.deps_lt b hb d hd) (h.birth_le b hb)

/-- A new block variable for `o`, holding `x`, which will be the output of a block. -/
theorem Inv.create {σ : Obj → V} {P : List BV} {s : FS V} {mem : Obj → V} {val : BV → V} (h : Inv σ P s mem val) (o : Obj) (x : V) :
    Inv σ (s.next :: P) (s.create o) (Function.update mem o x) (Function.update val s.next x) ∧ Keep s.next val (Function.update val s.next x) := by
  have hk : Keep s.next val (Function.update val s.next x) := fun v hv => Function.update_of_ne (Nat.ne_of_lt hv) _ _
  refine ⟨?_, hk⟩
  have hnew : ∀ b ∈ s.tape, s.next ∉ b.outs := fun b hb hv => absurd (h.outs_ge b hb _ hv).2 (Nat.lt_irrefl _)
  have nlt : ∀ v : Nat, v < s.next → v < s.next + 1 := fun v hv => Nat.lt_succ_of_lt hv
  refine ⟨?_, ?_, ?_, ?_, ?_, h.deps_lt, ?_, ?_, h.sorted, h.nodup, ?_⟩
  · intro o' v hv
    simp only [FS.create, Function.update_apply] at hv ⊢
    split at hv
    · cases hv; exact Nat.lt_succ_self _
    · exact nlt v (h.cur_lt o' v hv)
  · intro o' v hv
    simp only [FS.create, Function.update_apply] at hv
    split at hv
    · rename_i e
      cases hv; subst e; simp
    · rename_i e
      rw [hk v (h.cur_lt o' v hv), Function.update_of_ne e]
      exact h.cur_val o' v hv
  · intro o' ho'
    simp only [FS.create, Function.update_apply] at ho'
    split at ho'
    · cases ho'
    · rename_i e
      rw [Function.update_of_ne e]
      exact h.cur_none o' ho'
  · intro v hv hP hout
    have hv' : v < s.next := by
      rcases Nat.lt_succ_iff_lt_or_eq.1 hv with h | h
      · exact h
      · exact absurd (by simp [h]) hP
    rw [hk v hv']
    show val v = σ (Function.update s.owner s.next o v)
    rw [Function.update_of_ne (Nat.ne_of_lt hv')]
    exact h.leaf v hv' (fun hp => hP (List.mem_cons_of_mem _ hp)) hout
  · intro b hb k hkk
    rw [hk _ (h.outs_ge b hb _ (List.getElem_mem _)).2]
    rw [h.eqs b hb k hkk]
    congr 1
    apply List.map_congr_left
    intro d hd
    exact (hk d (h.deps_next hb hd)).symm
  · intro b hb o' ho'
    exact ⟨(h.outs_ge b hb o' ho').1, nlt _ (h.outs_ge b hb o' ho').2⟩
  · intro b hb
    exact Nat.le_succ_of_le (h.birth_le b hb)
  · intro v hv
    rcases List.mem_cons.1 hv with rfl | hv
    · exact ⟨Nat.lt_succ_self _, hnew⟩
    · exact ⟨nlt _ (h.pend v hv).1, (h.pend v hv).2⟩

/-- The property `block_variable` on an object without one: a leaf. -/
theorem Inv.ensure {σ : Obj → V} {P : List BV} {s : FS V} {mem : Obj → V} {val : BV → V} (h : Inv σ P s mem val) (o : Obj) :
    ∃ val', Inv σ P (s.ensure o) mem val' ∧ Keep s.next val val' ∧ s.next ≤ (s.ensure o).next ∧ (s.ensure o).tape = s.tape ∧
      ∃ v, (s.ensure o).cur o = some v := by
  unfold FS.ensure
  cases hc : s.cur o with
  | some v => exact ⟨val, h, Keep.refl _ _, le_refl _, rfl, v, hc⟩
  | none =>
    obtain ⟨h1, h2⟩ := h.create o (mem o)
    rw [Function.update_eq_self] at h1
    refine ⟨_, ⟨h1.cur_lt, h1.cur_val, h1.cur_none, ?_, h1.eqs, h1.deps_lt, h1.outs_ge, h1.birth_le, h1.sorted, h1.nodup,
      fun v hv => h1.pend v (List.mem_cons_of_mem _ hv)⟩, h2, Nat.le_succ _, rfl, s.next, ?_⟩
    · intro v hv hP hout
      by_cases e : v = s.next
      · subst e
        simp only [FS.create, Function.update_self]
        exact h.cur_none o hc
      · exact h1.leaf v hv (by simp only [List.mem_cons, not_or]; exact ⟨e, hP⟩) hout
    · simp [FS.create]

/-- A block is put on the tape. -/
theorem Inv.push {σ : Obj → V} {P : List BV} {s : FS V} {mem : Obj → V} {val : BV → V} (h : Inv σ P s mem val) (deps : List BV)
    (fn : List V → Nat → V) (hd : ∀ d ∈ deps, d < s.next) : Inv σ P (s.push deps [] fn) mem val := by
  have hm : ∀ b, b ∈ (s.push deps [] fn).tape ↔ b ∈ s.tape ∨ b = ⟨deps, [], fn, s.next⟩ := by
    intro b; simp [FS.push]
  refine ⟨h.cur_lt, h.cur_val, h.cur_none, ?_, ?_, ?_, ?_, ?_, ?_, ?_, ?_⟩
  · intro v hv hP hout
    exact h.leaf v hv hP fun b hb => hout b ((hm b).2 (Or.inl hb))
  · intro b hb k hk
    rcases (hm b).1 hb with hb | rfl
    · exact h.eqs b hb k hk
    · cases hk
  · intro b hb
    rcases (hm b).1 hb with hb | rfl
    · exact h.deps_lt b hb
    · exact hd
  · intro b hb
    rcases (hm b).1 hb with hb | rfl
    · exact h.outs_ge b hb
    · intro o ho; cases ho
  · intro b hb
    rcases (hm b).1 hb with hb | rfl
    · exact h.birth_le b hb
    · exact le_refl _
  · simp only [FS.push]
    rw [List.pairwise_append]
    refine ⟨h.sorted, List.pairwise_singleton _ _, ?_⟩
    intro b hb b' hb'
    simp only [List.mem_singleton] at hb'
    subst hb'
    exact h.birth_le b hb
  · simp only [FS.push, List.flatMap_append]
    simpa using h.nodup
  · intro v hv
    refine ⟨(h.pend v hv).1, ?_⟩
    intro b hb
    rcases (hm b).1 hb with hb | rfl
    · exact (h.pend v hv).2 b hb
    · simp

/-- A pending variable becomes output of the block at position `i`. -/
theorem Inv.appendOut {σ : Obj → V} {P : List BV} {s : FS V} {mem : Obj → V} {val : BV → V} {v : BV} (h : Inv σ (v :: P) s mem val) (hvP : v ∉ P)
    {i : Nat} {b : Rec V} (hb : s.tape[i]? = some b) (hbirth : b.birth ≤ v) (hval : val v = b.fn (b.deps.map val) b.outs.length) :
    Inv σ P (s.appendOut i v) mem val := by
  obtain ⟨hi, hbe⟩ := List.getElem?_eq_some_iff.1 hb
  have hmod : s.tape.modify i (fun b => { b with outs := b.outs ++ [v] }) = s.tape.take i ++ { b with outs := b.outs ++ [v] } :: s.tape.drop (i + 1) := by
    rw [List.modify_eq_take_cons_drop hi, hbe]
  have hsplit : s.tape = s.tape.take i ++ b :: s.tape.drop (i + 1) := by
    rw [← hbe, List.getElem_cons_drop, List.take_append_drop]
  have hm : ∀ c, c ∈ (s.appendOut i v).tape → (c ∈ s.tape) ∨ c = { b with outs := b.outs ++ [v] } := by
    intro c hc
    simp only [FS.appendOut, hmod, List.mem_append, List.mem_cons] at hc
    rcases hc with hc | hc | hc
    · exact Or.inl (List.mem_of_mem_take hc)
    · exact Or.inr hc
    · exact Or.inl (List.mem_of_mem_drop hc)
  have hbm : b ∈ s.tape := hbe ▸ List.getElem_mem _
  have hpv := h.pend v (List.mem_cons_self ..)
  have hflat : ((s.appendOut i v).tape.flatMap Rec.outs).Perm (v :: s.tape.flatMap Rec.outs) := by
    simp only [FS.appendOut, hmod]
    conv_rhs => rw [hsplit]
    simp only [List.flatMap_append, List.flatMap_cons, List.append_assoc, List.cons_append, List.nil_append]
    have : (List.take i s.tape).flatMap Rec.outs ++ (b.outs ++ v :: (s.tape.drop (i + 1)).flatMap Rec.outs)
        = ((List.take i s.tape).flatMap Rec.outs ++ b.outs) ++ v :: (s.tape.drop (i + 1)).flatMap Rec.outs := by simp
    rw [this]
    refine List.perm_middle.trans ?_
    simp
  have hnew : { b with outs := b.outs ++ [v] } ∈ (s.appendOut i v).tape := by
    simp [FS.appendOut, hmod]
  refine ⟨h.cur_lt, h.cur_val, h.cur_none, ?_, ?_, ?_, ?_, ?_, ?_, ?_, ?_⟩
  · intro w hw hP hout
    refine h.leaf w hw ?_ ?_
    · simp only [List.mem_cons, not_or]
      refine ⟨?_, hP⟩
      rintro rfl
      exact hout _ hnew (by simp)
    · intro c hc
      rw [hsplit, List.mem_append, List.mem_cons] at hc
      rcases hc with hc | rfl | hc
      · exact hout c (by simp only [FS.appendOut, hmod, List.mem_append]; exact Or.inl hc)
      · intro hw'; exact hout _ hnew (by simp [hw'])
      · exact hout c (by simp only [FS.appendOut, hmod, List.mem_append, List.mem_cons]; exact Or.inr (Or.inr hc))
  · intro c hc k hk
    rcases hm c hc with hc | rfl
    · exact h.eqs c hc k hk
    · simp only at hk ⊢
      by_cases hk' : k < b.outs.length
      · rw [List.getElem_append_left hk']
        exact h.eqs b hbm k hk'
      · have : k = b.outs.length := by simp at hk; omega
        subst this
        simp [hval]
  · intro c hc
    rcases hm c hc with hc | rfl
    · exact h.deps_lt c hc
    · exact h.deps_lt b hbm
  · intro c hc
    rcases hm c hc with hc | rfl
    · exact h.outs_ge c hc
    · intro o ho
      simp only [List.mem_append, List.mem_singleton] at ho
      rcases ho with ho | rfl
      · exact h.outs_ge b hbm o ho
      · exact ⟨hbirth, hpv.1⟩
  · intro c hc
    rcases hm c hc with hc | rfl
    · exact h.birth_le c hc
    · exact h.birth_le b hbm
  · simp only [FS.appendOut, hmod]
    have hs := h.sorted
    rw [hsplit] at hs
    rw [List.pairwise_append, List.pairwise_cons] at hs ⊢
    refine ⟨hs.1, ⟨hs.2.1.1, hs.2.1.2⟩, ?_⟩
    intro a ha c hc
    rcases List.mem_cons.1 hc with rfl | hc
    · exact hs.2.2 a ha b (by simp)
    · exact hs.2.2 a ha c (by simp [hc])
  · rw [hflat.nodup_iff, List.nodup_cons]
    refine ⟨?_, h.nodup⟩
    rw [List.mem_flatMap]
    rintro ⟨c, hc, hv⟩
    exact hpv.2 c hc hv
  · intro w hw
    have := h.pend w (List.mem_cons_of_mem _ hw)
    refine ⟨this.1, ?_⟩
    intro c hc
    rcases hm c hc with hc | rfl
    · exact this.2 c hc
    · simp only [List.mem_append, List.mem_singleton, not_or]
      refine ⟨this.2 b hbm, ?_⟩
      rintro rfl
      exact hvP hw

theorem push_create (s : FS V) (o : Obj) (deps : List BV) (fn : List V → Nat → V) :
    (s.push deps [s.next] fn).create o = ((s.push deps [] fn).create o).appendOut s.tape.length s.next := by
  have : ∀ (l : List (Rec V)) (a : Rec V) (f : Rec V → Rec V), (l ++ [a]).modify l.length f = l ++ [f a] := by
    intro l a f
    induction l with
    | nil => rfl
    | cons c l ih => simp [ih]
  simp [FS.push, FS.create, FS.appendOut, this]

/-- Using an object as dependency records what reading it means. -/
def DepOK (cfg : Obj → View V) (act : List Obj) : Prop :=
  ∀ (σ : Obj → V) (P : List BV) (o : Obj) (s : FS V) (mem : Obj → V) (val : BV → V), Inv σ P s mem val →
    ∃ val', Inv σ P (useDep cfg act o s).1 (read cfg act o mem).2 val' ∧ Keep s.next val val' ∧ s.next ≤ (useDep cfg act o s).1.next ∧
      s.tape <+: (useDep cfg act o s).1.tape ∧ (useDep cfg act o s).2 < (useDep cfg act o s).1.next ∧
      val' (useDep cfg act o s).2 = (read cfg act o mem).1

theorem useAll_ok {cfg : Obj → View V} {act : List Obj} (hdep : DepOK cfg act) (os : List Obj) (σ : Obj → V) (P : List BV) (s : FS V)
    (mem : Obj → V) (val : BV → V) (h : Inv σ P s mem val) :
    ∃ val', Inv σ P (useAll cfg act os s).1 (readAll cfg act os mem).2 val' ∧ Keep s.next val val' ∧ s.next ≤ (useAll cfg act os s).1.next ∧
      s.tape <+: (useAll cfg act os s).1.tape ∧ (∀ d ∈ (useAll cfg act os s).2, d < (useAll cfg act os s).1.next) ∧
      (useAll cfg act os s).2.map val' = (readAll cfg act os mem).1 := by
  induction os generalizing s mem val with
  | nil =>
    rw [useAll, readAll]
    exact ⟨val, h, Keep.refl _ _, le_refl _, List.prefix_refl _, by simp, rfl⟩
  | cons o os ih =>
    rw [useAll, readAll]
    obtain ⟨v1, h1, k1, n1, t1, l1, e1⟩ := hdep σ P o s mem val h
    obtain ⟨v2, h2, k2, n2, t2, l2, e2⟩ := ih _ _ _ h1
    refine ⟨v2, h2, k1.trans n1 k2, le_trans n1 n2, t1.trans t2, ?_, ?_⟩
    · intro d hd
      rcases List.mem_cons.1 hd with rfl | hd
      · exact lt_of_lt_of_le l1 n2
      · exact l2 d hd
    · simp only [List.map_cons, e2]
      rw [k2 _ l1, e1]

theorem useDep_ok (cfg : Obj → View V) (act : List Obj) : DepOK cfg act := by
  induction hn : act.length using Nat.strong_induction_on generalizing act with
  | _ n ih =>
  intro σ P o s mem val h
  rw [useDep, read]
  obtain ⟨v0, h0, k0, n0, t0, w, hw⟩ := h.ensure o
  have plain : ∃ val', Inv σ P (s.ensure o) mem val' ∧ Keep s.next val val' ∧ s.next ≤ (s.ensure o).next ∧
      s.tape <+: (s.ensure o).tape ∧ ((s.ensure o).cur o).getD 0 < (s.ensure o).next ∧ val' (((s.ensure o).cur o).getD 0) = mem o := by
    refine ⟨v0, h0, k0, n0, t0 ▸ List.prefix_refl _, ?_, ?_⟩
    · rw [hw]; exact h0.cur_lt o w hw
    · rw [hw]; exact h0.cur_val o w hw
  by_cases ho : o ∈ act
  swap
  · simp only [ho, dite_false]
    exact plain
  · simp only [ho, dite_true]
    cases hb : (cfg o).block with
    | none => exact plain
    | some q =>
      obtain ⟨args, fn⟩ := q
      dsimp only
      have hlen : (act.erase o).length < n := by
        have := List.length_erase_of_mem ho
        have := List.length_pos_of_mem ho
        omega
      obtain ⟨v1, h1, k1, n1, t1, l1, e1⟩ := useAll_ok (ih _ hlen (act.erase o) rfl) args σ P (s.ensure o) mem v0 h0
      generalize useAll cfg (act.erase o) args (s.ensure o) = r at h1 n1 t1 l1 e1 ⊢
      generalize readAll cfg (act.erase o) args mem = q at h1 e1 ⊢
      rw [push_create]
      have h2 := h1.push r.2 (fun xs _ => fn xs) l1
      obtain ⟨h3, k3⟩ := h2.create o (fn q.1)
      have hnP : r.1.next ∉ P := fun hp => absurd (h1.pend _ hp).1 (Nat.lt_irrefl _)
      have hmap : r.2.map (Function.update v1 r.1.next (fn q.1)) = r.2.map v1 := by
        apply List.map_congr_left
        intro d hd
        exact k3 d (l1 d hd)
      have h4 := Inv.appendOut (i := r.1.tape.length) (v := r.1.next) (b := ⟨r.2, [], fun xs _ => fn xs, r.1.next⟩) h3 hnP
        (by simp [FS.push, FS.create]) (le_refl _) (by
          show Function.update v1 r.1.next (fn q.1) r.1.next = fn (r.2.map (Function.update v1 r.1.next (fn q.1)))
          rw [hmap, e1, Function.update_self])
      have hcur : (((r.1.push r.2 [] fun xs _ => fn xs).create o).appendOut r.1.tape.length r.1.next).cur o = some r.1.next := by
        simp [FS.push, FS.create, FS.appendOut]
      refine ⟨_, h4, (k0.trans n0 k1).trans (le_trans n0 n1) k3, le_trans (le_trans n0 n1) (Nat.le_succ _), ?_, ?_, ?_⟩
      · rw [← push_create]
        rw [t0] at t1
        exact t1.trans (List.prefix_append _ _)
      · rw [hcur]
        exact Nat.lt_succ_self _
      · rw [hcur]
        exact Function.update_self ..

/-- Adding an output records what writing it means. -/
def OutOK (cfg : Obj → View V) (act : List Obj) : Prop :=
  ∀ (σ : Obj → V) (P : List BV) (i : Nat) (o : Obj) (x : V) (s : FS V) (mem : Obj → V) (val : BV → V) (b : Rec V), Inv σ P s mem val →
    s.tape[i]? = some b → x = b.fn (b.deps.map val) b.outs.length →
    ∃ val', Inv σ P (addOut cfg act i o s) (write cfg act o x mem) val' ∧ Keep s.next val val' ∧ s.next ≤ (addOut cfg act i o s).next ∧
      (∃ e, (addOut cfg act i o s).tape[i]? = some { b with outs := b.outs ++ [e] }) ∧
      ∀ j, j ≠ i → ∀ c, s.tape[j]? = some c → (addOut cfg act i o s).tape[j]? = some c

theorem addOuts_ok {cfg : Obj → View V} {act : List Obj} (hout : OutOK cfg act) (os : List Obj) (σ : Obj → V) (P : List BV) (i : Nat)
    (f : Nat → V) (k : Nat) (s : FS V) (mem : Obj → V) (val : BV → V) (b : Rec V) (h : Inv σ P s mem val) (hb : s.tape[i]? = some b)
    (hk : b.outs.length = k) (hf : f = b.fn (b.deps.map val)) :
    ∃ val', Inv σ P (addOuts cfg act i os s) (writeAll cfg act os f k mem) val' ∧ Keep s.next val val' ∧ s.next ≤ (addOuts cfg act i os s).next ∧
      (∃ es, (addOuts cfg act i os s).tape[i]? = some { b with outs := b.outs ++ es }) ∧
      ∀ j, j ≠ i → ∀ c, s.tape[j]? = some c → (addOuts cfg act i os s).tape[j]? = some c := by
  induction os generalizing s mem val b k with
  | nil =>
    rw [addOuts, writeAll]
    exact ⟨val, h, Keep.refl _ _, le_refl _, ⟨[], by simpa using hb⟩, fun _ _ _ hc => hc⟩
  | cons o os ih =>
    rw [addOuts, writeAll]
    obtain ⟨v1, h1, k1, n1, ⟨e, t1⟩, r1⟩ := hout σ P i o (f k) s mem val b h hb (by rw [hf, hk])
    have hdeps : b.deps.map v1 = b.deps.map val := by
      apply List.map_congr_left
      intro d hd
      obtain ⟨hi, hbe⟩ := List.getElem?_eq_some_iff.1 hb
      exact k1 d (h.deps_next (hbe ▸ List.getElem_mem _) hd)
    obtain ⟨v2, h2, k2, n2, ⟨es, t2⟩, r2⟩ := ih (k + 1) _ _ v1 { b with outs := b.outs ++ [e] } h1 t1 (by simp [hk]) (by simp only [hdeps, hf])
    refine ⟨v2, h2, k1.trans n1 k2, le_trans n1 n2, ⟨e :: es, by rw [t2]; simp⟩, ?_⟩
    intro j hj c hc
    exact r2 j hj c (r1 j hj c hc)

theorem addOut_ok (cfg : Obj → View V) (act : List Obj) : OutOK cfg act := by
  induction hn : act.length using Nat.strong_induction_on generalizing act with
  | _ n ih =>
  intro σ P i o x s mem val b h hb hx
  rw [addOut, write]
  obtain ⟨hi, hbe⟩ := List.getElem?_eq_some_iff.1 hb
  have hbm : b ∈ s.tape := hbe ▸ List.getElem_mem _
  obtain ⟨h1, k1⟩ := h.create o x
  have hnP : s.next ∉ P := fun hp => absurd (h.pend _ hp).1 (Nat.lt_irrefl _)
  -- the last step
  have last : ∀ (s' : FS V) (mem' : Obj → V) (val' : BV → V), Inv σ (s.next :: P) s' mem' val' → Keep (s.next + 1) (Function.update val s.next x) val' →
      s.next + 1 ≤ s'.next → (∀ (j : Nat) (c : Rec V), s.tape[j]? = some c → s'.tape[j]? = some c) →
      Inv σ P (s'.appendOut i s.next) mem' val' ∧ Keep s.next val val' ∧ s.next ≤ (s'.appendOut i s.next).next ∧
      (∃ e, (s'.appendOut i s.next).tape[i]? = some { b with outs := b.outs ++ [e] }) ∧
      ∀ j, j ≠ i → ∀ c, s.tape[j]? = some c → (s'.appendOut i s.next).tape[j]? = some c := by
    intro s' mem' val' hinv hkeep hnext htape
    have hk := k1.trans (Nat.le_succ _) hkeep
    refine ⟨hinv.appendOut hnP (htape i b hb) (h.birth_le b hbm) ?_, hk, le_trans (Nat.le_succ _) hnext, ⟨s.next, ?_⟩, ?_⟩
    · rw [hkeep s.next (Nat.lt_succ_self _), Function.update_self, hx]
      congr 1
      apply List.map_congr_left
      intro d hd
      exact (hk d (h.deps_next hbm hd)).symm
    · simp [FS.appendOut, htape i b hb]
    · intro j hj c hc
      simp [FS.appendOut, htape j c hc, Ne.symm hj]
  by_cases ho : o ∈ act
  swap
  · simp only [ho, dite_false]
    exact ⟨_, last _ _ _ h1 (Keep.refl _ _) (le_refl _) (fun _ _ hc => hc)⟩
  · simp only [ho, dite_true]
    cases hob : (cfg o).outBlock with
    | none => exact ⟨_, last _ _ _ h1 (Keep.refl _ _) (le_refl _) (fun _ _ hc => hc)⟩
    | some q =>
      obtain ⟨args, outs, fn⟩ := q
      dsimp only
      have hlen : (act.erase o).length < n := by
        have := List.length_erase_of_mem ho
        have := List.length_pos_of_mem ho
        omega
      obtain ⟨v1, h2, k2, n2, t2, l2, e2⟩ := useAll_ok (useDep_ok cfg (act.erase o)) args σ (s.next :: P) (s.create o) _ _ h1
      generalize useAll cfg (act.erase o) args (s.create o) = r at h2 n2 t2 l2 e2 ⊢
      generalize readAll cfg (act.erase o) args (Function.update mem o x) = q at h2 e2 ⊢
      have h3 := h2.push r.2 fn l2
      obtain ⟨v4, h4, k4, n4, -, r4⟩ := addOuts_ok (ih _ hlen (act.erase o) rfl) outs σ (s.next :: P) r.1.tape.length (fn q.1) 0 _ _ _
        ⟨r.2, [], fn, r.1.next⟩ h3 (by simp [FS.push]) rfl (by simp only [e2])
      refine ⟨_, last _ _ _ h4 (k2.trans n2 k4) (le_trans n2 n4) ?_⟩
      intro j c hc
      have hj : r.1.tape[j]? = some c := by
        obtain ⟨l, hl⟩ := t2
        rw [← hl]
        have hc' : (s.create o).tape[j]? = some c := hc
        rw [List.getElem?_append_left (List.getElem?_eq_some_iff.1 hc').1]
        exact hc'
      have hlt : j < r.1.tape.length := (List.getElem?_eq_some_iff.1 hj).1
      refine r4 j (Nat.ne_of_lt hlt) c ?_
      simp only [FS.push]
      rw [List.getElem?_append_left hlt]
      exact hj

theorem record_ok (cfg : Obj → View V) (act : List Obj) (op : Op V) (σ : Obj → V) (s : FS V) (mem : Obj → V) (val : BV → V)
    (h : Inv σ [] s mem val) : ∃ val', Inv σ [] (record cfg act op s) (exec cfg act op mem) val' := by
  unfold record exec
  obtain ⟨v1, h2, k2, n2, t2, l2, e2⟩ := useAll_ok (useDep_ok cfg act) op.ins σ [] s _ _ h
  dsimp only
  generalize useAll cfg act op.ins s = r at h2 n2 t2 l2 e2 ⊢
  generalize readAll cfg act op.ins mem = q at h2 e2 ⊢
  have h3 := h2.push r.2 op.fn l2
  obtain ⟨v4, h4, -⟩ := addOuts_ok (addOut_ok cfg act) op.outs σ [] r.1.tape.length (op.fn q.1) 0 _ _ _
    ⟨r.2, [], op.fn, r.1.next⟩ h3 (by simp [FS.push]) rfl (by simp only [e2])
  exact ⟨v4, h4⟩

theorem recordAll_ok (cfg : Obj → View V) (act : List Obj) (p : List (Op V)) (σ : Obj → V) (s : FS V) (mem : Obj → V) (val : BV → V)
    (h : Inv σ [] s mem val) : ∃ val', Inv σ [] (recordAll cfg act p s) (execAll cfg act p mem) val' := by
  induction p generalizing s mem val with
  | nil => exact ⟨val, h⟩
  | cons op p ih =>
    obtain ⟨v1, h1⟩ := record_ok cfg act op σ s mem val h
    exact ih _ _ _ h1

/-- A recorded tape is well formed. -/
theorem Inv.wf {T A : Type*} {σ : Obj → V} {s : FS V} {mem : Obj → V} {val : BV → V} (h : Inv σ [] s mem val) : WF (s.blocks : Blocks V T A) where
  nodup := by
    intro b hb
    obtain ⟨c, hc, rfl⟩ := List.mem_map.1 hb
    exact (List.nodup_flatMap.1 h.nodup).1 c hc
  self := by
    intro b hb
    obtain ⟨c, hc, rfl⟩ := List.mem_map.1 hb
    intro d hd ho
    exact absurd (lt_of_lt_of_le (h.deps_lt c hc d hd) (h.outs_ge c hc d ho).1) (Nat.lt_irrefl _)
  later := by
    unfold FS.blocks
    rw [List.pairwise_map]
    have h1 := (List.nodup_flatMap.1 h.nodup).2
    refine (List.Pairwise.and_mem.1 (h.sorted.and h1)).imp ?_
    rintro b b' ⟨hb, hb', hle, hdis⟩
    refine ⟨?_, fun o ho ho' => hdis ho ho'⟩
    intro d hd ho
    exact absurd (lt_of_lt_of_le (lt_of_lt_of_le (h.deps_lt b hb d hd) hle) (h.outs_ge b' hb' d ho).1) (Nat.lt_irrefl _)

end Pyadjoint.Floating
