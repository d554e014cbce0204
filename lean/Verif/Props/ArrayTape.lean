import Verif.Model.ArrayTape
import Verif.Props.ArrayIndex
import Verif.Props.Gradient
import Verif.Props.Scale
import Verif.Proofs.SessionRun

/-!
# C68: programs that read arrays
-/

namespace Pyadjoint
namespace Arr

variable {N : Nat}

/-! ## Specification: what a program computes -/

/-- Objects and their contents. -/
structure Src (N : Nat) where
  next : Nat
  value : Nat → Cells N

/-- A new object; object `i` has the contents `given i`, if there are any, in place of `x`. -/
def Src.new (given : Nat → Option (Cells N)) (s : Src N) (x : Cells N) : Src N :=
  ⟨s.next + 1, Function.update s.value s.next ((given s.next).getD x)⟩

/-- What NumPy and Python compute. -/
noncomputable def Src.step (given : Nat → Option (Cells N)) (s : Src N) : Instr N → Src N
  | .array x => s.new given x
  | .number r => s.new given (num r)
  | .get i ps _ => s.new given (readCells ps (s.value i))
  | .un op i => s.new given (num (op.val (s.value i 0)))
  | .bin op i j => s.new given (num (op.val (s.value i 0) (s.value j 0)))
  | .arith f i j => s.new given (f (s.value i) (s.value j))
  | .assign i ps j => { s with value := Function.update s.value i (assignAt (s.value i) ps (List.ofFn (s.value j))) }

/-- The contents of object `J` after the program, where the controls `cs` have the values `xs`. -/
noncomputable def source (p : List (Instr N)) (cs : List Nat) (xs : List (Cells N)) (J : Nat) : Cells N :=
  (p.foldl (Src.step fun i => (cs.zip xs).lookup i) ⟨0, fun _ => 0⟩).value J

/-- Instructions that `numpy_adjoint` records. -/
def Instr.recorded : Instr N → Bool
  | .arith _ _ _ => false
  | .assign _ _ _ => false
  | _ => true

/-- The objects an instruction uses. -/
def Instr.args : Instr N → List Nat
  | .array _ => []
  | .number _ => []
  | .get i _ _ => [i]
  | .un _ i => [i]
  | .bin _ i j => [i, j]
  | .arith _ i j => [i, j]
  | .assign i _ j => [i, j]

/-- Instructions that make an object from nothing. -/
def Instr.isInput : Instr N → Bool
  | .array _ => true
  | .number _ => true
  | _ => false

/-- Object `k` is a control or computed from one, in a program in which instruction `k` makes object `k`. -/
inductive Depends (p : List (Instr N)) (cs : List Nat) : Nat → Prop
  | control {c} : c ∈ cs → Depends p cs c
  | step {k i ins} : p[k]? = some ins → i ∈ ins.args → Depends p cs i → Depends p cs k

/-- The operation is differentiable at the values; an index repeats no position. -/
def Instr.Smooth (val : Nat → Cells N) (vary : Nat → Prop) : Instr N → Prop
  | .get _ ps _ => ps.Nodup
  | .un op i => op.Smooth (val i 0)
  | .bin op i j => op.Smooth (val i 0) (val j 0) (vary j)
  | _ => True

/-! ## The recorded tape -/

def ABlock.out : ABlock N → Nat
  | .float b => b.out
  | .get _ o _ => o

def ABlock.deps : ABlock N → List Nat
  | .float b => b.deps
  | .get a _ _ => [a]

theorem ABlock.toBlock_outs (b : ABlock N) : b.toBlock.outs = ([b.out] : List Nat) := by
  cases b with
  | float b => cases b <;> rfl
  | get a o ps => rfl

theorem ABlock.toBlock_deps (b : ABlock N) : b.toBlock.deps = b.deps := by
  cases b with
  | float b => cases b <;> rfl
  | get a o ps => rfl

/-- What the value of the output is, in terms of those of the dependencies. -/
noncomputable def ABlock.sem (val : Nat → Cells N) : ABlock N → Cells N
  | .float (.un op i _) => num (op.val (val i 0))
  | .float (.bin op i j _) => num (op.val (val i 0) (val j 0))
  | .get i _ ps => readCells ps (val i)

theorem ABlock.recompute_sem (b : ABlock N) (val : Nat → Cells N) : b.toBlock.recomputeC (b.toBlock.deps.map val) 0 = some (b.sem val) := by
  cases b with
  | float b => cases b <;> rfl
  | get a o ps => rfl

theorem ABlock.sem_congr (b : ABlock N) {f g : Nat → Cells N} (h : ∀ d ∈ b.deps, f d = g d) : b.sem f = b.sem g := by
  cases b with
  | float b =>
    cases b with
    | un op i o => simp only [sem]; rw [h i (by simp [deps, FBlock.deps])]
    | bin op i j o => simp only [sem]; rw [h i (by simp [deps, FBlock.deps]), h j (by simp [deps, FBlock.deps])]
  | get a o ps => simp only [sem]; rw [h a (by simp [deps])]

/-- The state of the recorder and the source-level values. -/
structure Inv (given : Nat → Option (Cells N)) (s : State N) (t : Src N) : Prop where
  next : s.next = t.next
  out : ∀ b ∈ s.tape, b.out < s.next ∧ ∀ d ∈ b.deps, d < b.out
  later : s.tape.Pairwise fun b b' => b.out < b'.out
  clean : ∀ v, (s.heap v).isControl = false ∧ (s.heap v).marked = false ∧ (s.heap v).adj = none
  saved : ∀ v, ∀ x, (s.heap v).ckpt = some x → x = (s.heap v).output
  fixed : ∀ v x, v < s.next → given v = some x → t.value v = x
  leaf : ∀ v, v < s.next → given v = none → (∀ b ∈ s.tape, b.out ≠ v) → (s.heap v).output = t.value v
  block : ∀ b ∈ s.tape, given b.out = none → t.value b.out = b.sem t.value

theorem Inv.new {given : Nat → Option (Cells N)} {s : State N} {t : Src N} (h : Inv given s t) (x : Cells N) (arr : Bool) :
    Inv given (s.new x arr) (t.new given x) where
  next := by simp [State.new, Src.new, h.next]
  out b hb := ⟨Nat.lt_succ_of_lt (h.out b hb).1, (h.out b hb).2⟩
  later := h.later
  clean v := by
    by_cases hv : v = s.next
    · subst hv; simp [State.new]
    · simpa [State.new, Function.update_of_ne hv] using h.clean v
  saved v x hx := by
    by_cases hv : v = s.next
    · subst hv; simp [State.new] at hx
    · simp only [State.new, Function.update_of_ne hv] at hx ⊢; exact h.saved v x hx
  fixed v y hv hy := by
    by_cases hv' : v = t.next
    · subst hv'; simp [Src.new, hy]
    · simp only [Src.new, Function.update_of_ne hv']
      refine h.fixed v y ?_ hy
      have := h.next
      simp only [State.new] at hv
      omega
  leaf v hv hg hb := by
    by_cases hv' : v = s.next
    · subst hv'
      have := h.next
      simp only [State.new, Function.update_self, Src.new, ← this, hg, Option.getD_none]
    · have hv'' : v ≠ t.next := by rw [← h.next]; exact hv'
      simp only [State.new, Src.new, Function.update_of_ne hv', Function.update_of_ne hv'']
      exact h.leaf v (by simp only [State.new] at hv; omega) hg hb
  block b hb hg := by
    have h1 := h.out b hb
    have hn := h.next
    have hne : b.out ≠ t.next := by omega
    simp only [Src.new, Function.update_of_ne hne]
    rw [h.block b hb hg]
    refine b.sem_congr fun d hd => ?_
    have := h1.2 d hd
    rw [Function.update_of_ne (by omega)]

theorem Inv.use {given : Nat → Option (Cells N)} {s : State N} {t : Src N} (h : Inv given s t) (i : Nat) : Inv given (s.use i) t := by
  have hu : ∀ v, ((s.use i).heap v).output = (s.heap v).output ∧ ((s.use i).heap v).isControl = (s.heap v).isControl ∧
      ((s.use i).heap v).marked = (s.heap v).marked ∧ ((s.use i).heap v).adj = (s.heap v).adj ∧
      ∀ x, ((s.use i).heap v).ckpt = some x → x = (s.heap v).output := by
    intro v
    simp only [State.use, saveOutput]
    split
    · by_cases hv : v = i
      · subst hv; simp
      · simp only [Function.update_of_ne hv, true_and]; exact h.saved v
    · simp only [true_and]; exact h.saved v
  exact { next := h.next, out := h.out, later := h.later, fixed := h.fixed, block := h.block
          clean := fun v => by rw [(hu v).2.1, (hu v).2.2.1, (hu v).2.2.2.1]; exact h.clean v
          saved := fun v x hx => by rw [(hu v).1]; exact (hu v).2.2.2.2 x hx
          leaf := fun v hv hg hb => by rw [(hu v).1]; exact h.leaf v hv hg hb }

theorem Inv.add {given : Nat → Option (Cells N)} {s : State N} {t : Src N} (h : Inv given s t) (b : ABlock N) (x : Cells N) (arr : Bool)
    (ho : b.out = s.next) (hd : ∀ d ∈ b.deps, d < s.next) : Inv given (s.add b x arr) (t.new given (b.sem t.value)) := by
  have hn := h.next
  have h1 := h.new x arr
  have h2 := h.new (b.sem t.value) arr
  refine { next := h2.next, clean := h1.clean, saved := h1.saved, fixed := h2.fixed, out := ?_, later := ?_, leaf := ?_, block := ?_ }
  · intro b' hb'
    simp only [State.add, State.new, List.mem_append, List.mem_singleton] at hb' ⊢
    rcases hb' with hb' | rfl
    · exact ⟨Nat.lt_succ_of_lt (h.out b' hb').1, (h.out b' hb').2⟩
    · exact ⟨by omega, fun d hd' => by rw [ho]; exact hd d hd'⟩
  · simp only [State.add, State.new]
    refine List.pairwise_append.2 ⟨h.later, List.pairwise_singleton _ _, fun b' hb' b'' hb'' => ?_⟩
    rw [List.mem_singleton] at hb''
    subst hb''
    rw [ho]
    exact (h.out b' hb').1
  · intro v hv hg hb'
    simp only [State.add, State.new, List.mem_append, List.mem_singleton] at hb' hv ⊢
    have hv' : v ≠ s.next := by rw [← ho]; exact fun e => hb' b (Or.inr rfl) e.symm
    have hv'' : v ≠ t.next := by rw [← h.next]; exact hv'
    simp only [Src.new, Function.update_of_ne hv', Function.update_of_ne hv'']
    exact h.leaf v (by omega) hg fun b' hb'' => hb' b' (Or.inl hb'')
  · intro b' hb' hg
    simp only [State.add, State.new, List.mem_append, List.mem_singleton] at hb'
    rcases hb' with hb' | rfl
    · exact h2.block b' hb' hg
    · simp only [Src.new]
      rw [ho, hn] at hg ⊢
      rw [Function.update_self, hg, Option.getD_none]
      refine b'.sem_congr fun d hd' => ?_
      have := hd d hd'
      rw [Function.update_of_ne (by omega)]

theorem Inv.step {given : Nat → Option (Cells N)} {s s' : State N} {t : Src N} (h : Inv given s t) {i : Instr N} (hr : i.recorded = true)
    (hs : s.step i = some s') : Inv given s' (t.step given i) := by
  cases i with
  | array x => cases hs; exact h.new x true
  | number r => cases hs; exact h.new (num r) false
  | get i ps scalar =>
    simp only [State.step] at hs
    split at hs
    · rename_i hi
      cases hs; exact (h.use i).add (.get i s.next ps) _ _ rfl (fun d hd => List.mem_singleton.1 hd ▸ hi.1)
    · cases hs
  | un op i =>
    simp only [State.step] at hs
    split at hs
    · rename_i hi
      cases hs; exact (h.use i).add (.float (.un op i s.next)) _ _ rfl (fun d hd => List.mem_singleton.1 hd ▸ hi.1)
    · cases hs
  | bin op i j =>
    simp only [State.step] at hs
    split at hs
    · rename_i hij
      cases hs; exact ((h.use i).use j).add (.float (.bin op i j s.next)) _ _ rfl
        (fun d hd => by
          rcases List.mem_cons.1 hd with e | e
          · rw [e]; exact hij.1.1
          · rw [List.mem_singleton.1 e]; exact hij.2.1)
    · cases hs
  | arith f i j => cases hr
  | assign i ps j => cases hr

theorem Inv.run {given : Nat → Option (Cells N)} (p : List (Instr N)) (hp : ∀ i ∈ p, i.recorded = true) {s₀ s : State N} {t : Src N}
    (h : Inv given s₀ t) (hs : p.foldlM State.step s₀ = some s) : Inv given s (p.foldl (Src.step given) t) := by
  induction p generalizing s₀ t with
  | nil => cases hs; exact h
  | cons i p ih =>
    simp only [List.foldlM_cons, Option.bind_eq_bind, Option.bind_eq_some_iff] at hs
    obtain ⟨s₁, h1, h2⟩ := hs
    exact ih (fun j hj => hp j (List.mem_cons_of_mem _ hj)) (h.step (hp i (List.mem_cons_self ..)) h1) h2

theorem Inv.empty (given : Nat → Option (Cells N)) : Inv given State.empty ⟨0, fun _ => 0⟩ :=
  ⟨rfl, by simp [State.empty], by simp [State.empty], fun _ => ⟨rfl, rfl, rfl⟩, by simp [State.empty], by simp [State.empty], by simp [State.empty],
    by simp [State.empty]⟩

theorem Inv.wf {given : Nat → Option (Cells N)} {s : State N} {t : Src N} (h : Inv given s t) : WF s.blocks := by
  refine ⟨?_, ?_, ?_⟩
  · intro b hb
    obtain ⟨b, -, rfl⟩ := List.mem_map.1 hb
    rw [b.toBlock_outs]; simp
  · intro b' hb' d hd
    obtain ⟨b, hb, rfl⟩ := List.mem_map.1 hb'
    rw [b.toBlock_deps] at hd
    rw [b.toBlock_outs, List.mem_singleton]
    exact Nat.ne_of_lt ((h.out b hb).2 d hd)
  · refine List.pairwise_map.2 (h.later.imp_of_mem fun {b b'} hb hb' hlt => ?_)
    rw [b.toBlock_outs, b'.toBlock_outs, b.toBlock_deps]
    simp only [List.mem_singleton]
    exact ⟨fun d hd => Nat.ne_of_lt (Nat.lt_trans ((h.out b hb).2 d hd) hlt), fun o ho => by rw [ho]; exact Nat.ne_of_lt hlt⟩

theorem lookup_zip {cs : List Nat} {xs : List (Cells N)} (hnd : cs.Nodup) (hl : xs.length = cs.length) (i : Nat) (hi : i < cs.length) :
    (cs.zip xs).lookup cs[i] = some (xs[i]'(hl ▸ hi)) := by
  induction cs generalizing xs i with
  | nil => cases hi
  | cons c cs ih =>
    cases xs with
    | nil => cases hl
    | cons x xs =>
      cases i with
      | zero => simp
      | succ i =>
        obtain ⟨hc, hnd⟩ := List.nodup_cons.1 hnd
        have hi' : i < cs.length := by simpa using hi
        have hne : cs[i] ≠ c := fun e => hc (e ▸ List.getElem_mem hi')
        simp only [List.getElem_cons_succ, List.zip_cons_cons]
        rw [List.lookup_cons, beq_false_of_ne hne]
        exact ih hnd (by simpa using hl) i hi'

theorem lookup_zip_none {cs : List Nat} (xs : List (Cells N)) {c : Nat} (hc : c ∉ cs) : (cs.zip xs).lookup c = none := by
  induction cs generalizing xs with
  | nil => rfl
  | cons d cs ih =>
    cases xs with
    | nil => rfl
    | cons x xs =>
      rw [List.zip_cons_cons, List.lookup_cons, beq_false_of_ne (fun e => hc (by simp [e]))]
      exact ih xs fun h => hc (List.mem_cons_of_mem _ h)

/-- The objects that an evaluation does not compute have the values they had. -/
structure SameLeaves (s : State N) (cs : List Nat) (h : Heap (Cells N) (Cells N) (Cells N)) : Prop where
  flags : ∀ v, (h v).isControl = false
  leaf : ∀ v, v ∉ cs → (∀ b ∈ s.tape, b.out ≠ v) → Pyadjoint.saved h v = Pyadjoint.saved s.heap v

theorem Inv.sameLeaves {given : Nat → Option (Cells N)} {s : State N} {t : Src N} (h : Inv given s t) (cs : List Nat) : SameLeaves s cs s.heap :=
  ⟨fun v => (h.clean v).1, fun _ _ _ => rfl⟩

theorem Inv.saved_eq {s : State N} {t : Src N} {cs : List Nat} {xs : List (Cells N)} (hnd : cs.Nodup) (hl : xs.length = cs.length)
    (h : Inv (fun i => (cs.zip xs).lookup i) s t) {g : Heap (Cells N) (Cells N) (Cells N)} (hg₀ : SameLeaves s cs g) (v : Nat) (hv : v < s.next) :
    Pyadjoint.saved (rfEval s.blocks cs xs g) v = t.value v := by
  induction v using Nat.strongRecOn with
  | ind v ih =>
    by_cases hc : v ∈ cs
    · obtain ⟨i, hi, rfl⟩ := List.getElem_of_mem hc
      unfold Pyadjoint.saved
      rw [rfEval_control _ _ _ _ hnd hl (fun c _ => hg₀.flags c) i hi]
      exact (h.fixed _ _ hv (lookup_zip hnd hl i hi)).symm
    · have hg := lookup_zip_none xs hc
      by_cases hb : ∀ b ∈ s.tape, b.out ≠ v
      · have hl := hg₀.leaf v hc hb
        unfold Pyadjoint.saved at hl ⊢
        rw [rfEval_leaf _ _ _ _ _ hc]
        · rw [← h.leaf v hv hg hb, hl]
          cases hk : (s.heap v).ckpt with
          | none => rfl
          | some x => exact h.saved v x hk
        · intro b' hb'
          obtain ⟨b, hb'', rfl⟩ := List.mem_map.1 hb'
          rw [b.toBlock_outs, List.mem_singleton]
          exact fun e => hb b hb'' e.symm
      · push Not at hb
        obtain ⟨b, hb, rfl⟩ := hb
        have hno : ∀ o ∈ b.toBlock.outs, o ∉ cs := by
          rw [b.toBlock_outs]; simpa using hc
        have hi : 0 < b.toBlock.outs.length := by rw [b.toBlock_outs]; simp
        have key := rfEval_block h.wf cs xs g hg₀.flags b.toBlock (List.mem_map.2 ⟨b, hb, rfl⟩) hno 0 hi
        have he : b.toBlock.outs[0] = b.out := by simp only [b.toBlock_outs]; rfl
        rw [he, b.recompute_sem] at key
        unfold Pyadjoint.saved at key ⊢
        rw [key, h.block b hb hg]
        refine b.sem_congr fun d hd => ?_
        have hdo := (h.out b hb).2 d hd
        exact ih d hdo (by have := (h.out b hb).1; omega)

/-- The block that instruction number `k` records. -/
def Instr.block (k : Nat) : Instr N → Option (ABlock N)
  | .get i ps _ => some (.get i k ps)
  | .un op i => some (.float (.un op i k))
  | .bin op i j => some (.float (.bin op i j k))
  | _ => none

theorem tape_step {s s' : State N} {i : Instr N} (hr : i.recorded = true) (hs : s.step i = some s') :
    s'.next = s.next + 1 ∧ s'.tape = s.tape ++ (i.block s.next).toList := by
  cases i with
  | array x => cases hs; simp [State.new, Instr.block]
  | number r => cases hs; simp [State.new, Instr.block]
  | get i ps scalar =>
    simp only [State.step] at hs
    split at hs
    · cases hs; exact ⟨rfl, rfl⟩
    · cases hs
  | un op i =>
    simp only [State.step] at hs
    split at hs
    · cases hs; exact ⟨rfl, rfl⟩
    · cases hs
  | bin op i j =>
    simp only [State.step] at hs
    split at hs
    · cases hs; exact ⟨rfl, rfl⟩
    · cases hs
  | arith f i j => cases hr
  | assign i ps j => cases hr

/-- The tape has one block for every instruction that records one. -/
theorem tape_run (p : List (Instr N)) (hp : ∀ i ∈ p, i.recorded = true) {s : State N} (hs : State.run p = some s) :
    s.next = p.length ∧ ∀ b, b ∈ s.tape ↔ ∃ (k : Nat) (ins : Instr N), p[k]? = some ins ∧ ins.block k = some b := by
  induction p using List.reverseRecOn generalizing s with
  | nil => cases hs; simp [State.empty]
  | append_singleton p i ih =>
    simp only [State.run, List.foldlM_append, Option.bind_eq_bind, Option.bind_eq_some_iff, List.foldlM_cons, List.foldlM_nil] at hs
    obtain ⟨s₁, h1, s₂, h2, h3⟩ := hs
    cases h3
    obtain ⟨e1, e2⟩ := ih (fun j hj => hp j (List.mem_append_left _ hj)) h1
    obtain ⟨e3, e4⟩ := tape_step (hp i (by simp)) h2
    refine ⟨by simp [e3, e1], fun b => ?_⟩
    rw [e4, List.mem_append, e2]
    constructor
    · rintro (⟨k, ins, h, hb⟩ | h)
      · exact ⟨k, ins, by rw [List.getElem?_append_left (List.getElem?_eq_some_iff.1 h).1]; exact h, hb⟩
      · exact ⟨p.length, i, by simp, by simpa [e1] using h⟩
    · rintro ⟨k, ins, h, hb⟩
      rcases Nat.lt_or_ge k p.length with hk | hk
      · rw [List.getElem?_append_left hk] at h
        exact Or.inl ⟨k, ins, h, hb⟩
      · rw [List.getElem?_append_right hk] at h
        have hk' : k = p.length := by
          have := (List.getElem?_eq_some_iff.1 h).1
          simp at this; omega
        subst hk'
        simp at h
        subst h
        exact Or.inr (by simpa [e1] using hb)

theorem Instr.block_out {k : Nat} {ins : Instr N} {b : ABlock N} (h : ins.block k = some b) : b.out = k ∧ b.deps = ins.args := by
  cases ins <;> cases h <;> exact ⟨rfl, rfl⟩

theorem reach_iff (p : List (Instr N)) (hp : ∀ i ∈ p, i.recorded = true) {s : State N} (hs : State.run p = some s) (cs : List Nat) (k : Nat) :
    Reach s.blocks (· ∈ cs) k ↔ Depends p cs k := by
  have ht := (tape_run p hp hs).2
  constructor
  · intro h
    induction h with
    | base h => exact .control h
    | step hb hd _ ho ih =>
      obtain ⟨b, hb', rfl⟩ := List.mem_map.1 hb
      obtain ⟨k, ins, h1, h2⟩ := (ht b).1 hb'
      rw [b.toBlock_outs, List.mem_singleton] at ho
      rw [b.toBlock_deps] at hd
      obtain ⟨e1, e2⟩ := Instr.block_out h2
      subst ho
      rw [e1]
      exact .step h1 (e2 ▸ hd) ih
  · intro h
    induction h with
    | control h => exact .base h
    | @step k i ins h1 h2 _ ih =>
      have hr := hp ins (List.mem_of_getElem? h1)
      obtain ⟨b, hb⟩ : ∃ b, ins.block k = some b := by cases ins <;> first | exact ⟨_, rfl⟩ | (cases hr; done) | (cases h2; done)
      obtain ⟨e1, e2⟩ := Instr.block_out hb
      refine .step (b := b.toBlock) (List.mem_map.2 ⟨b, (ht b).2 ⟨k, ins, h1, hb⟩, rfl⟩) (d := i) ?_ ih ?_
      · rw [b.toBlock_deps, e2]; exact h2
      · rw [b.toBlock_outs, List.mem_singleton]; exact e1.symm

/-! ## Later evaluations -/

/-- What a user may ask for. -/
inductive Request (N : Nat)
  | call (xs : List (Cells N))
  | derivative (adjInput : Cells N)

/-- One request. -/
noncomputable def State.request (J : Nat) (cs : List Nat) (scale : ℝ) (s : State N) : Request N → State N
  | .call xs => (s.call J cs scale xs).2
  | .derivative a => (s.derivative J cs scale a).2

/-- Any number of requests. -/
noncomputable def State.requests (s : State N) (J : Nat) (cs : List Nat) (scale : ℝ) (qs : List (Request N)) : State N :=
  qs.foldl (State.request J cs scale) s

/-- What requests keep. -/
structure Later (s₀ : State N) (J : Nat) (cs : List Nat) (s : State N) : Prop where
  tape : s.tape = s₀.tape
  isArray : s.isArray = s₀.isArray
  leaves : SameLeaves s₀ cs s.heap
  off : ∀ v, ¬ OnTape s₀.blocks v → v ≠ J → (s.heap v).adj = none

theorem Later.blocks {s₀ s : State N} {J : Nat} {cs : List Nat} (h : Later s₀ J cs s) : s.blocks = s₀.blocks := by
  unfold State.blocks; rw [h.tape]

theorem Later.refl {given : Nat → Option (Cells N)} {s : State N} {t : Src N} (h : Inv given s t) (J : Nat) (cs : List Nat) : Later s J cs s :=
  ⟨rfl, rfl, h.sameLeaves cs, fun v _ _ => (h.clean v).2.2⟩

theorem Later.rfEval {s₀ s : State N} {J : Nat} {cs : List Nat} (h : Later s₀ J cs s) (xs : List (Cells N)) :
    Later s₀ J cs { s with heap := Pyadjoint.rfEval s.blocks cs xs s.heap } := by
  have hf := fun v => rfEval_frame s.blocks cs xs s.heap v fun c _ => h.leaves.flags c
  refine ⟨h.tape, h.isArray, ⟨fun v => ?_, fun v hv hb => ?_⟩, fun v h1 h2 => ?_⟩
  · obtain ⟨c, hc⟩ := hf v
    dsimp only; rw [hc]; exact h.leaves.flags v
  · rw [← h.leaves.leaf v hv hb]
    unfold Pyadjoint.saved
    dsimp only
    rw [rfEval_leaf _ _ _ _ _ hv]
    rw [h.blocks]
    intro b' hb'
    obtain ⟨b, hb'', rfl⟩ := List.mem_map.1 hb'
    rw [b.toBlock_outs, List.mem_singleton]
    exact fun e => hb b hb'' e.symm
  · obtain ⟨c, hc⟩ := hf v
    dsimp only; rw [hc]; exact h.off v h1 h2

theorem Later.request {s₀ s : State N} {J : Nat} {cs : List Nat} (scale : ℝ)
    (hJ : s₀.isArray J = false ∨ scale = 1 ∨ J ∈ cs ∨ ∃ b ∈ s₀.tape, b.out = J) (h : Later s₀ J cs s) (q : Request N) :
    Later s₀ J cs (s.request J cs scale q) := by
  cases q with
  | call xs =>
    have hr := h.rfEval xs
    simp only [State.request, State.call]
    by_cases ha : s.isArray J = true
    · rw [if_pos ha]
      refine ⟨h.tape, h.isArray, ⟨fun v => ?_, fun v hv hb => ?_⟩, fun v h1 h2 => ?_⟩
      · by_cases hv : v = J
        · subst hv
          dsimp only
          rw [Function.update_self]
          have := hr.leaves.flags v
          dsimp only at this
          split <;> exact this
        · dsimp only; rw [Function.update_of_ne hv]; exact hr.leaves.flags v
      · rw [← hr.leaves.leaf v hv hb]
        by_cases hv' : v = J
        · subst hv'
          have hs : scale = 1 := by
            rcases hJ with hJ | hJ | hJ | ⟨b, hb', e⟩
            · rw [h.isArray, hJ] at ha; cases ha
            · exact hJ
            · exact absurd hJ hv
            · exact absurd e (hb b hb')
          subst hs
          simp only [Pyadjoint.saved, Function.update_self, one_smul]
          cases hk : (Pyadjoint.rfEval s.blocks cs xs s.heap v).ckpt with
          | none => simp
          | some y => simp
        · unfold Pyadjoint.saved; dsimp only; rw [Function.update_of_ne hv']
      · dsimp only; rw [Function.update_of_ne h2]; exact hr.off v h1 h2
    · rw [if_neg ha]; exact hr
  | derivative a =>
    have hf := fun v => computeGradientState_frame s.blocks J cs (scale • a) s.heap v
    refine ⟨h.tape, h.isArray, ⟨fun v => ?_, fun v hv hb => ?_⟩, fun v h1 h2 => ?_⟩
    · show (computeGradientState s.blocks J cs (scale • a) s.heap v).isControl = false
      rw [(hf v).2.2]
      split
      · rfl
      · exact h.leaves.flags v
    · rw [← h.leaves.leaf v hv hb]
      show Pyadjoint.saved (computeGradientState s.blocks J cs (scale • a) s.heap) v = _
      unfold Pyadjoint.saved
      rw [(hf v).1, (hf v).2.1]
    · show (computeGradientState s.blocks J cs (scale • a) s.heap v).adj = none
      rw [computeGradientState_off_tape _ _ _ _ _ _ (h.blocks ▸ h1) h2]
      exact h.off v h1 h2

theorem Later.requests {s₀ s : State N} {J : Nat} {cs : List Nat} (scale : ℝ)
    (hJ : s₀.isArray J = false ∨ scale = 1 ∨ J ∈ cs ∨ ∃ b ∈ s₀.tape, b.out = J) (h : Later s₀ J cs s) (qs : List (Request N)) :
    Later s₀ J cs (s.requests J cs scale qs) := by
  induction qs generalizing s with
  | nil => exact h
  | cons q qs ih => exact ih (h.request scale hJ q)

/-- **C68**, values.  A program that makes arrays and numbers, reads entries and parts of arrays, and computes with the numbers read: after any
evaluations and derivative computations, an evaluation gives the value that the program computes with the control values.  The functional is a number,
or the scale is one, or the functional is a control or computed by the program. -/
theorem array_replay_partial (p : List (Instr N)) (hp : ∀ i ∈ p, i.recorded = true) {s : State N} (hs : State.run p = some s) (J : Nat) (hJ : J < s.next)
    (cs : List Nat) (hnd : cs.Nodup) (scale : ℝ)
    (hJs : s.isArray J = false ∨ scale = 1 ∨ J ∈ cs ∨ ∃ ins, p[J]? = some ins ∧ ins.isInput = false)
    (qs : List (Request N)) (xs : List (Cells N)) (hl : xs.length = cs.length) :
    ((s.requests J cs scale qs).call J cs scale xs).1 = scale • source p cs xs J := by
  have h := Inv.run p hp (Inv.empty fun i => (cs.zip xs).lookup i) hs
  have hlat := (Later.refl h J cs).requests scale (by
    refine hJs.imp_right (Or.imp_right (Or.imp_right ?_))
    rintro ⟨ins, h1, h2⟩
    have hr := hp ins (List.mem_of_getElem? h1)
    obtain ⟨b, hb⟩ : ∃ b, ins.block J = some b := by cases ins <;> first | exact ⟨_, rfl⟩ | (cases hr; done) | (cases h2; done)
    exact ⟨b, ((tape_run p hp hs).2 b).2 ⟨J, ins, h1, hb⟩, (Instr.block_out hb).1⟩) qs
  have := h.saved_eq hnd hl hlat.leaves J hJ
  unfold State.call source
  rw [← this, ← hlat.blocks]
  dsimp only
  split <;> rfl

/-! ## Gradients -/

/-- An array of adjoint values stands for the dot product. -/
noncomputable def dot : Cells N →+ (Cells N →L[ℝ] ℝ) where
  toFun g := ∑ k, g k • (ContinuousLinearMap.proj k : Cells N →L[ℝ] ℝ)
  map_zero' := by simp
  map_add' a b := by simp [add_smul, Finset.sum_add_distrib]

theorem dot_apply (g x : Cells N) : dot g x = ∑ k, g k * x k := by simp [dot]

theorem dot_num (a : ℝ) (x : Cells N) : dot (num a) x = a * x 0 := by
  rw [dot_apply, Finset.sum_eq_single 0]
  · simp [num]
  · intro k _ hk; simp [num, Pi.single_eq_of_ne hk]
  · simp

/-- Numbers as cells. -/
noncomputable def numL : ℝ →L[ℝ] Cells N := ContinuousLinearMap.single ℝ (fun _ => ℝ) 0

theorem numL_apply (x : ℝ) : (numL x : Cells N) = num x := by simp [numL, num]

theorem dot_numL (g : Cells N) (x : ℝ) : dot g (numL x) = g 0 * x := by
  rw [dot_apply, Finset.sum_eq_single 0]
  · simp [numL_apply, num]
  · intro k _ hk; simp [numL_apply, num, Pi.single_eq_of_ne hk]
  · simp

theorem map_first {n : Nat} (u : Fin n → Cells N) : (List.ofFn u).map (· 0) = List.ofFn fun j => u j 0 := by rw [List.map_ofFn]; rfl

theorem map_first_opt {n : Nat} (u : Fin n → Option (Cells N)) : (List.ofFn u).map (Option.map (· 0)) = List.ofFn fun j => (u j).map (· 0) := by
  rw [List.map_ofFn]; rfl

theorem optFunctional_num (o : Option ℝ) (x : Cells N) : optFunctional dot (o.map num) x = optFunctional mulFunctional o (x 0) := by
  cases o with
  | none => rfl
  | some a => exact (dot_num a x).trans (mulFunctional_apply a (x 0)).symm

theorem optFunctional_numL (o : Option (Cells N)) (x : ℝ) : optFunctional dot o (numL x) = optFunctional mulFunctional (o.map (· 0)) x := by
  cases o with
  | none => rfl
  | some a => exact (dot_numL a x).trans (mulFunctional_apply (a 0) x).symm

/-- Operations on numbers are correct on cells if they are correct on numbers. -/
theorem lift_correct {b : Block ℝ ℝ ℝ} {x : Fin b.deps.length → Cells N} {vary : Fin b.deps.length → Prop}
    (h : CorrectAdjoint mulFunctional b (fun j => x j 0) vary) : CorrectAdjoint dot (liftBlock b : Block (Cells N) (Cells N) (Cells N)) x vary where
  total u i := by
    have := h.total (fun j => u j 0) i
    show ((b.recomputeC ((List.ofFn u).map (· 0)) i).map num).isSome
    rw [Option.isSome_map, map_first]
    exact this
  deriv := by
    obtain ⟨G, h1, h2⟩ := h.deriv
    have hrec : ∀ (i : Fin b.outs.length) (u : Fin b.deps.length → Cells N),
        (((liftBlock b : Block (Cells N) (Cells N) (Cells N)).recomputeC (List.ofFn u) i).getD 0) =
          numL ((b.recomputeC (List.ofFn fun j => u j 0) i).getD 0) := by
      intro i u
      show ((b.recomputeC ((List.ofFn u).map (· 0)) i).map num).getD 0 = _
      rw [map_first]
      cases b.recomputeC (List.ofFn fun j => u j 0) i with
      | none => simp
      | some y => exact (numL_apply y).symm
    refine ⟨fun i j => numL.comp ((G i j).comp (ContinuousLinearMap.proj (R := ℝ) (φ := fun _ : Fin (N + 1) => ℝ) 0)), fun i => ?_, fun lam hlam j hj => ?_⟩
    · let P : (Fin b.deps.length → Cells N) →L[ℝ] (Fin b.deps.length → ℝ) :=
        ContinuousLinearMap.pi fun j => (ContinuousLinearMap.proj (R := ℝ) (φ := fun _ : Fin (N + 1) => ℝ) 0).comp
          (ContinuousLinearMap.proj (R := ℝ) (φ := fun _ : Fin b.deps.length => Cells N) j)
      have hP : HasFDerivWithinAt P P {u | ∀ j, ¬ vary j → u j = x j} x := P.hasFDerivWithinAt
      have hm : Set.MapsTo P {u | ∀ j, ¬ vary j → u j = x j} {u | ∀ j, ¬ vary j → u j = x j 0} := fun u hu j hj => by
        show u j 0 = x j 0
        rw [hu j hj]
      have hc := (numL (N := N)).hasFDerivAt.comp_hasFDerivWithinAt x (HasFDerivWithinAt.comp x (h1 i) hP hm)
      refine (hc.congr_fderiv ?_).congr (fun u _ => hrec i u) (hrec i x)
      refine Eq.trans ?_ (show (∑ c : Fin b.deps.length, (numL.comp ((G i c).comp (ContinuousLinearMap.proj (R := ℝ) (φ := fun _ : Fin (N + 1) => ℝ) 0))).comp
        (ContinuousLinearMap.proj (R := ℝ) (φ := fun _ : Fin b.deps.length => Cells N) c)) = _ from rfl)
      ext u k
      simp [P]
    · have e := h2 (fun i => (lam i).map (· 0)) (by
        obtain ⟨i, hi⟩ := hlam
        exact ⟨i, by simpa using hi⟩) j hj
      show optFunctional dot ((b.adjC ((List.ofFn x).map (· 0)) ((List.ofFn lam).map (Option.map (· 0))) j).map num) = _
      rw [map_first, map_first_opt]
      refine ContinuousLinearMap.ext fun y => ?_
      refine (optFunctional_num _ y).trans ?_
      have e' := congrArg (fun f => f (y 0)) e
      simp only [_root_.sum_apply, ContinuousLinearMap.comp_apply] at e' ⊢
      refine e'.trans (Finset.sum_congr rfl fun i _ => ?_)
      exact (optFunctional_numL (lam i) _).symm

/-- Reading as a linear map. -/
noncomputable def readL (ps : List (Fin (N + 1))) : Cells N →L[ℝ] Cells N :=
  ContinuousLinearMap.pi fun k => if h : (k : Nat) < ps.length then ContinuousLinearMap.proj ps[(k : Nat)] else 0

theorem readL_apply (ps : List (Fin (N + 1))) (x : Cells N) : readL ps x = readCells ps x := by
  funext k
  by_cases h : (k : Nat) < ps.length
  · simp [readL, readCells, readAt, h]
  · simp [readL, readCells, readAt, h]

theorem sum_zipWith {n : Nat} (l : Fin n → ℝ) (q : List ℝ) (hq : q.length ≤ n) :
    (List.zipWith (· * ·) ((List.ofFn l).take q.length) q).sum = ∑ k, l k * (q[(k : Nat)]?).getD 0 := by
  induction n generalizing q with
  | zero =>
    have : q = [] := List.length_eq_zero_iff.1 (Nat.le_zero.1 hq)
    subst this; rfl
  | succ n ih =>
    cases q with
    | nil => simp
    | cons c q =>
      rw [List.ofFn_succ, List.length_cons, List.take_succ_cons, List.zipWith_cons_cons, List.sum_cons, Fin.sum_univ_succ,
        ih _ q (by simpa using hq)]
      simp

theorem zip_take_length {α β : Type*} (ps : List α) (vs : List β) : ps.zip (vs.take ps.length) = ps.zip vs := by
  induction ps generalizing vs with
  | nil => rfl
  | cons p ps ih =>
    cases vs with
    | nil => rfl
    | cons v vs => simp [ih]

/-- The adjoint of a read that repeats no position is its transpose. -/
theorem slice_transpose (ps : List (Fin (N + 1))) (hps : ps.Nodup) (l y : Cells N) :
    ∑ k, sliceAdj ps (List.ofFn l) k * y k = ∑ k, l k * readCells ps y k := by
  have hlen : ps.length ≤ N + 1 := by simpa using hps.length_le_card
  have e := assignAt_sum y (fun _ => 0) ps ((List.ofFn l).take ps.length) (by simp [hlen]) hps (fun _ _ => rfl)
  have e1 : assignAt (fun _ => (0 : ℝ)) ps ((List.ofFn l).take ps.length) = sliceAdj ps (List.ofFn l) := by
    simp only [sliceAdj, assignAt, zip_take_length]
  rw [e1] at e
  rw [e]
  have := sum_zipWith l (readAt y ps) (by simpa [readAt] using hlen)
  simp only [readAt, List.length_map] at this
  simp only [readAt, this, zero_mul, Finset.sum_const_zero, zero_add]
  rfl

/-- A read that repeats no position is correct. -/
theorem get_correct (a o : BV) (ps : List (Fin (N + 1))) (hps : ps.Nodup) (x : Fin 1 → Cells N) (vary : Fin 1 → Prop) :
    CorrectAdjoint dot (getBlock a o ps) x vary where
  total u i := rfl
  deriv := by
    refine ⟨fun _ _ => readL ps, fun i => ?_, fun lam hlam j hj => ?_⟩
    · have := ((readL ps).comp (ContinuousLinearMap.proj (R := ℝ) (φ := fun _ : Fin 1 => Cells N) 0)).hasFDerivWithinAt
        (s := {u | ∀ j, ¬ vary j → u j = x j}) (x := x)
      refine (this.congr_fderiv ?_).congr (fun u _ => ?_) ?_
      · exact (Fin.sum_univ_one (fun j : Fin 1 => (readL ps).comp (ContinuousLinearMap.proj (R := ℝ) (φ := fun _ : Fin 1 => Cells N) j))).symm
      · exact (readL_apply ps (u 0)).symm
      · exact (readL_apply ps (x 0)).symm
    · change Fin 1 → Option (Cells N) at lam
      refine Eq.trans ?_ (Fin.sum_univ_one (fun i : Fin 1 => (optFunctional dot (lam i)).comp (readL ps))).symm
      have ha : (getBlock a o ps).adjC (List.ofFn x) (List.ofFn lam) j = (lam 0).map fun l => sliceAdj ps (List.ofFn l) := rfl
      refine (congrArg (optFunctional dot) ha).trans ?_
      cases hl : lam 0 with
      | none => exact (ContinuousLinearMap.zero_comp _).symm
      | some l =>
        refine ContinuousLinearMap.ext fun y => ?_
        show dot (sliceAdj ps (List.ofFn l)) y = dot l (readL ps y)
        rw [readL_apply, dot_apply, dot_apply]
        exact slice_transpose ps hps l y

theorem gradient_later (p : List (Instr N)) (hp : ∀ i ∈ p, i.recorded = true) {s : State N} (hs : State.run p = some s) (J : Nat)
    (hJ : J < s.next) (cs : List Nat) (hnd : cs.Nodup)
    (hcs : ∀ c ∈ cs, ∃ ins, p[c]? = some ins ∧ ins.isInput = true) (scale adjInput : ℝ) (x₀ : Fin cs.length → Cells N)
    (hsm : ∀ (k : Nat) (ins : Instr N), p[k]? = some ins → (∃ i ∈ ins.args, Depends p cs i) → ins.Smooth (source p cs (List.ofFn x₀)) (Depends p cs))
    {g : Heap (Cells N) (Cells N) (Cells N)} (hg₀ : SameLeaves s cs g) (hoff : ∀ v, ¬ OnTape s.blocks v → v ≠ J → (g v).adj = none) :
    ∃ grad : Fin cs.length → Cells N,
      (computeGradient s.blocks J cs (scale • num adjInput) (rfEval s.blocks cs (List.ofFn x₀) g)).1 = List.ofFn grad ∧
      HasFDerivAt (fun x : Fin cs.length → Cells N => adjInput * (scale * source p cs (List.ofFn x) J 0))
        (∑ i, (dot (grad i)).comp (ContinuousLinearMap.proj i)) x₀ := by
  have ht := (tape_run p hp hs).2
  have hsaved : ∀ (x : Fin cs.length → Cells N) v, v < s.next → Pyadjoint.saved (rfEval s.blocks cs (List.ofFn x) g) v = source p cs (List.ofFn x) v :=
    fun x v hv =>
      let h := Inv.run p hp (Inv.empty fun i => (cs.zip (List.ofFn x)).lookup i) hs
      h.saved_eq hnd (by simp) hg₀ v hv
  have h := Inv.run p hp (Inv.empty fun i => (cs.zip (List.ofFn x₀)).lookup i) hs
  have hreach : Reach s.blocks (· ∈ cs) = Depends p cs := funext fun k => propext (reach_iff p hp hs cs k)
  obtain ⟨grad, hg, hd⟩ := gradient_exact h.wf J cs hnd g hg₀.flags (by
      intro c hc b' hb' ho
      obtain ⟨b, hb, rfl⟩ := List.mem_map.1 hb'
      obtain ⟨k, ins, h1, h2⟩ := (ht b).1 hb
      rw [b.toBlock_outs, List.mem_singleton] at ho
      obtain ⟨ins', h3, h4⟩ := hcs c hc
      rw [ho, (Instr.block_out h2).1, h1] at h3
      cases h3
      cases ins <;> first | cases h2; done | cases h4) x₀ dot (scale • num adjInput) (by
      intro b' hb' hdep
      obtain ⟨b, hb, rfl⟩ := List.mem_map.1 hb'
      obtain ⟨k, ins, h1, h2⟩ := (ht b).1 hb
      obtain ⟨e1, e2⟩ := Instr.block_out h2
      obtain ⟨d, hd, hr⟩ := hdep
      rw [b.toBlock_deps, e2] at hd
      rw [hreach] at hr ⊢
      have sm := hsm k ins h1 ⟨d, hd, hr⟩
      have hlt : ∀ d ∈ ins.args, Pyadjoint.saved (rfEval s.blocks cs (List.ofFn x₀) g) d = source p cs (List.ofFn x₀) d := fun d hd =>
        hsaved x₀ d (Nat.lt_trans ((h.out b hb).2 d (e2 ▸ hd)) (h.out b hb).1)
      cases ins with
      | get i ps scalar => cases h2; exact get_correct i k ps sm _ _
      | un op i =>
        cases h2
        refine lift_correct (FBlock.correctAdjoint (.un op i k) (fun v => Pyadjoint.saved (rfEval s.blocks cs (List.ofFn x₀) g) v 0) (Depends p cs) ?_)
        show op.Smooth _; beta_reduce
        rw [hlt i (by simp [Instr.args])]
        exact sm
      | bin op i j =>
        cases h2
        refine lift_correct (FBlock.correctAdjoint (.bin op i j k) (fun v => Pyadjoint.saved (rfEval s.blocks cs (List.ofFn x₀) g) v 0) (Depends p cs) ?_)
        show op.Smooth _ _ _; beta_reduce
        rw [hlt i (by simp [Instr.args]), hlt j (by simp [Instr.args])]
        exact sm
      | array x => cases h2
      | number r => cases h2
      | arith f i j => cases h2
      | assign i ps j => cases h2) (fun c _ => by
      by_cases h1 : OnTape s.blocks c
      · exact Or.inl h1
      · by_cases h2 : c = J
        · exact Or.inr (Or.inl h2)
        · exact Or.inr (Or.inr (hoff c h1 h2)))
  refine ⟨grad, hg, ?_⟩
  · refine hd.congr_of_eventuallyEq (Filter.Eventually.of_forall fun x => ?_)
    dsimp only
    rw [hsaved x J hJ, show scale • (num adjInput : Cells N) = num (scale * adjInput) from by
      funext k; by_cases hk : k = 0
      · subst hk; simp [num]
      · simp [num, Pi.single_eq_of_ne hk], dot_num]
    ring


/-- **C68**, gradients.  A program that makes arrays and numbers, reads entries and parts of arrays, repeating no position in one index, and computes a
number from those read: after any evaluations and derivative computations, and an evaluation, `derivative` gives the arrays of the partial
derivatives, with respect to every entry of every control, of what the program computes. -/
theorem array_gradient_exact_partial (p : List (Instr N)) (hp : ∀ i ∈ p, i.recorded = true) {s : State N} (hs : State.run p = some s) (J : Nat)
    (hJ : J < s.next) (hJn : s.isArray J = false) (cs : List Nat) (hnd : cs.Nodup)
    (hcs : ∀ c ∈ cs, ∃ ins, p[c]? = some ins ∧ ins.isInput = true) (scale adjInput : ℝ) (qs : List (Request N)) (x₀ : Fin cs.length → Cells N)
    (hsm : ∀ (k : Nat) (ins : Instr N), p[k]? = some ins → (∃ i ∈ ins.args, Depends p cs i) → ins.Smooth (source p cs (List.ofFn x₀)) (Depends p cs)) :
    ∃ grad : Fin cs.length → Cells N,
      (((s.requests J cs scale qs).call J cs scale (List.ofFn x₀)).2.derivative J cs scale (num adjInput)).1 = List.ofFn grad ∧
      HasFDerivAt (fun x : Fin cs.length → Cells N => adjInput * (scale * source p cs (List.ofFn x) J 0))
        (∑ i, (dot (grad i)).comp (ContinuousLinearMap.proj i)) x₀ := by
  have h := Inv.run p hp (Inv.empty fun _ => none) hs
  have hl := (Later.refl h J cs).requests scale (Or.inl hJn) qs
  obtain ⟨grad, h1, h2⟩ := gradient_later p hp hs J hJ cs hnd hcs scale adjInput x₀ hsm hl.leaves hl.off
  refine ⟨grad, ?_, h2⟩
  rw [← h1, ← hl.blocks]
  have : (s.requests J cs scale qs).isArray J = false := by rw [hl.isArray]; exact hJn
  simp only [State.call, this, Bool.false_eq_true, if_false, State.derivative, State.blocks]

/-! ## What is not recorded -/

/-- `a = array([1.]); b = a + a; J = b[0]`. -/
noncomputable def sumProg : List (Instr 0) := [.array fun _ => 1, .arith (fun x y => x + y) 0 0, .get 1 [0] true]

/-- **C68**, negative.  NumPy arithmetic with arrays is not recorded: the value does not follow the control, and the derivative is zero. -/
theorem array_arithmetic_is_not_recorded :
    ∃ s, State.run sumProg = some s ∧ ∀ x : Cells 0, (s.call 2 [0] 1 [x]).1 0 = 2 ∧ source sumProg [0] [x] 2 0 = x 0 + x 0 ∧
      ((s.call 2 [0] 1 [x]).2.derivative 2 [0] 1 (num 1)).1 = [0] := by
  refine ⟨_, rfl, fun x => ⟨?_, rfl, rfl⟩⟩
  show (1 : ℝ) * (1 + 1) = 2
  norm_num

/-- `a = array([1.]); v = AdjFloat(5); a[0]; a[0] = v; J = a[0]`. -/
noncomputable def setProg : List (Instr 0) := [.array fun _ => 1, .number 5, .get 0 [0] true, .assign 0 [0] 1, .get 0 [0] true]

/-- **C68**, negative.  An assignment to an entry is not recorded: `J` is `5`, and an evaluation with any value of `v` gives `1`, what the
entry was when it was first read. -/
theorem array_assignment_is_not_recorded :
    ∃ s, State.run setProg = some s ∧ s.value 3 0 = 5 ∧ ∀ x : Cells 0, (s.call 3 [1] 1 [x]).1 0 = 1 ∧ source setProg [1] [x] 3 0 = x 0 := by
  refine ⟨_, rfl, ?_, fun x => ⟨?_, rfl⟩⟩
  · rfl
  · show (1 : ℝ) * 1 = 1
    norm_num

/-- **C68**, negative.  A reduced functional whose functional is an array and whose scale is not one: the evaluation scales the value stored
on the tape, here that of the control itself. -/
theorem scaled_array_functional_changes_control (x₀ x : Cells N) :
    ∃ s, State.run [.array x₀] = some s ∧ (s.call 0 [0] 2 [x]).1 = (2 : ℝ) • x ∧ saved (s.call 0 [0] 2 [x]).2.heap 0 = (2 : ℝ) • x :=
  ⟨_, rfl, rfl, rfl⟩

/-- **C68**, negative.  A functional that is an array the program does not compute, and a scale other than one: evaluations at one point give
different values. -/
theorem constant_array_functional_drifts (a b x : Cells N) :
    ∃ s, State.run [.array a, .array b] = some s ∧ (s.call 1 [0] 2 [x]).1 = (2 : ℝ) • b ∧
      ((s.call 1 [0] 2 [x]).2.call 1 [0] 2 [x]).1 = (2 : ℝ) • ((2 : ℝ) • b) :=
  ⟨_, rfl, rfl, rfl⟩

/-- `a = array([1., 1.]); b = a[[0, 0]]; J = b[0]`. -/
noncomputable def twiceProg : List (Instr 1) := [.array fun _ => 1, .get 0 [0, 0] false, .get 1 [0] true]

/-- **C68**, negative.  An index that repeats a position: the derivative of `a[0]` comes out as `0`. -/
theorem repeated_position_gradient_wrong :
    ∃ s, State.run twiceProg = some s ∧ ∀ x : Cells 1, source twiceProg [0] [x] 2 0 = x 0 ∧
      ((s.call 2 [0] 1 [x]).2.derivative 2 [0] 1 (num 1)).1.map (· 0) = [0] := by
  refine ⟨_, rfl, fun x => ⟨rfl, ?_⟩⟩
  rfl

/-- `a = array([2., 3.]); b = a[::-1]; J = exp(b[0] * a[0]) / b[1]` -/
noncomputable def expProg : List (Instr 1) :=
  [.array fun k => k + 2, .get 0 [1, 0] false, .get 1 [0] true, .get 0 [0] true, .bin .mul 2 3, .un .exp 4, .get 1 [1] true, .bin .div 5 6]

/-- The hypotheses of `array_replay_partial` and `array_gradient_exact_partial` hold for `expProg`, where the first entry of the control is not zero. -/
example (x : Fin 1 → Cells 1) (hx : x 0 0 ≠ 0) : (∀ i ∈ expProg, i.recorded = true) ∧
    (∃ s, State.run expProg = some s ∧ 7 < s.next ∧ s.isArray 7 = false ∧ s.isArray 1 = true) ∧
    (∃ ins, expProg[1]? = some ins ∧ ins.isInput = false) ∧
    (∀ c ∈ [0], ∃ ins, expProg[c]? = some ins ∧ ins.isInput = true) ∧
    ∀ (k : Nat) (ins : Instr 1), expProg[k]? = some ins → (∃ i ∈ ins.args, Depends expProg [0] i) →
      ins.Smooth (source expProg [0] (List.ofFn x)) (Depends expProg [0]) := by
  refine ⟨by simp [expProg, Instr.recorded], ⟨_, rfl, by simp [State.add, State.new, State.use, State.empty], rfl, rfl⟩, ⟨_, rfl, rfl⟩, by simp [expProg, Instr.isInput], ?_⟩
  intro k ins hk _
  have := List.mem_of_getElem? hk
  simp only [expProg, List.mem_cons, List.not_mem_nil, or_false] at this
  rcases this with rfl | rfl | rfl | rfl | rfl | rfl | rfl | rfl <;> simp only [Instr.Smooth] <;> try trivial

end Arr
end Pyadjoint
