import Verif.Props.Timesteps

/-! # C16, C39: the timestepper and tags -/

namespace Pyadjoint

variable {V T A : Type*}

/-- `for x in tape.timestepper(items): body(x)` with `TapeTimeStepper` (`tape.py:769-785`) on tape `t`: `end_timestep` is called
when the next item is fetched, but not for the first one, and not when there is none left
(`next(self.iterator)` raises `StopIteration` first).  The items bound to `x` are collected. -/
def timestepLoop {X : Type*} (t : Nat) (body : X → World V T A → World V T A) :
    Bool → World V T A → List X → World V T A × List X
  | _, w, [] => (w, [])
  | first, w, x :: xs =>
    let w := if first then w else w.endTimestep t
    let r := timestepLoop t body false (body x w) xs
    (r.1, x :: r.2)

/-- A body that records the given blocks. -/
def recordBlocks {X : Type*} (t : Nat) (f : X → Blocks V T A) (x : X) (w : World V T A) : World V T A :=
  (f x).foldl (fun w b => (w.addBlock t b).1) w

/-- The blocks `bs` go to the current timestep. -/
def extendLast (steps : List (Blocks V T A)) (bs : Blocks V T A) : List (Blocks V T A) :=
  match bs with
  | [] => steps
  | _ => steps.dropLast ++ [(steps.getLast?.getD []) ++ bs]

theorem recordBlocks_after {X : Type*} (t : Nat) (f : X → Blocks V T A) (x : X) (ops : List (TapeOp V T A)) :
    recordBlocks t f x (World.after ops) = World.after (ops ++ (f x).map (.addBlock t)) := by
  unfold recordBlocks World.after
  rw [List.foldl_append, List.foldl_map]
  rfl

theorem timesteps_addBlock (ops : List (TapeOp V T A)) (t : Nat) (b : Block V T A) :
    (World.after (ops ++ [.addBlock t b])).timesteps t =
      ((World.after ops).timesteps t).dropLast ++ [(((World.after ops).timesteps t).getLast?.getD []) ++ [b]] := by
  rw [(tapes_independent _ t).1, (tapes_independent _ t).1, List.foldl_append]
  simp only [List.foldl_cons, List.foldl_nil, Spec.Tapes.step]
  rw [World.Spec_upd_self]
  generalize (List.foldl Spec.Tapes.step ({} : Spec.Tapes V T A) ops).tapes t = l
  rcases List.eq_nil_or_concat l with rfl | ⟨init, z, rfl⟩
  · simp [Spec.ensure, Spec.addLast]
  · have : Spec.ensure (init.concat z) = init ++ [z] := by
      rw [List.concat_eq_append]
      cases init <;> rfl
    rw [this]; simp [Spec.addLast]

theorem timesteps_addBlocks (bs : Blocks V T A) (ops : List (TapeOp V T A)) (t : Nat) :
    (World.after (ops ++ bs.map (.addBlock t))).timesteps t = extendLast ((World.after ops).timesteps t) bs := by
  induction bs using List.reverseRecOn with
  | nil => simp [extendLast]
  | append_singleton bs b ih =>
    rw [List.map_append, ← List.append_assoc]
    rw [show List.map (TapeOp.addBlock t) [b] = [TapeOp.addBlock t b] from rfl, timesteps_addBlock, ih]
    cases bs with
    | nil => simp [extendLast]
    | cons a bs => simp [extendLast]

theorem timesteps_end (ops : List (TapeOp V T A)) (t : Nat) :
    ((World.after ops).endTimestep t).timesteps t = (World.after ops).timesteps t ++ [[]] :=
  (add_block_spec ops t
    ⟨[], [], none, fun _ _ => none, fun _ _ _ => none, fun _ _ _ => none, fun _ _ _ _ _ => none⟩).2.2.2.2

theorem timestepLoop_later {X : Type*} (t : Nat) (f : X → Blocks V T A) (items : List X) (ops : List (TapeOp V T A)) :
    (timestepLoop t (recordBlocks t f) false (World.after ops) items).1.timesteps t =
      (World.after ops).timesteps t ++ items.map f := by
  induction items generalizing ops with
  | nil => simp [timestepLoop]
  | cons x xs ih =>
    have e : (World.after ops).endTimestep t = World.after (ops ++ [.endTimestep t]) := by
      unfold World.after; rw [List.foldl_append]; rfl
    show (timestepLoop t (recordBlocks t f) false (recordBlocks t f x ((World.after ops).endTimestep t)) xs).1.timesteps t = _
    rw [e, recordBlocks_after, ih, timesteps_addBlocks, ← e, timesteps_end]
    cases hf : f x <;> simp [extendLast, hf]

theorem timestepLoop_items {X : Type*} (t : Nat) (body : X → World V T A → World V T A) (first : Bool) (w : World V T A)
    (items : List X) : (timestepLoop t body first w items).2 = items := by
  induction items generalizing first w with
  | nil => rfl
  | cons x xs ih => simp [timestepLoop, ih]

/-- **C16.** Iterating `tape.timestepper(items)` yields the items unchanged; the blocks recorded in the first iteration go to the
current timestep, those of every later iteration make up a timestep of their own. -/
theorem timestepper_on_any_tape {X : Type*} (ops : List (TapeOp V T A)) (t : Nat) (f : X → Blocks V T A) (x : X) (xs : List X) :
    (timestepLoop t (recordBlocks t f) true (World.after ops) (x :: xs)).2 = x :: xs ∧
    (timestepLoop t (recordBlocks t f) true (World.after ops) (x :: xs)).1.timesteps t =
      extendLast ((World.after ops).timesteps t) (f x) ++ xs.map f := by
  refine ⟨timestepLoop_items _ _ _ _ _, ?_⟩
  show (timestepLoop t (recordBlocks t f) false (recordBlocks t f x (World.after ops)) xs).1.timesteps t = _
  rw [recordBlocks_after, timestepLoop_later, timesteps_addBlocks]

/-- **C16, fresh tape.** If the first iteration records something, iteration `i` and timestep `i` correspond. -/
theorem timestepper_partial {X : Type*} (f : X → Blocks V T A) (x : X) (xs : List X) (hx : f x ≠ []) :
    (timestepLoop 0 (recordBlocks 0 f) true (World.after [.newTape]) (x :: xs)).1.timesteps 0 = (x :: xs).map f := by
  rw [(timestepper_on_any_tape _ _ _ _ _).2]
  have e : (World.after [.newTape] : World V T A).timesteps 0 = [] := by
    rw [(tapes_independent _ 0).1]; simp [Spec.Tapes.step, Spec.Tapes.upd]
  rw [e]
  cases hf : f x with
  | nil => exact absurd hf hx
  | cons a l => simp [extendLast, hf]

example : ((timestepLoop 0 (recordBlocks 0 fun n => [exBlk [n] [n + 1]]) true (World.after [.newTape]) [0, 1, 2]).1.timesteps 0).map
    (·.map (·.outs)) = [[[1]], [[2]], [[3]]] := by decide

/-- **C16 is false in general.** If nothing is recorded in the first iteration on a fresh tape, there is no timestep to end yet:
the timesteps then number one less than the iterations, and the blocks of iteration 1 are in timestep 0. -/
theorem timestepper_first_empty :
    ∃ (f : Nat → Blocks Int Int Int) (items : List Nat),
      (timestepLoop 0 (recordBlocks 0 f) true (World.after [.newTape]) items).1.timesteps 0 ≠ items.map f ∧
      ((timestepLoop 0 (recordBlocks 0 f) true (World.after [.newTape]) items).1.timesteps 0).length + 1 = items.length := by
  refine ⟨fun n => if n = 0 then [] else [exBlk [n] [n + 1]], [0, 1, 2], ?_, by decide⟩
  intro h
  have := congrArg List.length h
  revert this
  decide

/-! ## Tags -/

/-- `Tape.get_blocks` (`tape.py:337-350`). -/
def getBlocks (bs : Blocks V T A) : Option String → Blocks V T A
  | none => bs
  | some g => bs.filter fun b => b.tag = some g

/-- `Tape.get_tags` (`tape.py:352-360`). -/
def getTags (bs : Blocks V T A) : List String :=
  bs.foldl (fun tags b => match b.tag with
    | some g => if g ∈ tags then tags else tags ++ [g]
    | none => tags) []

/-- Position of the first block with tag `g`. -/
def firstWith (bs : Blocks V T A) (g : String) : Nat := bs.findIdx fun b => b.tag = some g

theorem getTags_snoc (bs : Blocks V T A) (b : Block V T A) : getTags (bs ++ [b]) = match b.tag with
    | some g => if g ∈ getTags bs then getTags bs else getTags bs ++ [g]
    | none => getTags bs := by
  unfold getTags; rw [List.foldl_append]; rfl

theorem mem_getTags (bs : Blocks V T A) (g : String) : g ∈ getTags bs ↔ ∃ b ∈ bs, b.tag = some g := by
  induction bs using List.reverseRecOn with
  | nil => simp [getTags]
  | append_singleton bs b ih =>
    rw [getTags_snoc]
    cases hb : b.tag with
    | none =>
      simp only [ih, List.mem_append, List.mem_singleton]
      constructor
      · rintro ⟨c, hc, e⟩; exact ⟨c, Or.inl hc, e⟩
      · rintro ⟨c, hc | rfl, e⟩
        · exact ⟨c, hc, e⟩
        · rw [hb] at e; cases e
    | some g' =>
      have : g ∈ (if g' ∈ getTags bs then getTags bs else getTags bs ++ [g']) ↔ g ∈ getTags bs ∨ g = g' := by
        split
        · exact ⟨Or.inl, fun h => h.elim id fun e => by rw [e]; assumption⟩
        · simp
      simp only [this, ih, List.mem_append, List.mem_singleton]
      constructor
      · rintro (⟨c, hc, e⟩ | rfl)
        · exact ⟨c, Or.inl hc, e⟩
        · exact ⟨b, Or.inr rfl, hb⟩
      · rintro ⟨c, hc | rfl, e⟩
        · exact Or.inl ⟨c, hc, e⟩
        · rw [hb] at e; cases e; exact Or.inr rfl

theorem firstWith_append_of_mem {bs : Blocks V T A} {g : String} (h : ∃ b ∈ bs, b.tag = some g) (cs : Blocks V T A) :
    firstWith (bs ++ cs) g = firstWith bs g ∧ firstWith bs g < bs.length := by
  have : firstWith bs g < bs.length := by
    unfold firstWith
    rw [List.findIdx_lt_length]
    simpa using h
  refine ⟨?_, this⟩
  unfold firstWith at this ⊢
  rw [List.findIdx_append, if_pos this]

/-- **C39.** `get_tags` lists every tag in use, exactly once, in the order of the tags' first appearances; `get_blocks(tag)` is
the part of the tape with that tag, in tape order; and every tagged block is in the list of exactly one tag. -/
theorem tags_partition (bs : Blocks V T A) :
    (getTags bs).Nodup ∧
    (∀ g, g ∈ getTags bs ↔ ∃ b ∈ bs, b.tag = some g) ∧
    (getTags bs).Pairwise (fun g g' => firstWith bs g < firstWith bs g') ∧
    (∀ g, (getBlocks bs (some g)).Sublist bs ∧ ∀ b, b ∈ getBlocks bs (some g) ↔ b ∈ bs ∧ b.tag = some g) ∧
    (((getTags bs).map fun g => getBlocks bs (some g)).flatten ++ bs.filter (fun b => b.tag.isNone)).Perm bs := by
  have hsorted : ∀ bs : Blocks V T A, (getTags bs).Pairwise (fun g g' => firstWith bs g < firstWith bs g') := by
    intro bs
    induction bs using List.reverseRecOn with
    | nil => simp [getTags]
    | append_singleton bs b ih =>
      rw [getTags_snoc]
      have old : (getTags bs).Pairwise (fun g g' => firstWith (bs ++ [b]) g < firstWith (bs ++ [b]) g') :=
        ih.imp_of_mem fun {x y} hx hy h => by
          rw [(firstWith_append_of_mem ((mem_getTags bs x).1 hx) [b]).1, (firstWith_append_of_mem ((mem_getTags bs y).1 hy) [b]).1]
          exact h
      cases hb : b.tag with
      | none => exact old
      | some g =>
        show (if g ∈ getTags bs then getTags bs else getTags bs ++ [g]).Pairwise _
        split
        · exact old
        · rename_i hg
          refine List.pairwise_append.2 ⟨old, by simp, ?_⟩
          intro x hx y hy
          rw [List.mem_singleton] at hy
          subst hy
          obtain ⟨e1, e2⟩ := firstWith_append_of_mem ((mem_getTags bs x).1 hx) [b]
          rw [e1]
          refine lt_of_lt_of_le e2 ?_
          unfold firstWith
          rw [List.findIdx_append]
          have : ¬ List.findIdx (fun b => decide (b.tag = some y)) bs < bs.length := by
            rw [List.findIdx_lt_length]
            intro hm
            exact hg ((mem_getTags bs y).2 (by simpa using hm))
          rw [if_neg this]
          omega
  have hnd : ∀ bs : Blocks V T A, (getTags bs).Nodup := fun bs =>
    (hsorted bs).imp fun {x y} h e => by rw [e] at h; exact lt_irrefl _ h
  refine ⟨hnd bs, mem_getTags bs, hsorted bs, fun g => ⟨List.filter_sublist, fun b => by simp [getBlocks]⟩, ?_⟩
  have key : ∀ (tags : List String), tags.Nodup → ∀ cs : Blocks V T A, (∀ b ∈ cs, ∀ g, b.tag = some g → g ∈ tags) →
      ((tags.map fun g => getBlocks cs (some g)).flatten ++ cs.filter (fun b => b.tag.isNone)).Perm cs := by
    intro tags
    induction tags with
    | nil =>
      intro _ cs h
      have : cs.filter (fun b => b.tag.isNone) = cs := List.filter_eq_self.2 fun b hb => by
        cases hg : b.tag with
        | none => rfl
        | some g => exact absurd (h b hb g hg) (by simp)
      simp [this]
    | cons g tags ih =>
      intro hn cs h
      rw [List.nodup_cons] at hn
      have h2 := ih hn.2 (cs.filter fun b => !decide (b.tag = some g)) (fun b hb g' hg' => by
        rw [List.mem_filter] at hb
        rcases List.mem_cons.1 (h b hb.1 g' hg') with rfl | hm
        · simp [hg'] at hb
        · exact hm)
      have e1 : (tags.map fun g' => getBlocks (cs.filter fun b => !decide (b.tag = some g)) (some g')) =
          tags.map fun g' => getBlocks cs (some g') := by
        refine List.map_congr_left fun g' hg' => ?_
        simp only [getBlocks, List.filter_filter]
        refine List.filter_congr fun b _ => ?_
        by_cases hb : b.tag = some g'
        · have : g' ≠ g := fun e => hn.1 (e ▸ hg')
          simp [hb, this]
        · simp [hb]
      have e2 : (cs.filter fun b => !decide (b.tag = some g)).filter (fun b => b.tag.isNone) = cs.filter (fun b => b.tag.isNone) := by
        rw [List.filter_filter]
        refine List.filter_congr fun b _ => ?_
        cases b.tag <;> simp
      rw [e1, e2] at h2
      simp only [List.map_cons, List.flatten_cons, List.append_assoc]
      exact (List.Perm.append_left _ h2).trans (List.filter_append_perm _ cs)
  exact key _ (hnd bs) bs fun b hb g hg => (mem_getTags bs g).2 ⟨b, hb, hg⟩

/-- An example with repeated tags and an untagged block. -/
def exTagged : Blocks Int Int Int :=
  [{ exBlk [0] [1] with tag := some "a" }, exBlk [1] [2], { exBlk [2] [3] with tag := some "b" },
   { exBlk [3] [4] with tag := some "a" }]

example : getTags exTagged = ["a", "b"] ∧ (getBlocks exTagged (some "a")).map (·.outs) = [[1], [4]] := by decide

end Pyadjoint
