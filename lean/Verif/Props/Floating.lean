import Verif.Proofs.Floating

/-!
# C57: floating objects (views)
-/

namespace Pyadjoint.Floating

variable {V T A : Type*}

/-- **C57, order.** Whatever a program does with views, the recorded tape is well formed: every block variable is output of at most one block, and no block
depends on a variable that a later block (or itself) produces. -/
theorem floating_tape_wf [Nonempty V] (cfg : Obj → View V) (act : List Obj) (p : List (Op V)) : WF ((recordAll cfg act p FS.init).blocks : Blocks V T A) := by
  obtain ⟨x⟩ := ‹Nonempty V›
  obtain ⟨val, h⟩ := recordAll_ok cfg act p (fun _ => x) FS.init (fun _ => x) (fun _ => x) (FS.init_inv _ _)
  exact h.wf

/-- **C57, values.** For every program on objects, some of which are (active) floating objects, replay of the recorded tape gives every object the value that
the program computes when a view is computed from its arguments each time it is read, and writes through to its targets each time it is written.  The
initial values `σ` are arbitrary, not those at the recording: `h` holds them in the block variables that no block produces; what it holds elsewhere does not
matter. -/
theorem floating_replay (cfg : Obj → View V) (act : List Obj) (p : List (Op V)) (σ : Obj → V) (h : Heap V T A) (hfl : ∀ v, (h v).isControl = false) :
    let s := recordAll cfg act p FS.init
    (∀ v, v < s.next → (∀ b ∈ s.tape, v ∉ b.outs) → saved h v = σ (s.owner v)) →
    ∀ o, match s.cur o with
      | some v => saved (recompute s.blocks h) v = execAll cfg act p σ o
      | none => execAll cfg act p σ o = σ o := by
  intro s hleaf o
  obtain ⟨val, hinv⟩ := recordAll_ok cfg act p σ FS.init σ (fun _ => σ 0) (FS.init_inv _ _)
  have hwf : WF (s.blocks : Blocks V T A) := hinv.wf
  have key : ∀ v, v < s.next → saved (recompute s.blocks h) v = val v := by
    apply tape_induction hwf (P := fun v => v < s.next → saved (recompute s.blocks h) v = val v)
    · intro v hv hlt
      have hv' : ∀ b ∈ s.tape, v ∉ b.outs := fun b hb => hv _ (List.mem_map.2 ⟨b, hb, rfl⟩)
      have e := recompute_of_not_out s.blocks h v hv
      rw [show saved (recompute s.blocks h) v = saved h v from saved_congr (by rw [e]) (by rw [e]), hleaf v hlt hv']
      exact (hinv.leaf v hlt (by simp) hv').symm
    · intro b hb ih o ho _
      obtain ⟨i, hi, rfl⟩ := List.getElem_of_mem ho
      have e := recompute_eq hwf h b hb i hi
      have hnc : b.outs.any (fun o => (h o).isControl) = false := by
        rw [List.any_eq_false]
        intro x _
        simp [hfl]
      obtain ⟨c, hc, rfl⟩ := List.mem_map.1 hb
      rw [hnc] at e
      simp only [Bool.false_eq_true, if_false, orKeep] at e
      have hs : ∀ (k : Heap V T A) v y, (k v).ckpt = some y → saved k v = y := by
        intro k v y hy
        unfold saved
        rw [hy]
      rw [hs _ _ _ e]
      rw [hinv.eqs c hc i hi]
      congr 1
      apply List.map_congr_left
      intro d hd
      exact ih d hd (hinv.deps_next hc hd)
  have hcur : ∀ v, s.cur o = some v → saved (recompute s.blocks h) v = execAll cfg act p σ o := by
    intro v hv
    rw [key v (hinv.cur_lt o v hv)]
    exact hinv.cur_val o v hv
  cases hc : s.cur o with
  | some v => exact hcur v hc
  | none => exact hinv.cur_none o hc

mutual
/-- How many blocks one use of an object stands for: one for each active view met on the way. -/
def blocksFor (cfg : Obj → View V) (act : List Obj) (o : Obj) : Nat :=
  if _h : o ∈ act then
    match (cfg o).block with
    | none => 0
    | some (args, _) => blocksForAll cfg (act.erase o) args + 1
  else 0
termination_by (act.length, 0)
decreasing_by
  have := List.length_erase_of_mem _h
  have := List.length_pos_of_mem _h
  apply Prod.Lex.left
  omega

/-- The same for several objects. -/
def blocksForAll (cfg : Obj → View V) (act : List Obj) (os : List Obj) : Nat :=
  match os with
  | [] => 0
  | o :: os => blocksFor cfg act o + blocksForAll cfg act os
termination_by (act.length, os.length + 1)
end

theorem FS.ensure_tape (s : FS V) (o : Obj) : (s.ensure o).tape = s.tape := by
  unfold FS.ensure
  cases s.cur o <;> rfl

/-- **C57, number of blocks.** Every use of a view records one block of its class and one for each view its block is made from, and the use of another object
records nothing. -/
theorem floating_use_blocks (cfg : Obj → View V) (act : List Obj) (o : Obj) (s : FS V) :
    (useDep cfg act o s).1.tape.length = s.tape.length + blocksFor cfg act o := by
  induction hn : act.length using Nat.strong_induction_on generalizing act o s with
  | _ n ih =>
  rw [useDep, blocksFor]
  by_cases ho : o ∈ act
  · simp only [ho, dite_true]
    cases hb : (cfg o).block with
    | none => simp [FS.ensure_tape]
    | some q =>
      obtain ⟨args, fn⟩ := q
      have hlen : (act.erase o).length < n := by
        have := List.length_erase_of_mem ho
        have := List.length_pos_of_mem ho
        omega
      have hall : ∀ (os : List Obj) (s : FS V), (useAll cfg (act.erase o) os s).1.tape.length = s.tape.length + blocksForAll cfg (act.erase o) os := by
        intro os
        induction os with
        | nil => intro s; rw [useAll, blocksForAll]; rfl
        | cons a os iho =>
          intro s
          rw [useAll, blocksForAll]
          dsimp only
          rw [iho, ih _ hlen (act.erase o) a s rfl]
          omega
      dsimp only
      simp only [FS.create, FS.push, List.length_append, List.length_singleton, hall, FS.ensure_tape]
      omega
  · simp [ho, FS.ensure_tape]

/-- Object `1` is the first component of the pair `0`, writing through to it (example data). -/
def exCfg : Obj → View (ℤ × ℤ) := fun o =>
  if o = 1 then
    { block := some ([0], fun xs => ((xs.headD (0, 0)).1, 0)),
      outBlock := some ([1, 0], [0], fun xs _ => ((xs.headD (0, 0)).1, ((xs.getD 1 (0, 0)).2))) }
  else { block := none, outBlock := none }

/-- `1 := 1 + 1 (componentwise on the view)`, then `2 := 0` (example data). -/
def exProg : List (Op (ℤ × ℤ)) :=
  [⟨[1], [1], fun xs _ => ((xs.headD (0, 0)).1 + 1, 0)⟩, ⟨[0], [2], fun xs _ => xs.headD (0, 0)⟩]

/-- The program does what one expects of a view: the pair is incremented in its first component. -/
example : execAll exCfg [1] exProg (fun _ => (5, 7)) 2 = (6, 7) := by
  simp [execAll, exec, exProg, readAll, read, writeAll, write, exCfg]

/-- Four blocks are recorded: view, operation, write-through, copy. -/
example : (recordAll exCfg [1] exProg FS.init).tape.map (fun b => (b.deps, b.outs)) = [([1], [2]), ([2], [3]), ([3, 1], [4]), ([4], [5])] := by
  simp [recordAll, record, exProg, useAll, useDep, addOuts, addOut, exCfg, FS.init, FS.ensure, FS.create, FS.push, FS.appendOut]

/-- The hypotheses of `floating_replay` hold: replay of these four blocks from other initial values. -/
example : saved (recompute (recordAll exCfg [1] exProg FS.init).blocks (fun _ => { output := (10, 20) } : Heap (ℤ × ℤ) Unit Unit)) 5 = (11, 20) := by
  have h := floating_replay exCfg [1] exProg (fun _ => (10, 20)) (fun _ => { output := (10, 20) } : Heap (ℤ × ℤ) Unit Unit) (fun _ => rfl)
    (fun _ _ _ => rfl) 2
  have hc : (recordAll exCfg [1] exProg FS.init).cur 2 = some 5 := by
    simp [recordAll, record, exProg, useAll, useDep, addOuts, addOut, exCfg, FS.init, FS.ensure, FS.create, FS.push, FS.appendOut]
  rw [hc] at h
  rw [show saved (recompute (recordAll exCfg [1] exProg FS.init).blocks (fun _ => { output := (10, 20) } : Heap (ℤ × ℤ) Unit Unit)) 5 = _ from h]
  simp [execAll, exec, exProg, readAll, read, writeAll, write, exCfg]

end Pyadjoint.Floating
