import Verif.Props.InPlace

/-!
# C89: what is done after a reduced functional was made
-/

namespace Pyadjoint
namespace InPlace

variable {V T A : Type*}

/-- The number of `Control`s made by the statements. -/
def controlCount : List (Stmt V T A) → Nat
  | [] => 0
  | .control _ :: p => controlCount p + 1
  | _ :: p => controlCount p

theorem run_controlCount (p : List (Stmt V T A)) : ∀ w : World V T A, (w.run p).controls.length = w.controls.length + controlCount p := by
  induction p with
  | nil => intro w; rfl
  | cons st p ih =>
    intro w
    rw [run_cons, ih]
    cases st with
    | op k vs o =>
      rw [step_op]
      simp [World.write, World.create, World.setVal, addDeps_controls, controlCount]
    | modify o x => rfl
    | assign o x => rfl
    | control v =>
      rw [step_control]
      simp only [blockVar_controls, List.length_append, List.length_singleton, controlCount]
      omega

theorem given_none (ov : Nat → Option V) (v : Nat) (q : List (Stmt V T A)) :
    ∀ n, (∀ i, n ≤ i → ov i = none) → given ov v q n = none := by
  induction q with
  | nil => intro n _; rfl
  | cons st q ih =>
    intro n h
    cases st with
    | op k vs o => simp [given, ih n h]
    | modify o x => simp [given, ih n h]
    | assign o x => simp [given, ih n h]
    | control u => simp [given, h n le_rfl, ih (n + 1) fun i hi => h i (by omega)]

theorem given_append (ov : Nat → Option V) (v : Nat) (p q : List (Stmt V T A)) :
    ∀ n, (∀ i, n + controlCount p ≤ i → ov i = none) → given ov v (p ++ q) n = given ov v p n := by
  induction p with
  | nil => intro n h; exact given_none ov v q n h
  | cons st p ih =>
    intro n h
    cases st with
    | op k vs o => simp only [List.cons_append, given, ih n h]
    | modify o x => simp only [List.cons_append, given, ih n h]
    | assign o x => simp only [List.cons_append, given, ih n h]
    | control u =>
      have h' : ∀ i, n + 1 + controlCount p ≤ i → ov i = none := fun i hi => h i (by simp only [controlCount]; omega)
      simp only [List.cons_append, given, ih (n + 1) h']

theorem rerunFrom_append (ov : Nat → Option V) (p q : List (Stmt V T A)) :
    ∀ n s, (∀ i, n + controlCount p ≤ i → ov i = none) →
      rerunFrom ov (p ++ q) n s = rerunFrom ov q (n + controlCount p) (rerunFrom ov p n s) := by
  induction p with
  | nil => intro n s h; rfl
  | cons st p ih =>
    intro n s h
    cases st with
    | op k vs o => simp only [List.cons_append, rerunFrom, given_append ov _ p q n h, ih n _ h, controlCount]
    | modify o x => simp only [List.cons_append, rerunFrom, given_append ov _ p q n h, ih n _ h, controlCount]
    | assign o x => simp only [List.cons_append, rerunFrom, given_append ov _ p q n h, ih n _ h, controlCount]
    | control u =>
      have h' : ∀ i, n + 1 + controlCount p ≤ i → ov i = none := fun i hi => h i (by simp only [controlCount]; omega)
      simp only [List.cons_append, rerunFrom, ih (n + 1) s h', controlCount]
      rw [show n + 1 + controlCount p = n + (controlCount p + 1) by omega]

theorem rerunFrom_unwritten (ov : Nat → Option V) (J : Nat) (q : List (Stmt V T A)) :
    ∀ n s, (∀ st ∈ q, ¬ st.writes J) → rerunFrom ov q n s J = s J := by
  induction q with
  | nil => intro n s _; rfl
  | cons st q ih =>
    intro n s h
    have hn := h st (List.mem_cons_self ..)
    have hq : ∀ st ∈ q, ¬ st.writes J := fun s hs => h s (List.mem_cons_of_mem _ hs)
    cases st with
    | op k vs o => rw [rerunFrom, ih _ _ hq]; exact if_neg fun h => hn h.symm
    | modify o x => rw [rerunFrom, ih _ _ hq]; exact if_neg fun h => hn h.symm
    | assign o x => rw [rerunFrom, ih _ _ hq]; exact if_neg fun h => hn h.symm
    | control u => rw [rerunFrom, ih _ _ hq]

theorem chosen_beyond (sel : List Nat) (xs : List V) (n i : Nat) (hs : ∀ j ∈ sel, j < n) (hi : n ≤ i) : chosen sel xs i = none := by
  unfold chosen
  rw [List.lookup_eq_none_iff]
  rintro ⟨j, x⟩ hj
  have := hs j (List.of_mem_zip hj).1
  simp only [bne_iff_ne, ne_eq]
  omega

/-- **C89, what is done after a reduced functional was made.**  The program `p` ends by making `rf`; the
program goes on with the annotated or announced changes `q`, which may write the controls, the intermediate objects and anything else but `J`:
`rf(x)` returns what it would have returned right away.
Missing: `q` writes `J`; see `functional_follows_object`. -/
theorem in_place_later_partial (p q : List (Stmt V T A)) (hp : ∀ st ∈ p, st.tracked) (hq : ∀ st ∈ q, st.tracked) (vals : Nat → V) (J : Nat)
    (hJ : ∀ st ∈ q, ¬ st.writes J) (sel : List Nat) (hs : ∀ i ∈ sel, i < ((World.start vals).run p).controls.length)
    (hnd : (((World.start vals).run p).pick sel).Nodup) (xs : List V) (hlen : xs.length = sel.length) :
    ((World.start vals).run (p ++ q)).rfCall J sel xs = ((World.start vals).run p).rfCall J sel xs := by
  have hcount : ((World.start vals).run p).controls.length = controlCount p := by
    rw [run_controlCount]; simp [World.start]
  have hov : ∀ i, 0 + controlCount p ≤ i → chosen sel xs i = none := fun i hi =>
    chosen_beyond sel xs (controlCount p) i (fun j hj => hcount ▸ hs j hj) (by omega)
  obtain ⟨l, hl⟩ := (run_later q ((World.start vals).run p)).ctl
  have hl' : ((World.start vals).run (p ++ q)).controls = ((World.start vals).run p).controls ++ l := by rw [run_append, hl]
  have hpick : ((World.start vals).run (p ++ q)).pick sel = ((World.start vals).run p).pick sel := by
    unfold World.pick
    rw [hl']
    refine List.map_congr_left fun i hi => ?_
    rw [List.getD_eq_getElem?_getD, List.getD_eq_getElem?_getD, List.getElem?_append_left (hs i hi)]
  rw [in_place_replay p hp vals J sel hs hnd xs hlen,
    in_place_replay (p ++ q) (fun st h => (List.mem_append.mp h).elim (hp st) (hq st)) vals J sel
      (fun i hi => by rw [hl', List.length_append]; exact (hs i hi).trans_le (Nat.le_add_right _ _)) (hpick ▸ hnd) xs hlen]
  unfold rerun
  rw [rerunFrom_append _ p q 0 _ hov, rerunFrom_unwritten _ J q _ _ hJ]
  congr 1
  funext v
  rw [given_append _ v p q 0 hov]

/-- The statements of `docProgram` followed by changes of the control and of another object. -/
def afterwards : List (Stmt Int Int Int) :=
  [.op (plain fun l => l.headD 0 * 100) [1] 0, .control 0, .modify 2 5, .op (plain fun l => l.sum) [0, 1] 3]

/-- `in_place_later_partial`, a case that meets its hypotheses: `u` is overwritten after `rf` was made. -/
example : (∀ st ∈ docProgram, st.tracked) ∧ (∀ st ∈ afterwards, st.tracked) ∧ (∀ st ∈ afterwards, ¬ st.writes 1) ∧
    ((World.start fun _ => 1).run (docProgram ++ afterwards)).rfCall 1 [0] [5] = 49 := by
  refine ⟨?_, ?_, ?_, by decide +kernel⟩
  · intro st h
    simp only [docProgram, List.mem_cons, List.not_mem_nil, or_false] at h
    rcases h with rfl | rfl | rfl | rfl <;> exact trivial
  · intro st h
    simp only [afterwards, List.mem_cons, List.not_mem_nil, or_false] at h
    rcases h with rfl | rfl | rfl | rfl <;> exact trivial
  · intro st h
    simp only [afterwards, List.mem_cons, List.not_mem_nil, or_false] at h
    rcases h with rfl | rfl | rfl | rfl <;> simp [Stmt.writes]

/-- A `ReducedFunctional` follows the object it was given, not the value that the object stood for: `rf = ReducedFunctional(J, c1)` after
`docProgram` gives `rf(5) = 49`; after `J.add_in_place(1000)` the same `rf(5)` is `1049`; and after `J` was set to `8` under
`stop_annotating(modifies=J)` it is `8`, whatever the control is given.  (`Control(J)` made at the same time would still stand for the old
version: `control_stands`.) -/
theorem functional_follows_object :
    ((World.start fun _ => 1).run docProgram).rfCall 1 [0] [5] = 49 ∧
    ((World.start fun _ => 1).run (docProgram ++ [.op (plain fun l => l.headD 0 + 1000) [1] 1])).rfCall 1 [0] [5] = 1049 ∧
    ((World.start fun _ => 1).run (docProgram ++ [.modify 1 8])).rfCall 1 [0] [5] = 8 ∧
    ((World.start fun _ => 1).run (docProgram ++ [.modify 1 8])).rfCall 1 [0] [6] = 8 := by decide +kernel

end InPlace
end Pyadjoint
