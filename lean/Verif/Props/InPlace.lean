import Verif.Proofs.InPlaceRun
import Verif.Props.Gradient
import Verif.Props.SecondOrder

/-!
# C89: programs that change objects in place
-/

namespace Pyadjoint
namespace InPlace

variable {V T A : Type*}

/-! ## Specification: running the program again -/

/-- The value given to a `Control` made of object `v` before `v` is written next, if any.  `ov i` is the
value given to the control made `i`-th in the program, `none` if it is not used. -/
def given (ov : Nat → Option V) (v : Nat) : List (Stmt V T A) → Nat → Option V
  | [], _ => none
  | .op _ _ o :: p, i => if o = v then none else given ov v p i
  | .modify o _ :: p, i => if o = v then none else given ov v p i
  | .assign o _ :: p, i => if o = v then none else given ov v p i
  | .control u :: p, i => if u = v then (ov i).or (given ov v p (i + 1)) else given ov v p (i + 1)

/-- A plain store with one object changed. -/
def put (s : Nat → V) (o : Nat) (x : V) : Nat → V := fun u => if u = o then x else s u

/-- The statements of the program on a plain store, no tape.  An object that is written takes the value
given to a control made of it before it is written again, else the value written. -/
def rerunFrom (ov : Nat → Option V) : List (Stmt V T A) → Nat → (Nat → V) → Nat → V
  | [], _, s => s
  | .op k vs o :: p, i, s => rerunFrom ov p i (put s o ((given ov o p i).getD (k.val (vs.map s))))
  | .modify o x :: p, i, s => rerunFrom ov p i (put s o ((given ov o p i).getD x))
  | .assign o x :: p, i, s => rerunFrom ov p i (put s o ((given ov o p i).getD x))
  | .control _ :: p, i, s => rerunFrom ov p (i + 1) s

/-- The objects at the end of the program when it is run again with the controls at the values `ov`. -/
def rerun (ov : Nat → Option V) (p : List (Stmt V T A)) (vals : Nat → V) : Nat → V :=
  rerunFrom ov p 0 fun v => (given ov v p 0).getD (vals v)

/-- The values of the controls chosen: those numbered `sel`, in this order. -/
def chosen (sel : List Nat) (xs : List V) (i : Nat) : Option V := (sel.zip xs).lookup i

/-! ## Controls of a version of an object -/

theorem given_spec (ov : Nat → Option V) (p : List (Stmt V T A)) : ∀ {w : World V T A}, Inv w →
    (∀ st ∈ p, st.tracked) → ∀ o b, w.ref o = some b →
    (∀ x, given ov o p w.controls.length = some x →
      ∃ i, (w.run p).controls[i]? = some b ∧ ov i = some x) ∧
    (given ov o p w.controls.length = none →
      ∀ i, w.controls.length ≤ i → (w.run p).controls[i]? = some b → ov i = none) := by
  induction p with
  | nil =>
    intro w _ _ o b _
    refine ⟨fun x h => ?_, fun _ i hi h => ?_⟩
    · simp [given] at h
    rw [run_nil, List.getElem?_eq_none hi] at h
    cases h
  | cons st p ih =>
    intro w hw ht o b hr
    have hw' := step_inv hw st
    have ht' : ∀ st ∈ p, st.tracked := fun s hs => ht s (List.mem_cons_of_mem _ hs)
    rw [run_cons]
    have hlt := hw.fresh _ _ hr
    cases st with
    | op k vs o' =>
      have hc : (w.step (.op k vs o')).controls = w.controls := by
        rw [step_op]; exact addDeps_controls vs w
      by_cases h : o' = o
      · subst h
        refine ⟨fun x h => by simp [given] at h, fun _ i hi => ?_⟩
        intro hcon
        refine absurd hcon (run_dead p _ b (hlt.trans_le (step_later w _).next) ?_ i (hc ▸ hi))
        intro v hv
        have h1 := (step_later w (.op k vs o')).gone v b hlt hv
        have h2 := hw.inj h1 hr
        subst h2
        rw [step_op] at hv
        simp only [World.write, World.create, if_pos, Option.some.injEq] at hv
        exact absurd hv (Nat.ne_of_gt (hlt.trans_le (addDeps_later vs w).next))
      · have hr' : (w.step (.op k vs o')).ref o = some b := by
          rw [step_op]
          simp only [World.write, World.create, if_neg (Ne.symm h)]
          exact addDeps_ref_some vs w o b hr
        have := ih hw' ht' o b hr'
        rw [hc] at this
        simpa only [given, if_neg h] using this
    | modify o' x' =>
      by_cases h : o' = o
      · subst h
        refine ⟨fun x h => by simp [given] at h, fun _ i hi => ?_⟩
        intro hcon
        refine absurd hcon (run_dead p (w.step (.modify o' x')) b hlt ?_ i hi)
        intro v hv
        have h1 := (step_later w (.modify o' x')).gone v b hlt hv
        have h2 := hw.inj h1 hr
        subst h2
        simp [World.step] at hv
      · have hr' : (w.step (.modify o' x')).ref o = some b := by
          simp only [World.step, if_neg (Ne.symm h)]
          exact hr
        have := ih hw' ht' o b hr'
        simp only [given, if_neg h]
        exact this
    | assign o' x' => exact absurd (ht _ (List.mem_cons_self ..)) id
    | control v =>
      have hc : (w.step (.control v)).controls = w.controls ++ [(w.blockVar v).2] := by
        rw [step_control, blockVar_controls]
      have hr' : (w.step (.control v)).ref o = some b := by
        rw [step_control]; exact blockVar_ref_some w v o b hr
      have key := ih hw' ht' o b hr'
      rw [hc] at key
      simp only [List.length_append, List.length_singleton] at key
      have hat : ((w.step (.control v)).run p).controls[w.controls.length]? = some (w.blockVar v).2 := by
        obtain ⟨l, hl⟩ := (run_later p (w.step (.control v))).ctl
        rw [hl, hc, List.append_assoc, List.getElem?_append_right le_rfl]
        simp
      by_cases h : v = o
      · subst h
        have hb : (w.blockVar v).2 = b := by rw [blockVar_of_some hr]
        rw [hb] at hat
        simp only [given, if_pos]
        constructor
        · intro x hx
          cases ho : ov w.controls.length with
          | some y =>
            rw [ho] at hx
            cases hx
            exact ⟨_, hat, ho⟩
          | none =>
            rw [ho] at hx
            exact key.1 x (by simpa using hx)
        · intro hn i hi hcon
          rw [Option.or_eq_none_iff] at hn
          rcases Nat.eq_or_lt_of_le hi with rfl | hi
          · exact hn.1
          · exact key.2 hn.2 i hi hcon
      · simp only [given, if_neg h]
        refine ⟨key.1, fun hn i hi hcon => ?_⟩
        rcases Nat.eq_or_lt_of_le hi with rfl | hi
        · exfalso
          rw [hat] at hcon
          cases hcon
          have hv := blockVar_ref w v
          exact h ((blockVar_inv hw v).inj hv (blockVar_ref_some w v o _ hr))
        · exact key.2 hn i hi hcon

/-! ## What the values on the tape have to satisfy -/

/-- No chosen control has this block variable. -/
def Free (ov : Nat → Option V) (wf : World V T A) (b : BV) : Prop :=
  ∀ i, wf.controls[i]? = some b → ov i = none

/-- The block variable is not the output of a block. -/
def Leaf (wf : World V T A) (b : BV) : Prop := ∀ B ∈ wf.blocks, b ∉ B.outs

/-- The values `E` are those of an evaluation of the recorded tape. -/
structure Evaluates (ov : Nat → Option V) (wf : World V T A) (E : BV → V) : Prop where
  control : ∀ i b x, wf.controls[i]? = some b → ov i = some x → E b = x
  block : ∀ (k : Op V T A) ds out, k.toBlock ds out ∈ wf.blocks → Free ov wf out →
    E out = k.val (ds.map E)
  leaf : ∀ b, b < wf.next → Leaf wf b → Free ov wf b → E b = (wf.ckpt b).getD (wf.vals (wf.owner b))

/-- The values on the tape agree with a store `s`, in the middle of the program. -/
def Agrees (ov : Nat → Option V) (wf : World V T A) (E : BV → V) (w : World V T A) (g : Nat → Option V)
    (s : Nat → V) : Prop :=
  (∀ v, w.ref v = none → s v = (g v).getD (w.vals v)) ∧
  ∀ v b, w.ref v = some b → E b = s v ∨ (w.ckpt b = none ∧ Leaf wf b ∧ Free ov wf b ∧ s v = w.vals v)

/-- What has to be known of a block variable made for the object `u`. -/
def Known (ov : Nat → Option V) (wf : World V T A) (E : BV → V) (g : Nat → Option V) (u : Nat) (b : BV) :
    Prop :=
  (∀ x, g u = some x → E b = x) ∧ (g u = none → Free ov wf b) ∧ Leaf wf b

theorem blockVar_agrees {ov : Nat → Option V} {wf : World V T A} {E : BV → V} {w : World V T A}
    {g : Nat → Option V} {s : Nat → V} (hw : Inv w) (h : Agrees ov wf E w g s) (v : Nat)
    (hk : w.ref v = none → Known ov wf E g v (w.blockVar v).2) :
    Agrees ov wf E (w.blockVar v).1 g s := by
  cases hr : w.ref v with
  | some b => rw [blockVar_of_some hr]; exact h
  | none =>
    have hk := hk hr
    rw [blockVar_of_none hr] at hk ⊢
    constructor
    · intro u hu
      simp only [World.create] at hu ⊢
      split at hu
      · cases hu
      · exact h.1 u hu
    · intro u b hu
      simp only [World.create] at hu ⊢
      split at hu
      · rename_i huv
        subst huv
        cases hu
        have hs := h.1 u hr
        cases hg : g u with
        | some x => left; rw [hs, hg]; exact hk.1 x hg
        | none => right; exact ⟨hw.ck _ le_rfl, hk.2.2, hk.2.1 hg, by rw [hs, hg]; rfl⟩
      · exact h.2 u b hu

theorem save_agrees {ov : Nat → Option V} {wf : World V T A} {E : BV → V} (hE : Evaluates ov wf E)
    {w : World V T A} {g : Nat → Option V} {s : Nat → V} (hw : Inv w) (h : Agrees ov wf E w g s) (v : Nat)
    (b : BV) (hr : w.ref v = some b) (hlt : b < wf.next)
    (hck : ∀ x, (w.save b).ckpt b = some x → wf.ckpt b = some x) :
    Agrees ov wf E (w.save b) g s ∧ E b = s v := by
  have hEb : E b = s v := by
    rcases h.2 v b hr with h | ⟨hn, hl, hf, hs⟩
    · exact h
    · have := hck (w.vals (w.owner b)) (by simp [World.save, hn])
      rw [hE.leaf b hlt hl hf, this, hs, hw.own _ _ hr]; rfl
  refine ⟨⟨h.1, ?_⟩, hEb⟩
  intro u c hu
  have hu : w.ref u = some c := hu
  by_cases hc : c = b
  · subst hc
    left
    rw [hEb, hw.inj hu hr]
  · rcases h.2 u c hu with h | ⟨hn, hl, hf, hs⟩
    · exact Or.inl h
    · right
      refine ⟨?_, hl, hf, hs⟩
      simp only [World.save, if_neg hc]
      exact hn

theorem addDeps_agrees {ov : Nat → Option V} {wf : World V T A} {E : BV → V} (hE : Evaluates ov wf E)
    {g : Nat → Option V} {s : Nat → V} (vs : List Nat) : ∀ {w : World V T A}, Inv w →
    Agrees ov wf E w g s →
    (∀ u b, w.ref u = none → (w.addDeps vs).1.ref u = some b → Known ov wf E g u b) →
    (w.addDeps vs).1.next ≤ wf.next →
    (∀ b x, (w.addDeps vs).1.ckpt b = some x → wf.ckpt b = some x) →
    Agrees ov wf E (w.addDeps vs).1 g s ∧ (w.addDeps vs).2.map E = vs.map s := by
  induction vs with
  | nil => exact fun _ h _ _ _ => ⟨h, rfl⟩
  | cons v vs ih =>
    intro w hw h hk hn hck
    rw [addDeps_cons] at hk hn hck ⊢
    have hb := blockVar_ref w v
    have hl := addDeps_later vs (w.addDep v).1
    have h1 : Agrees ov wf E (w.blockVar v).1 g s := by
      refine blockVar_agrees hw h v fun hr => hk v _ hr ?_
      exact addDeps_ref_some vs _ v _ hb
    have hlt : (w.blockVar v).2 < wf.next :=
      ((addDep_inv hw v).fresh v _ hb).trans_le (hl.next.trans hn)
    obtain ⟨h2, h3⟩ := save_agrees hE (blockVar_inv hw v) h1 v _ hb hlt
      (fun x hx => hck _ _ (hl.ck _ _ hx))
    have hnone : ∀ u, (w.addDep v).1.ref u = none → w.ref u = none := by
      intro u hu
      cases hu' : w.ref u with
      | none => rfl
      | some c =>
        have : (w.addDep v).1.ref u = some c := blockVar_ref_some w v u c hu'
        rw [this] at hu; cases hu
    obtain ⟨h4, h5⟩ := ih (addDep_inv hw v) h2 (fun u b hu => hk u b (hnone u hu)) hn hck
    refine ⟨h4, ?_⟩
    simp only [List.map_cons]
    rw [h5]
    exact congrArg (· :: _) h3

/-- The heart of the matter: whatever values satisfy the equations of the tape recorded by the rest of the
program agree with the re-run of the rest of the program. -/
theorem run_agrees {ov : Nat → Option V} {E : BV → V} (p : List (Stmt V T A)) :
    ∀ {w : World V T A} {s : Nat → V}, Inv w → (∀ st ∈ p, st.tracked) → Evaluates ov (w.run p) E →
    Agrees ov (w.run p) E w (fun v => given ov v p w.controls.length) s →
    Agrees ov (w.run p) E (w.run p) (fun _ => none) (rerunFrom ov p w.controls.length s) := by
  induction p with
  | nil => intro w s _ _ _ h; exact h
  | cons st p ih =>
    intro w s hw ht hE h
    have hw' := step_inv hw st
    have ht' : ∀ st ∈ p, st.tracked := fun s hs => ht s (List.mem_cons_of_mem _ hs)
    rw [run_cons] at hE h ⊢
    have hlater := run_later p (w.step st)
    -- a block variable made now is known
    have leaf_of : ∀ b, w.next ≤ b → b < (w.step st).next → (∀ B ∈ (w.step st).blocks, b ∉ B.outs) →
        Leaf ((w.step st).run p) b := by
      intro b _ hb hB B hB' hmem
      rcases hlater.outs B hB' with h1 | h1
      · exact hB B h1 hmem
      · exact absurd (h1 b hmem) (Nat.not_le.2 hb)
    have old_ctl : ∀ b, w.next ≤ b → ∀ i, i < w.controls.length →
        ((w.step st).run p).controls[i]? ≠ some b := by
      intro b hb i hi hc
      obtain ⟨l, hl⟩ := ((step_later w st).trans hlater).ctl
      rw [hl, List.getElem?_append_left hi] at hc
      exact absurd (hw.ctl b (List.mem_of_getElem? hc)) (Nat.not_lt.2 hb)
    cases st with
    | op k vs o =>
      have hc : (w.step (.op k vs o)).controls = w.controls := by
        rw [step_op]; exact addDeps_controls vs w
      have hstep := step_op w k vs o
      have hld : Later (w.addDeps vs).1 ((w.step (.op k vs o)).run p) := by
        refine Later.trans ?_ hlater
        rw [hstep]; exact write_later _ k _ o _
      have hwd := addDeps_inv vs hw
      -- dependencies
      obtain ⟨h1, h2⟩ := addDeps_agrees hE vs hw h (by
        intro u b hu hub
        have hnew : w.next ≤ b := by
          by_contra hlt
          have := (addDeps_later vs w).gone u b (Nat.lt_of_not_le hlt) hub
          rw [hu] at this; cases this
        have hbn := hwd.fresh u b hub
        have hleaf : Leaf ((w.step (.op k vs o)).run p) b := by
          intro B hB hmem
          rcases hld.outs B hB with h1 | h1
          · rw [addDeps_blocks] at h1
            obtain ⟨k', ds', o', rfl, ho'⟩ := hw.form B h1
            simp only [Op.toBlock, List.mem_singleton] at hmem
            exact absurd (hmem ▸ ho') (Nat.not_lt.2 hnew)
          · exact absurd (h1 b hmem) (Nat.not_le.2 hbn)
        by_cases huo : o = u
        · subst huo
          refine ⟨fun x hx => by simp [given] at hx, fun _ i hi => ?_, hleaf⟩
          by_cases hil : i < w.controls.length
          · exact absurd hi (old_ctl b hnew i hil)
          · refine absurd hi (run_dead p _ b (hbn.trans_le ?_) ?_ i (hc ▸ Nat.le_of_not_lt hil))
            · rw [hstep]; exact (write_later _ k _ o _).next
            · intro v hv
              rw [hstep] at hv
              simp only [World.write, World.create] at hv
              split at hv
              · cases hv; exact absurd hbn (Nat.lt_irrefl _)
              · rename_i hne
                exact hne (hwd.inj hv hub)
        · have hr' : (w.step (.op k vs o)).ref u = some b := by
            rw [hstep]
            simp only [World.write, World.create, if_neg (Ne.symm huo)]
            exact hub
          have hg := given_spec ov p hw' ht' u b hr'
          rw [hc] at hg
          refine ⟨fun x hx => ?_, fun hx i hi => ?_, hleaf⟩
          · obtain ⟨i, hi, hx'⟩ := hg.1 x (by simpa only [given, if_neg huo] using hx)
            exact hE.control i b x hi hx'
          · by_cases hil : i < w.controls.length
            · exact absurd hi (old_ctl b hnew i hil)
            · exact hg.2 (by simpa only [given, if_neg huo] using hx) i (Nat.le_of_not_lt hil) hi)
        hld.next hld.ck
      -- the result
      set s' := put s o ((given ov o p w.controls.length).getD (k.val (vs.map s))) with hs'
      have := ih (w := w.step (.op k vs o)) (s := s') hw' ht' hE ?_
      · rw [hc] at this; exact this
      · rw [hc]
        constructor
        · intro v hv
          have hv' := hv
          rw [hstep] at hv'
          simp only [World.write, World.create] at hv'
          split at hv'
          · cases hv'
          · rename_i hne
            have hs := h1.1 v hv'
            simp only [hs', put, if_neg hne]
            rw [hs]
            simp only [given, if_neg (Ne.symm hne)]
            congr 1
            rw [hstep]
            simp [World.write, World.create, World.setVal, hne]
        · intro v b hv
          have hv' := hv
          rw [hstep] at hv'
          simp only [World.write, World.create] at hv'
          split at hv'
          · rename_i heq
            subst heq
            left
            have hb : b = (w.addDeps vs).1.next := by
              cases hv'; rfl
            have hg := given_spec ov p hw' ht' v b hv
            rw [hc] at hg
            simp only [hs', put, if_pos]
            cases hgv : given ov v p w.controls.length with
            | some x =>
              obtain ⟨i, hi, hx'⟩ := hg.1 x hgv
              exact hE.control i b x hi hx'
            | none =>
              have hfree : Free ov ((w.step (.op k vs v)).run p) b := by
                intro i hi
                by_cases hil : i < w.controls.length
                · exact absurd hi (old_ctl b (hb ▸ (addDeps_later vs w).next) i hil)
                · exact hg.2 hgv i (Nat.le_of_not_lt hil) hi
              have hmem : k.toBlock (w.addDeps vs).2 b ∈ ((w.step (.op k vs v)).run p).blocks := by
                apply hlater.sub
                rw [hstep, hb]
                exact List.mem_append.2 (Or.inr (List.mem_singleton.2 rfl))
              rw [hE.block k _ b hmem hfree, h2]; rfl
          · rename_i hne
            rcases h1.2 v b hv' with h | ⟨ha, hb, hc', hd⟩
            · left; rw [h]; simp [hs', put, hne]
            · right
              refine ⟨?_, hb, hc', ?_⟩
              · rw [hstep]; exact ha
              · rw [hstep]
                simp only [hs', put, if_neg hne, World.write, World.create, World.setVal]
                exact hd
    | modify o x =>
      refine ih (w := w.step (.modify o x)) hw' ht' hE ⟨?_, ?_⟩
      · intro v hv
        simp only [World.step, World.setVal, put] at hv ⊢
        by_cases hvo : v = o
        · subst hvo; simp
        · simp only [if_neg hvo] at hv ⊢
          have := h.1 v hv
          simpa only [given, if_neg (Ne.symm hvo)] using this
      · intro v b hv
        simp only [World.step, World.setVal, put] at hv ⊢
        by_cases hvo : v = o
        · subst hvo; simp at hv
        · simp only [if_neg hvo] at hv ⊢
          exact h.2 v b hv
    | assign o x => exact absurd (ht _ (List.mem_cons_self ..)) id
    | control v =>
      have hstep := step_control w v
      have hc : (w.step (.control v)).controls.length = w.controls.length + 1 := by
        rw [hstep, blockVar_controls]; simp
      have h1 : Agrees ov ((w.step (.control v)).run p) E (w.blockVar v).1
          (fun u => given ov u (.control v :: p) w.controls.length) s := by
        refine blockVar_agrees hw h v fun hr => ?_
        have hbv := blockVar_of_none hr
        have hstep' : w.step (.control v) = (w.blockVar v).1.step (.control v) := by
          rw [hstep, step_control, blockVar_of_some (blockVar_ref w v)]
        have hg := given_spec ov (.control v :: p) (blockVar_inv hw v) ht v _ (blockVar_ref w v)
        rw [run_cons, ← hstep', blockVar_controls] at hg
        have hnew : w.next ≤ (w.blockVar v).2 := by rw [hbv]
        refine ⟨fun x hx => ?_, fun hx i hi => ?_, ?_⟩
        · obtain ⟨i, hi, hx'⟩ := hg.1 x hx
          exact hE.control i _ x hi hx'
        · by_cases hil : i < w.controls.length
          · exact absurd hi (old_ctl _ hnew i hil)
          · exact hg.2 hx i (Nat.le_of_not_lt hil) hi
        · refine leaf_of _ hnew ?_ ?_
          · rw [hstep]; exact (blockVar_inv hw v).fresh v _ (blockVar_ref w v)
          · rw [hstep]
            intro B hB hmem
            have hB : B ∈ (w.blockVar v).1.blocks := hB
            rw [blockVar_blocks] at hB
            obtain ⟨k', ds', o', rfl, ho'⟩ := hw.form B hB
            simp only [Op.toBlock, List.mem_singleton] at hmem
            exact absurd (hmem ▸ ho') (Nat.not_lt.2 hnew)
      have := ih (w := w.step (.control v)) (s := s) hw' ht' hE ?_
      · rw [hc] at this; exact this
      · rw [hc, hstep]
        refine ⟨fun u hu => ?_, fun u b hu => ?_⟩
        · have huv : v ≠ u := by
            intro h'
            subst h'
            have := blockVar_ref w v
            rw [show (w.blockVar v).1.ref v = none from hu] at this
            cases this
          have := h1.1 u hu
          simpa only [given, if_neg huv] using this
        · exact h1.2 u b hu

/-! ## Evaluating the reduced functional -/

theorem chosen_cons_ne {a i : Nat} (sel : List Nat) (y : V) (xs : List V) (h : i ≠ a) :
    chosen (a :: sel) (y :: xs) i = chosen sel xs i := by
  have : (i == a) = false := by simpa using h
  simp [chosen, List.lookup, this]

theorem chosen_cons_self (a : Nat) (sel : List Nat) (y : V) (xs : List V) :
    chosen (a :: sel) (y :: xs) a = some y := by
  simp [chosen]

theorem chosen_some {sel : List Nat} {xs : List V} (hlen : xs.length = sel.length) {i : Nat} {x : V}
    (h : chosen sel xs i = some x) : ∃ (j : Nat) (hj : j < sel.length), sel[j] = i ∧ xs[j]'(hlen ▸ hj) = x := by
  induction sel generalizing xs with
  | nil => simp [chosen] at h
  | cons a sel ih =>
    cases xs with
    | nil => simp at hlen
    | cons y xs =>
      by_cases hia : i = a
      · subst hia
        rw [chosen_cons_self] at h
        exact ⟨0, by simp, rfl, by simpa using h⟩
      · rw [chosen_cons_ne sel y xs hia] at h
        obtain ⟨j, hj, h1, h2⟩ := ih (by simpa using hlen) h
        exact ⟨j + 1, by simpa using hj, by simpa using h1, by simpa using h2⟩

theorem chosen_none {sel : List Nat} {xs : List V} (hlen : xs.length = sel.length) {i : Nat}
    (h : chosen sel xs i = none) : i ∉ sel := by
  induction sel generalizing xs with
  | nil => simp
  | cons a sel ih =>
    cases xs with
    | nil => simp at hlen
    | cons y xs =>
      by_cases hia : i = a
      · subst hia; rw [chosen_cons_self] at h; cases h
      · rw [chosen_cons_ne sel y xs hia] at h
        simp only [List.mem_cons, hia, false_or]
        exact ih (by simpa using hlen) h

theorem chosen_of_not_mem {sel : List Nat} {xs : List V} {i : Nat} (h : i ∉ sel) :
    chosen sel xs i = none := by
  induction sel generalizing xs with
  | nil => rfl
  | cons a sel ih =>
    cases xs with
    | nil => rfl
    | cons y xs =>
      simp only [List.mem_cons, not_or] at h
      rw [chosen_cons_ne sel y xs h.1]
      exact ih h.2

theorem mem_pick {w : World V T A} {sel : List Nat} (hs : ∀ i ∈ sel, i < w.controls.length) {b : BV} :
    b ∈ w.pick sel ↔ ∃ i ∈ sel, w.controls[i]? = some b := by
  unfold World.pick
  simp only [List.mem_map]
  constructor
  · rintro ⟨i, hi, rfl⟩
    exact ⟨i, hi, by rw [List.getD_eq_getElem?_getD, List.getElem?_eq_getElem (hs i hi)]; rfl⟩
  · rintro ⟨i, hi, h⟩
    exact ⟨i, hi, by rw [List.getD_eq_getElem?_getD, h]; rfl⟩

theorem blockVar_owner (w : World V T A) (v : Nat) (b : BV) (hb : b < w.next) :
    (w.blockVar v).1.owner b = w.owner b := by
  cases h : w.ref v with
  | some c => rw [blockVar_of_some h]
  | none => rw [blockVar_of_none h]; simp [World.create, Nat.ne_of_lt hb]

theorem pick_blockVar (w : World V T A) (v : Nat) (sel : List Nat) :
    (w.blockVar v).1.pick sel = w.pick sel := by
  unfold World.pick; rw [blockVar_controls]

theorem rfEval_evaluates {w : World V T A} (hw : Inv w) (J : Nat) (sel : List Nat) (xs : List V)
    (hs : ∀ i ∈ sel, i < w.controls.length) (hnd : (w.pick sel).Nodup) (hlen : xs.length = sel.length) :
    Evaluates (chosen sel xs) w
      (saved (rfEval w.blocks (w.pick sel) xs (w.blockVar J).1.heap)) := by
  have hfl : ∀ v, ((w.blockVar J).1.heap v).isControl = false := fun _ => rfl
  have hlen' : xs.length = (w.pick sel).length := by rw [hlen]; simp [World.pick]
  have hfree : ∀ b, Free (chosen sel xs) w b → b ∉ w.pick sel := by
    intro b hb hmem
    obtain ⟨i, hi, hc⟩ := (mem_pick hs).1 hmem
    exact chosen_none hlen (hb i hc) hi
  refine ⟨?_, ?_, ?_⟩
  · intro i b x hc hx
    obtain ⟨j, hj, hj1, hj2⟩ := chosen_some hlen hx
    have hj' : j < (w.pick sel).length := by simpa [World.pick] using hj
    have hb : (w.pick sel)[j] = b := by
      simp only [World.pick, List.getElem_map]
      rw [hj1, List.getD_eq_getElem?_getD, hc]; rfl
    have := rfEval_control w.blocks (w.pick sel) xs (w.blockVar J).1.heap hnd hlen' (fun c _ => hfl c) j hj'
    rw [hb] at this
    rw [saved, this]
    exact hj2
  · intro k ds out hB hf
    have := rfEval_block hw.wf (w.pick sel) xs (w.blockVar J).1.heap hfl (k.toBlock ds out) hB
      (fun o ho => by
        simp only [Op.toBlock, List.mem_singleton] at ho
        rw [ho]; exact hfree out hf) 0 (by simp [Op.toBlock])
    have h2 : (rfEval w.blocks (w.pick sel) xs (w.blockVar J).1.heap out).ckpt
        = some (k.val (ds.map (saved (rfEval w.blocks (w.pick sel) xs (w.blockVar J).1.heap)))) := this
    rw [saved, h2]
  · intro b hb hl hf
    rw [saved, rfEval_leaf _ _ _ _ b (hfree b hf) hl]
    show ((w.blockVar J).1.ckpt b).getD ((w.blockVar J).1.vals ((w.blockVar J).1.owner b)) = _
    rw [blockVar_ckpt, blockVar_vals, blockVar_owner w J b hb]

/-- **C89.**  A program that changes objects in place, all changes being annotated operations or announced by
`stop_annotating(modifies=...)`: the reduced functional of an object `J` with any choice of different
controls made in the program, called with new values, returns the value `J` has at the end of the program
when it is run again with those versions of the objects at the new values from which the controls
were made. -/
theorem in_place_replay (p : List (Stmt V T A)) (hp : ∀ st ∈ p, st.tracked) (vals : Nat → V) (J : Nat)
    (sel : List Nat) (hs : ∀ i ∈ sel, i < ((World.start vals).run p).controls.length)
    (hnd : (((World.start vals).run p).pick sel).Nodup) (xs : List V) (hlen : xs.length = sel.length) :
    ((World.start vals).run p).rfCall J sel xs = rerun (chosen sel xs) p vals J := by
  have hw := run_inv p (start_inv (T := T) (A := A) vals)
  have hE := rfEval_evaluates hw J sel xs hs hnd hlen
  have key := run_agrees p (start_inv (T := T) (A := A) vals) hp hE
    (s := fun v => (given (chosen sel xs) v p 0).getD (vals v))
    ⟨fun v _ => rfl, fun v b hb => by cases hb⟩
  generalize (World.start vals).run p = w at *
  have hcall : w.rfCall J sel xs
      = saved (rfEval w.blocks (w.pick sel) xs (w.blockVar J).1.heap) (w.blockVar J).2 := by
    have : w.rfCall J sel xs = saved (rfEval (w.blockVar J).1.blocks ((w.blockVar J).1.pick sel) xs
        (w.blockVar J).1.heap) (w.blockVar J).2 := rfl
    rw [this, blockVar_blocks, pick_blockVar]
  rw [hcall]
  show _ = rerunFrom (chosen sel xs) p 0 _ J
  cases hr : w.ref J with
  | some b =>
    rw [blockVar_of_some hr] at hE key ⊢
    rcases key.2 J b hr with h | ⟨hn, hl, hf, h⟩
    · exact h
    · refine (hE.leaf b (hw.fresh J b hr) hl hf).trans ?_
      rw [hn, hw.own J b hr]; exact h.symm
  | none =>
    have h := key.1 J hr
    have hbv := blockVar_of_none hr
    rw [saved, rfEval_leaf]
    · show ((w.blockVar J).1.ckpt (w.blockVar J).2).getD
        ((w.blockVar J).1.vals ((w.blockVar J).1.owner (w.blockVar J).2)) = _
      rw [(blockVar_inv hw J).own J _ (blockVar_ref w J), blockVar_ckpt, blockVar_vals, hbv, hw.ck _ le_rfl]
      exact h.symm
    · intro hmem
      obtain ⟨i, _, hc⟩ := (mem_pick hs).1 hmem
      have := hw.ctl _ (List.mem_of_getElem? hc)
      rw [hbv] at this
      exact absurd this (Nat.lt_irrefl _)
    · intro B hB hmem
      obtain ⟨k', ds', o', rfl, ho'⟩ := hw.form B hB
      simp only [Op.toBlock, List.mem_singleton] at hmem
      rw [hbv] at hmem
      exact absurd (hmem ▸ ho') (Nat.lt_irrefl _)

/-- The tape recorded by any such program is well-formed: every theorem about the sweeps applies to it. -/
theorem in_place_wellFormed (p : List (Stmt V T A)) (vals : Nat → V) :
    WF ((World.start vals).run p).blocks := (run_inv p (start_inv vals)).wf

theorem given_nothing (v : Nat) (p : List (Stmt V T A)) : ∀ i, given (fun _ => none) v p i = none := by
  induction p with
  | nil => intro i; rfl
  | cons st p ih => intro i; cases st <;> simp [given, ih]

theorem run_vals (p : List (Stmt V T A)) : ∀ (w : World V T A) (i : Nat),
    (w.run p).vals = rerunFrom (fun _ => none) p i w.vals := by
  induction p with
  | nil => intro w i; rfl
  | cons st p ih =>
    intro w i
    rw [run_cons, ih _ (match st with | .control _ => i + 1 | _ => i)]
    cases st with
    | op k vs o =>
      simp only [rerunFrom, given_nothing, Option.getD_none]
      rw [step_op]
      simp only [World.write, World.create, World.setVal, addDeps_vals]
      rfl
    | modify o x => simp only [rerunFrom, given_nothing, Option.getD_none]; rfl
    | assign o x => simp only [rerunFrom, given_nothing, Option.getD_none]; rfl
    | control v =>
      simp only [rerunFrom]
      rw [step_control]
      exact congrArg _ (blockVar_vals w v)

/-- **C89.**  Recording leaves the values alone: after the program the objects hold what the program
computes without a tape. -/
theorem in_place_recording (p : List (Stmt V T A)) (vals : Nat → V) :
    ((World.start (T := T) (A := A) vals).run p).vals = rerun (fun _ => none) p vals := by
  rw [run_vals p _ 0, rerun]
  congr 1
  funext v
  rw [given_nothing]; rfl

/-- **C89, derivatives.**  `rf.derivative()` after `rf(x₀)`, for a program that changes objects in place whose
blocks are implemented correctly at the point: the derivative of the program run again. -/
theorem in_place_gradient [NormedAddCommGroup V] [NormedSpace ℝ V] [AddCommMonoid A]
    (p : List (Stmt V T A)) (hp : ∀ st ∈ p, st.tracked) (vals : Nat → V) (J : Nat) (sel : List Nat)
    (hs : ∀ i ∈ sel, i < ((World.start vals).run p).controls.length)
    (w : World V T A) (b : BV) (hw : ((World.start vals).run p).blockVar J = (w, b))
    (hnd : (w.pick sel).Nodup) (hind : IndependentControls w.blocks (w.pick sel))
    (x₀ : Fin (w.pick sel).length → V) (ι : A →+ (V →L[ℝ] ℝ)) (seed : A)
    (hcorrect : ∀ B ∈ w.blocks, (∃ d ∈ B.deps, Reach w.blocks (· ∈ w.pick sel) d) →
      CorrectAdjoint ι B (fun j => saved (rfEval w.blocks (w.pick sel) (List.ofFn x₀) w.heap) B.deps[j])
        (fun j => Reach w.blocks (· ∈ w.pick sel) B.deps[j])) :
    ∃ grad : Fin (w.pick sel).length → A,
      (computeGradient w.blocks b (w.pick sel) seed
        (rfEval w.blocks (w.pick sel) (List.ofFn x₀) w.heap)).1 = List.ofFn grad ∧
      HasFDerivAt (fun x : Fin (w.pick sel).length → V =>
          ι seed (rerun (chosen sel (List.ofFn x)) p vals J))
        (∑ i, (ι (grad i)).comp (ContinuousLinearMap.proj i)) x₀ := by
  have hw1 : w = (((World.start vals).run p).blockVar J).1 := by rw [hw]
  have hinv := run_inv p (start_inv (T := T) (A := A) vals)
  have hwf : WF w.blocks := by rw [hw1]; exact (blockVar_inv hinv J).wf
  obtain ⟨grad, h1, h2⟩ := gradient_exact hwf b (w.pick sel) hnd w.heap (fun _ => rfl) hind x₀ ι seed hcorrect
    (fun c _ => Or.inr (Or.inr rfl))
  refine ⟨grad, h1, ?_⟩
  have hpick : w.pick sel = ((World.start vals).run p).pick sel := by rw [hw1, pick_blockVar]
  have heq : (fun x : Fin (w.pick sel).length → V => ι seed (rerun (chosen sel (List.ofFn x)) p vals J))
      = fun x => ι seed (saved (rfEval w.blocks (w.pick sel) (List.ofFn x) w.heap) b) := by
    funext x
    rw [← in_place_replay p hp vals J sel hs (hpick ▸ hnd) (List.ofFn x) (by simp [World.pick])]
    simp only [World.rfCall, hw]
  rw [heq]
  exact h2

/-! ## The value a control represents -/

/-- Everything known of block variable `b` says that it stands for the value `x`. -/
def Stands (w : World V T A) (b : BV) (x : V) : Prop :=
  b < w.next ∧ (∀ y, w.ckpt b = some y → y = x) ∧ ∀ u, w.ref u = some b → w.vals u = x

theorem blockVar_stands {w : World V T A} {b : BV} {x : V} (h : Stands w b x) (v : Nat) :
    Stands (w.blockVar v).1 b x := by
  refine ⟨h.1.trans_le (blockVar_later w v).next, ?_, ?_⟩
  · rw [blockVar_ckpt]; exact h.2.1
  · intro u hu
    rw [blockVar_vals]
    exact h.2.2 u ((blockVar_later w v).gone u b h.1 hu)

theorem save_stands {w : World V T A} (hw : Inv w) {b : BV} {x : V} (h : Stands w b x) (v : Nat) (c : BV)
    (hv : w.ref v = some c) : Stands (w.save c) b x := by
  refine ⟨h.1, ?_, h.2.2⟩
  intro y hy
  simp only [World.save] at hy
  split at hy
  · rename_i hbc
    subst hbc
    cases hck : w.ckpt b with
    | some z =>
      rw [hck] at hy
      cases hy
      exact h.2.1 _ hck
    | none =>
      rw [hck] at hy
      simp only [Option.getD_none, Option.some.injEq] at hy
      rw [← hy, hw.own v b hv]
      exact h.2.2 v hv
  · exact h.2.1 y hy

theorem addDeps_stands {b : BV} {x : V} (vs : List Nat) : ∀ {w : World V T A}, Inv w → Stands w b x →
    Stands (w.addDeps vs).1 b x := by
  induction vs with
  | nil => exact fun _ h => h
  | cons v vs ih =>
    intro w hw h
    rw [addDeps_cons]
    exact ih (addDep_inv hw v)
      (save_stands (blockVar_inv hw v) (blockVar_stands h v) v _ (blockVar_ref w v))

theorem step_stands {w : World V T A} (hw : Inv w) {b : BV} {x : V} (h : Stands w b x) (st : Stmt V T A)
    (ht : st.tracked) : Stands (w.step st) b x := by
  cases st with
  | op k vs o =>
    rw [step_op]
    have h' := addDeps_stands vs hw h
    refine ⟨h'.1.trans (Nat.lt_succ_self _), h'.2.1, ?_⟩
    intro u hu
    simp only [World.write, World.create, World.setVal] at hu ⊢
    split at hu
    · cases hu; exact absurd h'.1 (Nat.lt_irrefl _)
    · rename_i hne
      rw [if_neg hne]
      exact h'.2.2 u hu
  | modify o y =>
    refine ⟨h.1, h.2.1, ?_⟩
    intro u hu
    simp only [World.step, World.setVal] at hu ⊢
    split at hu
    · cases hu
    · rename_i hne
      rw [if_neg hne]
      exact h.2.2 u hu
  | assign o y => exact absurd ht id
  | control v =>
    rw [step_control]
    exact blockVar_stands h v

theorem run_stands {b : BV} {x : V} (p : List (Stmt V T A)) : ∀ {w : World V T A}, Inv w → Stands w b x →
    (∀ st ∈ p, st.tracked) → Stands (w.run p) b x := by
  induction p with
  | nil => exact fun _ h _ => h
  | cons st p ih =>
    intro w hw h ht
    exact ih (step_inv hw st) (step_stands hw h st (ht _ (List.mem_cons_self ..)))
      fun s hs => ht s (List.mem_cons_of_mem _ hs)

/-- Saved values of current versions are the values of the objects. -/
def Fresh (w : World V T A) : Prop := ∀ v b y, w.ref v = some b → w.ckpt b = some y → y = w.vals v

theorem blockVar_fresh {w : World V T A} (hw : Inv w) (h : Fresh w) (v : Nat) : Fresh (w.blockVar v).1 := by
  intro u b y hu hy
  rw [blockVar_ckpt] at hy
  rw [blockVar_vals]
  by_cases hb : b < w.next
  · exact h u b y ((blockVar_later w v).gone u b hb hu) hy
  · rw [hw.ck b (Nat.le_of_not_lt hb)] at hy; cases hy

theorem save_fresh {w : World V T A} (hw : Inv w) (h : Fresh w) (v : Nat) (c : BV) (hv : w.ref v = some c) :
    Fresh (w.save c) := by
  intro u b y hu hy
  have hu : w.ref u = some b := hu
  exact ((save_stands hw ⟨hw.fresh u b hu, fun y hy => h u b y hu hy,
    fun u' hu' => by rw [hw.inj hu' hu]⟩ v c hv : Stands (w.save c) b (w.vals u))).2.1 y hy

theorem addDeps_fresh (vs : List Nat) : ∀ {w : World V T A}, Inv w → Fresh w → Fresh (w.addDeps vs).1 := by
  induction vs with
  | nil => exact fun _ h => h
  | cons v vs ih =>
    intro w hw h
    rw [addDeps_cons]
    exact ih (addDep_inv hw v)
      (save_fresh (blockVar_inv hw v) (blockVar_fresh hw h v) v _ (blockVar_ref w v))

theorem run_fresh (p : List (Stmt V T A)) : ∀ {w : World V T A}, Inv w → Fresh w →
    (∀ st ∈ p, st.tracked) → Fresh (w.run p) := by
  induction p with
  | nil => exact fun _ h _ => h
  | cons st p ih =>
    intro w hw h ht
    refine ih (step_inv hw st) ?_ fun s hs => ht s (List.mem_cons_of_mem _ hs)
    cases st with
    | op k vs o =>
      rw [step_op]
      have hw' := addDeps_inv vs hw
      have h' := addDeps_fresh vs hw h
      intro u b y hu hy
      simp only [World.write, World.create, World.setVal] at hu hy ⊢
      split at hu
      · cases hu; rw [hw'.ck _ le_rfl] at hy; cases hy
      · rename_i hne
        rw [if_neg hne]
        exact h' u b y hu hy
    | modify o x =>
      intro u b y hu hy
      simp only [World.step, World.setVal] at hu hy ⊢
      split at hu
      · cases hu
      · rename_i hne
        rw [if_neg hne]
        exact h u b y hu hy
    | assign o x => exact absurd (ht _ (List.mem_cons_self ..)) id
    | control v => rw [step_control]; exact blockVar_fresh hw h v

theorem run_append (w : World V T A) (p q : List (Stmt V T A)) : w.run (p ++ q) = (w.run p).run q := by
  simp [World.run, List.foldl_append]

/-- The control made after `p` stands for the value its object has then. -/
theorem control_stands (p q : List (Stmt V T A)) (v : Nat) (hp : ∀ st ∈ p, st.tracked)
    (hq : ∀ st ∈ q, st.tracked) (vals : Nat → V) :
    let w₀ := (World.start vals).run p
    let w := (World.start vals).run (p ++ .control v :: q)
    w.controls.getD w₀.controls.length 0 = (w₀.blockVar v).2 ∧ Stands w (w₀.blockVar v).2 (w₀.vals v) := by
  intro w₀ w
  have hw₀ : Inv w₀ := run_inv p (start_inv vals)
  have hw : w = (w₀.step (.control v)).run q := by
    show (World.start vals).run (p ++ .control v :: q) = _
    rw [run_append]; rfl
  constructor
  · obtain ⟨l, hl⟩ := (run_later q (w₀.step (.control v))).ctl
    rw [hw, hl, List.getD_eq_getElem?_getD, step_control, blockVar_controls, List.append_assoc,
      List.getElem?_append_right le_rfl]
    simp
  · rw [hw]
    refine run_stands q (step_inv hw₀ _) ?_ hq
    have hf : Fresh w₀ := run_fresh p (start_inv vals) (fun _ _ _ h => by cases h) hp
    have hf' := blockVar_fresh hw₀ hf v
    have hr := blockVar_ref w₀ v
    have hi := blockVar_inv hw₀ v
    rw [step_control]
    refine ⟨hi.fresh v _ hr, ?_, ?_⟩
    · intro y hy
      have := hf' v _ y hr hy
      rwa [blockVar_vals] at this
    · intro u hu
      have hu : (w₀.blockVar v).1.ref u = some (w₀.blockVar v).2 := hu
      rw [hi.inj hu hr]
      exact congrFun (blockVar_vals w₀ v) v

/-- **C89, what a control represents.**  `c.data()` of a `Control(v)` is, if there is a value, the
value `v` had when the control was made, whatever the program does to `v` afterwards.
Missing: that there is a value; see `control_data_missing`. -/
theorem control_data_partial (p q : List (Stmt V T A)) (v : Nat) (hp : ∀ st ∈ p, st.tracked)
    (hq : ∀ st ∈ q, st.tracked) (vals : Nat → V) (y : V)
    (h : ((World.start vals).run (p ++ .control v :: q)).controlData
      ((World.start vals).run p).controls.length = some y) :
    y = rerun (fun _ => none) p vals v := by
  obtain ⟨h1, h2⟩ := control_stands p q v hp hq vals
  rw [World.controlData, h1] at h
  rw [← in_place_recording]
  exact h2.2.1 y h

/-- The statement gives `v` a new value. -/
def Stmt.writes (v : Nat) : Stmt V T A → Prop
  | .op _ _ o => o = v
  | .modify o _ => o = v
  | .assign o _ => o = v
  | .control _ => False

theorem run_keeps_ref (v : Nat) (b : BV) (q : List (Stmt V T A)) : ∀ (w : World V T A), w.ref v = some b →
    (∀ st ∈ q, ¬ st.writes v) → (w.run q).ref v = some b := by
  induction q with
  | nil => exact fun _ h _ => h
  | cons st q ih =>
    intro w h hq
    refine ih _ ?_ fun s hs => hq s (List.mem_cons_of_mem _ hs)
    have hn := hq st (List.mem_cons_self ..)
    cases st with
    | op k vs o =>
      rw [step_op]
      simp only [World.write, World.create, if_neg (show ¬ v = o from fun h => hn h.symm)]
      exact addDeps_ref_some vs w v b h
    | modify o x =>
      simp only [World.step, if_neg (show ¬ v = o from fun h => hn h.symm)]
      exact h
    | assign o x => exact h
    | control u => rw [step_control]; exact blockVar_ref_some w u v b h

/-- **C89, what a control represents.**  `c.tape_value()` of a `Control(v)` is the value `v` had when the
control was made, if that version of `v` was read by a recorded operation or `v` has not been written since.
Missing: other controls; see `control_value_overwritten`. -/
theorem control_value_partial (p q : List (Stmt V T A)) (v : Nat) (hp : ∀ st ∈ p, st.tracked)
    (hq : ∀ st ∈ q, st.tracked) (vals : Nat → V)
    (h : (((World.start vals).run (p ++ .control v :: q)).controlData
        ((World.start vals).run p).controls.length).isSome ∨ ∀ st ∈ q, ¬ st.writes v) :
    ((World.start vals).run (p ++ .control v :: q)).controlValue
      ((World.start vals).run p).controls.length = rerun (fun _ => none) p vals v := by
  obtain ⟨h1, h2⟩ := control_stands p q v hp hq vals
  rw [World.controlData] at h
  rw [World.controlValue, ← in_place_recording, h1]
  rw [h1] at h
  have hw := run_inv (p ++ Stmt.control v :: q) (start_inv (T := T) (A := A) vals)
  show (match ((World.start vals).run (p ++ Stmt.control v :: q)).ckpt _ with
    | some c => c
    | none => ((World.start vals).run (p ++ Stmt.control v :: q)).vals _) = _
  cases hck : ((World.start vals).run (p ++ Stmt.control v :: q)).ckpt
      (((World.start vals).run p).blockVar v).2 with
  | some y => exact h2.2.1 y hck
  | none =>
    rw [hck] at h
    rcases h with h | h
    · cases h
    · have hr : ((World.start vals).run (p ++ Stmt.control v :: q)).ref v
          = some (((World.start vals).run p).blockVar v).2 := by
        rw [run_append, run_cons]
        refine run_keeps_ref v _ q _ ?_ h
        rw [step_control]
        exact blockVar_ref _ v
      show ((World.start vals).run (p ++ Stmt.control v :: q)).vals
        (((World.start vals).run (p ++ Stmt.control v :: q)).owner _) = _
      rw [hw.own v _ hr]
      exact h2.2.2 v hr

/-! ## Examples and counterexamples -/

/-- An operation given by its function; derivatives are not used in the examples. -/
def plain (f : List Int → Int) : Op Int Int Int where
  val := f
  adjC := fun _ _ _ => none
  tlmC := fun _ _ _ => none
  hessC := fun _ _ _ _ _ => none

/-- The program of the documentation of `Control` and an operation on the result: `u = MutableFloat(1.0)`,
`c1 = Control(u)`, `u.add_in_place(2.0)`, `c2 = Control(u)`, `J = u * u`. -/
def docProgram : List (Stmt Int Int Int) :=
  [.control 0, .op (plain fun l => l.headD 0 + 2) [0] 0, .control 0,
    .op (plain fun l => l.headD 0 * l.headD 0) [0] 1]

/-- As documented: with `c1` the reduced functional includes `add_in_place`, with `c2` it does not. -/
example : (((World.start fun _ => 1).run docProgram).rfCall 1 [0] [5] = 49 ∧
    ((World.start fun _ => 1).run docProgram).rfCall 1 [1] [5] = 25 ∧
    rerun (chosen [0] [5]) docProgram (fun _ => 1) 1 = 49 ∧
    rerun (chosen [1] [5]) docProgram (fun _ => 1) 1 = 25) := by decide +kernel

/-- The hypotheses of `in_place_replay` hold there. -/
example : (∀ st ∈ docProgram, st.tracked) ∧
    (∀ i ∈ [1], i < ((World.start fun _ => 1).run docProgram).controls.length) ∧
    (((World.start fun _ => 1).run docProgram).pick [1]).Nodup := by
  refine ⟨?_, by decide +kernel, by decide +kernel⟩
  intro st h
  simp only [docProgram, List.mem_cons, List.not_mem_nil, or_false] at h
  rcases h with rfl | rfl | rfl | rfl <;> exact trivial

/-- A time-varying forcing changed under `stop_annotating(modifies=f)`: both values are replayed. -/
example : ((World.start (fun _ => 1) : World Int Int Int).run
    [.control 0, .op (plain fun l => l.sum) [0, 2] 1, .modify 2 10,
      .op (plain fun l => l.sum) [1, 2] 1]).rfCall 1 [0] [5] = 16 := by decide +kernel

/-- Without `modifies` the change goes unnoticed: `f` holds `1`, `J = u + f`, then `f` is set to `10`
and `J = J + f`.  `rf(5)` is `7`, running the program again gives `16`. -/
theorem unannounced_change_missed :
    ((World.start (fun _ => 1) : World Int Int Int).run
      [.control 0, .op (plain fun l => l.sum) [0, 2] 1, .assign 2 10,
        .op (plain fun l => l.sum) [1, 2] 1]).rfCall 1 [0] [5] = 7 ∧
    rerun (chosen [0] [5]) ([.control 0, .op (plain fun l => l.sum) [0, 2] 1, .assign 2 10,
        .op (plain fun l => l.sum) [1, 2] 1] : List (Stmt Int Int Int)) (fun _ => 1) 1 = 16 := by decide +kernel

/-- The documentation of `Control` ends in `c2.data()`, shown as `3.0`.  Neither of the controls has data
unless an operation has read the version it refers to: after `c1 = Control(u)`, `u.add_in_place(2.0)`,
`c2 = Control(u)` it is `c1.data() = 1`, `c2.data() = None`. -/
theorem control_data_missing :
    ((World.start fun _ => 1).run (docProgram.take 3)).controlData 0 = some 1 ∧
    ((World.start fun _ => 1).run (docProgram.take 3)).controlData 1 = none ∧
    ((World.start fun _ => 1).run (docProgram.take 3)).controlValue 1 = 3 := by decide +kernel

/-- "For mutable OverloadedType instances the Control only represents the value at the time of
initialization": `u` holds `1`, `c = Control(u)`, then `u.assign(v)` with `v` holding `7`, which does not read
`u`.  `c.data()` is `None` and `c.tape_value()` is `7`. -/
theorem control_value_overwritten :
    ((World.start (fun v => if v = 0 then 1 else 7) : World Int Int Int).run
      [.control 0, .op (plain fun l => l.headD 0) [1] 0]).controlData 0 = none ∧
    ((World.start (fun v => if v = 0 then 1 else 7) : World Int Int Int).run
      [.control 0, .op (plain fun l => l.headD 0) [1] 0]).controlValue 0 = 7 := by decide +kernel

/-- `control_data_partial` and `control_value_partial`, a case that meets the hypotheses. -/
example : ((World.start fun _ => 1).run (([] : List (Stmt Int Int Int)) ++ docProgram)).controlData
    ((World.start (T := Int) (A := Int) fun _ => (1 : Int)).run []).controls.length = some 1 := by
  decide +kernel

/-- A real operation with its derivative, for `in_place_gradient`: cubing (example data of C06). -/
noncomputable def cubeOp : Op ℝ ℝ ℝ where
  val := fun l => ((cubeBlock 0 1).recomputeC l 0).getD 0
  adjC := (cubeBlock 0 1).adjC
  tlmC := (cubeBlock 0 1).tlmC
  hessC := (cubeBlock 0 1).hessC

theorem cubeOp_adjoint (d o : BV) (x : Fin 1 → ℝ) (vary : Fin 1 → Prop) :
    CorrectAdjoint (cubeAdj : ℝ →+ (ℝ →L[ℝ] ℝ)) (cubeOp.toBlock [d] o) x vary :=
  ⟨fun _ _ => rfl, (cube_adjoint d o x vary).deriv⟩

/-- `c = Control(u)`, `u.cube_in_place()`, `u.cube_in_place()`; functional `u`. -/
noncomputable def cubeProgram : List (Stmt ℝ ℝ ℝ) := [.control 0, .op cubeOp [0] 0, .op cubeOp [0] 0]

/-- `in_place_gradient` on a program that cubes its control in place, twice: all hypotheses hold. -/
example : ∃ grad : Fin 1 → ℝ, HasFDerivAt (fun x : Fin 1 → ℝ =>
      cubeAdj 1 (rerun (chosen [0] (List.ofFn x)) cubeProgram (fun _ => 3) 0))
    (∑ i, (cubeAdj (grad i)).comp (ContinuousLinearMap.proj i)) (fun _ => 3) := by
  have hblocks : ((World.start fun _ => (3 : ℝ)).run cubeProgram).blocks
      = [cubeOp.toBlock [0] 1, cubeOp.toBlock [1] 2] := rfl
  have hpick : ((World.start fun _ => (3 : ℝ)).run cubeProgram).pick [0] = [0] := rfl
  obtain ⟨grad, _, h⟩ := in_place_gradient cubeProgram (by
      intro st h
      simp only [cubeProgram, List.mem_cons, List.not_mem_nil, or_false] at h
      rcases h with rfl | rfl | rfl <;> exact trivial) (fun _ => 3) 0 [0]
    (by intro i hi; simp at hi; subst hi; exact Nat.one_pos) _ _ rfl (List.nodup_singleton _)
    (by
      intro c hc B hB hcB
      rw [hblocks] at hB
      rw [hpick] at hc
      simp only [List.mem_cons, List.not_mem_nil, or_false] at hB hc
      subst hc
      rcases hB with rfl | rfl <;> simp [Op.toBlock] at hcB) (fun _ => 3) (cubeAdj : ℝ →+ (ℝ →L[ℝ] ℝ)) 1 (by
      intro B hB _
      rw [hblocks] at hB
      simp only [List.mem_cons, List.not_mem_nil, or_false] at hB
      rcases hB with rfl | rfl <;> exact cubeOp_adjoint _ _ _ _)
  exact ⟨grad, h⟩

end InPlace
end Pyadjoint
