import Verif.Model.PlainNumbers
import Verif.Props.ReducedApi
import Verif.Props.Gradient

/-!
# Plain numbers as control values (C42)
-/

namespace Pyadjoint

/-- The operation of the block is defined in floating point arithmetic at the values in the heap. -/
def FBlock.InDomain (h : FHeap) : FBlock → Prop
  | .un .log a _ => 0 < saved h a
  | .bin .div _ b _ => saved h b ≠ 0
  | .bin .pow a b _ => ¬ (saved h a = 0 ∧ saved h b < 0) ∧ ¬ (saved h a < 0 ∧ ¬ ∃ n : ℤ, saved h b = n)
  | _ => True

/-- Variables that may hold an `int`: never the first operand of an operator, never an operand of `min` or `max`. -/
def IntSafe (t : FTape) (S : BV → Prop) : Prop :=
  ∀ b ∈ t, match b with
    | .un .neg a _ => ¬ S a
    | .un _ _ _ => True
    | .bin .min a b _ | .bin .max a b _ => ¬ S a ∧ ¬ S b
    | .bin _ a _ _ => ¬ S a

/-- What holds of the stored values between calls: recorded objects are `AdjFloat`s, only variables in `S` hold an
`int`, and the output of an operator holds an `AdjFloat`. -/
structure KindsOk (t : FTape) (S : BV → Prop) (h : PHeap) : Prop where
  output : ∀ v, (h v).output.kind = .adj
  int : ∀ v c, (h v).ckpt = some c → c.kind = .int → S v
  operator : ∀ b ∈ t, b.isOperator = true → ∀ c, (h b.out).ckpt = some c → c.kind = .adj

/-- The arguments of a call fit: an `int` only for a control in `S`, and for the output of an operator an `AdjFloat`. -/
def ArgsOk (t : FTape) (S : BV → Prop) (cs : List BV) (xs : List PyNum) : Prop :=
  ∀ p ∈ cs.zip xs, (p.2.kind = .int → S p.1) ∧
    (p.2.kind ≠ .adj → ∀ b ∈ t, b.isOperator = true → b.out ≠ p.1)

theorem saved_eraseKinds (h : PHeap) (v : BV) : saved (eraseKinds h) v = (saved h v).val := by
  unfold saved eraseKinds
  cases (h v).ckpt <;> rfl

theorem KindsOk.saved_int {t : FTape} {S : BV → Prop} {h : PHeap} (ok : KindsOk t S h) {v : BV}
    (hv : (saved h v).kind = .int) : S v := by
  unfold saved at hv
  cases hc : (h v).ckpt with
  | none => rw [hc] at hv; rw [ok.output v] at hv; cases hv
  | some c => rw [hc] at hv; exact ok.int v c hc hv

theorem KindsOk.saved_operator {t : FTape} {S : BV → Prop} {h : PHeap} (ok : KindsOk t S h) {b : FBlock}
    (hb : b ∈ t) (ho : b.isOperator = true) : (saved h b.out).kind = .adj := by
  unfold saved
  cases hc : (h b.out).ckpt with
  | none => exact ok.output _
  | some c => exact ok.operator b hb ho c hc

theorem eraseKinds_setCkpt (h : PHeap) (v : BV) (c : PyNum) :
    eraseKinds (setCkpt h v (some c)) = setCkpt (eraseKinds h) v (some c.val) := by
  unfold setCkpt
  have : (eraseKinds h v).isControl = (h v).isControl := rfl
  rw [this]
  split
  · rfl
  · funext w
    by_cases hw : w = v
    · subst hw; simp [eraseKinds]
    · simp [eraseKinds, Function.update_of_ne hw]

theorem eraseKinds_updateControls (cs : List BV) (xs : List PyNum) (h : PHeap) :
    eraseKinds (updateControls cs xs h) = updateControls cs (xs.map PyNum.val) (eraseKinds h) := by
  unfold updateControls
  induction cs generalizing xs h with
  | nil => rfl
  | cons c cs ih =>
    cases xs with
    | nil => rfl
    | cons x xs => simp only [List.zip_cons_cons, List.foldl_cons, List.map_cons]; rw [ih, eraseKinds_setCkpt]

theorem eraseKinds_markControls (cs : List BV) (m : Bool) (h : PHeap) :
    eraseKinds (markControls cs m h) = markControls cs m (eraseKinds h) := by
  funext v
  rw [markControls_apply]
  unfold eraseKinds
  simp only [markControls_apply]
  split <;> rfl

theorem fblock_recompute (b : FBlock) (h : FHeap) :
    b.toBlock.recompute false h = if (h b.out).isControl then h else
      setCkpt? h b.out (b.toBlock.recomputeC (b.toBlock.deps.map (saved h)) 0) := by
  unfold Block.recompute relevant
  cases b <;> simp [FBlock.toBlock, FBlock.out]

theorem recomputeNum_val {b : FBlock} {h : PHeap} {r : PyNum} (hr : b.recomputeNum h = .ok r) :
    b.toBlock.recomputeC (b.toBlock.deps.map (saved (eraseKinds h))) 0 = some r.val := by
  have conv : ∀ o (x : Except NumErr ℝ), convertOutput h o x = .ok r → x = .ok r.val := by
    intro o x hx
    unfold convertOutput at hx
    cases x with
    | error e => cases hx
    | ok v =>
      simp only at hx
      split at hx
      · cases hx; rfl
      · cases hx
  have fm : ∀ op x y v, floatMethod op x y = .ok v → v = op.val x.val y.val := by
    intro op x y v hv
    unfold floatMethod at hv
    split at hv
    · cases hv
    · split at hv
      · split at hv <;> cases hv; rfl
      · split at hv
        · cases hv
        · split at hv <;> cases hv; rfl
      · cases hv; rfl
  cases b with
  | un op a o =>
    cases op with
    | neg =>
      have := conv _ _ hr
      split at this
      · cases this
      · simp only [Except.ok.injEq] at this
        simp [FBlock.toBlock, UOp.val, saved_eraseKinds, this]
    | exp => cases hr; simp [FBlock.toBlock, UOp.val, saved_eraseKinds]
    | log =>
      unfold FBlock.recomputeNum at hr
      simp only at hr
      split at hr
      · cases hr
      · cases hr; simp [FBlock.toBlock, UOp.val, saved_eraseKinds]
  | bin op a b o =>
    have key : ∀ op, floatMethod op (saved h a) (saved h b) = .ok r.val →
        (FBlock.bin op a b o).toBlock.recomputeC
          ((FBlock.bin op a b o).toBlock.deps.map (saved (eraseKinds h))) 0 = some r.val := by
      intro op hf
      have := fm _ _ _ _ hf
      simp [FBlock.toBlock, saved_eraseKinds, this]
    cases op with
    | min =>
      cases hr
      simp only [FBlock.toBlock, BOp.val, saved_eraseKinds, List.map_cons, List.map_nil]
      simp only [List.getElem?_cons_zero, Option.bind_some, List.getElem?_cons_succ, Option.map_some, Option.some.injEq]
      split <;> rfl
    | max =>
      cases hr
      simp only [FBlock.toBlock, BOp.val, saved_eraseKinds, List.map_cons, List.map_nil]
      simp only [List.getElem?_cons_zero, Option.bind_some, List.getElem?_cons_succ, Option.map_some, Option.some.injEq]
      split <;> rfl
    | add => exact key _ (conv _ _ hr)
    | sub => exact key _ (conv _ _ hr)
    | mul => exact key _ (conv _ _ hr)
    | div => exact key _ (conv _ _ hr)
    | pow => exact key _ (conv _ _ hr)

theorem pyRecompute_erase {b : FBlock} {h h' : PHeap} (hr : b.pyRecompute h = .ok h') :
    eraseKinds h' = b.toBlock.recompute false (eraseKinds h) := by
  rw [fblock_recompute]
  unfold FBlock.pyRecompute at hr
  have : (eraseKinds h b.out).isControl = (h b.out).isControl := rfl
  rw [this]
  split at hr
  · cases hr; rename_i hc; rw [if_pos hc]
  · rename_i hc
    rw [if_neg hc]
    cases hb : b.recomputeNum h with
    | error e => rw [hb] at hr; cases hr
    | ok r =>
      rw [hb] at hr
      cases hr
      rw [recomputeNum_val hb, eraseKinds_setCkpt]
      rfl

/-- Errors of a block whose operands fit: domain errors only, and only outside the domain. -/
theorem recomputeNum_error {t : FTape} {S : BV → Prop} (safe : IntSafe t S) {h : PHeap} (ok : KindsOk t S h)
    {b : FBlock} (hb : b ∈ t) {e : NumErr} (he : b.recomputeNum h = .error e) :
    e ≠ .typeError ∧ e ≠ .attributeError ∧ ¬ b.InDomain (eraseKinds h) := by
  have conv : b.isOperator = true → ∀ x : Except NumErr ℝ, convertOutput h b.out x = .error e → x = .error e := by
    intro ho x hx
    unfold convertOutput at hx
    cases x with
    | error e' => cases hx; rfl
    | ok v =>
      simp only at hx
      rw [if_pos (ok.saved_operator hb ho)] at hx
      cases hx
  have hs := safe b hb
  cases b with
  | un op a o =>
    cases op with
    | neg =>
      have := conv rfl _ he
      rw [if_neg (fun hk => hs (ok.saved_int hk))] at this
      cases this
    | exp => cases he
    | log =>
      unfold FBlock.recomputeNum at he
      simp only at he
      split at he
      · rename_i hx
        cases he
        refine ⟨by simp, by simp, ?_⟩
        simp only [FBlock.InDomain, saved_eraseKinds, not_lt]
        exact hx
      · cases he
  | bin op a b o =>
    cases op with
    | min => cases he
    | max => cases he
    | add | sub | mul =>
      have := conv rfl _ he
      unfold floatMethod at this
      rw [if_neg (fun hk => hs (ok.saved_int hk))] at this
      cases this
    | div =>
      have := conv rfl _ he
      unfold floatMethod at this
      rw [if_neg (fun hk => hs (ok.saved_int hk))] at this
      simp only at this
      split at this
      · rename_i hy
        cases this
        refine ⟨by simp, by simp, ?_⟩
        simp only [FBlock.InDomain, saved_eraseKinds, not_not]
        exact hy
      · cases this
    | pow =>
      have := conv rfl _ he
      unfold floatMethod at this
      rw [if_neg (fun hk => hs (ok.saved_int hk))] at this
      simp only at this
      split at this
      · rename_i hy
        cases this
        refine ⟨by simp, by simp, fun hd => hd.1 ?_⟩
        simpa only [saved_eraseKinds] using hy
      · split at this
        · rename_i hy
          cases this
          refine ⟨by simp, by simp, fun hd => hd.2 ?_⟩
          simpa only [saved_eraseKinds] using hy
        · cases this

/-- The result of a block fits. -/
theorem recomputeNum_kind {t : FTape} {S : BV → Prop} (safe : IntSafe t S) {h : PHeap} (ok : KindsOk t S h)
    {b : FBlock} (hb : b ∈ t) {r : PyNum} (hr : b.recomputeNum h = .ok r) :
    r.kind ≠ .int ∧ (b.isOperator = true → r.kind = .adj) := by
  have conv : ∀ o (x : Except NumErr ℝ), convertOutput h o x = .ok r → r.kind = .adj := by
    intro o x hx
    unfold convertOutput at hx
    cases x with
    | error e => cases hx
    | ok v =>
      simp only at hx
      split at hx
      · cases hx; rfl
      · cases hx
  have done : r.kind = .adj → r.kind ≠ .int ∧ (b.isOperator = true → r.kind = .adj) :=
    fun hk => ⟨by rw [hk]; simp, fun _ => hk⟩
  have hs := safe b hb
  cases b with
  | un op a o =>
    cases op with
    | neg => exact done (conv _ _ hr)
    | exp => cases hr; simp [FBlock.isOperator]
    | log =>
      unfold FBlock.recomputeNum at hr
      simp only at hr
      split at hr
      · cases hr
      · cases hr; simp [FBlock.isOperator]
  | bin op a b o =>
    cases op with
    | min =>
      cases hr
      refine ⟨?_, by simp [FBlock.isOperator]⟩
      split
      · exact fun hk => hs.2 (ok.saved_int hk)
      · exact fun hk => hs.1 (ok.saved_int hk)
    | max =>
      cases hr
      refine ⟨?_, by simp [FBlock.isOperator]⟩
      split
      · exact fun hk => hs.2 (ok.saved_int hk)
      · exact fun hk => hs.1 (ok.saved_int hk)
    | add => exact done (conv _ _ hr)
    | sub => exact done (conv _ _ hr)
    | mul => exact done (conv _ _ hr)
    | div => exact done (conv _ _ hr)
    | pow => exact done (conv _ _ hr)

theorem KindsOk.setCkpt {t : FTape} {S : BV → Prop} {h : PHeap} (ok : KindsOk t S h) (v : BV) (r : PyNum)
    (hi : r.kind = .int → S v) (ha : ∀ b ∈ t, b.isOperator = true → b.out = v → r.kind = .adj) :
    KindsOk t S (Pyadjoint.setCkpt h v (some r)) := by
  unfold Pyadjoint.setCkpt
  split
  · exact ok
  · refine ⟨fun w => ?_, fun w c hc hk => ?_, fun b hb ho c hc => ?_⟩
    · by_cases hw : w = v
      · subst hw; simpa using ok.output w
      · rw [Function.update_of_ne hw]; exact ok.output w
    · by_cases hw : w = v
      · subst hw
        simp only [Function.update_self, Option.some.injEq] at hc
        subst hc; exact hi hk
      · rw [Function.update_of_ne hw] at hc; exact ok.int w c hc hk
    · by_cases hw : b.out = v
      · rw [hw] at hc
        simp only [Function.update_self, Option.some.injEq] at hc
        subst hc; exact ha b hb ho hw
      · rw [Function.update_of_ne hw] at hc; exact ok.operator b hb ho c hc

theorem KindsOk.mark {t : FTape} {S : BV → Prop} {h : PHeap} (ok : KindsOk t S h) (cs : List BV) (m : Bool) :
    KindsOk t S (markControls cs m h) :=
  ⟨fun v => by simpa using ok.output v, fun v c hc => ok.int v c (by simpa using hc),
    fun b hb ho c hc => ok.operator b hb ho c (by simpa using hc)⟩

theorem KindsOk.update {t : FTape} {S : BV → Prop} (cs : List BV) (xs : List PyNum) {h : PHeap} (ok : KindsOk t S h)
    (hargs : ArgsOk t S cs xs) : KindsOk t S (updateControls cs xs h) := by
  unfold updateControls
  induction cs generalizing xs h with
  | nil => exact ok
  | cons c cs ih =>
    cases xs with
    | nil => exact ok
    | cons x xs =>
      simp only [List.zip_cons_cons, List.foldl_cons]
      have h0 := hargs (c, x) (by simp)
      refine ih xs (ok.setCkpt c x h0.1 fun b hb ho hc => ?_) fun p hp => hargs p (by simp [hp])
      by_contra hk
      exact h0.2 hk b hb ho hc

/-- Outputs of different blocks differ (`WF`), stated on `FBlock`s. -/
theorem pyReplay_spec {t : FTape} {S : BV → Prop} (safe : IntSafe t S) (wf : WF t.blocks) :
    ∀ (l₁ l₂ : List FBlock), t = l₁ ++ l₂ → ∀ (h : PHeap), KindsOk t S h →
      KindsOk t S (pyReplay l₂ h).1 ∧
      (∀ e, (pyReplay l₂ h).2 = some e → e ≠ .typeError ∧ e ≠ .attributeError ∧
        ∃ b ∈ l₂, (h b.out).isControl = false ∧
          ¬ b.InDomain (recompute (FTape.blocks l₂) (eraseKinds h))) ∧
      ((pyReplay l₂ h).2 = none →
        eraseKinds (pyReplay l₂ h).1 = recompute (FTape.blocks l₂) (eraseKinds h)) := by
  intro l₁ l₂
  induction l₂ generalizing l₁ with
  | nil => intro _ h ok; exact ⟨ok, by simp [pyReplay], fun _ => rfl⟩
  | cons b l ih =>
    intro ht h ok
    have hb : b ∈ t := by rw [ht]; simp
    have wf' : WF (FTape.blocks (b :: l)) := by
      have := wf
      rw [ht] at this
      unfold FTape.blocks at this ⊢
      rw [List.map_append] at this
      exact ⟨fun x hx => this.nodup x (List.mem_append_right _ hx),
        fun x hx => this.self x (List.mem_append_right _ hx), (List.pairwise_append.1 this.later).2.1⟩
    cases hr : b.pyRecompute h with
    | error e =>
      have hre : pyReplay (b :: l) h = (h, some e) := by
        show (match b.pyRecompute h with | .error e => (h, some e) | .ok h => pyReplay l h) = _
        rw [hr]
      have hc : (h b.out).isControl = false ∧ b.recomputeNum h = .error e := by
        unfold FBlock.pyRecompute at hr
        split at hr
        · cases hr
        · rename_i hc
          cases hn : b.recomputeNum h with
          | error e' => rw [hn] at hr; cases hr; exact ⟨by simpa using hc, rfl⟩
          | ok r => rw [hn] at hr; cases hr
      rw [hre]
      refine ⟨ok, fun e' he' => ?_, by simp⟩
      cases he'
      obtain ⟨h1, h2, h3⟩ := recomputeNum_error safe ok hb hc.2
      refine ⟨h1, h2, b, by simp, hc.1, ?_⟩
      -- the operands of `b` are not outputs of `b` or of a later block
      have hd : ∀ d ∈ b.toBlock.deps,
          saved (recompute (FTape.blocks (b :: l)) (eraseKinds h)) d = saved (eraseKinds h) d := by
        intro d hd
        have hno : ∀ x ∈ FTape.blocks (b :: l), d ∉ x.outs := by
          intro x hx
          rcases List.mem_cons.1 hx with rfl | hx
          · exact wf'.self _ (by simp [FTape.blocks]) d hd
          · exact ((List.pairwise_cons.1 wf'.later).1 x hx).1 d hd
        unfold saved
        rw [recompute_of_not_out _ _ d hno]
      intro hdom
      apply h3
      revert hdom
      cases b with
      | un op a o =>
        have := hd a (by simp [FBlock.toBlock])
        cases op <;> simp only [FBlock.InDomain, this, imp_self]
      | bin op a c o =>
        have h1 := hd a (by simp [FBlock.toBlock])
        have h2 := hd c (by simp [FBlock.toBlock])
        cases op <;> simp only [FBlock.InDomain, h1, h2, imp_self]
    | ok h' =>
      have hre : pyReplay (b :: l) h = pyReplay l h' := by
        show (match b.pyRecompute h with | .error e => (h, some e) | .ok h => pyReplay l h) = _
        rw [hr]
      have her := pyRecompute_erase hr
      have hflag : ∀ v, (h' v).isControl = (h v).isControl := by
        intro v
        have := congrFun her v
        have h2 : (eraseKinds h' v).isControl = (eraseKinds h v).isControl := by
          rw [this, fblock_recompute]
          split
          · rfl
          · generalize b.toBlock.recomputeC (List.map (saved (eraseKinds h)) b.toBlock.deps) 0 = x
            cases x with
            | none => rfl
            | some c =>
              show (setCkpt (eraseKinds h) b.out (some c) v).isControl = _
              unfold setCkpt
              split
              · rfl
              · by_cases hv : v = b.out
                · subst hv; simp
                · rw [Function.update_of_ne hv]
        exact h2
      have ok' : KindsOk t S h' := by
        unfold FBlock.pyRecompute at hr
        split at hr
        · cases hr; exact ok
        · cases hn : b.recomputeNum h with
          | error e' => rw [hn] at hr; cases hr
          | ok r =>
            rw [hn] at hr
            cases hr
            obtain ⟨k1, k2⟩ := recomputeNum_kind safe ok hb hn
            refine ok.setCkpt _ _ (fun hk => absurd hk k1) fun b' hb' ho' hout => ?_
            -- the same output: the same block
            have hbb : b' = b := by
              by_contra hne
              have : b'.out = b.out := hout
              obtain ⟨i, hi, hib⟩ := List.getElem_of_mem hb'
              obtain ⟨j, hj, hjb⟩ := List.getElem_of_mem hb
              have hij : i ≠ j := by rintro rfl; exact hne (hib.symm.trans hjb)
              have out_mem : ∀ x : FBlock, x.out ∈ x.toBlock.outs := by
                intro x; cases x <;> simp [FBlock.out, FBlock.toBlock]
              have pw := List.pairwise_iff_getElem.1 wf.later
              have hlen : t.blocks.length = t.length := by simp [FTape.blocks]
              have hget : ∀ k (hk : k < t.length), t.blocks[k]'(by rw [hlen]; exact hk) = (t[k]).toBlock := by
                intro k hk; simp [FTape.blocks]
              rcases Nat.lt_or_gt_of_ne hij with hlt | hlt
              · have := (pw i j (by rw [hlen]; exact hi) (by rw [hlen]; exact hj) hlt).2 b'.out
                  (by rw [hget i hi, hib]; exact out_mem _)
                rw [hget j hj, hjb, hout] at this
                exact this (out_mem _)
              · have := (pw j i (by rw [hlen]; exact hj) (by rw [hlen]; exact hi) hlt).2 b.out
                  (by rw [hget j hj, hjb]; exact out_mem _)
                rw [hget i hi, hib, ← hout] at this
                exact this (out_mem _)
            subst hbb
            exact k2 ho'
      obtain ⟨i1, i2, i3⟩ := ih (l₁ ++ [b]) (by rw [ht]; simp) h' ok'
      have hrec : recompute (FTape.blocks (b :: l)) (eraseKinds h) = recompute (FTape.blocks l) (eraseKinds h') := by
        rw [her]; rfl
      rw [hre, hrec]
      refine ⟨i1, fun e he => ?_, i3⟩
      obtain ⟨e1, e2, c, hc, hfl, hdom⟩ := i2 e he
      exact ⟨e1, e2, c, by simp [hc], by rw [← hflag]; exact hfl, hdom⟩

/-- **C42 (partial).** A call with numbers whose types fit the tape: it raises no `TypeError` and no `AttributeError`; if it
returns, the stored numbers are those of the evaluation at the given numbers; it returns if the operations are defined at
the values the evaluation has; and the next call is in the same situation, also if this one raised.  Floats always fit,
except for a control that is itself the result of an operator; see `int_control_refused` for `int`s. -/
theorem plain_numbers_partial {t : FTape} (wf : WF t.blocks) {S : BV → Prop} (safe : IntSafe t S) {h : PHeap}
    (ok : KindsOk t S h) (cs : List BV) (xs : List PyNum) (hargs : ArgsOk t S cs xs) :
    let r := pyEval t cs xs h
    let spec := rfEval t.blocks cs (xs.map PyNum.val) (eraseKinds h)
    KindsOk t S r.1 ∧ r.2 ≠ some .typeError ∧ r.2 ≠ some .attributeError ∧
    (r.2 = none → eraseKinds r.1 = spec) ∧
    ((∀ b ∈ t, b.out ∈ cs ∨ b.InDomain spec) → r.2 = none) := by
  intro r spec
  have ok1 := (KindsOk.update cs xs ok hargs).mark cs true
  obtain ⟨i1, i2, i3⟩ := pyReplay_spec safe wf [] t rfl _ ok1
  have hstart : eraseKinds (markControls cs true (updateControls cs xs h))
      = markControls cs true (updateControls cs (xs.map PyNum.val) (eraseKinds h)) := by
    rw [eraseKinds_markControls, eraseKinds_updateControls]
  have hspec : ∀ v, saved spec v = saved (recompute (FTape.blocks t) (eraseKinds (markControls cs true (updateControls cs xs h)))) v := by
    intro v
    rw [hstart]
    show saved (markControls cs false _) v = _
    unfold saved
    simp only [markControls_ckpt, markControls_output]
  refine ⟨i1.mark cs false, fun he => (i2 _ he).1 rfl, fun he => (i2 _ he).2.1 rfl, fun hn => ?_, fun hdom => ?_⟩
  · show eraseKinds (markControls cs false _) = _
    rw [eraseKinds_markControls, i3 hn, hstart]
    rfl
  · show (pyReplay t _).2 = none
    cases he : (pyReplay t (markControls cs true (updateControls cs xs h))).2 with
    | none => rfl
    | some e =>
      exfalso
      obtain ⟨_, _, b, hb, hfl, hnd⟩ := i2 e he
      rcases hdom b hb with hc | hd
      · rw [markControls_apply, if_pos hc] at hfl
        cases hfl
      · apply hnd
        revert hd
        cases b with
        | un op a o => cases op <;> simp only [FBlock.InDomain, hspec, imp_self]
        | bin op a c o => cases op <;> simp only [FBlock.InDomain, hspec, imp_self]

/-- **C42, histories.** Any number of earlier calls, with any controls, also such that raised, does not matter. -/
theorem plain_numbers_history {t : FTape} (wf : WF t.blocks) {S : BV → Prop} (safe : IntSafe t S) {h : PHeap}
    (ok : KindsOk t S h) (calls : List (List BV × List PyNum)) (hcalls : ∀ c ∈ calls, ArgsOk t S c.1 c.2) :
    KindsOk t S (calls.foldl (fun h c => (pyEval t c.1 c.2 h).1) h) := by
  induction calls generalizing h with
  | nil => exact ok
  | cons c l ih =>
    exact ih (plain_numbers_partial wf safe ok c.1 c.2 (hcalls c (by simp))).1 fun d hd => hcalls d (by simp [hd])

/-- For floats the condition on the types is a condition on the controls only. -/
theorem argsOk_floats (t : FTape) (S : BV → Prop) (cs : List BV) (xs : List PyNum) (hx : ∀ x ∈ xs, x.kind ≠ .int)
    (hcs : ∀ c ∈ cs, ∀ b ∈ t, b.isOperator = true → b.out ≠ c) : ArgsOk t S cs xs :=
  fun _ hp => ⟨fun hk => absurd hk (hx _ (List.of_mem_zip hp).2), fun _ b hb ho => hcs _ (List.of_mem_zip hp).1 b hb ho⟩

theorem intSafe_none (t : FTape) : IntSafe t fun _ => False := by
  intro b _
  cases b with
  | un op a o => cases op <;> simp
  | bin op a c o => cases op <;> simp

/-- Variables created by a recording: every value is an `AdjFloat`. -/
def adjHeap (f : BV → ℝ) : PHeap := fun v => { output := ⟨.adj, f v⟩ }

theorem adjHeap_ok (t : FTape) (S : BV → Prop) (f : BV → ℝ) : KindsOk t S (adjHeap f) :=
  ⟨fun _ => rfl, fun _ _ h => (nomatch h), fun _ _ _ _ h => (nomatch h)⟩

/-- `J = exp(x) / y`, evaluated at `x = 2` (an `int`) and `y = 4.0`. -/
example : let t : FTape := [.un .exp 0 2, .bin .div 2 1 3]
    WF t.blocks ∧ IntSafe t (· = 0) ∧ ArgsOk t (· = 0) [0, 1] [⟨.int, 2⟩, ⟨.float, 4⟩] := by
  refine ⟨⟨?_, ?_, ?_⟩, ?_, ?_⟩
  · intro b hb; simp [FTape.blocks, FBlock.toBlock] at hb; rcases hb with rfl | rfl <;> simp
  · intro b hb; simp [FTape.blocks, FBlock.toBlock] at hb; rcases hb with rfl | rfl <;> simp
  · simp [FTape.blocks, FBlock.toBlock]
  · intro b hb; simp at hb; rcases hb with rfl | rfl <;> simp
  · intro p hp
    simp at hp
    rcases hp with rfl | rfl
    · exact ⟨fun _ => rfl, fun _ b hb ho => by simp at hb; rcases hb with rfl | rfl <;> simp_all [FBlock.isOperator, FBlock.out]⟩
    · exact ⟨by simp, fun _ b hb ho => by simp at hb; rcases hb with rfl | rfl <;> simp_all [FBlock.isOperator, FBlock.out]⟩

/-- **`int`s are refused by most programs.** `J = x * x`, `ReducedFunctional(J, Control(x))(2)` raises a `TypeError`. -/
theorem int_control_refused (f : BV → ℝ) :
    (pyEval [.bin .mul 0 0 1] [0] [⟨.int, 2⟩] (adjHeap f)).2 = some .typeError := by
  simp [pyEval, pyReplay, FBlock.pyRecompute, FBlock.recomputeNum, convertOutput, floatMethod, updateControls, setCkpt,
    markControls, adjHeap, saved, FBlock.out]

/-- **A float for an intermediate variable breaks other functionals.** `y = 2*x; J = y*y`.  After
`ReducedFunctional(J, Control(y))(3.0)`, which works, `ReducedFunctional(J, Control(x))(1.0)` raises an `AttributeError`. -/
theorem float_intermediate_control (f : BV → ℝ) :
    let t : FTape := [.bin .mul 0 1 2, .bin .mul 2 2 3]
    let r := pyEval t [2] [⟨.float, 3⟩] (adjHeap f)
    r.2 = none ∧ (saved r.1 3).val = 9 ∧ (pyEval t [0] [⟨.float, 1⟩] r.1).2 = some .attributeError := by
  refine ⟨?_, ?_, ?_⟩
  · simp [pyEval, pyReplay, FBlock.pyRecompute, FBlock.recomputeNum, convertOutput, floatMethod, updateControls, setCkpt,
      markControls, adjHeap, saved, FBlock.out, Function.update]
  · simp [pyEval, pyReplay, FBlock.pyRecompute, FBlock.recomputeNum, convertOutput, floatMethod, updateControls, setCkpt,
      markControls, adjHeap, saved, FBlock.out, Function.update, BOp.val]
    norm_num
  · simp [pyEval, pyReplay, FBlock.pyRecompute, FBlock.recomputeNum, convertOutput, floatMethod, updateControls, setCkpt,
      markControls, adjHeap, saved, FBlock.out, Function.update, BOp.val]


end Pyadjoint
