import Verif.Props.Recording

/-!
# Evaluating a reduced functional against running the program again

A user expects `rf(x)` to be what their program prints when it is run again from the start with the new
input values.  `rerun_agrees_partial` proves it for every program of creations and operations recorded with
annotation on **in which no plain number is divided by, or raised to the power of, an `AdjFloat`**.
`AdjFloat` defines neither `__rtruediv__` nor `__rpow__` (`adjfloat.py:47-137`), so `1.0 / a` is
a plain Python float and is not recorded: `reflected_division_not_recorded` and
`reflected_power_not_recorded` refute the unrestricted statement.
-/

namespace Pyadjoint.Session

open Source

/-- The program with the creation of the objects `cs` changed to the values `xs`: the `i`-th instruction
creates object `i` in programs of creations only. -/
noncomputable def rewriteInputs (cs : List Nat) (xs : List ℝ) (p : List Instr) : List Instr :=
  p.mapIdx fun i ins => match ins with
    | .const r => .const ((override cs xs i).getD r)
    | ins => ins

/-- What a program prints for object `J`, in plain Python. -/
noncomputable def prints (p : List Instr) (J : Nat) : Option ℝ := ((p.foldl plainStep [])[J]?).map (·.1)

/-- No operation `literal / AdjFloat` or `literal ** AdjFloat`. -/
def NoReflected (A : State) (p : List Instr) : Prop :=
  ∀ op i j, Instr.bin op i j ∈ p → op = .div ∨ op = .pow →
    ∀ r q, A.regs[i]? = some r → A.regs[j]? = some q → q.adj = true → r.adj = true

theorem rewriteInputs_snoc (cs : List Nat) (xs : List ℝ) (p : List Instr) (ins : Instr) :
    rewriteInputs cs xs (p ++ [ins]) = rewriteInputs cs xs p ++ [match ins with
      | .const r => .const ((override cs xs p.length).getD r)
      | ins => ins] := by
  unfold rewriteInputs
  rw [List.mapIdx_append]
  simp

/-- One object of the re-run next to the one recorded. -/
structure Agrees (ov : Nat → Option ℝ) (A : State) (env : List (ℝ × Bool)) : Prop where
  len : env.length = A.regs.length
  ann : A.annotate = true
  val : ∀ (i : Nat) (e : ℝ × Bool), env[i]? = some e → e.1 = (reeval ov A.regs).getD i 0
  adj : ∀ (i : Nat) (e : ℝ × Bool) (r : Reg), env[i]? = some e → A.regs[i]? = some r → e.2 = r.adj
  plain : ∀ (i : Nat) (r : Reg), A.regs[i]? = some r → r.adj = false →
    (reeval ov A.regs).getD i 0 = r.value

theorem Agrees.push {ov : Nat → Option ℝ} {A : State} {env : List (ℝ × Bool)} (h : Agrees ov A env)
    (y x : ℝ) (adj : Bool) (d : Def)
    (hy : y = (ov A.regs.length).getD
      ((if adj = true then d else .free).eval (reeval ov A.regs) x))
    (hp : adj = false → y = x) : Agrees ov (A.push x adj d) (env ++ [(y, adj)]) := by
  have hlen : (reeval ov A.regs).length = A.regs.length := length_reeval _ _
  have hre : reeval ov (A.push x adj d).regs = reeval ov A.regs ++ [y] := by
    unfold State.push
    simp only [h.ann, Bool.true_and]
    rw [reeval_snoc, hlen, hy]
  refine ⟨by simp [State.push, h.len], h.ann, ?_, ?_, ?_⟩
  · intro i e he
    rw [hre]
    rcases getElem?_append_singleton he with ⟨rfl, rfl⟩ | ⟨hlt, he⟩
    · rw [h.len, ← hlen]; simp [List.getD_eq_getElem?_getD]
    · rw [h.val i e he]
      simp only [List.getD_eq_getElem?_getD]
      rw [List.getElem?_append_left (by rw [hlen, ← h.len]; exact hlt)]
  · intro i e r he hr
    rcases getElem?_append_singleton he with ⟨rfl, rfl⟩ | ⟨hlt, he⟩
    · rw [h.len] at hr
      simp [State.push] at hr
      rw [← hr]
    · unfold State.push at hr
      rw [List.getElem?_append_left (by rw [← h.len]; exact hlt)] at hr
      exact h.adj i e r he hr
  · intro i r hr hadj
    rw [hre]
    unfold State.push at hr
    rcases getElem?_append_singleton hr with ⟨rfl, rfl⟩ | ⟨hlt, hr⟩
    · rw [← hlen]; simp [List.getD_eq_getElem?_getD]; exact hp hadj
    · rw [← h.plain i r hr hadj]
      simp only [List.getD_eq_getElem?_getD]
      rw [List.getElem?_append_left (by rw [hlen]; exact hlt)]

theorem step_regs {A A' : State} {ins : Instr} (hc : ins.creates = true) (h : A.step ins = some A') :
    ∃ r, A'.regs = A.regs ++ [r] := by
  cases ins with
  | const r => cases h; exact ⟨_, rfl⟩
  | plain r => cases h; exact ⟨_, rfl⟩
  | un op i =>
    simp only [State.step, Option.map_eq_some_iff] at h
    obtain ⟨r, hr, rfl⟩ := h; exact ⟨_, rfl⟩
  | bin op i j =>
    simp only [State.step, Option.bind_eq_some_iff, Option.map_eq_some_iff] at h
    obtain ⟨r, hr, q, hq, rfl⟩ := h; exact ⟨_, rfl⟩
  | _ => cases hc

theorem run_snoc (p : List Instr) (ins : Instr) (A A' : State)
    (h : State.run (p ++ [ins]) A = some A') : ∃ A₁, State.run p A = some A₁ ∧ A₁.step ins = some A' := by
  unfold State.run at h
  rw [List.foldlM_append] at h
  simp only [Option.bind_eq_bind, Option.bind_eq_some_iff] at h
  obtain ⟨A₁, h1, h2⟩ := h
  simp at h2
  exact ⟨A₁, h1, h2⟩

theorem override_none_of_not_mem {cs : List Nat} {xs : List ℝ} (hl : xs.length = cs.length) {i : Nat}
    (h : i ∉ cs) : override cs xs i = none := by
  rw [← Option.not_isSome_iff_eq_none]
  exact fun h' => h ((override_isSome cs xs hl i).1 h')

theorem agrees_run (cs : List Nat) (xs : List ℝ) (hl : xs.length = cs.length) (p : List Instr) :
    ∀ A, State.run p {} = some A → (∀ ins ∈ p, ins.creates = true) →
    (∀ c ∈ cs, c < p.length → ∃ r, p[c]? = some (.const r)) → NoReflected A p →
    p.length = A.regs.length ∧
      Agrees (override cs xs) A ((rewriteInputs cs xs p).foldl plainStep []) := by
  induction p using List.reverseRecOn with
  | nil =>
    intro A hA _ _ _
    cases hA
    exact ⟨rfl, rfl, rfl, by simp [rewriteInputs], by simp [rewriteInputs], by simp⟩
  | append_singleton p ins ih =>
    intro A' hA hcr hcs hnr
    obtain ⟨A, h1, h2⟩ := run_snoc p ins _ _ hA
    obtain ⟨r₀, hr₀⟩ := step_regs (hcr ins (by simp)) h2
    have hold : ∀ {i : Nat} {r : Reg}, A.regs[i]? = some r → A'.regs[i]? = some r := by
      intro i r h
      rw [hr₀, List.getElem?_append_left (List.getElem?_eq_some_iff.1 h).1]; exact h
    obtain ⟨hlen, hag⟩ := ih A h1 (fun i hi => hcr i (by simp [hi]))
      (fun c hc hlt => by
        obtain ⟨r, hr⟩ := hcs c hc (by simp; omega)
        rw [List.getElem?_append_left hlt] at hr
        exact ⟨r, hr⟩)
      (by
        intro op i j hm hop r q hr hq hadj
        exact hnr op i j (by simp [hm]) hop r q (hold hr) (hold hq) hadj)
    refine ⟨by rw [hr₀]; simp [hlen], ?_⟩
    rw [rewriteInputs_snoc, List.foldl_append]
    have hrl : (reeval (override cs xs) A.regs).length = A.regs.length := length_reeval _ _
    -- the new object is not a control unless it is created by `const`
    have hnot : (∀ r, ins ≠ .const r) → override cs xs A.regs.length = none := by
      intro hne
      refine override_none_of_not_mem hl fun hm => ?_
      obtain ⟨r, hr⟩ := hcs _ hm (by simp [hlen])
      rw [← hlen] at hr
      simp at hr
      exact hne r hr
    have henv : ∀ {i : Nat} {r : Reg}, A.regs[i]? = some r →
        ((rewriteInputs cs xs p).foldl plainStep [])[i]?
          = some ((reeval (override cs xs) A.regs).getD i 0, r.adj) := by
      intro i r hr
      have hlt : i < ((rewriteInputs cs xs p).foldl plainStep []).length := by
        rw [hag.len]; exact (List.getElem?_eq_some_iff.1 hr).1
      have he := List.getElem?_eq_getElem hlt
      rw [he]
      refine congrArg some (Prod.ext (hag.val i _ he) (hag.adj i _ r he hr))
    cases ins with
    | const r =>
      cases h2
      simp only [List.foldl_cons, List.foldl_nil, plainStep, hlen]
      exact hag.push _ _ true .free rfl (by simp)
    | plain r =>
      cases h2
      simp only [List.foldl_cons, List.foldl_nil, plainStep]
      refine hag.push _ _ false .free ?_ (fun _ => rfl)
      rw [hnot (by simp)]; rfl
    | un op i =>
      simp only [State.step, Option.map_eq_some_iff] at h2
      obtain ⟨r, hr, rfl⟩ := h2
      simp only [List.foldl_cons, List.foldl_nil, plainStep, henv hr]
      refine hag.push _ _ _ _ ?_ ?_
      · rw [hnot (by simp)]
        split
        · rfl
        · rename_i hadj
          simp only [Bool.or_eq_true, not_or, Bool.not_eq_true] at hadj
          rw [hag.plain i r hr hadj.2]; rfl
      · intro hadj
        simp only [Bool.or_eq_false_iff] at hadj
        rw [hag.plain i r hr hadj.2]
    | bin op i j =>
      simp only [State.step, Option.bind_eq_some_iff, Option.map_eq_some_iff] at h2
      obtain ⟨r, hr, q, hq, rfl⟩ := h2
      simp only [List.foldl_cons, List.foldl_nil, plainStep, henv hr, henv hq]
      have hpl : overloaded op r.adj q.adj = false → r.adj = false ∧ q.adj = false := by
        intro ho
        cases op <;> simp [overloaded] at ho
        case add => exact ho
        case sub => exact ho
        case mul => exact ho
        case div =>
          refine ⟨ho, ?_⟩
          by_contra hc
          have := hnr .div i j (by simp) (Or.inl rfl) r q (hold hr) (hold hq) (by simpa using hc)
          rw [ho] at this; cases this
        case pow =>
          refine ⟨ho, ?_⟩
          by_contra hc
          have := hnr .pow i j (by simp) (Or.inr rfl) r q (hold hr) (hold hq) (by simpa using hc)
          rw [ho] at this; cases this
      refine hag.push _ _ _ _ ?_ ?_
      · rw [hnot (by simp)]
        split
        · rfl
        · rename_i hadj
          obtain ⟨h3, h4⟩ := hpl (by simpa using hadj)
          rw [hag.plain i r hr h3, hag.plain j q hq h4]; rfl
      · intro hadj
        obtain ⟨h3, h4⟩ := hpl hadj
        rw [hag.plain i r hr h3, hag.plain j q hq h4]
    | _ => exact absurd (hcr _ (List.mem_append_right _ List.mem_cons_self)) Bool.false_ne_true

/-- **C52.**  Record a program of creations and operations with annotation on, with no literal divided by or
raised to an `AdjFloat`.  The value of the reduced functional at `xs` is what the program prints for `J`
when run from the start, in plain Python, with `xs` for the inputs `cs`. -/
theorem rerun_agrees_partial (p : List Instr) (S : Session) (hS : run p {} = some S) (A : State)
    (hA : State.run p {} = some A) (hcr : ∀ ins ∈ p, ins.creates = true) (hnr : NoReflected A p)
    (J : Nat) (cs : List Nat) (hcs : ∀ c ∈ cs, ∃ r, p[c]? = some (.const r)) (xs : List ℝ) (y : ℝ)
    (S' : Session) (hcall : S.call J cs 1 xs = some (y, S')) :
    prints (rewriteInputs cs xs p) J = some y := by
  obtain ⟨A', hA', hsome, hval⟩ := replay_fidelity p S hS J cs 1 xs
  rw [hA] at hA'; cases hA'
  have hok := hsome.1 (by rw [hcall]; rfl)
  have hy := (hval y S' hcall).1
  obtain ⟨hlen, hag⟩ := agrees_run cs xs hok.2 p A hA hcr (fun c hc _ => hcs c hc) hnr
  obtain ⟨r, hr, _⟩ := hok.1 J (by simp)
  have hlt : J < ((rewriteInputs cs xs p).foldl plainStep []).length := by
    rw [hag.len]; exact (List.getElem?_eq_some_iff.1 hr).1
  have he := List.getElem?_eq_getElem hlt
  unfold prints
  rw [he, Option.map_some, hag.val J _ he, hy, mul_one]; rfl

/-- The hypotheses of `rerun_agrees_partial` are met by `J = x * (1 + y) / x`. -/
example : ∃ S A y S', run [.const 2, .const 3, .plain 1, .bin .add 2 1, .bin .mul 0 3, .bin .div 4 0] {} = some S ∧
    State.run [.const 2, .const 3, .plain 1, .bin .add 2 1, .bin .mul 0 3, .bin .div 4 0] {} = some A ∧
    NoReflected A [.const 2, .const 3, .plain 1, .bin .add 2 1, .bin .mul 0 3, .bin .div 4 0] ∧
    S.call 5 [0, 1] 1 [7, 8] = some (y, S') := by
  have hA : ∃ A, State.run [.const 2, .const 3, .plain 1, .bin .add 2 1, .bin .mul 0 3, .bin .div 4 0] {} = some A ∧
      ∃ x y z, A.regs = [⟨2, true, .free, 2⟩, ⟨3, true, .free, 3⟩, ⟨1, false, .free, 1⟩,
        ⟨x, true, .bin .add 2 1, x⟩, ⟨y, true, .bin .mul 0 3, y⟩, ⟨z, true, .bin .div 4 0, z⟩] :=
    ⟨_, rfl, _, _, _, rfl⟩
  obtain ⟨A, hA, x, y, z, hregs⟩ := hA
  obtain ⟨S, hS⟩ := Option.isSome_iff_exists.1
    ((run_isSome_iff [.const 2, .const 3, .plain 1, .bin .add 2 1, .bin .mul 0 3, .bin .div 4 0]).trans
      (by rw [hA]; rfl))
  obtain ⟨A', hA', hsome, _⟩ := replay_fidelity _ S hS 5 [0, 1] 1 [7, 8]
  rw [hA] at hA'; cases hA'
  obtain ⟨⟨w, S'⟩, hc⟩ := Option.isSome_iff_exists.1 (hsome.2 (by simp [State.AreAdj, hregs]))
  refine ⟨S, A, w, S', hS, hA, ?_, hc⟩
  intro op i j hm hop r q hr hq hadj
  simp at hm
  rcases hm with ⟨rfl, rfl, rfl⟩ | ⟨rfl, rfl, rfl⟩ | ⟨rfl, rfl, rfl⟩
  · simp at hop
  · simp at hop
  · rw [hregs] at hr; simp at hr; rw [← hr]

/-- **C52 fails for `literal / AdjFloat`.**  `J = x * (1 / x)` recorded at `x = 2`: the reduced functional
gives `2` at `x = 4`, the program prints `1`. -/
theorem reflected_division_not_recorded :
    ∃ (p : List Instr) (S : Session) (J : Nat) (cs : List Nat) (xs : List ℝ) (y : ℝ) (S' : Session),
      run p {} = some S ∧ (∀ ins ∈ p, ins.creates = true) ∧ (∀ c ∈ cs, ∃ r, p[c]? = some (.const r)) ∧
      S.call J cs 1 xs = some (y, S') ∧ prints (rewriteInputs cs xs p) J ≠ some y := by
  have hA : ∃ A, State.run [.const 2, .plain 1, .bin .div 1 0, .bin .mul 0 2] {} = some A ∧
      A.regs = [⟨2, true, .free, 2⟩, ⟨1, false, .free, 1⟩, ⟨1 / 2, false, .free, 1 / 2⟩,
        ⟨2 * (1 / 2), true, .bin .mul 0 2, 2 * (1 / 2)⟩] := ⟨_, rfl, rfl⟩
  obtain ⟨A, hA, hregs⟩ := hA
  obtain ⟨S, hS⟩ := Option.isSome_iff_exists.1
    ((run_isSome_iff [.const 2, .plain 1, .bin .div 1 0, .bin .mul 0 2]).trans (by rw [hA]; rfl))
  obtain ⟨A', hA', hsome, hval⟩ := replay_fidelity _ S hS 3 [0] 1 [4]
  rw [hA] at hA'; cases hA'
  obtain ⟨⟨w, S'⟩, hc⟩ := Option.isSome_iff_exists.1 (hsome.2 (by simp [State.AreAdj, hregs]))
  refine ⟨_, S, 3, [0], [4], w, S', hS, by simp [Instr.creates], by simp, hc, ?_⟩
  have hw := (hval w S' hc).1
  have : A.valueAt [0] [4] 3 = 2 := by
    unfold State.valueAt
    rw [hregs]
    simp [reeval, override, Def.eval, BOp.val]
    norm_num
  rw [hw, this]
  simp [prints, rewriteInputs, plainStep, override, BOp.val, overloaded]

/-- **C52 fails for `literal ** AdjFloat`.**  `J = x * 2 ** x` recorded at `x = 1`. -/
theorem reflected_power_not_recorded :
    ∃ (p : List Instr) (S : Session) (J : Nat) (cs : List Nat) (xs : List ℝ) (y : ℝ) (S' : Session),
      run p {} = some S ∧ (∀ ins ∈ p, ins.creates = true) ∧ (∀ c ∈ cs, ∃ r, p[c]? = some (.const r)) ∧
      S.call J cs 1 xs = some (y, S') ∧ prints (rewriteInputs cs xs p) J ≠ some y := by
  have hA : ∃ A, State.run [.const 1, .plain 2, .bin .pow 1 0, .bin .mul 0 2] {} = some A ∧
      A.regs = [⟨1, true, .free, 1⟩, ⟨2, false, .free, 2⟩,
        ⟨(BOp.pow).val 2 1, false, .free, (BOp.pow).val 2 1⟩,
        ⟨1 * (BOp.pow).val 2 1, true, .bin .mul 0 2, 1 * (BOp.pow).val 2 1⟩] := ⟨_, rfl, rfl⟩
  obtain ⟨A, hA, hregs⟩ := hA
  obtain ⟨S, hS⟩ := Option.isSome_iff_exists.1
    ((run_isSome_iff [.const 1, .plain 2, .bin .pow 1 0, .bin .mul 0 2]).trans (by rw [hA]; rfl))
  obtain ⟨A', hA', hsome, hval⟩ := replay_fidelity _ S hS 3 [0] 1 [2]
  rw [hA] at hA'; cases hA'
  obtain ⟨⟨w, S'⟩, hc⟩ := Option.isSome_iff_exists.1 (hsome.2 (by simp [State.AreAdj, hregs]))
  refine ⟨_, S, 3, [0], [2], w, S', hS, by simp [Instr.creates], by simp, hc, ?_⟩
  have hw := (hval w S' hc).1
  have : A.valueAt [0] [2] 3 = 4 := by
    unfold State.valueAt
    rw [hregs]
    simp [reeval, override, Def.eval, BOp.val]
    norm_num
  rw [hw, this]
  simp [prints, rewriteInputs, plainStep, override, BOp.val, overloaded]
  norm_num

end Pyadjoint.Session
