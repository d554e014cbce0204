import Verif.Model.Constraints
import Mathlib.Algebra.BigOperators.Group.List.Basic
import Mathlib.Algebra.BigOperators.Group.List.Lemmas
import Mathlib.Order.Defs.PartialOrder
import Mathlib.Data.List.Forall2

/-!
# Merged constraints behave like the list of constraints (C30)
-/

namespace Pyadjoint

variable {M R E : Type*}

/-- The documented contract of a method that stores into `result`: what was there does not matter. -/
structure Constr.Stores (c : Constr M R E) : Prop where
  adj : ∀ m dp r r', c.adjAction m dp r = c.adjAction m dp r'
  hess : ∀ m dm dp r r', c.hessAction m dm dp r = c.hessAction m dm dp r'
  jac : ∀ m dm r r', c.jacAction m dm r = c.jacAction m dm r'

theorem adjLoop_sum [AddCommMonoid R] (m : M) (dp : List (Out E)) (i : Nat) (cs : List (Constr M R E))
    (hcs : ∀ c ∈ cs, c.Stores) (hdp : dp.length = i + cs.length) (tmp result : R) (any : R) :
    Merged.adjLoop m (.items dp) i cs tmp result =
      .ok (result + (List.zipWith (fun c d => c.adjAction m d any) cs (dp.drop i)).sum) := by
  induction cs generalizing i tmp result with
  | nil => simp [Merged.adjLoop]
  | cons c cs ih =>
    have hi : i < dp.length := by simp at hdp; omega
    have hd : dp.drop i = dp[i] :: dp.drop (i + 1) := List.drop_eq_getElem_cons hi
    simp only [Merged.adjLoop, Out.item, List.getElem?_eq_getElem hi, hd, List.zipWith_cons_cons, List.sum_cons]
    rw [ih (i + 1) (fun c hc => hcs c (List.mem_cons_of_mem _ hc)) (by simp at hdp; omega)]
    rw [(hcs c (List.mem_cons_self ..)).adj m dp[i] tmp any, add_assoc]

theorem hessLoop_sum [AddCommMonoid R] (m dm : M) (dp : List (Out E)) (i : Nat) (cs : List (Constr M R E))
    (hcs : ∀ c ∈ cs, c.Stores) (hdp : dp.length = i + cs.length) (tmp result : R) (any : R) :
    Merged.hessLoop m dm (.items dp) i cs tmp result =
      .ok (result + (List.zipWith (fun c d => c.hessAction m dm d any) cs (dp.drop i)).sum) := by
  induction cs generalizing i tmp result with
  | nil => simp [Merged.hessLoop]
  | cons c cs ih =>
    have hi : i < dp.length := by simp at hdp; omega
    have hd : dp.drop i = dp[i] :: dp.drop (i + 1) := List.drop_eq_getElem_cons hi
    simp only [Merged.hessLoop, Out.item, List.getElem?_eq_getElem hi, hd, List.zipWith_cons_cons, List.sum_cons]
    rw [ih (i + 1) (fun c hc => hcs c (List.mem_cons_of_mem _ hc)) (by simp at hdp; omega)]
    rw [(hcs c (List.mem_cons_self ..)).hess m dm dp[i] tmp any, add_assoc]

/-- **C30, actions.** For constraints that store their results, the adjoint and the Hessian action of merged constraints are
the sums of what the constraints store, each for its own part of `dp`, whatever `result` held. -/
theorem merged_actions [AddCommMonoid R] (c : Merged M R E) (hc : ∀ k ∈ c.constraints, k.Stores)
    (m dm : M) (dp : List (Out E)) (hdp : dp.length = c.constraints.length) (result any : R) :
    c.adjAction m (.items dp) result =
        .ok ((List.zipWith (fun k d => k.adjAction m d any) c.constraints dp).sum) ∧
      c.hessAction m dm (.items dp) result =
        .ok ((List.zipWith (fun k d => k.hessAction m dm d any) c.constraints dp).sum) := by
  constructor
  · have := adjLoop_sum m dp 0 c.constraints hc (by omega) 0 0 any
    simpa [Merged.adjAction] using this
  · have := hessLoop_sum m dm dp 0 c.constraints hc (by omega) 0 0 any
    simpa [Merged.hessAction] using this

/-- **C30, too few components.** An action raises if `dp` has fewer parts than there are constraints. -/
theorem merged_action_short [AddCommMonoid R] (c : Merged M R E) (m : M) (dp : List (Out E))
    (hdp : dp.length < c.constraints.length) (result : R) :
    c.adjAction m (.items dp) result = .error .indexError := by
  have key : ∀ (cs : List (Constr M R E)) i (tmp result : R), i ≤ dp.length → dp.length < i + cs.length →
      Merged.adjLoop m (.items dp) i cs tmp result = .error .indexError := by
    intro cs
    induction cs with
    | nil => intro i _ _ hi hl; simp at hl; omega
    | cons k cs ih =>
      intro i tmp result hi hl
      by_cases h : i < dp.length
      · simp only [Merged.adjLoop, Out.item, List.getElem?_eq_getElem h]
        exact ih _ _ _ h (by simp at hl; omega)
      · simp only [Merged.adjLoop, Out.item, List.getElem?_eq_none (Nat.le_of_not_lt h)]
  exact key _ _ _ _ (Nat.zero_le _) (by omega)

/-- **C30, Jacobian action.** Part number `i` of the result is what constraint number `i` stores; parts beyond the
constraints keep their contents. -/
theorem merged_jacobian_action (c : Merged M R E) (m dm : M) (result : List (Out E))
    (h : c.constraints.length ≤ result.length) :
    ∃ r, c.jacAction m dm result = .ok r ∧ r.length = result.length ∧
      (∀ (i : Nat) (k : Constr M R E) o, c.constraints[i]? = some k → result[i]? = some o → r[i]? = some (k.jacAction m dm o)) ∧
      ∀ i : Nat, c.constraints.length ≤ i → r[i]? = result[i]? := by
  have key : ∀ (cs : List (Constr M R E)) (rs : List (Out E)), cs.length ≤ rs.length →
      ∃ r, Merged.jacActionLoop m dm cs rs = .ok r ∧ r.length = rs.length ∧
        (∀ (i : Nat) (k : Constr M R E) o, cs[i]? = some k → rs[i]? = some o → r[i]? = some (k.jacAction m dm o)) ∧
        ∀ i : Nat, cs.length ≤ i → r[i]? = rs[i]? := by
    intro cs
    induction cs with
    | nil => intro rs _; exact ⟨rs, rfl, rfl, fun i k o hk => by simp at hk, fun _ _ => rfl⟩
    | cons k cs ih =>
      intro rs hl
      cases rs with
      | nil => simp at hl
      | cons o rs =>
        obtain ⟨r, hr, hlen, h1, h2⟩ := ih rs (by simpa using hl)
        refine ⟨k.jacAction m dm o :: r, by simp [Merged.jacActionLoop, hr], by simp [hlen], ?_, ?_⟩
        · intro i k' o' hk ho
          cases i with
          | zero => simp at hk ho; subst hk; subst ho; simp
          | succ i => simp at hk ho ⊢; exact h1 i k' o' hk ho
        · intro i hi
          cases i with
          | zero => simp at hi
          | succ i => simp at hi ⊢; exact h2 i hi
  exact key _ _ h

/-- **C30, values and kinds.** The function and the Jacobian have one item per constraint, in order; every constraint of a
known class is in exactly one of the two parts, in order, and dimensions add up. -/
theorem merged_parts (c : Merged M R E) (m : M) :
    (∀ i : Nat, (c.function m).item i = (c.constraints[i]?).map fun k => k.function m) ∧
    (∀ i : Nat, (c.jacobian m)[i]? = (c.constraints[i]?).map fun (k : Constr M R E) => k.jacobian m) ∧
    c.equality.constraints.Sublist c.constraints ∧ c.inequality.constraints.Sublist c.constraints ∧
    (∀ k, k ∈ c.equality.constraints ↔ k ∈ c.constraints ∧ k.kind = .eq) ∧
    (∀ k, k ∈ c.inequality.constraints ↔ k ∈ c.constraints ∧ k.kind = .ineq) ∧
    ((∀ k ∈ c.constraints, k.kind ≠ .other) →
      c.equality.constraints.length + c.inequality.constraints.length = c.constraints.length ∧
      c.equality.dim + c.inequality.dim = c.dim) := by
  refine ⟨fun i => by simp [Merged.function, Out.item], fun i => by simp [Merged.jacobian],
    List.filter_sublist, List.filter_sublist, fun k => by simp [Merged.equality],
    fun k => by simp [Merged.inequality], ?_⟩
  obtain ⟨l⟩ := c
  intro h
  induction l with
  | nil => exact ⟨rfl, rfl⟩
  | cons k l ih =>
    obtain ⟨h1, h2⟩ := ih fun x hx => h x (List.mem_cons_of_mem _ hx)
    simp only [Merged.equality, Merged.inequality, Merged.dim] at h1 h2 ⊢
    have hk := h k (List.mem_cons_self ..)
    cases hkk : k.kind with
    | other => exact absurd hkk hk
    | eq => simp [hkk]; omega
    | ineq => simp [hkk]; omega

/-- **C30, canonicalise.** What is canonical stays as it is, and a constraint, a list of one and the merged constraint are the
same. -/
theorem canonicalise_idempotent (a : ConstrArg M R E) : canonicalise (asArg (canonicalise a)) = canonicalise a := by
  cases a <;> rfl

theorem canonicalise_single (k : Constr M R E) :
    canonicalise (.single k) = canonicalise (.list [k]) ∧
    canonicalise (.list [k]) = canonicalise (.merged ⟨[k]⟩) := ⟨rfl, rfl⟩

/-! ## SciPy -/

theorem scipyLoop_spec (cs : List (Constr M R E)) (cell : Option (Constr M R E))
    (h : ∀ k ∈ cs, k.kind ≠ .other) :
    ∃ ds, scipyLoop cs cell = .ok (ds, (cs.getLast?).or cell) ∧
      List.Forall₂ (fun d (k : Constr M R E) => d.func = k.function ∧ (d.isEq = true ↔ k.kind = .eq) ∧
        (d.isEq = false ↔ k.kind = .ineq)) ds cs := by
  induction cs generalizing cell with
  | nil => exact ⟨[], rfl, .nil⟩
  | cons k cs ih =>
    obtain ⟨ds, hds, hf⟩ := ih (some k) fun x hx => h x (List.mem_cons_of_mem _ hx)
    have hk := h k (List.mem_cons_self ..)
    have hlast : ((k :: cs).getLast?).or cell = (cs.getLast?).or (some k) := by
      cases cs with
      | nil => rfl
      | cons a t => simp [List.getLast?_cons]
    rw [hlast]
    refine ⟨⟨k.kind == .eq, k.function⟩ :: ds, ?_, .cons ⟨rfl, ?_, ?_⟩ hf⟩
    · unfold scipyLoop
      cases hkk : k.kind with
      | other => exact absurd hkk hk
      | eq => simp [hds]
      | ineq => simp [hds]
    · simp
    · cases hkk : k.kind <;> simp_all

/-- **C30, SciPy.** The dictionaries are in the order of the constraints, with the function and kind of each, but every
Jacobian is that of the last constraint. -/
theorem scipy_constraints (cs : List (Constr M R E)) (hne : cs ≠ []) (h : ∀ k ∈ cs, k.kind ≠ .other) :
    ∃ ds cell, scipyConstraints (.list cs) = .ok (ds, cell) ∧
      List.Forall₂ (fun d (k : Constr M R E) => d.func = k.function ∧ (d.isEq = true ↔ k.kind = .eq) ∧
        (d.isEq = false ↔ k.kind = .ineq)) ds cs ∧
      ∀ m, scipyJac cell m = some ((cs.getLast hne).jacobian m) := by
  obtain ⟨ds, hds, hf⟩ := scipyLoop_spec cs none h
  refine ⟨ds, _, hds, hf, fun m => ?_⟩
  rw [List.getLast?_eq_some_getLast hne]
  rfl

/-- **C30, SciPy (partial).** With one constraint the Jacobian is the right one.  For several constraints the statement would
need the closures to keep the constraint of their round. -/
theorem scipy_jacobian_partial (k : Constr M R E) (h : k.kind ≠ .other) :
    ∃ d cell, scipyConstraints (.single k) = .ok ([d], cell) ∧ d.func = k.function ∧
      ∀ m, scipyJac cell m = some (k.jacobian m) := by
  cases hk : k.kind with
  | other => exact absurd hk h
  | eq => exact ⟨⟨true, k.function⟩, some k, by simp [scipyConstraints, canonicalise, scipyLoop, hk], rfl, fun _ => rfl⟩
  | ineq => exact ⟨⟨false, k.function⟩, some k, by simp [scipyConstraints, canonicalise, scipyLoop, hk], rfl, fun _ => rfl⟩

/-- Constraints of an unknown class are refused, wherever they are in the list. -/
theorem scipy_unknown (cs : List (Constr M R E)) (h : ∃ k ∈ cs, k.kind = .other) :
    scipyConstraints (.list cs) = .error .unknownClass := by
  show scipyLoop cs none = _
  generalize (none : Option (Constr M R E)) = cell
  induction cs generalizing cell with
  | nil => obtain ⟨k, hk, _⟩ := h; cases hk
  | cons k cs ih =>
    cases hk : k.kind with
    | other => simp [scipyLoop, hk]
    | eq =>
      have : ∃ k ∈ cs, k.kind = .other := by
        obtain ⟨k', hk', ho⟩ := h
        rcases List.mem_cons.1 hk' with rfl | hm
        · rw [hk] at ho; cases ho
        · exact ⟨k', hm, ho⟩
      simp [scipyLoop, hk, ih this]
    | ineq =>
      have : ∃ k ∈ cs, k.kind = .other := by
        obtain ⟨k', hk', ho⟩ := h
        rcases List.mem_cons.1 hk' with rfl | hm
        · rw [hk] at ho; cases ho
        · exact ⟨k', hm, ho⟩
      simp [scipyLoop, hk, ih this]

/-- The constraints that the user has given, if any.  (Specification.) -/
def ConstrArg.given : ConstrArg M R E → Option (List (Constr M R E))
  | .none => Option.none
  | .merged c => some c.constraints
  | .single c => some [c]
  | .list l => some l

/-- **C30, what SciPy's methods accept.** An argument `constraints` is accepted exactly if there are constraints (perhaps none in the list), all of known classes; `None` raises `TypeError`,
anything else that is refused is refused for an unknown class. -/
theorem scipy_accepts (a : ConstrArg M R E) :
    ((∃ r, scipyConstraints a = .ok r) ↔ ∃ cs, a.given = some cs ∧ ∀ k ∈ cs, k.kind ≠ .other) ∧
    (scipyConstraints a = .error .typeError ↔ a.given = Option.none) := by
  have key : ∀ (cs : List (Constr M R E)) (cell : Option (Constr M R E)),
      ((∃ r, scipyLoop cs cell = .ok r) ↔ ∀ k ∈ cs, k.kind ≠ .other) ∧ scipyLoop cs cell ≠ .error .typeError := by
    intro cs
    induction cs with
    | nil => intro cell; exact ⟨⟨fun _ => by simp, fun _ => ⟨_, rfl⟩⟩, by simp [scipyLoop]⟩
    | cons k cs ih =>
      intro cell
      obtain ⟨h1, h2⟩ := ih (some k)
      rw [List.forall_mem_cons, ← h1]
      cases hk : k.kind with
      | other => simp [scipyLoop, hk]
      | eq => cases hr : scipyLoop cs (some k) with
        | error e => rw [hr] at h2; simp [scipyLoop, hk, hr]; exact fun h => h2 (by rw [h])
        | ok r => simp [scipyLoop, hk, hr]
      | ineq => cases hr : scipyLoop cs (some k) with
        | error e => rw [hr] at h2; simp [scipyLoop, hk, hr]; exact fun h => h2 (by rw [h])
        | ok r => simp [scipyLoop, hk, hr]
  have gen : ∀ cs : List (Constr M R E), a.given = some cs → scipyConstraints a = scipyLoop cs Option.none := by
    intro cs h
    cases a with
    | none => cases h
    | merged c => cases h; rfl
    | single c => cases h; rfl
    | list l => cases h; rfl
  cases hg : a.given with
  | none =>
    have : scipyConstraints a = .error .typeError := by
      cases a with
      | none => rfl
      | merged c => cases hg
      | single c => cases hg
      | list l => cases hg
    rw [this]
    simp
  | some cs =>
    rw [gen cs hg]
    exact ⟨(key cs _).1.trans ⟨fun h => ⟨cs, rfl, h⟩, fun ⟨_, e, h⟩ => by cases e; exact h⟩, ⟨fun h => absurd h (key cs _).2, fun h => by cases h⟩⟩

/-- A linear constraint `a·m ≥ 0` or `a·m = 0` on one number, for examples. -/
def linConstr (kind : CKind) (a : Int) : Constr Int Int Int where
  kind := kind
  function m := .arr [a * m]
  jacobian _ := [a]
  jacAction _ dm _ := .arr [a * dm]
  adjAction _ dp _ := match dp with
    | .arr [d] => a * d
    | _ => 0
  hessAction _ _ _ _ := 0
  dim := 1

/-- **The Jacobians are mixed up.** For `2m = 0` and `5m ≥ 0` SciPy is told that the derivative of `2m` is 5. -/
theorem scipy_jacobian_mixed : ∃ d₁ d₂ cell,
    scipyConstraints (.list [linConstr .eq 2, linConstr .ineq 5]) = .ok ([d₁, d₂], cell) ∧
    (d₁.func = (linConstr .eq 2).function) ∧ scipyJac cell 0 = some [5] ∧ (linConstr .eq 2).jacobian 0 = [2] :=
  ⟨_, _, _, rfl, rfl, rfl, rfl⟩

/-- Two constraints are accepted; with a third one of another class they are not. -/
example : (∃ r, scipyConstraints (.list [linConstr .eq 2, linConstr .ineq 5]) = .ok r) ∧ ¬ ∃ r, scipyConstraints (.list [linConstr .eq 2, linConstr .ineq 5, linConstr .other 1]) = .ok r := by
  rw [(scipy_accepts _).1, (scipy_accepts _).1]
  constructor
  · exact ⟨_, rfl, by simp [linConstr]⟩
  · rintro ⟨_, e, h⟩
    cases e
    exact h (linConstr .other 1) (by simp) rfl

example : ∀ k ∈ (⟨[linConstr .eq 2, linConstr .ineq 5]⟩ : Merged Int Int Int).constraints, k.Stores := by
  intro k hk
  simp at hk
  rcases hk with rfl | rfl <;>
    exact ⟨fun _ _ _ _ => rfl, fun _ _ _ _ _ => rfl, fun _ _ _ _ => rfl⟩

example : Merged.adjAction ⟨[linConstr .eq 2, linConstr .ineq 5]⟩ 0 (.items [.arr [10], .arr [100]]) 77 = .ok 520 := rfl

/-! ## IPOPT -/

/-- A number is within its bounds. -/
def CBound.le [Zero E] [LE E] (x : E) : CBound → Prop
  | .zero => x ≤ 0
  | .inf => True

/-- What IPOPT enforces: every component of the constraint function between its bounds.  Lower bounds are never infinite. -/
def IpoptFeasible [Zero E] [LE E] (g : List E) (clb cub : List CBound) : Prop :=
  clb.length = g.length ∧ cub.length = g.length ∧
    (∀ (i : Nat) x, g[i]? = some x → clb[i]? = some .zero → 0 ≤ x) ∧
    ∀ (i : Nat) x b, g[i]? = some x → cub[i]? = some b → CBound.le x b

/-- What the user asked for: `c(m) = 0`, or `c(m) ≥ 0`, in every component. -/
def Constr.Satisfied [Zero E] [LE E] (c : Constr M R E) (m : M) : Prop :=
  match c.kind, c.function m with
  | .eq, .arr l => ∀ x ∈ l, x = 0
  | .ineq, .arr l => ∀ x ∈ l, 0 ≤ x
  | _, _ => False

theorem ipoptUb_layout (cs : List (Constr M R E)) (h : ∀ k ∈ cs, k.kind ≠ .other) :
    ∃ u, ipoptUb cs = .ok u ∧ u.length = (cs.map fun k => k.dim).sum ∧
      u = (cs.map fun k => List.replicate k.dim (if k.kind = .eq then CBound.zero else CBound.inf)).flatten := by
  induction cs with
  | nil => exact ⟨[], rfl, rfl, rfl⟩
  | cons k cs ih =>
    obtain ⟨u, hu, hlen, he⟩ := ih fun x hx => h x (List.mem_cons_of_mem _ hx)
    have hk := h k (List.mem_cons_self ..)
    refine ⟨List.replicate k.dim (if k.kind = .eq then CBound.zero else CBound.inf) ++ u, ?_, ?_, ?_⟩
    · cases hkk : k.kind with
      | other => exact absurd hkk hk
      | eq => simp [ipoptUb, constraintUb, hkk, hu]
      | ineq => simp [ipoptUb, constraintUb, hkk, hu]
    · simp [hlen]
    · simp [he]

theorem mapM_numbers (cs : List (Constr M R E)) (m : M) (ls : List (List E)) :
    (cs.mapM fun c => (c.function m).numbers?) = some ls ↔
      List.Forall₂ (fun c l => c.function m = .arr l) cs ls := by
  induction cs generalizing ls with
  | nil => cases ls <;> simp
  | cons c cs ih =>
    cases hf : c.function m with
    | items l =>
      constructor
      · intro h; simp [hf, Out.numbers?] at h
      · intro h; cases h with
        | cons h1 _ => rw [hf] at h1; cases h1
    | arr l =>
      constructor
      · intro h
        simp only [List.mapM_cons, hf, Out.numbers?, Option.pure_def, Option.bind_eq_bind, Option.bind_some,
          Option.bind_eq_some_iff, Option.some.injEq] at h
        obtain ⟨r, hr, rfl⟩ := h
        exact .cons hf ((ih r).1 hr)
      · intro h
        cases h with
        | @cons _ l' _ ls' h1 h2 =>
          rw [hf] at h1
          cases h1
          have hn : (c.function m).numbers? = some l := by rw [hf]; rfl
          simp [hn, (ih ls').2 h2]

/-- **C30, IPOPT (partial).** If all constraints have a known class and functions returning arrays of one common length, the one
of their workspaces, IPOPT's feasible set is the set of parameters that satisfy every constraint.  Missing: constraints of
different lengths, for which the code raises (`ipopt_ragged`). -/
theorem ipopt_feasible_partial [Zero E] [PartialOrder E] (c : Merged M R E) (m : M) (n : Nat)
    (h : ∀ k ∈ c.constraints, k.kind ≠ .other)
    (hf : ∀ k ∈ c.constraints, k.dim = n ∧ ∃ l, k.function m = .arr l ∧ l.length = n) :
    ∃ g clb cub, ipoptFunction c m = .ok g ∧ ipoptConstraintBounds c = .ok (clb, cub) ∧
      (IpoptFeasible g clb cub ↔ ∀ k ∈ c.constraints, k.Satisfied m) := by
  obtain ⟨cs⟩ := c
  simp only at h hf
  have hls : ∃ ls, List.Forall₂ (fun (c : Constr M R E) l => c.function m = .arr l ∧ l.length = n ∧ c.dim = n) cs ls := by
    clear h
    induction cs with
    | nil => exact ⟨[], .nil⟩
    | cons k cs ih =>
      obtain ⟨ls, hls⟩ := ih fun x hx => hf x (List.mem_cons_of_mem _ hx)
      obtain ⟨hd, l, hl, hn⟩ := hf k (List.mem_cons_self ..)
      exact ⟨l :: ls, .cons ⟨hl, hn, hd⟩ hls⟩
  obtain ⟨ls, hls⟩ := hls
  have hm := (mapM_numbers cs m ls).2 (hls.imp fun _ _ h => h.1)
  have hlen : ∀ l ∈ ls, l.length = n := by
    clear hm hf h
    induction hls with
    | nil => intro l hl; cases hl
    | cons h1 _ ih =>
      intro l hl
      rcases List.mem_cons.1 hl with rfl | hl
      · exact h1.2.1
      · exact ih l hl
  obtain ⟨u, hu, hul, he⟩ := ipoptUb_layout cs h
  refine ⟨ls.flatten, List.replicate (Merged.dim ⟨cs⟩) .zero, u, ?_, ?_, ?_⟩
  · unfold ipoptFunction
    simp only [hm]
    rw [if_pos fun l hl l' hl' => (hlen l hl).trans (hlen l' hl').symm]
  · simp [ipoptConstraintBounds, hu]
  · have hdim : Merged.dim ⟨cs⟩ = ls.flatten.length := by
      clear hm hf h hu hul he hlen
      induction hls with
      | nil => rfl
      | cons h1 _ ih => simp [Merged.dim] at ih ⊢; omega
    have hul' : u.length = ls.flatten.length := by rw [hul, ← hdim]; rfl
    -- the feasible set, block by block
    have key : (∀ (i : Nat) x, ls.flatten[i]? = some x → 0 ≤ x) ∧
        (∀ (i : Nat) x b, ls.flatten[i]? = some x → u[i]? = some b → CBound.le x b) ↔
        ∀ k ∈ cs, k.Satisfied m := by
      clear hm hf hu hul hul' hdim hlen
      subst he
      induction hls with
      | nil => simp
      | @cons k l cs ls h1 _ ih =>
        have ih := ih fun x hx => h x (List.mem_cons_of_mem _ hx)
        have hk := h k (List.mem_cons_self ..)
        obtain ⟨hl, hn, hd⟩ := h1
        have hsat : k.Satisfied m ↔ ((∀ x ∈ l, 0 ≤ x) ∧ (k.kind = .eq → ∀ x ∈ l, x ≤ 0)) := by
          unfold Constr.Satisfied
          rw [hl]
          cases hkk : k.kind with
          | other => exact absurd hkk hk
          | eq =>
            simp only [forall_const]
            exact ⟨fun h => ⟨fun x hx => (h x hx).ge, fun x hx => (h x hx).le⟩,
              fun h x hx => le_antisymm (h.2 x hx) (h.1 x hx)⟩
          | ineq => simp
        rw [List.forall_mem_cons, hsat, ← ih]
        simp only [List.map_cons, List.flatten_cons]
        have hrep : (List.replicate k.dim (if k.kind = .eq then CBound.zero else CBound.inf)).length = l.length := by
          simp [hd, hn]
        generalize hr : List.replicate k.dim (if k.kind = .eq then CBound.zero else CBound.inf) = rep at hrep
        constructor
        · rintro ⟨a1, a2⟩
          refine ⟨⟨fun x hx => ?_, fun hke x hx => ?_⟩, fun i x hx => ?_, fun i x b hx hb => ?_⟩
          · obtain ⟨i, hi, rfl⟩ := List.getElem_of_mem hx
            exact a1 i _ (by rw [List.getElem?_append_left hi, List.getElem?_eq_getElem hi])
          · obtain ⟨i, hi, rfl⟩ := List.getElem_of_mem hx
            refine a2 i _ .zero (by rw [List.getElem?_append_left hi, List.getElem?_eq_getElem hi]) ?_
            rw [List.getElem?_append_left (by omega), ← hr]
            simp [hke, show i < k.dim by omega]
          · exact a1 (l.length + i) x (by rw [List.getElem?_append_right (by omega)]; simpa using hx)
          · refine a2 (l.length + i) x b (by rw [List.getElem?_append_right (by omega)]; simpa using hx) ?_
            rw [List.getElem?_append_right (by omega), hrep]
            simpa using hb
        · rintro ⟨⟨b1, b2⟩, b3, b4⟩
          refine ⟨fun i x hx => ?_, fun i x b hx hb => ?_⟩
          · by_cases hi : i < l.length
            · rw [List.getElem?_append_left hi] at hx
              exact b1 x (List.mem_of_getElem? hx)
            · rw [List.getElem?_append_right (by omega)] at hx
              exact b3 _ x hx
          · by_cases hi : i < l.length
            · rw [List.getElem?_append_left hi] at hx
              rw [List.getElem?_append_left (by omega), ← hr, List.getElem?_replicate,
                if_pos (show i < k.dim by omega)] at hb
              cases hb
              by_cases hke : k.kind = .eq
              · rw [if_pos hke]; exact b2 hke x (List.mem_of_getElem? hx)
              · rw [if_neg hke]; trivial
            · rw [List.getElem?_append_right (by omega)] at hx
              rw [List.getElem?_append_right (by omega), hrep] at hb
              exact b4 _ x b hx hb
    rw [← key]
    constructor
    · rintro ⟨_, _, h1, h2⟩
      refine ⟨fun i x hx => h1 i x hx ?_, h2⟩
      have hi : i < ls.flatten.length := by
        by_contra hc
        rw [List.getElem?_eq_none (by omega)] at hx
        cases hx
      rw [List.getElem?_replicate, if_pos (by omega)]
    · rintro ⟨h1, h2⟩
      exact ⟨by rw [List.length_replicate, hdim], hul', fun i x hx _ => h1 i x hx, h2⟩

/-- A constraint with a function of `n` components. -/
def constConstr (kind : CKind) (l : List Int) : Constr Int Int Int where
  kind := kind
  function _ := .arr l
  jacobian _ := l.map fun _ => 0
  jacAction _ _ _ := .arr (l.map fun _ => 0)
  adjAction _ _ _ := 0
  hessAction _ _ _ _ := 0
  dim := l.length

/-- **Constraints of different sizes.** The function handed to IPOPT raises for an equality with one component and an
inequality with two, though the bounds are fine. -/
theorem ipopt_ragged :
    ipoptFunction ⟨[constConstr .eq [0], constConstr .ineq [1, 2]]⟩ 0 = .error .valueError ∧
    ipoptConstraintBounds ⟨[constConstr .eq [0], constConstr .ineq [1, 2]]⟩ =
      .ok ([.zero, .zero, .zero], [.zero, .inf, .inf]) := by
  constructor
  · simp [ipoptFunction, constConstr, Out.numbers?]
  · rfl

/-- A constraint of neither class makes IPOPT's setup raise. -/
theorem ipopt_unknown (cs : List (Constr M R E)) (h : ∃ k ∈ cs, k.kind = .other) :
    ipoptConstraintBounds ⟨cs⟩ = .error .typeError := by
  have : ipoptUb cs = .error .typeError := by
    induction cs with
    | nil => obtain ⟨k, hk, _⟩ := h; cases hk
    | cons k cs ih =>
      by_cases hk : k.kind = .other
      · simp [ipoptUb, constraintUb, hk]
      · have : ∃ k ∈ cs, k.kind = .other := by
          obtain ⟨k', hk', ho⟩ := h
          rcases List.mem_cons.1 hk' with rfl | hm
          · exact absurd ho hk
          · exact ⟨k', hm, ho⟩
        have := ih this
        cases hkk : k.kind <;> simp_all [ipoptUb, constraintUb]
  simp [ipoptConstraintBounds, this]

example : ∀ k ∈ (⟨[linConstr .eq 2, linConstr .ineq 5]⟩ : Merged Int Int Int).constraints,
    k.dim = 1 ∧ ∃ l, k.function 3 = .arr l ∧ l.length = 1 := by
  intro k hk
  simp at hk
  rcases hk with rfl | rfl
  · exact ⟨rfl, _, rfl, rfl⟩
  · exact ⟨rfl, _, rfl, rfl⟩

end Pyadjoint
