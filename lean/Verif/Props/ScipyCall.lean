import Verif.Model.ScipyCall
import Mathlib.Tactic.Set
import Verif.Props.Bounds

/-!
# C73: what an optimiser is given
-/

namespace Pyadjoint

variable {E : Type*}

/-- The methods that need no gradient. -/
def gradientFree : List String := ["COBYLA", "Nelder-Mead", "Anneal", "Powell"]

/-- The keywords `minimize` uses itself. -/
def ownKeywords : List String := ["bounds", "derivative_options", "project", "options", "jac", "hessp", "constraints"]

/-- What the dictionary of options contains when the method runs: what the caller gave, `disp` if the caller gave a dictionary without it, `iprint` for SLSQP. -/
def optionsSpec (method : String) (given : Option (PyDict E)) : PyDict E := fun k =>
  match given.bind fun d => d k with
  | some v => some v
  | none => if k = "disp" ∧ given.isSome then some .true else if k = "iprint" ∧ method = "SLSQP" then some (.int 2) else none

/-- The options of the caller: none, a dictionary, or something else. -/
def givenOptions (args : PyDict E) (σ : Dicts E) : Option (PyDict E) :=
  match args "options" with
  | some (.dict r) => some (σ r)
  | _ => none

theorem scipyOptions_spec {method : String} {kwargs : PyDict E} {fresh r : Nat} {σ σ' : Dicts E} (h : scipyOptions method kwargs fresh σ = .ok (r, σ')) :
    σ' r = optionsSpec method (givenOptions kwargs σ) ∧ (∀ q, q ≠ r → σ' q = σ q) ∧ (kwargs "options" = some (.dict r) ∨ kwargs "options" = none ∧ r = fresh) := by
  unfold scipyOptions at h
  cases ho : kwargs "options" with
  | none =>
    rw [ho] at h
    dsimp only at h
    injection h with h
    injection h with h1 h2
    subst h1
    refine ⟨?_, ?_, .inr ⟨rfl, rfl⟩⟩
    · rw [← h2]
      funext k
      by_cases hm : method = "SLSQP"
      · by_cases hk : k = "iprint"
        · subst hk; simp [hm, optionsSpec, givenOptions, ho]
        · simp [hm, optionsSpec, givenOptions, ho, hk]
      · simp [hm, optionsSpec, givenOptions, ho]
    · intro q hq
      rw [← h2]
      split
      · rw [Function.update_of_ne hq, Function.update_of_ne hq]
      · rw [Function.update_of_ne hq]
  | some v =>
    rw [ho] at h
    cases v with
    | dict r' =>
      dsimp only at h
      injection h with h
      injection h with h1 h2
      subst h1
      refine ⟨?_, ?_, .inl rfl⟩
      · rw [← h2]
        funext k
        have hg : givenOptions kwargs σ = some (σ r') := by unfold givenOptions; rw [ho]
        unfold optionsSpec
        rw [hg]
        by_cases hd : σ r' "disp" = none
        · rw [if_pos hd]
          by_cases hm : method = "SLSQP"
          · by_cases hi : σ r' "iprint" = none
            · by_cases hk : k = "iprint"
              · subst hk; simp [hm, hi]
              · by_cases hk' : k = "disp"
                · subst hk'; simp [hm, hi, hd]
                · simp [hm, hi, hk, hk']
                  cases σ r' k <;> rfl
            · by_cases hk' : k = "disp"
              · subst hk'; simp [hm, hi, hd]
              · by_cases hk : k = "iprint"
                · subst hk
                  obtain ⟨w, hw⟩ := Option.ne_none_iff_exists'.1 hi
                  simp [hm, hw]
                · simp [hm, hi, hk, hk']
                  cases σ r' k <;> rfl
          · by_cases hk' : k = "disp"
            · subst hk'; simp [hm, hd]
            · simp [hm, hk']
              cases σ r' k <;> rfl
        · rw [if_neg hd]
          obtain ⟨u, hu⟩ := Option.ne_none_iff_exists'.1 hd
          by_cases hm : method = "SLSQP"
          · by_cases hi : σ r' "iprint" = none
            · by_cases hk : k = "iprint"
              · subst hk; simp [hm, hi]
              · by_cases hk' : k = "disp"
                · subst hk'; simp [hm, hi, hu]
                · simp [hm, hi, hk, hk']
                  cases σ r' k <;> rfl
            · by_cases hk' : k = "disp"
              · subst hk'; simp [hm, hi, hu]
              · by_cases hk : k = "iprint"
                · subst hk
                  obtain ⟨w, hw⟩ := Option.ne_none_iff_exists'.1 hi
                  simp [hm, hw]
                · simp [hm, hi, hk, hk']
                  cases σ r' k <;> rfl
          · by_cases hk' : k = "disp"
            · subst hk'; simp [hm, hu]
            · simp [hm, hk']
              cases σ r' k <;> rfl
      · intro q hq
        rw [← h2]
        split <;> split <;> simp [Function.update_of_ne hq]
    | _ => cases h

/-- The gradient function a method of SciPy is given. -/
def gradientOf (method : String) (args : PyDict E) : PyVal E :=
  .dJ { forget := if method = "Newton-CG" then none else some false, project := args "project", options := args "derivative_options" }

theorem restKwargs_of_ne (args : PyDict E) {k : String} (h1 : k ≠ "bounds") (h2 : k ≠ "derivative_options") (h3 : k ≠ "project") : restKwargs args k = args k := by
  unfold restKwargs
  rw [Function.update_of_ne h3, Function.update_of_ne h2, Function.update_of_ne h1]

theorem restKwargs_none (args : PyDict E) {k : String} (h : k = "bounds" ∨ k = "derivative_options" ∨ k = "project") : restKwargs args k = none := by
  unfold restKwargs
  rcases h with rfl | rfl | rfl <;> simp

theorem withDerivatives_of_ne (method : String) (g : GradFn (PyVal E)) (kw : PyDict E) {k : String} (h1 : k ≠ "jac") (h2 : k ≠ "hessp") :
    withDerivatives method g kw k = kw k := by
  unfold withDerivatives
  by_cases c1 : method ∈ ["COBYLA", "Nelder-Mead", "Anneal", "Powell"] <;> by_cases c2 : method = "Newton-CG"
  · rw [if_pos c2, if_neg (not_not.2 c1), Function.update_of_ne h2]
  · rw [if_neg c2, if_neg (not_not.2 c1)]
  · rw [if_pos c2, if_pos c1, Function.update_of_ne h2, Function.update_of_ne h1]
  · rw [if_neg c2, if_pos c1, Function.update_of_ne h1]

theorem withDerivatives_jac (method : String) (g : GradFn (PyVal E)) (kw : PyDict E) :
    withDerivatives method g kw "jac" = if method ∈ gradientFree then kw "jac" else some (.dJ g) := by
  unfold withDerivatives gradientFree
  by_cases c1 : method ∈ ["COBYLA", "Nelder-Mead", "Anneal", "Powell"] <;> by_cases c2 : method = "Newton-CG"
  · rw [if_pos c2, if_neg (not_not.2 c1), Function.update_of_ne (by decide), if_pos c1]
  · rw [if_neg c2, if_neg (not_not.2 c1), if_pos c1]
  · rw [if_pos c2, if_pos c1, Function.update_of_ne (by decide), Function.update_self, if_neg c1]
  · rw [if_neg c2, if_pos c1, Function.update_self, if_neg c1]

theorem withDerivatives_hessp (method : String) (g : GradFn (PyVal E)) (kw : PyDict E) :
    withDerivatives method g kw "hessp" = if method = "Newton-CG" then some .H else kw "hessp" := by
  unfold withDerivatives
  by_cases c1 : method ∈ ["COBYLA", "Nelder-Mead", "Anneal", "Powell"] <;> by_cases c2 : method = "Newton-CG"
  · rw [if_pos c2, if_pos c2, Function.update_self]
  · rw [if_neg c2, if_neg c2, if_neg (not_not.2 c1)]
  · rw [if_pos c2, if_pos c2, Function.update_self]
  · rw [if_neg c2, if_neg c2, if_pos c1, Function.update_of_ne (by decide)]

theorem withConstraints_spec {kw kw' : PyDict E} (h : withConstraints kw = .ok kw') : (∀ k, k ≠ "constraints" → kw' k = kw k) ∧
    (kw "constraints" = none ∧ kw' "constraints" = none ∨ ∃ n, kw "constraints" = some (.obj n) ∧ kw' "constraints" = some (.scipyConstraints n)) := by
  unfold withConstraints at h
  cases hc : kw "constraints" with
  | none =>
    rw [hc] at h
    injection h with h
    subst h
    exact ⟨fun _ _ => rfl, .inl ⟨rfl, hc⟩⟩
  | some v =>
    rw [hc] at h
    cases v with
    | obj n =>
      simp only [scipyConstraintArg] at h
      injection h with h
      subst h
      exact ⟨fun k hk => Function.update_of_ne hk _ _, .inr ⟨n, rfl, Function.update_self ..⟩⟩
    | _ => simp only [scipyConstraintArg] at h; cases h

/-- The keyword arguments before the call, for all methods of SciPy. -/
theorem kwargs_spec {method : String} {args kw : PyDict E} {r : Nat}
    (h : withConstraints (withDerivatives method (scipyGradFn method args) (Function.update (restKwargs args) "options" (some (.dict r)))) = .ok kw) :
    kw "jac" = (if method ∈ gradientFree then args "jac" else some (gradientOf method args)) ∧
      kw "hessp" = (if method = "Newton-CG" then some .H else args "hessp") ∧ kw "options" = some (.dict r) ∧
      (args "constraints" = none ∧ kw "constraints" = none ∨ ∃ n, args "constraints" = some (.obj n) ∧ kw "constraints" = some (.scipyConstraints n)) ∧
      kw "bounds" = none ∧ kw "derivative_options" = none ∧ kw "project" = none ∧ ∀ k, k ∉ ownKeywords → kw k = args k := by
  obtain ⟨h1, h2⟩ := withConstraints_spec h
  refine ⟨?_, ?_, ?_, ?_, ?_, ?_, ?_, fun k hk => ?_⟩
  · rw [h1 _ (by decide), withDerivatives_jac, Function.update_of_ne (by decide), restKwargs_of_ne _ (by decide) (by decide) (by decide)]; rfl
  · rw [h1 _ (by decide), withDerivatives_hessp, Function.update_of_ne (by decide), restKwargs_of_ne _ (by decide) (by decide) (by decide)]
  · rw [h1 _ (by decide), withDerivatives_of_ne _ _ _ (by decide) (by decide), Function.update_self]
  · rwa [withDerivatives_of_ne _ _ _ (by decide) (by decide), Function.update_of_ne (by decide), restKwargs_of_ne _ (by decide) (by decide) (by decide)] at h2
  · rw [h1 _ (by decide), withDerivatives_of_ne _ _ _ (by decide) (by decide), Function.update_of_ne (by decide), restKwargs_none _ (.inl rfl)]
  · rw [h1 _ (by decide), withDerivatives_of_ne _ _ _ (by decide) (by decide), Function.update_of_ne (by decide), restKwargs_none _ (.inr (.inl rfl))]
  · rw [h1 _ (by decide), withDerivatives_of_ne _ _ _ (by decide) (by decide), Function.update_of_ne (by decide), restKwargs_none _ (.inr (.inr rfl))]
  · simp only [ownKeywords, List.mem_cons, List.not_mem_nil, or_false, not_or] at hk
    obtain ⟨a1, a2, a3, a4, a5, a6, a7⟩ := hk
    rw [h1 _ a7, withDerivatives_of_ne _ _ _ a5 a6, Function.update_of_ne a4, restKwargs_of_ne _ a1 a2 a3]

theorem givenOptions_rest (args : PyDict E) (σ : Dicts E) : givenOptions (restKwargs args) σ = givenOptions args σ := by
  unfold givenOptions
  rw [restKwargs_of_ne _ (by decide) (by decide) (by decide)]

/-- **C73.**  The optimiser is given bounds exactly if the caller gave some, and they are the caller's, serialised. -/
theorem bounds_given_iff {sizes : List Nat} {a : Option (PyVal E)} {b : Option (List (Option E × Option E))} (h : boundsParam sizes a = .ok b) :
    (b = none ↔ a = none ∨ a = some .none) ∧ ∀ l, b = some l → ∃ v, a = some v ∧ v.serialise sizes = .ok l := by
  unfold boundsParam at h
  split at h
  · injection h with h; subst h; exact ⟨by simp, by simp⟩
  · injection h with h; subst h; exact ⟨by simp, by simp⟩
  · rename_i v hv
    cases hs : v.serialise sizes with
    | error e => rw [hs] at h; cases h
    | ok r =>
      rw [hs] at h
      injection h with h
      subst h
      exact ⟨by simpa using hv, fun l hl => ⟨v, rfl, by injection hl with hl; rw [← hl]; exact hs⟩⟩

example : boundsParam [1] (some (.none : PyVal ℝ)) = .ok none ∧ boundsParam [1] (none : Option (PyVal ℝ)) = .ok none := ⟨rfl, rfl⟩

/-- **C73.**  A method of `scipy.optimize.minimize` is given: the caller's bounds laid out entry by entry; the gradient, with the caller's `derivative_options`, unless it is a
method without gradients; the Hessian action for Newton-CG; the caller's options with the defaults; the constraints; and every other keyword argument as it came. -/
theorem minimize_hands_over_partial {sizes : List Nat} {method : String} {args : PyDict E} {fresh : Nat} {σ σ' : Dicts E} {c : OptCall E}
    (hm : method ∈ scipyMethods) (hb : method ≠ "basinhopping") (h : minimizeCall sizes method args fresh σ = (.ok c, σ')) :
    ∃ b kw r, c = .minimize method b kw ∧ boundsParam sizes (args "bounds") = .ok b ∧
      kw "jac" = (if method ∈ gradientFree then args "jac" else some (gradientOf method args)) ∧
      kw "hessp" = (if method = "Newton-CG" then some .H else args "hessp") ∧
      kw "options" = some (.dict r) ∧ σ' r = optionsSpec method (givenOptions args σ) ∧ (args "options" = some (.dict r) ∨ args "options" = none ∧ r = fresh) ∧
      (args "constraints" = none ∧ kw "constraints" = none ∨ ∃ n, args "constraints" = some (.obj n) ∧ kw "constraints" = some (.scipyConstraints n)) ∧
      kw "bounds" = none ∧ kw "derivative_options" = none ∧ kw "project" = none ∧
      (∀ k, k ∉ ownKeywords → kw k = args k) ∧ ∀ q, q ≠ r → σ' q = σ q := by
  have hc : method ≠ "Custom" := by rintro rfl; simp [scipyMethods] at hm
  unfold minimizeCall at h
  rw [if_neg hc, if_pos hm] at h
  unfold minimizeScipy at h
  cases ho : scipyOptions method (restKwargs args) fresh σ with
  | error e => rw [ho] at h; cases h
  | ok p =>
    obtain ⟨r, σ₁⟩ := p
    obtain ⟨s1, s2, s3⟩ := scipyOptions_spec ho
    rw [ho] at h
    dsimp only at h
    rw [givenOptions_rest] at s1
    rw [restKwargs_of_ne _ (by decide) (by decide) (by decide)] at s3
    cases hk : withConstraints (withDerivatives method (scipyGradFn method args) (Function.update (restKwargs args) "options" (some (.dict r)))) with
    | error e => rw [hk] at h; cases h
    | ok kw =>
      rw [hk] at h
      dsimp only at h
      rw [if_neg hb] at h
      cases hbp : boundsParam sizes (args "bounds") with
      | error e => rw [hbp] at h; cases h
      | ok b =>
        rw [hbp] at h
        injection h with h h'
        injection h with h
        subst h h'
        obtain ⟨k1, k2, k3, k4, k5, k6, k7, k8⟩ := kwargs_spec hk
        exact ⟨b, kw, r, rfl, rfl, k1, k2, k3, s1, s3, k4, k5, k6, k7, k8, s2⟩

/-- Whether the caller's options are absent or a dictionary. -/
def OptionsOk (args : PyDict E) : Prop := args "options" = none ∨ ∃ r, args "options" = some (.dict r)

/-- Whether the caller's constraints are absent or constraints. -/
def ConstraintsOk (args : PyDict E) : Prop := args "constraints" = none ∨ ∃ n, args "constraints" = some (.obj n)

theorem optionsOk_iff (method : String) (args : PyDict E) (fresh : Nat) (σ : Dicts E) : (∃ p, scipyOptions method (restKwargs args) fresh σ = .ok p) ↔ OptionsOk args := by
  unfold scipyOptions OptionsOk
  rw [restKwargs_of_ne _ (by decide) (by decide) (by decide)]
  cases ho : args "options" with
  | none => exact ⟨fun _ => .inl rfl, fun _ => ⟨_, rfl⟩⟩
  | some v =>
    cases v with
    | dict r => exact ⟨fun _ => .inr ⟨r, rfl⟩, fun _ => ⟨_, rfl⟩⟩
    | _ =>
      refine ⟨?_, ?_⟩
      · rintro ⟨p, hp⟩; cases hp
      · rintro (h | ⟨r, h⟩) <;> cases h

theorem constraintsOk_iff (method : String) (args : PyDict E) (r : Nat) :
    (∃ kw, withConstraints (withDerivatives method (scipyGradFn method args) (Function.update (restKwargs args) "options" (some (.dict r)))) = .ok kw) ↔ ConstraintsOk args := by
  constructor
  · rintro ⟨kw, h⟩
    rcases (kwargs_spec h).2.2.2.1 with ⟨h, -⟩ | ⟨n, h, -⟩
    · exact .inl h
    · exact .inr ⟨n, h⟩
  · intro h
    unfold withConstraints
    rw [withDerivatives_of_ne _ _ _ (by decide) (by decide), Function.update_of_ne (by decide), restKwargs_of_ne _ (by decide) (by decide) (by decide)]
    rcases h with h | ⟨n, h⟩ <;> rw [h] <;> exact ⟨_, rfl⟩

/-- **C73, exceptions.**  A method of `scipy.optimize.minimize` is called exactly if the options are a dictionary or absent, the constraints are constraints or absent, and the bounds fit the controls
or are absent. -/
theorem minimize_calls_iff (sizes : List Nat) {method : String} (args : PyDict E) (fresh : Nat) (σ : Dicts E) (hm : method ∈ scipyMethods) (hb : method ≠ "basinhopping") :
    (∃ c, (minimizeCall sizes method args fresh σ).1 = .ok c) ↔ OptionsOk args ∧ ConstraintsOk args ∧ ∃ b, boundsParam sizes (args "bounds") = .ok b := by
  constructor
  · rintro ⟨c, h⟩
    obtain ⟨b, kw, r, -, hbp, -, -, -, -, ho, hc, -⟩ := minimize_hands_over_partial hm hb (Prod.ext h rfl)
    refine ⟨?_, ?_, b, hbp⟩
    · rcases ho with ho | ⟨ho, -⟩
      · exact .inr ⟨r, ho⟩
      · exact .inl ho
    · rcases hc with ⟨hc, -⟩ | ⟨n, hc, -⟩
      · exact .inl hc
      · exact .inr ⟨n, hc⟩
  · rintro ⟨ho, hc, b, hbp⟩
    have hcu : method ≠ "Custom" := by rintro rfl; simp [scipyMethods] at hm
    unfold minimizeCall
    rw [if_neg hcu, if_pos hm]
    unfold minimizeScipy
    obtain ⟨⟨r, σ₁⟩, hp⟩ := (optionsOk_iff method args fresh σ).2 ho
    obtain ⟨kw, hk⟩ := (constraintsOk_iff method args r).2 hc
    rw [hp]
    dsimp only
    rw [hk]
    dsimp only
    rw [if_neg hb, hbp]
    exact ⟨_, rfl⟩

/-- **C73.**  An unknown method raises `KeyError` and changes nothing. -/
theorem unknown_method (sizes : List Nat) {method : String} (args : PyDict E) (fresh : Nat) (σ : Dicts E) (h : method ∉ scipyMethods) (hc : method ≠ "Custom") :
    minimizeCall sizes method args fresh σ = (.error .keyError, σ) := by
  unfold minimizeCall
  rw [if_neg hc, if_neg h]

/-- **C73, own algorithms.**  The caller's algorithm is called exactly if it is given and the bounds fit; it gets the gradient with the caller's `derivative_options`, the bounds laid out entry by
entry, and all other keyword arguments as they came; no dictionary changes. -/
theorem custom_hands_over (sizes : List Nat) (args : PyDict E) (fresh : Nat) (σ : Dicts E) :
    (minimizeCall sizes "Custom" args fresh σ).2 = σ ∧
      ((args "algorithm" = none ∧ (minimizeCall sizes "Custom" args fresh σ).1 = .error .keyError) ∨
        ∃ a, args "algorithm" = some a ∧ ((∃ e, boundsParam sizes (args "bounds") = .error e ∧ (minimizeCall sizes "Custom" args fresh σ).1 = .error e) ∨
          ∃ b kw, boundsParam sizes (args "bounds") = .ok b ∧
            (minimizeCall sizes "Custom" args fresh σ).1 = .ok (.custom a { forget := none, project := none, options := args "derivative_options" } b kw) ∧
            ∀ k, kw k = if k ∈ ["algorithm", "bounds", "derivative_options"] then none else args k)) := by
  unfold minimizeCall
  rw [if_pos rfl]
  unfold minimizeCustom
  dsimp only
  rw [Function.update_of_ne (show "algorithm" ≠ "derivative_options" by decide), Function.update_of_ne (show "algorithm" ≠ "bounds" by decide)]
  cases ha : args "algorithm" with
  | none => exact ⟨rfl, .inl ⟨rfl, rfl⟩⟩
  | some a =>
    cases hb : boundsParam sizes (args "bounds") with
    | error e => exact ⟨rfl, .inr ⟨a, rfl, .inl ⟨e, rfl, rfl⟩⟩⟩
    | ok b =>
      refine ⟨rfl, .inr ⟨a, rfl, .inr ⟨b, _, rfl, rfl, fun k => ?_⟩⟩⟩
      by_cases h1 : k = "algorithm"
      · subst h1; simp
      by_cases h2 : k = "derivative_options"
      · subst h2; simp
      by_cases h3 : k = "bounds"
      · subst h3; simp
      · simp [h1, h2, h3]

/-! ## Running it again -/

theorem optionsSpec_again (method : String) (d : PyDict E) : optionsSpec method (some (optionsSpec method (some d))) = optionsSpec method (some d) := by
  funext k
  have : ∀ d' : PyDict E, optionsSpec method (some d') k =
      match d' k with
      | some v => some v
      | none => if k = "disp" then some .true else if k = "iprint" ∧ method = "SLSQP" then some (.int 2) else none := by
    intro d'; simp [optionsSpec]
  rw [this, this]
  cases d k with
  | some v => rfl
  | none =>
    dsimp only
    by_cases h1 : k = "disp"
    · simp [h1]
    · by_cases h2 : k = "iprint" ∧ method = "SLSQP"
      · simp [h2]
      · simp [h1, h2]

/-- **C73, again.**  Running a method of `scipy.optimize.minimize` a second time with the same arguments makes the same call and changes no dictionary any more. -/
theorem minimize_again {sizes : List Nat} {method : String} {args : PyDict E} {fresh fresh' r : Nat} {σ σ' : Dicts E} {c : OptCall E}
    (hm : method ∈ scipyMethods) (hb : method ≠ "basinhopping") (ho : args "options" = some (.dict r)) (h : minimizeCall sizes method args fresh σ = (.ok c, σ')) :
    minimizeCall sizes method args fresh' σ' = (.ok c, σ') := by
  obtain ⟨c', hc'⟩ := (minimize_calls_iff sizes args fresh' σ' hm hb).2 ((minimize_calls_iff sizes args fresh σ hm hb).1 ⟨c, by rw [h]⟩)
  obtain ⟨b, kw, q, rfl, hbp, hj, hh, hop, hs, hq, hcon, k1, k2, k3, kr, -⟩ := minimize_hands_over_partial hm hb h
  obtain ⟨b', kw', q', rfl, hbp', hj', hh', hop', hs', hq', hcon', k1', k2', k3', kr', hoth'⟩ :=
    minimize_hands_over_partial (c := c') (σ' := (minimizeCall sizes method args fresh' σ').2) hm hb (Prod.ext hc' rfl)
  have eq : q = r := by rcases hq with hq | ⟨hq, -⟩ <;> rw [ho] at hq <;> cases hq; rfl
  have eq' : q' = r := by rcases hq' with hq' | ⟨hq', -⟩ <;> rw [ho] at hq' <;> cases hq'; rfl
  subst eq eq'
  have eb : b' = b := by rw [hbp] at hbp'; injection hbp' with e; exact e.symm
  have ekw : kw' = kw := by
    funext k
    by_cases hk : k ∈ ownKeywords
    · simp only [ownKeywords, List.mem_cons, List.not_mem_nil, or_false] at hk
      rcases hk with rfl | rfl | rfl | rfl | rfl | rfl | rfl
      · rw [k1, k1']
      · rw [k2, k2']
      · rw [k3, k3']
      · rw [hop, hop']
      · rw [hj, hj']
      · rw [hh, hh']
      · rcases hcon with ⟨a1, a2⟩ | ⟨n, a1, a2⟩ <;> rcases hcon' with ⟨b1, b2⟩ | ⟨n', b1, b2⟩
        · rw [a2, b2]
        · rw [a1] at b1; cases b1
        · rw [a1] at b1; cases b1
        · rw [a1] at b1; cases b1; rw [a2, b2]
    · rw [kr k hk, kr' k hk]
  have eσ : (minimizeCall sizes method args fresh' σ').2 = σ' := by
    funext p
    by_cases hp : p = q'
    · subst hp
      rw [hs']
      have e1 : givenOptions args σ = some (σ p) := by unfold givenOptions; rw [ho]
      have e2 : givenOptions args σ' = some (σ' p) := by unfold givenOptions; rw [ho]
      rw [e2, hs, e1, optionsSpec_again]
    · exact hoth' p hp
  exact Prod.ext (by rw [hc', eb, ekw]) eσ

/-! ## Basin hopping -/

/-- **C73, basin hopping.**  It is called with the caller's keyword arguments, without `options` and `jac`; the caller's dictionary `minimizer_kwargs` holds the gradient and the bounds laid out entry by entry,
and otherwise what it held. -/
theorem basinhopping_hands_over {sizes : List Nat} {args : PyDict E} {fresh : Nat} {σ σ' : Dicts E} {c : OptCall E} {m : Nat}
    (hmk : args "minimizer_kwargs" = some (.dict m)) (hne : args "options" ≠ some (.dict m)) (hf : fresh ≠ m)
    (h : minimizeCall sizes "basinhopping" args fresh σ = (.ok c, σ')) :
    ∃ kw, c = .basinhopping kw ∧ kw "options" = none ∧ kw "jac" = none ∧ (∀ k, k ∉ ownKeywords → kw k = args k) ∧
      σ' m "jac" = some (gradientOf "basinhopping" args) ∧
      (σ m "bounds" = none ∧ σ' m "bounds" = none ∨ ∃ b rows, σ m "bounds" = some b ∧ b.serialise sizes = .ok rows ∧ σ' m "bounds" = some (.array rows)) ∧
      ∀ k, k ≠ "jac" → k ≠ "bounds" → σ' m k = σ m k := by
  unfold minimizeCall at h
  rw [if_neg (by decide), if_pos (by decide)] at h
  unfold minimizeScipy at h
  cases ho : scipyOptions "basinhopping" (restKwargs args) fresh σ with
  | error e => rw [ho] at h; cases h
  | ok p =>
    obtain ⟨r, σ₁⟩ := p
    obtain ⟨s1, s2, s3⟩ := scipyOptions_spec ho
    rw [restKwargs_of_ne _ (by decide) (by decide) (by decide)] at s3
    have hr : m ≠ r := by
      rcases s3 with s3 | ⟨-, s3⟩
      · rintro rfl; exact hne s3
      · rintro rfl; exact hf s3.symm
    rw [ho] at h
    dsimp only at h
    cases hk : withConstraints (withDerivatives "basinhopping" (scipyGradFn "basinhopping" args) (Function.update (restKwargs args) "options" (some (.dict r)))) with
    | error e => rw [hk] at h; cases h
    | ok kw =>
      rw [hk] at h
      dsimp only at h
      rw [if_pos rfl] at h
      obtain ⟨k1, k2, k3, k4, k5, k6, k7, k8⟩ := kwargs_spec hk
      unfold callBasinhopping at h
      dsimp only at h
      set kw' : PyDict E := Function.update (Function.update kw "options" none) "jac" none with hkw'
      have e1 : kw' "options" = none ∧ kw' "jac" = none := by simp [hkw']
      have e2 : ∀ k, k ≠ "options" → k ≠ "jac" → kw' k = kw k := fun k a b => by rw [hkw', Function.update_of_ne b, Function.update_of_ne a]
      have e3 : ∀ k, k ∉ ownKeywords → kw' k = args k := by
        intro k hk
        have hk' := hk
        simp only [ownKeywords, List.mem_cons, List.not_mem_nil, or_false, not_or] at hk'
        rw [e2 k hk'.2.2.2.1 hk'.2.2.2.2.1, k8 k hk]
      clear_value kw'
      rw [e3 _ (by decide), hmk] at h
      dsimp only at h
      rw [Function.update_self, Function.update_of_ne (by decide), s2 m hr] at h
      cases hbd : σ m "bounds" with
      | none =>
        rw [hbd] at h
        injection h with h h'
        injection h with h
        subst h h'
        refine ⟨kw', rfl, e1.1, e1.2, e3, by rw [Function.update_self, Function.update_self]; rfl, .inl ⟨rfl, ?_⟩, fun k a b => ?_⟩
        · rw [Function.update_self, Function.update_of_ne (by decide), hbd]
        · rw [Function.update_self, Function.update_of_ne a]
      | some b =>
        rw [hbd] at h
        dsimp only at h
        cases hs : b.serialise sizes with
        | error e => rw [hs] at h; cases h
        | ok rows =>
          rw [hs] at h
          injection h with h h'
          injection h with h
          subst h h'
          refine ⟨kw', rfl, e1.1, e1.2, e3, ?_, .inr ⟨b, rows, rfl, hs, by rw [Function.update_self, Function.update_self]⟩, fun k a b => ?_⟩
          · rw [Function.update_self, Function.update_of_ne (by decide), Function.update_self]; rfl
          · rw [Function.update_self, Function.update_of_ne b, Function.update_of_ne a]

/-- **C73 fails for basin hopping**: the keyword `bounds` has no effect at all. -/
theorem basinhopping_ignores_bounds (sizes : List Nat) (args : PyDict E) (b : Option (PyVal E)) (fresh : Nat) (σ : Dicts E) :
    minimizeCall sizes "basinhopping" (Function.update args "bounds" b) fresh σ = minimizeCall sizes "basinhopping" args fresh σ := by
  have e1 : restKwargs (Function.update args "bounds" b) = restKwargs args := by
    unfold restKwargs; rw [Function.update_idem]
  have e2 : scipyGradFn "basinhopping" (Function.update args "bounds" b) = scipyGradFn "basinhopping" args := by
    unfold scipyGradFn; simp
  unfold minimizeCall
  rw [if_neg (by decide), if_pos (by decide), if_neg (by decide), if_pos (by decide)]
  unfold minimizeScipy
  rw [e1, e2]
  cases scipyOptions "basinhopping" (restKwargs args) fresh σ with
  | error e => rfl
  | ok p =>
    dsimp only
    cases withConstraints (withDerivatives "basinhopping" (scipyGradFn "basinhopping" args) (Function.update (restKwargs args) "options" (some (.dict p.1)))) with
    | error e => rfl
    | ok kw => dsimp only; rw [if_pos rfl, if_pos rfl]

/-- **C73 fails for basin hopping**: without `minimizer_kwargs` it is never called. -/
theorem basinhopping_needs_kwargs (sizes : List Nat) (args : PyDict E) (fresh : Nat) (σ : Dicts E) (h : args "minimizer_kwargs" = none)
    (ho : OptionsOk args) (hc : ConstraintsOk args) : (minimizeCall sizes "basinhopping" args fresh σ).1 = .error .keyError := by
  unfold minimizeCall
  rw [if_neg (by decide), if_pos (by decide)]
  unfold minimizeScipy
  obtain ⟨⟨r, σ₁⟩, hp⟩ := (optionsOk_iff "basinhopping" args fresh σ).2 ho
  obtain ⟨kw, hk⟩ := (constraintsOk_iff "basinhopping" args r).2 hc
  rw [hp]
  dsimp only
  rw [hk]
  dsimp only
  rw [if_pos rfl]
  unfold callBasinhopping
  dsimp only
  rw [Function.update_of_ne (by decide), Function.update_of_ne (by decide), (kwargs_spec hk).2.2.2.2.2.2.2 _ (by decide), h]

theorem basinhopping_returns {sizes : List Nat} {args : PyDict E} {fresh : Nat} {σ : Dicts E} {m : Nat} {v : PyVal E}
    (hmk : args "minimizer_kwargs" = some (.dict m)) (hne : args "options" ≠ some (.dict m)) (hf : fresh ≠ m) (ho : OptionsOk args) (hc : ConstraintsOk args)
    (hb : σ m "bounds" = some v) :
    (∀ e, v.serialise sizes = .error e → (minimizeCall sizes "basinhopping" args fresh σ).1 = .error e) ∧
      ∀ rows, v.serialise sizes = .ok rows → ∃ c σ', minimizeCall sizes "basinhopping" args fresh σ = (.ok c, σ') ∧ σ' m "bounds" = some (.array rows) := by
  obtain ⟨⟨r, σ₁⟩, hp⟩ := (optionsOk_iff "basinhopping" args fresh σ).2 ho
  obtain ⟨kw, hk⟩ := (constraintsOk_iff "basinhopping" args r).2 hc
  obtain ⟨s1, s2, s3⟩ := scipyOptions_spec hp
  rw [restKwargs_of_ne _ (by decide) (by decide) (by decide)] at s3
  have hr : m ≠ r := by
    rcases s3 with s3 | ⟨-, s3⟩
    · rintro rfl; exact hne s3
    · rintro rfl; exact hf s3.symm
  unfold minimizeCall
  rw [if_neg (by decide), if_pos (by decide)]
  unfold minimizeScipy
  rw [hp]
  dsimp only
  rw [hk]
  dsimp only
  rw [if_pos rfl]
  unfold callBasinhopping
  dsimp only
  rw [Function.update_of_ne (by decide), Function.update_of_ne (by decide), (kwargs_spec hk).2.2.2.2.2.2.2 _ (by decide), hmk]
  dsimp only
  rw [Function.update_self, Function.update_of_ne (by decide), s2 m hr, hb]
  dsimp only
  refine ⟨fun e he => by rw [he], fun rows he => ?_⟩
  rw [he]
  exact ⟨_, _, rfl, by rw [Function.update_self, Function.update_self]⟩

/-- **C73 fails for basin hopping run twice**: the bounds in the caller's `minimizer_kwargs` are replaced by SciPy's layout, and a second run lays that out again.  With two numbers as controls
the second run has the bounds of the first transposed: the first control is kept between the two lower bounds, the second between the two upper bounds. -/
theorem basinhopping_again_transposed {args : PyDict E} {fresh fresh' : Nat} {σ : Dicts E} {m : Nat} {l₁ l₂ u₁ u₂ : E}
    (hmk : args "minimizer_kwargs" = some (.dict m)) (hne : args "options" ≠ some (.dict m)) (hf : fresh ≠ m) (hf' : fresh' ≠ m) (ho : OptionsOk args) (hc : ConstraintsOk args)
    (hb : σ m "bounds" = some (.bounds (.nested [[.float l₁, .float l₂], [.float u₁, .float u₂]]))) :
    ∃ c c' σ' σ'', minimizeCall [1, 1] "basinhopping" args fresh σ = (.ok c, σ') ∧ minimizeCall [1, 1] "basinhopping" args fresh' σ' = (.ok c', σ'') ∧
      σ' m "bounds" = some (.array [(some l₁, some u₁), (some l₂, some u₂)]) ∧ σ'' m "bounds" = some (.array [(some l₁, some l₂), (some u₁, some u₂)]) := by
  obtain ⟨c, σ', h1, h2⟩ := (basinhopping_returns (sizes := [1, 1]) (fresh := fresh) hmk hne hf ho hc hb).2 [(some l₁, some u₁), (some l₂, some u₂)] rfl
  obtain ⟨c', σ'', h3, h4⟩ := (basinhopping_returns (sizes := [1, 1]) (fresh := fresh') hmk hne hf' ho hc h2).2 [(some l₁, some l₂), (some u₁, some u₂)] rfl
  exact ⟨c, c', σ', σ'', h1, h3, h2, h4⟩

/-- If the controls do not have two entries in all, the second run raises. -/
theorem basinhopping_again_refused {sizes : List Nat} {args : PyDict E} {fresh fresh' : Nat} {σ σ' : Dicts E} {m : Nat} {c : OptCall E} {v : PyVal E} {rows : List (Option E × Option E)}
    (hmk : args "minimizer_kwargs" = some (.dict m)) (hne : args "options" ≠ some (.dict m)) (hf : fresh ≠ m) (hf' : fresh' ≠ m)
    (hb : σ m "bounds" = some v) (hv : v.serialise sizes = .ok rows) (hrows : rows.length ≠ 2) (ho : OptionsOk args) (hc : ConstraintsOk args)
    (h : minimizeCall sizes "basinhopping" args fresh σ = (.ok c, σ')) :
    (minimizeCall sizes "basinhopping" args fresh' σ').1 = .error (.bounds .valueError) := by
  obtain ⟨c₁, σ₁, h1, h2⟩ := (basinhopping_returns (fresh := fresh) hmk hne hf ho hc hb).2 rows hv
  rw [h] at h1
  injection h1 with _ h1
  subst h1
  refine (basinhopping_returns (fresh := fresh') hmk hne hf' ho hc h2).1 _ ?_
  unfold PyVal.serialise PyVal.toBounds
  dsimp only
  unfold serialiseBounds serialiseRows
  match rows, hrows with
  | [], _ => rfl
  | [_], _ => rfl
  | _ :: _ :: _ :: _, _ => rfl

/-- **C73 fails for options used for several methods**: a run of SLSQP leaves `iprint` in the caller's options, which a later run of another method then gets. -/
theorem options_leak {sizes : List Nat} {method : String} {args : PyDict E} {fresh fresh' r : Nat} {σ σ' σ'' : Dicts E} {c c' : OptCall E} (hm : method ∈ scipyMethods)
    (hb : method ≠ "basinhopping") (ho : args "options" = some (.dict r)) (hi : σ r "iprint" = none)
    (h : minimizeCall sizes "SLSQP" args fresh σ = (.ok c, σ')) (h' : minimizeCall sizes method args fresh' σ' = (.ok c', σ'')) : σ'' r "iprint" = some (.int 2) := by
  obtain ⟨b, kw, q, -, -, -, -, -, hs, hq, -⟩ := minimize_hands_over_partial (by decide) (by decide) h
  obtain ⟨b', kw', q', -, -, -, -, -, hs', hq', -⟩ := minimize_hands_over_partial hm hb h'
  have eq : q = r := by rcases hq with hq | ⟨hq, -⟩ <;> rw [ho] at hq <;> cases hq; rfl
  have eq' : q' = r := by rcases hq' with hq' | ⟨hq', -⟩ <;> rw [ho] at hq' <;> cases hq'; rfl
  rw [eq] at hs
  rw [eq'] at hs'
  have e1 : givenOptions args σ = some (σ r) := by unfold givenOptions; rw [ho]
  have e2 : givenOptions args σ' = some (σ' r) := by unfold givenOptions; rw [ho]
  rw [hs', e2, hs, e1]
  simp [optionsSpec, hi]

/-! ## IPOPT -/

theorem foldl_options {X : Type*} (ps : List (String × X)) (o : String → Option X) (k : String) :
    ps.foldl (fun o p => Function.update o (ipoptName p.1) (some p.2)) o k = ((ps.filter fun p => ipoptName p.1 = k).getLast?.map Prod.snd).or (o k) := by
  induction ps generalizing o with
  | nil => simp
  | cons p ps ih =>
    rw [List.foldl_cons, ih]
    by_cases h : ipoptName p.1 = k
    · subst h
      rw [Function.update_self, List.filter_cons_of_pos (by simp), List.getLast?_cons]
      cases (ps.filter fun q => ipoptName q.1 = ipoptName p.1).getLast? <;> simp
    · rw [Function.update_of_ne (Ne.symm h), List.filter_cons_of_neg (by simpa using h)]

/-- **C73, IPOPT.**  The option `k` of IPOPT is the last of the caller's parameters that is called `k` or translates to it; otherwise the print level is 6, the scaling of a maximisation problem is -1, and
nothing else is set. -/
theorem ipopt_options {X : Type*} (six minusOne : X) (maximization : Bool) (parameters : List (String × X)) (k : String) :
    ipoptOptions six minusOne maximization (some parameters) k =
      ((parameters.filter fun p => p.1 = k ∧ k ≠ "tolerance" ∧ k ≠ "maximum_iterations" ∨ p.1 = "tolerance" ∧ k = "tol" ∨ p.1 = "maximum_iterations" ∧ k = "max_iter").getLast?.map Prod.snd).or
        (if k = "print_level" then some six else if k = "obj_scaling_factor" ∧ maximization then some minusOne else none) := by
  unfold ipoptOptions
  dsimp only [Option.getD]
  rw [foldl_options]
  congr 1
  · congr 2
    refine List.filter_congr fun p _ => ?_
    rw [decide_eq_decide]
    unfold ipoptName
    by_cases h1 : p.1 = "tolerance"
    · rw [if_pos h1, h1]
      by_cases hk : k = "tol"
      · simp [hk]
      · simp only [Ne.symm hk, hk, and_false, false_or, false_iff]
        rintro (⟨rfl, h, -⟩ | ⟨h, -⟩)
        · exact h rfl
        · exact absurd h (by decide)
    · by_cases h2 : p.1 = "maximum_iterations"
      · rw [if_neg h1, if_pos h2, h2]
        by_cases hk : k = "max_iter"
        · simp [hk]
        · simp only [Ne.symm hk, hk, and_false, or_false, false_iff]
          rintro (⟨rfl, -, h⟩ | ⟨h, -⟩)
          · exact h rfl
          · exact absurd h (by decide)
      · rw [if_neg h1, if_neg h2]
        constructor
        · rintro rfl; exact .inl ⟨rfl, h1, h2⟩
        · rintro (⟨h, -⟩ | ⟨h, -⟩ | ⟨h, -⟩)
          · exact h
          · exact absurd h h1
          · exact absurd h h2
  · by_cases hm : maximization = true
    · rw [if_pos hm]
      by_cases h1 : k = "obj_scaling_factor"
      · subst h1; simp [hm]
      · by_cases h2 : k = "print_level"
        · subst h2; simp
        · simp [h1, h2]
    · rw [if_neg hm]
      by_cases h2 : k = "print_level"
      · subst h2; simp
      · simp [h2, hm]

/-- **C73 fails for a scaled maximisation problem**: with `obj_scaling_factor` among the parameters, a maximisation and a minimisation problem give IPOPT the same options, so that it minimises. -/
theorem ipopt_maximization_lost {X : Type*} (six minusOne : X) (parameters : List (String × X)) {v : X} (h : ("obj_scaling_factor", v) ∈ parameters) :
    ipoptOptions six minusOne true (some parameters) = ipoptOptions six minusOne false (some parameters) := by
  funext k
  rw [ipopt_options, ipopt_options]
  by_cases hk : k = "obj_scaling_factor"
  · subst hk
    have : ((parameters.filter fun p => p.1 = "obj_scaling_factor" ∧ "obj_scaling_factor" ≠ "tolerance" ∧ "obj_scaling_factor" ≠ "maximum_iterations" ∨
        p.1 = "tolerance" ∧ "obj_scaling_factor" = "tol" ∨ p.1 = "maximum_iterations" ∧ "obj_scaling_factor" = "max_iter").getLast?) ≠ none := by
      rw [ne_eq, List.getLast?_eq_none_iff]
      intro he
      have := List.mem_filter (p := fun p => decide (p.1 = "obj_scaling_factor" ∧ "obj_scaling_factor" ≠ "tolerance" ∧ "obj_scaling_factor" ≠ "maximum_iterations" ∨
        p.1 = "tolerance" ∧ "obj_scaling_factor" = "tol" ∨ p.1 = "maximum_iterations" ∧ "obj_scaling_factor" = "max_iter")) |>.2 ⟨h, by simp⟩
      rw [he] at this
      cases this
    obtain ⟨w, hw⟩ := Option.ne_none_iff_exists'.1 this
    rw [hw]
    rfl
  · simp [hk]

example : ipoptOptions (X := ℤ) 6 (-1) true (some [("tolerance", 3), ("acceptable_tol", 4)]) "tol" = some 3 ∧
    ipoptOptions (X := ℤ) 6 (-1) true (some [("tolerance", 3), ("acceptable_tol", 4)]) "obj_scaling_factor" = some (-1) := by decide

/-! ## Examples -/

/-- `bounds=[[0., 1.], [5., 6.]], options={"maxiter": …}, tol=…`. -/
def exArgs : PyDict ℤ := fun k =>
  if k = "bounds" then some (.bounds (.nested [[.float 0, .float 1], [.float 5, .float 6]])) else if k = "options" then some (.dict 0)
  else if k = "tol" then some (.obj 7) else if k = "minimizer_kwargs" then some (.dict 1) else none

def exDicts : Dicts ℤ := fun r k =>
  if r = 0 ∧ k = "maxiter" then some (.obj 3) else if r = 1 ∧ k = "bounds" then some (.bounds (.nested [[.float 0, .float 1], [.float 5, .float 6]])) else none

example : OptionsOk exArgs ∧ ConstraintsOk exArgs ∧ boundsParam [1, 1] (exArgs "bounds") = .ok (some [(some 0, some 5), (some 1, some 6)]) :=
  ⟨.inr ⟨0, rfl⟩, .inl rfl, rfl⟩

/-- L-BFGS-B is called, and its options are `maxiter` of the caller and `disp`. -/
example : ∃ c, (minimizeCall [1, 1] "L-BFGS-B" exArgs 5 exDicts).1 = .ok c ∧ (minimizeCall [1, 1] "L-BFGS-B" exArgs 5 exDicts).2 0 "maxiter" = some (.obj 3) ∧
    (minimizeCall [1, 1] "L-BFGS-B" exArgs 5 exDicts).2 0 "disp" = some .true := ⟨_, rfl, rfl, rfl⟩

/-- The hypotheses of the theorems on basin hopping hold. -/
example : exArgs "minimizer_kwargs" = some (.dict 1) ∧ exArgs "options" ≠ some (.dict 1) ∧ OptionsOk exArgs ∧ ConstraintsOk exArgs ∧
    exDicts 1 "bounds" = some (.bounds (.nested [[.float 0, .float 1], [.float 5, .float 6]])) :=
  ⟨rfl, by
    show some (PyVal.dict 0) ≠ some (PyVal.dict 1)
    simp, .inr ⟨0, rfl⟩, .inl rfl, rfl⟩

/-- A run of SLSQP and one of CG after it, as in `options_leak`. -/
example : ∃ c σ', minimizeCall [1, 1] "SLSQP" exArgs 5 exDicts = (.ok c, σ') ∧ ∃ c', (minimizeCall [1, 1] "CG" exArgs 6 σ').1 = .ok c' ∧ exDicts 0 "iprint" = none :=
  ⟨_, _, rfl, _, rfl, rfl⟩

end Pyadjoint
