import Verif.Props.TaoLayout
import Verif.Props.HistoryBlocks
import Verif.Props.Pruning
import Mathlib.Algebra.Ring.Defs
import Mathlib.Tactic.NormNum

/-!
# C59: what TAO is told about the functional
-/

namespace Pyadjoint.Tao

variable {V A K : Type*}

/-! ### Specification -/

/-- What is assumed of a solver when it is created: a well-formed tape that holds the controls, blocks that return values, no sweep in progress,
and overloaded types that keep to their interface. -/
structure Ready (S : Solver V A K) (h₀ : Heap V V A) : Prop where
  wf : WF S.bs
  nodup : S.cs.Nodup
  onTape : ∀ c ∈ S.cs, OnTape S.bs c
  total : ∀ b ∈ S.bs, ∀ inputs i, inputs.length = b.deps.length → i < b.outs.length → (b.recomputeC inputs i).isSome
  flags : ∀ v, (h₀ v).isControl = false
  marks : ∀ v, (h₀ v).marked = false
  lawV : S.cV.Lawful
  objsOnTape : ∀ c ∈ S.objs, OnTape S.bs c

/-- The control values a vector stands for. -/
def decoded (S : Solver V A K) (h₀ : Heap V V A) (x : List K) : List V :=
  List.zipWith S.cV.dec (S.newControl h₀) (split (S.sizes h₀) x)

/-- All vectors have the length of the solver's. -/
def Sized (N : Nat) : Callback K → Prop
  | .objGrad x g => x.length = N ∧ g.length = N
  | .setControl x => x.length = N
  | .shift _ => True
  | .mult x y => x.length = N ∧ y.length = N
  | .gradNorm x y => x.length = N ∧ y.length = N

/-- What a callback does to the point at which the Hessian is to be taken and to the shift. -/
def pointStep [Add K] [Zero K] (S : Solver V A K) (h₀ : Heap V V A) (p : List V × K) : Callback K → List V × K
  | .setControl x => (decoded S h₀ x, 0)
  | .shift a => (p.1, p.2 + a)
  | _ => p

/-- The point at which the Hessian is to be taken after some callbacks, and the shift: those of the last `setControl`, and the shifts since. -/
def pointAfter [Add K] [Zero K] (S : Solver V A K) (h₀ : Heap V V A) (l : List (Callback K)) : List V × K :=
  l.foldl (pointStep S h₀) (S.newControl h₀, 0)

/-! ### Proofs -/

theorem zipWith_dec_congr {X : Type*} (c : Codec X K) (hc : c.Lawful) (ws ws' : List X) (ls : List (List K)) (h : ws.map c.size = ws'.map c.size)
    (hl : ls.map List.length = ws'.map c.size) : List.zipWith c.dec ws ls = List.zipWith c.dec ws' ls := by
  induction ls generalizing ws ws' with
  | nil => simp
  | cons l ls ih =>
    cases ws' with
    | nil => cases hl
    | cons w' ws' =>
      cases ws with
      | nil => cases h
      | cons w ws =>
        simp only [List.map_cons, List.cons.injEq] at h hl
        simp only [List.zipWith_cons_cons]
        rw [ih ws ws' h.2 hl.2]
        have e : c.enc (c.dec w' l) = l := hc.enc_dec w' l hl.1
        have := hc.dec_enc w (c.dec w' l) (by rw [hc.size_dec, h.1])
        rw [e] at this
        rw [this]

theorem map_size_zipWith {X : Type*} (c : Codec X K) (hc : c.Lawful) (ws : List X) (ls : List (List K)) (h : ls.length = ws.length) :
    (List.zipWith c.dec ws ls).map c.size = ws.map c.size := by
  induction ls generalizing ws with
  | nil => rw [List.length_eq_zero_iff.1 h.symm]; rfl
  | cons l ls ih =>
    cases ws with
    | nil => cases h
    | cons w ws =>
      simp only [List.zipWith_cons_cons, List.map_cons]
      rw [hc.size_dec, ih ws (by simpa using h)]

section
variable {S : Solver V A K} {h₀ : Heap V V A}

theorem newControl_base {h : Heap V V A} (b : Base S.bs S.cs h₀ h) : S.newControl h = S.newControl h₀ := by
  unfold Solver.newControl
  exact List.map_congr_left fun c _ => b.output c

theorem sizes_base {h : Heap V V A} (b : Base S.bs S.cs h₀ h) : S.sizes h = S.sizes h₀ := by
  unfold Solver.sizes
  rw [newControl_base b]

theorem decoded_length (x : List K) : (decoded S h₀ x).length = S.cs.length := by
  unfold decoded
  rw [List.length_zipWith, split_length]
  simp [Solver.sizes, Solver.newControl]

theorem decoded_sizes (hc : S.cV.Lawful) (x : List K) : (decoded S h₀ x).map S.cV.size = S.sizes h₀ := by
  unfold decoded
  rw [map_size_zipWith _ hc]
  · rfl
  · rw [split_length]; simp [Solver.sizes]

theorem from_ok (hc : S.cV.Lawful) (x : List K) (hx : x.length = total (S.sizes h₀)) (ws : List V) (hw : ws.map S.cV.size = S.sizes h₀) :
    fromPetsc S.cV (S.sizes h₀) x ws = .ok (decoded S h₀ x) := by
  rw [← hw] at hx ⊢
  rw [from_petsc_split S.cV ws x hx]
  unfold decoded
  congr 1
  rw [hw] at hx ⊢
  refine zipWith_dec_congr S.cV hc _ _ _ hw ?_
  rw [split_lengths _ _ (by rw [hx, total_eq])]
  rfl

/-- The state is what the callbacks before say. -/
structure Agrees [Add K] [Zero K] (S : Solver V A K) (h₀ : Heap V V A) (p : List V × K) (s : State V A K) : Prop where
  base : Base S.bs S.cs h₀ s.heap
  point : S.cached s = p.1
  shift : s.shift = p.2
  psize : p.1.map S.cV.size = S.sizes h₀

theorem cached_of_base {h : Heap V V A} (m : Option (List V)) (k : K) (b : Base S.bs S.cs h₀ h) :
    S.cached ⟨h, m, k⟩ = m.getD (S.newControl h₀) := by
  unfold Solver.cached
  simp only
  rw [newControl_base b]

theorem evalGrad_base [Add A] (hr : Ready S h₀) {h : Heap V V A} (b : Base S.bs S.cs h₀ h) (m : List V) : Base S.bs S.cs h₀ (S.evalGrad m h).2.2 :=
  (b.eval hr.wf m).derivative S.J S.cs S.seed

theorem evalHess_base [Add V] [Add A] [Zero A] (hr : Ready S h₀) {h : Heap V V A} (b : Base S.bs S.cs h₀ h) (m d : List V) :
    Base S.bs S.cs h₀ (S.evalHess m d h).2 :=
  ((b.eval hr.wf m).derivative S.J S.cs S.seed).hessian S.J S.cs d

theorem evalGrad_eq [Add A] (hr : Ready S h₀) {h : Heap V V A} (b : Base S.bs S.cs h₀ h) (m : List V) (hm : m.length = S.cs.length) :
    (S.evalGrad m h).1 = (S.evalGrad m h₀).1 ∧ (S.evalGrad m h).2.1 = (S.evalGrad m h₀).2.1 := by
  obtain ⟨hsv, hs⟩ := b.sim hr.wf hr.nodup hr.flags hr.marks hr.total m hm S.J S.seed
  unfold Solver.evalGrad
  simp only
  refine ⟨by rw [hsv], List.map_congr_left fun c hc => hs.adj c (hr.objsOnTape c hc)⟩

theorem evalHess_eq [Add V] [Add A] [Zero A] (hr : Ready S h₀) {h : Heap V V A} (b : Base S.bs S.cs h₀ h) (m d : List V) (hm : m.length = S.cs.length) :
    (S.evalHess m d h).1 = (S.evalHess m d h₀).1 := by
  obtain ⟨-, hs⟩ := b.sim hr.wf hr.nodup hr.flags hr.marks hr.total m hm S.J S.seed
  have hh := SimH.computeHessianOf hs S.J S.cs d
  unfold Solver.evalHess
  simp only
  exact List.map_congr_left fun c hc => hh.hess c (hr.objsOnTape c hc)

theorem newControl_length (h : Heap V V A) : (S.newControl h).length = S.cs.length := by simp [Solver.newControl]

theorem objGrad_heap [Add A] (hr : Ready S h₀) {s : State V A K} (b : Base S.bs S.cs h₀ s.heap) (x g : List K) :
    Base S.bs S.cs h₀ (S.objGrad x g s).2.heap ∧ (S.objGrad x g s).2.m = s.m ∧ (S.objGrad x g s).2.shift = s.shift := by
  unfold Solver.objGrad
  split
  · exact ⟨b, rfl, rfl⟩
  · rename_i m _
    simp only
    split <;> exact ⟨evalGrad_base hr b m, rfl, rfl⟩

theorem mult_heap [Add V] [Add A] [Zero A] [Add K] [Mul K] [Zero K] [DecidableEq K] (hr : Ready S h₀) {s : State V A K} (b : Base S.bs S.cs h₀ s.heap)
    (x y : List K) :
    Base S.bs S.cs h₀ (S.mult x y s).2.heap ∧ S.cached (S.mult x y s).2 = S.cached s ∧ (S.mult x y s).2.shift = s.shift := by
  unfold Solver.mult
  split
  · exact ⟨b, rfl, rfl⟩
  · rename_i m _
    simp only
    split <;> exact ⟨evalHess_base hr b _ m, rfl, rfl⟩

theorem Agrees.callback [Add V] [Add A] [Zero A] [Add K] [Mul K] [Zero K] [DecidableEq K] (hr : Ready S h₀) {p : List V × K} {s : State V A K}
    (a : Agrees S h₀ p s) (c : Callback K) (hc : Sized (total (S.sizes h₀)) c) :
    Agrees S h₀ (pointStep S h₀ p c) (S.callback s c) := by
  cases c with
  | objGrad x g =>
    obtain ⟨h1, h2, h3⟩ := objGrad_heap hr a.base x g
    refine ⟨h1, ?_, h3.trans a.shift, a.psize⟩
    show _ = p.1
    rw [← a.point]
    show (S.objGrad x g s).2.m.getD (S.newControl (S.objGrad x g s).2.heap) = s.m.getD (S.newControl s.heap)
    rw [h2, newControl_base h1, newControl_base a.base]
  | setControl x =>
    have e : S.setControl x s = (.ok (), { s with m := some (decoded S h₀ x), shift := 0 }) := by
      unfold Solver.setControl
      rw [sizes_base a.base, a.point, from_ok hr.lawV x hc p.1 a.psize]
    show Agrees S h₀ _ (S.setControl x s).2
    rw [e]
    exact ⟨a.base, rfl, rfl, decoded_sizes hr.lawV x⟩
  | shift al => exact ⟨a.base, a.point, by show s.shift + al = p.2 + al; rw [a.shift], a.psize⟩
  | mult x y =>
    obtain ⟨h1, h2, h3⟩ := mult_heap hr a.base x y
    exact ⟨h1, h2.trans a.point, h3.trans a.shift, a.psize⟩
  | gradNorm x y => exact a

theorem Agrees.run [Add V] [Add A] [Zero A] [Add K] [Mul K] [Zero K] [DecidableEq K] (hr : Ready S h₀) (l : List (Callback K))
    (hl : ∀ c ∈ l, Sized (total (S.sizes h₀)) c) : Agrees S h₀ (pointAfter S h₀ l) (S.run l ⟨h₀, none, 0⟩) := by
  have gen : ∀ (l : List (Callback K)) (p : List V × K) (s : State V A K), (∀ c ∈ l, Sized (total (S.sizes h₀)) c) → Agrees S h₀ p s →
      Agrees S h₀ (l.foldl (pointStep S h₀) p) (S.run l s) := by
    intro l
    induction l with
    | nil => intro p s _ a; exact a
    | cons c l ih =>
      intro p s hl a
      exact ih _ _ (fun c hc => hl c (by simp [hc])) (a.callback hr c (hl c (by simp)))
  exact gen l _ _ hl ⟨Base.refl hr.flags hr.marks, rfl, rfl, rfl⟩

end

/-! ### Theorems -/

section
variable [Add V] [Add A] [Zero A]

/-- **C59, objective and gradient.** Whatever callbacks TAO made before, the value and the gradient it is told for a vector are those that a new solver would
tell it. -/
theorem tao_objective_history [Add K] [Mul K] [Zero K] [DecidableEq K] (S : Solver V A K) (h₀ : Heap V V A) (hr : Ready S h₀) (l : List (Callback K))
    (hl : ∀ c ∈ l, Sized (total (S.sizes h₀)) c) (x g : List K) (hx : x.length = total (S.sizes h₀)) :
    (S.objGrad x g (S.run l ⟨h₀, none, 0⟩)).1 = (S.objGrad x g ⟨h₀, none, 0⟩).1 := by
  have a := Agrees.run hr l hl
  unfold Solver.objGrad
  rw [sizes_base a.base, newControl_base a.base, from_ok hr.lawV x hx _ rfl]
  simp only
  obtain ⟨e1, e2⟩ := evalGrad_eq hr a.base (decoded S h₀ x) (decoded_length x)
  rw [e1, e2]
  cases toPetsc true (S.sizes h₀) g (.tuple ((S.evalGrad (decoded S h₀ x) h₀).2.1.map S.item)) with
  | mk r g => cases r <;> rfl

/-- **C59, Hessian.** Whatever callbacks TAO made before, a product with the Hessian matrix is the one that a new solver would compute at the point given by the
last call of the Hessian callback, with the shifts since; evaluations at other points in between do not matter. -/
theorem tao_hessian_history [Add K] [Mul K] [Zero K] [DecidableEq K] (S : Solver V A K) (h₀ : Heap V V A) (hr : Ready S h₀) (l : List (Callback K))
    (hl : ∀ c ∈ l, Sized (total (S.sizes h₀)) c) (x y : List K) (hx : x.length = total (S.sizes h₀)) :
    (S.mult x y (S.run l ⟨h₀, none, 0⟩)).1 = (S.mult x y ⟨h₀, some (pointAfter S h₀ l).1, (pointAfter S h₀ l).2⟩).1 := by
  have a := Agrees.run hr l hl
  unfold Solver.mult
  rw [sizes_base a.base, newControl_base a.base, from_ok hr.lawV x hx _ rfl]
  simp only
  rw [a.point]
  have e0 : S.cached ⟨h₀, some (pointAfter S h₀ l).1, (pointAfter S h₀ l).2⟩ = (pointAfter S h₀ l).1 := rfl
  have hlen : (pointAfter S h₀ l).1.length = S.cs.length := by
    have := congrArg List.length a.psize
    simpa [Solver.sizes, Solver.newControl] using this
  rw [e0, evalHess_eq hr a.base _ _ hlen, a.shift]
  cases toPetsc true (S.sizes h₀) y (.tuple ((S.evalHess (pointAfter S h₀ l).1 (decoded S h₀ x) h₀).1.map S.item)) with
  | mk r y => cases r <;> rfl

end

theorem items_fit {S : Solver V A K} (ns : List Nat) (os : List (Option A)) (hf : List.Forall₂ Fits ns (os.map S.item)) :
    ∃ as : List A, os = as.map some ∧ (List.zipWith entries ns (os.map S.item)) = as.map S.cA.enc := by
  induction os generalizing ns with
  | nil => exact ⟨[], rfl, by simp⟩
  | cons o os ih =>
    cases ns with
    | nil => cases hf
    | cons n ns =>
      rw [List.map_cons] at hf
      cases hf with
      | cons h1 h2 =>
        obtain ⟨as, rfl, e⟩ := ih ns h2
        cases o with
        | none => exact h1.elim
        | some a =>
          refine ⟨a :: as, rfl, ?_⟩
          simp only [List.map_cons, List.zipWith_cons_cons, Solver.item, entries] at e ⊢
          rw [e]

theorem ofFn_of_length {X : Type*} (n : Nat) (l : List X) (h : l.length = n) : ∃ f : Fin n → X, l = List.ofFn f :=
  ⟨fun i => l[i.val]'(h ▸ i.isLt), by subst h; simp⟩

/-- **C59, the gradient is right.** If the blocks have the right adjoint components and the control objects were not changed in place since their controls were made, then, whatever callbacks were made before: if the callback for `x` succeeds,
TAO gets the value of the functional at the controls `x` stands for, and a vector with the derivatives with respect to the controls one after the other. -/
theorem tao_gradient_exact_partial [NormedAddCommGroup V] [NormedSpace ℝ V] [AddCommMonoid A] [Add K] [Mul K] [Zero K] [DecidableEq K] (S : Solver V A K)
    (h₀ : Heap V V A) (hr : Ready S h₀) (hun : S.objs = S.cs) (hind : IndependentControls S.bs S.cs) (l : List (Callback K)) (hl : ∀ c ∈ l, Sized (total (S.sizes h₀)) c)
    (x g : List K) (hx : x.length = total (S.sizes h₀)) (hg : g.length = total (S.sizes h₀))
    (x₀ : Fin S.cs.length → V) (hx₀ : decoded S h₀ x = List.ofFn x₀) (ι : A →+ (V →L[ℝ] ℝ))
    (hcorrect : ∀ b ∈ S.bs, (∃ d ∈ b.deps, Reach S.bs (· ∈ S.cs) d) →
      CorrectAdjoint ι b (fun j => saved (rfEval S.bs S.cs (List.ofFn x₀) h₀) b.deps[j]) (fun j => Reach S.bs (· ∈ S.cs) b.deps[j]))
    (v : K) (g' : List K) (hok : (S.objGrad x g (S.run l ⟨h₀, none, 0⟩)).1 = .ok (v, g')) :
    v = S.value (saved (rfEval S.bs S.cs (List.ofFn x₀) h₀) S.J) ∧
    ∃ grad : Fin S.cs.length → A, g' = (List.ofFn fun i => S.cA.enc (grad i)).flatten ∧
      HasFDerivAt (fun u : Fin S.cs.length → V => ι S.seed (saved (rfEval S.bs S.cs (List.ofFn u) h₀) S.J))
        (∑ i, (ι (grad i)).comp (ContinuousLinearMap.proj i)) x₀ := by
  rw [tao_objective_history S h₀ hr l hl x g hx] at hok
  unfold Solver.objGrad at hok
  rw [from_ok hr.lawV x hx _ rfl] at hok
  simp only [hx₀] at hok
  have hfit : List.Forall₂ Fits (S.sizes h₀) ((S.evalGrad (List.ofFn x₀) h₀).2.1.map S.item) := by
    apply (to_petsc_errors (S.sizes h₀) _ g hg).2.1.1
    cases hq : toPetsc true (S.sizes h₀) g (.tuple ((S.evalGrad (List.ofFn x₀) h₀).2.1.map S.item)) with
    | mk r g'' =>
      rw [hq] at hok
      cases r with
      | error e => cases hok
      | ok u => rfl
  rw [to_petsc_concat _ _ g hg hfit] at hok
  obtain ⟨as, has, hent⟩ := items_fit _ _ hfit
  rw [hent] at hok
  have hok' : ((S.evalGrad (List.ofFn x₀) h₀).1, (as.map S.cA.enc).flatten) = (v, g') := by injection hok
  obtain ⟨grad, hgrad, hder⟩ := gradient_exact hr.wf S.J S.cs hr.nodup h₀ hr.flags hind x₀ ι S.seed hcorrect fun c hc => Or.inl (hr.onTape c hc)
  refine ⟨(congrArg Prod.fst hok').symm, grad, ?_, hder⟩
  have e : as = List.ofFn grad := by
    rw [← hgrad]
    have h2 := congrArg (List.map fun o : Option A => o.getD 0) has
    simp only [List.map_map, Solver.evalGrad, hun] at h2
    have h3 : as.map ((fun o : Option A => o.getD 0) ∘ some) = as := by
      rw [show ((fun o : Option A => o.getD 0) ∘ some) = id from rfl, List.map_id]
    rw [h3] at h2
    rw [← h2]
    unfold computeGradient
    apply List.map_congr_left
    intro c _
    unfold getDerivative
    simp only [Function.comp]
    cases (computeGradientState S.bs S.J S.cs S.seed (rfEval S.bs S.cs (List.ofFn x₀) h₀) c).adj <;> rfl
  have h4 : (as.map S.cA.enc).flatten = g' := congrArg Prod.snd hok'
  rw [← h4, e, List.map_ofFn]
  rfl

theorem axpy_zero [Ring K] (x y : List K) (h : x.length = y.length) : axpy 0 x y = y := by
  unfold axpy
  induction x generalizing y with
  | nil => rw [List.length_eq_zero_iff.1 h.symm]; rfl
  | cons a x ih =>
    cases y with
    | nil => cases h
    | cons b y =>
      rw [List.zipWith_cons_cons, ih y (by simpa using h), zero_mul, add_zero]

/-- **C59, the Hessian is right.** If the blocks have the right adjoint, tangent and Hessian components and the control objects were not changed in place since
their controls were made, then, whatever callbacks were made before: if the product
with `x` succeeds, TAO gets the derivative of the gradient, at the point of the last call of the Hessian callback, in the direction `x` stands for, plus the
shifts since times `x`. -/
theorem tao_hessian_exact_partial [NormedAddCommGroup V] [NormedSpace ℝ V] [NormedAddCommGroup A] [NormedSpace ℝ A] [Ring K] [DecidableEq K] (S : Solver V A K)
    (h₀ : Heap V V A) (hr : Ready S h₀) (hun : S.objs = S.cs) (hind : IndependentControls S.bs S.cs) (l : List (Callback K)) (hl : ∀ c ∈ l, Sized (total (S.sizes h₀)) c)
    (x y : List K) (hx : x.length = total (S.sizes h₀)) (hy : y.length = total (S.sizes h₀))
    (x₀ dir : Fin S.cs.length → V) (hx₀ : (pointAfter S h₀ l).1 = List.ofFn x₀) (hdir : decoded S h₀ x = List.ofFn dir) (ι : A →L[ℝ] (V →L[ℝ] ℝ))
    (hadj : ∀ᶠ s in nhds (0 : ℝ), ∀ b ∈ S.bs, (∃ d ∈ b.deps, Reach S.bs (· ∈ S.cs) d) →
      CorrectAdjoint (ι : A →+ (V →L[ℝ] ℝ)) b (fun j => saved (rfEval S.bs S.cs (List.ofFn (x₀ + s • dir)) h₀) b.deps[j])
        (fun j => Reach S.bs (· ∈ S.cs) b.deps[j]))
    (htan : ∀ b ∈ S.bs, (∃ d ∈ b.deps, Reach S.bs (· ∈ S.cs) d) →
      CorrectTangent b (fun j => saved (rfEval S.bs S.cs (List.ofFn x₀) h₀) b.deps[j]) (fun j => Reach S.bs (· ∈ S.cs) b.deps[j]))
    (hhess : ∀ b ∈ S.bs, (∃ d ∈ b.deps, Reach S.bs (· ∈ S.cs) d) →
      CorrectHessian b (fun j => saved (rfEval S.bs S.cs (List.ofFn x₀) h₀) b.deps[j]) (fun j => Reach S.bs (· ∈ S.cs) b.deps[j]))
    (y' : List K) (hok : (S.mult x y (S.run l ⟨h₀, none, 0⟩)).1 = .ok y') :
    ∃ hess : Fin S.cs.length → A, y' = axpy (pointAfter S h₀ l).2 x (List.ofFn fun i => S.cA.enc (hess i)).flatten ∧
      ∀ (i : Fin S.cs.length) (w : V),
        HasDerivAt (fun s : ℝ => fderiv ℝ (fun u : Fin S.cs.length → V => ι S.seed (saved (rfEval S.bs S.cs (List.ofFn u) h₀) S.J)) (x₀ + s • dir)
          (Pi.single i w)) (ι (hess i) w) 0 := by
  rw [tao_hessian_history S h₀ hr l hl x y hx] at hok
  unfold Solver.mult at hok
  rw [from_ok hr.lawV x hx _ rfl] at hok
  have e0 : S.cached ⟨h₀, some (pointAfter S h₀ l).1, (pointAfter S h₀ l).2⟩ = List.ofFn x₀ := hx₀
  simp only [e0, hdir] at hok
  have hfit : List.Forall₂ Fits (S.sizes h₀) ((S.evalHess (List.ofFn x₀) (List.ofFn dir) h₀).1.map S.item) := by
    apply (to_petsc_errors (S.sizes h₀) _ y hy).2.1.1
    cases hq : toPetsc true (S.sizes h₀) y (.tuple ((S.evalHess (List.ofFn x₀) (List.ofFn dir) h₀).1.map S.item)) with
    | mk r g'' =>
      rw [hq] at hok
      cases r with
      | error e => cases hok
      | ok u => rfl
  have hto := to_petsc_concat _ _ y hy hfit
  rw [hto] at hok
  obtain ⟨as, has, hent⟩ := items_fit _ _ hfit
  rw [hent] at hok
  obtain ⟨hess, hhs, hder⟩ := hessian_exact_blocks hr.wf S.J S.cs hr.nodup h₀ hr.flags hr.marks hind S.seed x₀ dir ι hadj htan hhess
    fun c hc => Or.inl (hr.onTape c hc)
  refine ⟨hess, ?_, hder⟩
  have e : as = List.ofFn hess := by
    rw [← hhs]
    have h2 := congrArg (List.map fun o : Option A => o.getD 0) has
    simp only [List.map_map, Solver.evalHess, hun] at h2
    have h3 : as.map ((fun o : Option A => o.getD 0) ∘ some) = as := by
      rw [show ((fun o : Option A => o.getD 0) ∘ some) = id from rfl, List.map_id]
    rw [h3] at h2
    rw [← h2]
    show _ = S.cs.map (getHessian (computeHessianOf S.bs S.J S.cs (List.ofFn dir) (computeGradient S.bs S.J S.cs S.seed
      (rfEval S.bs S.cs (List.ofFn x₀) h₀)).2).2)
    apply List.map_congr_left
    intro c _
    unfold getHessian computeGradient
    simp only [Function.comp]
    cases ((computeHessianOf S.bs S.J S.cs (List.ofFn dir) (computeGradientState S.bs S.J S.cs S.seed
      (rfEval S.bs S.cs (List.ofFn x₀) h₀))).2 c).hess <;> rfl
  have hlen : x.length = (List.ofFn fun i => S.cA.enc (hess i)).flatten.length := by
    have h1 : (List.ofFn fun i => S.cA.enc (hess i)) = as.map S.cA.enc := by rw [e, List.map_ofFn]; rfl
    rw [h1, ← hent, hx, total_eq]
    generalize S.sizes h₀ = ns at hfit
    generalize (S.evalHess (List.ofFn x₀) (List.ofFn dir) h₀).1.map S.item = is at hfit
    clear * - hfit
    induction hfit with
    | nil => rfl
    | @cons n i ns is hi _ ih =>
      rw [List.sum_cons, List.zipWith_cons_cons, List.flatten_cons, List.length_append, ← ih]
      congr 1
      cases i with
      | num k => simp [entries]
      | obj l => exact hi.symm
      | other => exact hi.elim
  have hok' : (if (pointAfter S h₀ l).2 ≠ 0 then axpy (pointAfter S h₀ l).2 x (as.map S.cA.enc).flatten else (as.map S.cA.enc).flatten) = y' := by
    injection hok
  rw [← hok', e, List.map_ofFn]
  change (if (pointAfter S h₀ l).2 ≠ 0 then axpy (pointAfter S h₀ l).2 x (List.ofFn fun i => S.cA.enc (hess i)).flatten
    else (List.ofFn fun i => S.cA.enc (hess i)).flatten) = _
  split
  · rfl
  · rename_i h
    rw [not_not.1 h, axpy_zero _ _ hlen]

/-- **C59, a control without influence.** If the functional is not computed from some control, `rf.derivative` reports zero for it, but the TAO callback raises
`TypeError` for every point: it passes the missing adjoint value on instead of a zero. -/
theorem tao_unused_control_fails [Add V] [Add A] [Zero A] [Add K] [Mul K] [Zero K] [DecidableEq K] (S : Solver V A K) (h₀ : Heap V V A) (hr : Ready S h₀)
    (hobj : S.objs = S.cs) (lawA : S.cA.Lawful) (c : BV) (hc : c ∈ S.cs) (hun : ¬ CoReach S.bs (· = S.J) c) (l : List (Callback K))
    (hl : ∀ c ∈ l, Sized (total (S.sizes h₀)) c) (x g : List K) (hx : x.length = total (S.sizes h₀)) (hg : g.length = total (S.sizes h₀))
    (hsz : List.Forall₂ (fun n o => ∀ a, o = some a → S.cA.size a = n) (S.sizes h₀) (S.evalGrad (decoded S h₀ x) h₀).2.1) :
    (S.objGrad x g (S.run l ⟨h₀, none, 0⟩)).1 = .error .typeError ∧
    getDerivative (computeGradient S.bs S.J S.cs S.seed (rfEval S.bs S.cs (decoded S h₀ x) h₀)).2 c = 0 := by
  refine ⟨?_, independent_control_zero_partial S.bs S.J c S.cs S.seed _ (hr.onTape c hc) hun⟩
  rw [tao_objective_history S h₀ hr l hl x g hx]
  unfold Solver.objGrad
  rw [from_ok hr.lawV x hx _ rfl]
  simp only
  have hnone : none ∈ (S.evalGrad (decoded S h₀ x) h₀).2.1 :=
    List.mem_map.2 ⟨c, hobj ▸ hc, unused_adj_none S.bs S.J c S.cs S.seed _ (hr.onTape c hc) hun⟩
  have hlen : ((S.evalGrad (decoded S h₀ x) h₀).2.1.map S.item).length = (S.sizes h₀).length := by
    simp [Solver.evalGrad, Solver.sizes, Solver.newControl, hobj]
  have hother : (Item.other : Item K) ∈ (S.evalGrad (decoded S h₀ x) h₀).2.1.map S.item := List.mem_map.2 ⟨none, hnone, rfl⟩
  have herr := ((to_petsc_errors (S.sizes h₀) ((S.evalGrad (decoded S h₀ x) h₀).2.1.map S.item) g hg).2.2 hlen (by
    generalize (S.evalGrad (decoded S h₀ x) h₀).2.1 = os at hsz
    generalize S.sizes h₀ = ns at hsz
    clear * - hsz lawA
    induction hsz with
    | nil => simp
    | @cons n o ns os h _ ih =>
      intro p hp l hpl
      rw [List.map_cons, List.zip_cons_cons, List.mem_cons] at hp
      rcases hp with rfl | hp
      · cases o with
        | none => cases hpl
        | some a =>
          have : S.cA.enc a = l := by injection hpl
          rw [← this, lawA.length, h a rfl]
      · exact ih p hp l hpl)).2 hother
  cases hq : toPetsc true (S.sizes h₀) g (.tuple ((S.evalGrad (decoded S h₀ x) h₀).2.1.map S.item)) with
  | mk r g'' =>
    rw [hq] at herr
    simp only at herr
    subst herr
    rfl

/-- **C59, inner products.** The matrix of the gradient norm applies `_ad_convert_type` to the dual vector, independently of the state, whenever it returns a value;
it returns one once every control has an adjoint value or, without one, a Hessian value (of the right size). -/
theorem tao_gradient_norm (S : Solver V A K) (h : Heap V V A) (lawV : S.cV.Lawful) (lawA : S.cA.Lawful) (m : Option (List V)) (k : K) (x y : List K)
    (hx : x.length = total (S.sizes h)) (hy : y.length = total (S.sizes h)) (as : List A) (has : S.objs.map (fun c => (h c).adj.or (h c).hess) = as.map some)
    (hsz : as.map S.cA.size = S.sizes h) (hconv : ∀ a, S.cV.size (S.conv a) = S.cA.size a)
    (d : List A) (hd : d.map S.cA.enc = split (S.sizes h) x) :
    S.gradNorm x y ⟨h, m, k⟩ = .ok (d.map fun a => S.cV.enc (S.conv a)).flatten := by
  have hlen : d.map S.cA.size = S.sizes h := by
    have h1 := congrArg (List.map List.length) hd
    rw [split_lengths _ _ (by rw [hx, total_eq]), List.map_map] at h1
    rw [← h1]
    exact List.map_congr_left fun a _ => (lawA.length a).symm
  have hdual : S.newDual h = .ok as := by
    unfold Solver.newDual
    have : ∀ (cs : List BV) (as : List A), cs.map (fun c => (h c).adj.or (h c).hess) = as.map some → (cs.mapM fun c => dualOf (h c)) = some as := by
      intro cs
      induction cs with
      | nil => intro as has; rw [List.map_eq_nil_iff.1 has.symm]; rfl
      | cons c cs ih =>
        intro as has
        cases as with
        | nil => cases has
        | cons a as =>
          simp only [List.map_cons, List.cons.injEq] at has
          have h1 : dualOf (h c) = some a := by
            rw [← has.1]
            unfold dualOf
            cases (h c).adj <;> rfl
          rw [List.mapM_cons, ih as has.2, h1]
          rfl
    rw [this _ _ has]
  unfold Solver.gradNorm
  simp only [hdual]
  have hx2 := hx
  rw [← hsz] at hx2 ⊢
  rw [from_petsc_split S.cA as x hx2]
  have hdec : List.zipWith S.cA.dec as (split (as.map S.cA.size) x) = d := by
    rw [hsz, ← hd]
    exact zipWith_dec_enc S.cA lawA as d (by rw [hsz, hlen])
  simp only [hdec]
  have hf : List.Forall₂ Fits (as.map S.cA.size) (d.map fun a => (Item.obj (S.cV.enc (S.conv a)) : Item K)) := by
    rw [hsz, ← hlen]
    rw [List.forall₂_map_right_iff, List.forall₂_map_left_iff, List.forall₂_same]
    intro a _
    show (S.cV.enc (S.conv a)).length = S.cA.size a
    rw [lawV.length, hconv]
  rw [to_petsc_concat _ _ y (by rw [hsz]; exact hy) hf]
  simp only
  have := zipWith_entries_obj (as.map S.cA.size) (d.map fun a => S.cV.enc (S.conv a)) (by
    have := congrArg List.length (hsz.trans hlen.symm)
    simpa using this.symm)
  rw [List.map_map] at this
  rw [← this]
  rfl

/-- **C59, inner products before derivatives.** If for some control neither a gradient nor a Hessian product has been computed, the inner product raises
`RuntimeError`. -/
theorem tao_gradient_norm_needs_derivative (S : Solver V A K) (h : Heap V V A) (c : BV) (hc : c ∈ S.objs) (ha : (h c).adj = none) (hh : (h c).hess = none)
    (m : Option (List V)) (k : K) (x y : List K) : S.gradNorm x y ⟨h, m, k⟩ = .error .runtimeError := by
  have : ∀ cs : List BV, c ∈ cs → (cs.mapM fun c => dualOf (h c)) = none := by
    intro cs
    induction cs with
    | nil => simp
    | cons d cs ih =>
      intro hc
      rw [List.mapM_cons]
      rcases List.mem_cons.1 hc with rfl | hc
      · simp only [dualOf, ha, hh]; rfl
      · rw [ih hc]; cases dualOf (h d) <;> rfl
  unfold Solver.gradNorm Solver.newDual
  simp only [this _ hc]

/-- **C59, `solve`.** TAO starts at the vector of the control values on the tape; if it converges, the result are the control values that its last vector
stands for, as a list unless the functional has a single control; and if not, `TAOConvergenceError` is raised. -/
theorem tao_solve [Add V] [Add A] [Zero A] [Add K] [Mul K] [Zero K] [DecidableEq K] (S : Solver V A K) (h : Heap V V A) (lawV : S.cV.Lawful) (listed : Bool)
    (hone : listed = false → S.cs.length = 1) (hsz : ∀ c ∈ S.cs, S.cV.size (saved h c) = S.cV.size (h c).output)
    (tao : List K → List (Callback K) × List K × Int) (x : List K) (hx : x.length = total (S.sizes h)) (m : Option (List V)) (k : K) :
    let start := (S.cs.map fun c => S.cV.enc (saved h c)).flatten
    (tao start).2.1.length = start.length → ∀ us, us.map S.cV.enc = split (S.sizes h) (tao start).2.1 →
    (S.solve listed tao x ⟨h, m, k⟩).1 =
      if (tao start).2.2 ≤ 0 then .error .convergence else
      .ok (if listed then .many us else match us with
        | [u] => .one u
        | _ => .many us) := by
  intro start hlen us hus
  have hs : (S.cs.map (saved h)).map S.cV.size = S.sizes h := by
    unfold Solver.sizes Solver.newControl
    rw [List.map_map, List.map_map]
    exact List.map_congr_left hsz
  obtain ⟨⟨x', e1, e2⟩, -⟩ := petsc_round_trip S.cV lawV (S.cs.map (saved h)) (S.cs.map (saved h)) rfl x (by rw [hs]; exact hx)
  have hx' : x' = start := by
    have hf := fits_obj ((S.cs.map (saved h)).map S.cV.enc)
    have h1 : ((S.cs.map (saved h)).map S.cV.enc).map List.length = S.sizes h := by
      rw [← hs, List.map_map]; exact List.map_congr_left fun v _ => lawV.length v
    rw [h1] at hf
    have h2 := to_petsc_concat _ _ x hx hf
    rw [zipWith_entries_obj _ _ (by simp [Solver.sizes, Solver.newControl])] at h2
    rw [hs] at e1
    rw [List.map_map] at h2
    have h3 := e1.symm.trans h2
    have h4 : x' = ((S.cs.map (saved h)).map S.cV.enc).flatten := congrArg Prod.snd h3
    rw [h4, List.map_map]
    rfl
  subst hx'
  rw [hs] at e1
  unfold Solver.solve
  simp only
  rw [e1]
  simp only
  have hl2 : (tao start).2.1.length = total ((S.cs.map (saved h)).map S.cV.size) := by
    rw [hlen, hs, total_eq, ← hs, List.map_map, List.length_flatten, List.map_map]
    congr 1
    exact List.map_congr_left fun c _ => lawV.length _
  have e3 := from_petsc_split S.cV (S.cs.map (saved h)) (tao start).2.1 hl2
  have hus2 : us.map S.cV.size = S.sizes h := by
    have h1 := congrArg (List.map List.length) hus
    rw [hs, total_eq] at hl2
    rw [split_lengths _ _ hl2, List.map_map] at h1
    rw [← h1]
    exact List.map_congr_left fun a _ => (lawV.length a).symm
  rw [hs, ← hus, zipWith_dec_enc S.cV lawV _ us (hs.trans hus2.symm)] at e3
  rw [e3]
  simp only
  split
  · rfl
  · unfold Enlist.delist
    cases listed with
    | true => rfl
    | false =>
      have h1 : us.length = 1 := by
        have := congrArg List.length hus2
        simpa [Solver.sizes, Solver.newControl, hone rfl] using this
      match us, h1 with
      | [u], _ => rfl

/-! ### Examples -/

/-- One number as object (example data). -/
def realCodec : Codec ℝ ℝ := ⟨fun _ => 1, fun x => [x], fun x l => match l with
  | [a] => a
  | _ => x⟩

theorem realCodec_lawful : realCodec.Lawful where
  length := fun _ => rfl
  size_dec := fun _ _ => rfl
  enc_dec := fun x l h => by
    match l, h with
    | [a], _ => rfl
  dec_enc := fun _ _ _ => rfl

/-- Minimisation of `((x³)³)` with TAO (example data). -/
def cubeSolver : Solver ℝ ℝ ℝ := ⟨cubeTape, 2, [0], [0], 1, id, realCodec, realCodec, id⟩

theorem cubeSolver_ready : Ready cubeSolver cubeHeap where
  wf := cubeTape_wf
  nodup := by simp [cubeSolver]
  onTape := by
    intro c hc
    have : c = 0 := by simpa [cubeSolver] using hc
    subst this
    exact ⟨cubeBlock 0 1, by simp [cubeSolver, cubeTape], Or.inl (by simp [cubeBlock])⟩
  total := by
    intro b hb inputs i hl hi
    obtain ⟨d, o, rfl, -⟩ := cubeTape_dep b hb
    match inputs, hl with
    | [x], _ => rfl
  flags := fun _ => rfl
  marks := fun _ => rfl
  lawV := realCodec_lawful
  objsOnTape := by
    intro c hc
    have : c = 0 := by simpa [cubeSolver] using hc
    subst this
    exact ⟨cubeBlock 0 1, by simp [cubeSolver, cubeTape], Or.inl (by simp [cubeBlock])⟩

example (x : ℝ) : ∃ g', (cubeSolver.objGrad [x] [0] (cubeSolver.run [.setControl [4], .mult [1] [0], .shift 3, .objGrad [7] [0]] ⟨cubeHeap, none, 0⟩)).1
    = .ok ((x ^ 3) ^ 3, g') := by
  rw [tao_objective_history cubeSolver cubeHeap cubeSolver_ready _ (by intro c hc; fin_cases hc <;> simp [Sized, cubeSolver, Solver.sizes, Solver.newControl, total, realCodec]) [x] [0] rfl]
  exact ⟨_, rfl⟩

/-- Calls before the one looked at (example data). -/
def someCalls : List (Callback ℝ) := [.objGrad [7] [0], .setControl [4], .mult [1] [0], .shift 3, .gradNorm [2] [0]]

theorem someCalls_sized : ∀ c ∈ someCalls, Sized (total (cubeSolver.sizes cubeHeap)) c := by
  intro c hc
  simp only [someCalls, List.mem_cons, List.not_mem_nil, or_false] at hc
  rcases hc with rfl | rfl | rfl | rfl | rfl <;> simp [Sized, cubeSolver, Solver.sizes, Solver.newControl, total, realCodec]

theorem cubeSolver_independent : IndependentControls cubeSolver.bs cubeSolver.cs := by
  intro c hc b hb ho
  have : c = 0 := by simpa [cubeSolver] using hc
  subst this
  simp only [cubeSolver, cubeTape, List.mem_cons, List.not_mem_nil, or_false] at hb
  rcases hb with rfl | rfl <;> simp [cubeBlock] at ho

/-- The Hessian product uses the point `4` and the shift `3`. -/
example (x : ℝ) : (cubeSolver.mult [x] [0] (cubeSolver.run someCalls ⟨cubeHeap, none, 0⟩)).1 = (cubeSolver.mult [x] [0] ⟨cubeHeap, some [4], 3⟩).1 := by
  rw [tao_hessian_history cubeSolver cubeHeap cubeSolver_ready _ someCalls_sized [x] [0] rfl]
  have : pointAfter cubeSolver cubeHeap someCalls = ([4], 0 + 3) := rfl
  rw [this, zero_add]

/-- The gradient callback succeeds, and its result is the derivative. -/
example (x : ℝ) : ∃ v g', (cubeSolver.objGrad [x] [0] (cubeSolver.run someCalls ⟨cubeHeap, none, 0⟩)).1 = .ok (v, g') ∧
    ∃ grad : Fin 1 → ℝ, g' = (List.ofFn fun i => [grad i]).flatten ∧
      HasFDerivAt (fun u : Fin 1 → ℝ => cubeAdj 1 (saved (rfEval cubeTape [0] (List.ofFn u) cubeHeap) 2))
        (∑ i, (cubeAdj (grad i)).comp (ContinuousLinearMap.proj i)) (fun _ => x) := by
  have hok : ∃ v g', (cubeSolver.objGrad [x] [0] (cubeSolver.run someCalls ⟨cubeHeap, none, 0⟩)).1 = .ok (v, g') := by
    rw [tao_objective_history cubeSolver cubeHeap cubeSolver_ready _ someCalls_sized [x] [0] rfl]
    exact ⟨_, _, rfl⟩
  obtain ⟨v, g', hok⟩ := hok
  refine ⟨v, g', hok, (tao_gradient_exact_partial cubeSolver cubeHeap cubeSolver_ready rfl cubeSolver_independent someCalls someCalls_sized [x] [0] rfl rfl (fun _ => x) rfl
    (cubeAdj : ℝ →+ (ℝ →L[ℝ] ℝ)) ?_ v g' hok).2⟩
  intro b hb _
  obtain ⟨d, o, rfl, _⟩ := cubeTape_dep b hb
  exact cube_adjoint d o _ _

/-- The Hessian callback succeeds, and its result is the derivative of the gradient at `4` plus `3` times the direction. -/
example (x : ℝ) : ∃ y', (cubeSolver.mult [x] [0] (cubeSolver.run someCalls ⟨cubeHeap, none, 0⟩)).1 = .ok y' ∧
    ∃ hess : Fin 1 → ℝ, y' = axpy (0 + 3) [x] (List.ofFn fun i => [hess i]).flatten ∧
      ∀ (i : Fin 1) (w : ℝ), HasDerivAt (fun s : ℝ => fderiv ℝ (fun u : Fin 1 → ℝ => cubeAdj 1 (saved (rfEval cubeTape [0] (List.ofFn u) cubeHeap) 2))
        ((fun _ => 4) + s • (fun _ => x)) (Pi.single i w)) (cubeAdj (hess i) w) 0 := by
  have hok : ∃ y', (cubeSolver.mult [x] [0] (cubeSolver.run someCalls ⟨cubeHeap, none, 0⟩)).1 = .ok y' := by
    rw [tao_hessian_history cubeSolver cubeHeap cubeSolver_ready _ someCalls_sized [x] [0] rfl]
    exact ⟨_, rfl⟩
  obtain ⟨y', hok⟩ := hok
  refine ⟨y', hok, tao_hessian_exact_partial cubeSolver cubeHeap cubeSolver_ready rfl cubeSolver_independent someCalls someCalls_sized [x] [0] rfl rfl
    (fun _ => 4) (fun _ => x) rfl rfl cubeAdj (Filter.Eventually.of_forall ?_) ?_ ?_ y' hok⟩
  · intro s b hb _
    obtain ⟨d, o, rfl, _⟩ := cubeTape_dep b hb
    exact cube_adjoint d o _ _
  · intro b hb _
    obtain ⟨d, o, rfl, _⟩ := cubeTape_dep b hb
    exact cube_tangent d o _ _
  · intro b hb _
    obtain ⟨d, o, rfl, hd⟩ := cubeTape_dep b hb
    exact cube_hessian d o _ _ hd

/-- The functional `v₁ = v₀³` of the controls `v₀` and `v₂` (example data). -/
def unusedSolver : Solver ℝ ℝ ℝ := ⟨[cubeBlock 0 1, cubeBlock 2 3], 1, [0, 2], [0, 2], 1, id, realCodec, realCodec, id⟩

theorem unusedSolver_onTape : ∀ c ∈ unusedSolver.cs, OnTape unusedSolver.bs c := by
  intro c hc
  have : c = 0 ∨ c = 2 := by simpa [unusedSolver] using hc
  rcases this with rfl | rfl
  · exact ⟨cubeBlock 0 1, by simp [unusedSolver], Or.inl (by simp [cubeBlock])⟩
  · exact ⟨cubeBlock 2 3, by simp [unusedSolver], Or.inl (by simp [cubeBlock])⟩

example (x y : ℝ) : (unusedSolver.objGrad [x, y] [0, 0] (unusedSolver.run [.setControl [1, 2]] ⟨cubeHeap, none, 0⟩)).1 = .error .typeError := by
  refine (tao_unused_control_fails unusedSolver cubeHeap ⟨⟨by simp [unusedSolver, cubeBlock], by simp [unusedSolver, cubeBlock], by simp [unusedSolver, cubeBlock]⟩,
    by simp [unusedSolver], unusedSolver_onTape, ?_, fun _ => rfl, fun _ => rfl, realCodec_lawful, unusedSolver_onTape⟩ rfl realCodec_lawful 2 (by simp [unusedSolver]) ?_ _ ?_ [x, y] [0, 0] rfl rfl ?_).1
  · intro b hb inputs i hl hi
    simp only [unusedSolver, List.mem_cons, List.not_mem_nil, or_false] at hb
    rcases hb with rfl | rfl <;>
    · match inputs, hl with
      | [x], _ => rfl
  · intro h
    have key : ∀ v, CoReach unusedSolver.bs (· = unusedSolver.J) v → v = 0 ∨ v = 1 := by
      intro v hv
      induction hv with
      | base h => exact Or.inr h
      | step hb ho _ hd ih =>
        simp only [unusedSolver, List.mem_cons, List.not_mem_nil, or_false] at hb
        rcases hb with rfl | rfl
        · simp only [cubeBlock, List.mem_singleton] at hd; exact Or.inl hd
        · simp only [cubeBlock, List.mem_singleton] at ho; subst ho; rcases ih with h | h <;> cases h
    rcases key 2 h with h | h <;> cases h
  · simp [Sized, unusedSolver, Solver.sizes, Solver.newControl, total, realCodec]
  · refine List.Forall₂.cons (fun _ _ => rfl) (List.Forall₂.cons (fun _ _ => rfl) List.Forall₂.nil)

/-- No derivative has been computed yet. -/
example (x : ℝ) : cubeSolver.gradNorm [x] [0] ⟨cubeHeap, none, 0⟩ = .error .runtimeError :=
  tao_gradient_norm_needs_derivative cubeSolver cubeHeap 0 (by simp [cubeSolver]) rfl rfl none 0 [x] [0]

/-- After the gradient callback the dual value exists. -/
example (x y : ℝ) : cubeSolver.gradNorm [y] [0] (cubeSolver.objGrad [x] [0] ⟨cubeHeap, none, 0⟩).2 = .ok [y] :=
  tao_gradient_norm cubeSolver (cubeSolver.objGrad [x] [0] ⟨cubeHeap, none, 0⟩).2.heap realCodec_lawful realCodec_lawful none 0 [y] [0] rfl rfl
    [3 * x ^ 2 * (3 * (x ^ 3) ^ 2 * 1)] rfl rfl (fun _ => rfl) [y] rfl

/-- A Hessian value is enough. -/
example (y : ℝ) : cubeSolver.gradNorm [y] [0] ⟨fun v => { cubeHeap v with hess := some 7 }, none, 0⟩ = .ok [y] :=
  tao_gradient_norm cubeSolver (fun v => { cubeHeap v with hess := some 7 }) realCodec_lawful realCodec_lawful none 0 [y] [0] rfl rfl
    [7] rfl rfl (fun _ => rfl) [y] rfl

/-- TAO starts at `1`, the value on the tape; it stops at `5`. -/
example : (cubeSolver.solve false (fun x => (someCalls, x.map (· + 4), 2)) [0] ⟨cubeHeap, none, 0⟩).1 = .ok (.one 5) := by
  rw [tao_solve cubeSolver cubeHeap realCodec_lawful false (fun _ => rfl) (fun _ _ => rfl) _ [0] rfl none 0 rfl [1 + 4] rfl]
  norm_num

/-- `c = Control(u)`, then `u` is cubed in place, and the functional is the cube of that: the control is `v₀`, the object's variable is now `v₁`. -/
def inPlaceSolver : Solver ℝ ℝ ℝ := { cubeSolver with objs := [1] }

/-- The same, and afterwards `u` was changed once more: its variable is now `v₃`, which no operation has used. -/
def changedLaterSolver : Solver ℝ ℝ ℝ := { cubeSolver with objs := [3] }

/-- **C59 fails for objects changed in place.** `TAOObjective` asks the object of the control for its block variable, not the control.  If the object was changed
in place after its control was made, TAO is given the derivative with respect to the later version: `3 x⁶` instead of `9 x⁸` for the functional `x⁹`, and the
Hessian product `18 x⁵ t` instead of `72 x⁷ t`.  If the object was given a new block variable after the recording, both callbacks raise `TypeError`.  `rf.derivative()`
is right in all these cases. -/
theorem tao_changed_object_wrong (x t : ℝ) :
    ((inPlaceSolver.objGrad [x] [0] ⟨cubeHeap, none, 0⟩).1 = .ok ((x ^ 3) ^ 3, [3 * (x ^ 3) ^ 2]) ∧
      (inPlaceSolver.mult [t] [0] ⟨cubeHeap, some [x], 0⟩).1 = .ok [18 * x ^ 5 * t]) ∧
    ((changedLaterSolver.objGrad [x] [0] ⟨cubeHeap, none, 0⟩).1 = .error .typeError ∧
      (changedLaterSolver.mult [t] [0] ⟨cubeHeap, some [x], 0⟩).1 = .error .typeError) ∧
    (computeGradient cubeTape 2 [0] 1 (rfEval cubeTape [0] [x] cubeHeap)).1 = [3 * x ^ 2 * (3 * (x ^ 3) ^ 2 * 1)] ∧
    HasDerivAt (fun y : ℝ => saved (rfEval cubeTape [0] [y] cubeHeap) 2) (9 * x ^ 8) x := by
  refine ⟨⟨?_, ?_⟩, ⟨rfl, rfl⟩, rfl, ?_⟩
  · have : ∃ a b, (inPlaceSolver.objGrad [x] [0] ⟨cubeHeap, none, 0⟩).1 = .ok (a, [b]) ∧ a = (x ^ 3) ^ 3 ∧ b = 3 * (x ^ 3) ^ 2 := by
      refine ⟨_, _, rfl, rfl, ?_⟩
      show 3 * (x ^ 3) ^ 2 * 1 = _
      ring
    obtain ⟨a, b, e, rfl, rfl⟩ := this
    exact e
  · have : ∃ a, (inPlaceSolver.mult [t] [0] ⟨cubeHeap, some [x], 0⟩).1
        = .ok (if (0 : ℝ) ≠ 0 then axpy 0 [t] [a] else [a]) ∧ a = 18 * x ^ 5 * t := by
      refine ⟨_, rfl, ?_⟩
      show 3 * (x ^ 3) ^ 2 * 0 + 6 * x ^ 3 * (3 * x ^ 2 * t) * 1 = _
      ring
    obtain ⟨a, e, rfl⟩ := this
    rw [e, if_neg (by simp)]
  · have : HasDerivAt (fun y : ℝ => (y ^ 3) ^ 3) (9 * x ^ 8) x := by
      refine (((hasDerivAt_pow 3 x).pow 3).congr_deriv ?_)
      norm_num
      ring
    exact this

end Pyadjoint.Tao
