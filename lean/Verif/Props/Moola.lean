import Verif.Model.Moola
import Verif.Props.History

/-!
# Moola's memoisation (C32)
-/

namespace Pyadjoint
namespace Moola

variable {X Y D Dir HV S E K : Type*} [DecidableEq K] [DecidableEq X]

/-! ## Specification -/

/-- What the reduced functional does, apart from Moola: `Jv x` is its value at `x`, `G x` its derivative, `H x d` its Hessian action (`none` where it
raises).  `At x s`: the last evaluation was at `x`; `Lin x s`: the last derivative was computed at `x`. -/
structure Faithful (rf : Rf X Y D Dir HV S E) (Jv : X → Y) (G : X → D) (H : X → Dir → Option HV) (Inv : S → Prop) (At Lin : X → S → Prop) : Prop where
  inv : ∀ {x s}, At x s → Inv s
  eval : ∀ {s} x, Inv s → ∃ s', rf.eval x s = (.ok (Jv x), s') ∧ At x s' ∧ ∀ z, Lin z s → Lin z s'
  deriv : ∀ {x s}, At x s → ∃ s', rf.deriv s = (.ok (G x), s') ∧ At x s' ∧ Lin x s'
  hess : ∀ {x s} d v, At x s → Lin x s → H x d = some v → ∃ s', rf.hess d s = (.ok v, s') ∧ At x s' ∧ Lin x s'

/-- The right result of a call: that of `rf` at the point given. -/
def Right (Jv : X → Y) (G : X → D) (H : X → Dir → Option HV) : Op X Dir → Except (Err E) (Res Y D HV) → Prop
  | .call x, .ok (.value y) => y = Jv x
  | .deriv x, .ok (.grad d) => d = G x
  | .hessian _, .ok .closure => True
  | .action x d, .ok (.hess v) => H x d = some v
  | _, _ => False

/-- The point of a call. -/
def Op.point : Op X Dir → X
  | .call x => x
  | .deriv x => x
  | .hessian x => x
  | .action x _ => x

/-- The last points evaluated and differentiated, without repetition, up to `memoize`; the last point evaluated; the point of the last derivative. -/
structure Ghost (X : Type*) where
  recent : List X := []
  drecent : List X := []
  pt : Option X := none
  adj : Option X := none

/-- A new point; the oldest goes if there are `n`. -/
def push (n : Nat) (l : List X) (x : X) : List X := (if l.length = n then l.tail else l) ++ [x]

/-- An evaluation, unless the point is among the last ones. -/
def Ghost.eval (n : Nat) (g : Ghost X) (x : X) : Ghost X :=
  if n = 0 then { g with pt := some x }
  else if x ∈ g.recent then g else { g with recent := push n g.recent x, pt := some x }

/-- A derivative, unless the point is among the last ones. -/
def Ghost.diff (n : Nat) (g : Ghost X) (x : X) : Ghost X :=
  if n = 0 then { g with adj := g.pt }
  else if x ∈ g.drecent then g else { g with drecent := push n g.drecent x, adj := g.pt }

def Ghost.step (n : Nat) (g : Ghost X) : Op X Dir → Ghost X
  | .call x => g.eval n x
  | .deriv x => g.diff n x
  | .hessian x => g.eval n x
  | .action _ _ => g

/-- A derivative needs the last evaluation to be at its point; a Hessian action needs in addition the last derivative to be at its point. -/
def Ghost.Allowed (H : X → Dir → Option HV) (g : Ghost X) : Op X Dir → Prop
  | .call _ => True
  | .deriv x => g.pt = some x
  | .hessian _ => True
  | .action x d => g.pt = some x ∧ g.adj = some x ∧ (H x d).isSome

def Ghost.AllAllowed (H : X → Dir → Option HV) (n : Nat) : Ghost X → List (Op X Dir) → Prop
  | _, [] => True
  | g, op :: l => g.Allowed H op ∧ (g.step n op).AllAllowed H n l

/-! ## Proof -/

/-- The lists hold what the ghost says. -/
structure Agrees (P : X → Prop) (hash : X → K) (Jv : X → Y) (G : X → D) (Inv : S → Prop) (At Lin : X → S → Prop) (n : Nat)
    (g : Ghost X) (m : Memo K Y D) (s : S) : Prop where
  points : ∀ x ∈ g.recent, P x
  dpoints : ∀ x ∈ g.drecent, P x
  evalHash : m.evalHash = g.recent.map hash
  evalVal : m.evalVal = g.recent.map Jv
  derivHash : m.derivHash = g.drecent.map hash
  derivVal : m.derivVal = g.drecent.map G
  inv : Inv s
  pt : ∀ x, g.pt = some x → At x s
  adj : ∀ x, g.adj = some x → Lin x s

omit [DecidableEq X] in
theorem lookup {P : X → Prop} {hash : X → K} (hinj : ∀ x y, P x → P y → hash x = hash y → x = y) {l : List X} (hl : ∀ x ∈ l, P x) {x : X} (hx : P x) :
    (x ∉ l ∧ (l.map hash).idxOf? (hash x) = none) ∨ ∃ i, (l.map hash).idxOf? (hash x) = some i ∧ l[i]? = some x ∧ x ∈ l := by
  cases h : (l.map hash).idxOf? (hash x) with
  | none =>
    left
    refine ⟨fun hm => ?_, rfl⟩
    rw [List.idxOf?_eq_none_iff] at h
    exact h (List.mem_map.2 ⟨x, hm, rfl⟩)
  | some i =>
    right
    unfold List.idxOf? at h
    rw [List.findIdx?_eq_some_iff_getElem] at h
    obtain ⟨hi, he, -⟩ := h
    rw [List.getElem_map, beq_iff_eq] at he
    have hi' : i < l.length := by simpa using hi
    have := hinj _ _ (hl _ (List.getElem_mem hi')) hx he
    exact ⟨i, rfl, by rw [List.getElem?_eq_getElem hi', this], this ▸ List.getElem_mem hi'⟩

omit [DecidableEq X] in
theorem mem_push {n : Nat} {l : List X} {x y : X} (h : y ∈ push n l x) : y ∈ l ∨ y = x := by
  unfold push at h
  rw [List.mem_append, List.mem_singleton] at h
  rcases h with h | h
  · left
    split at h
    · exact List.mem_of_mem_tail h
    · exact h
  · exact Or.inr h

section
variable {rf : Rf X Y D Dir HV S E} {Jv : X → Y} {G : X → D} {H : X → Dir → Option HV} {Inv : S → Prop} {At Lin : X → S → Prop}
  {P : X → Prop} {hash : X → K} {n : Nat}

theorem call_spec (F : Faithful rf Jv G H Inv At Lin) (hinj : ∀ x y, P x → P y → hash x = hash y → x = y)
    {g : Ghost X} {m : Memo K Y D} {s : S} (a : Agrees P hash Jv G Inv At Lin n g m s) (x : X) (hx : P x) :
    ∃ m' s', call n hash rf x m s = (.ok (Jv x), m', s') ∧ Agrees P hash Jv G Inv At Lin n (g.eval n x) m' s' := by
  obtain ⟨s', e, hat, hlin⟩ := F.eval x a.inv
  unfold call Ghost.eval
  by_cases hn : n = 0
  · rw [if_pos hn, if_pos hn, e]
    refine ⟨m, s', rfl, a.points, a.dpoints, a.evalHash, a.evalVal, a.derivHash, a.derivVal, F.inv hat, ?_, fun z hz => hlin z (a.adj z hz)⟩
    intro y hy; cases hy; exact hat
  · rw [if_neg hn, if_neg hn]
    rcases lookup hinj a.points hx with ⟨hni, h1⟩ | ⟨i, h1, h2, h3⟩
    · rw [← a.evalHash] at h1
      rw [h1, if_neg hni]
      simp only []
      have store : ∀ l : List X, (∀ y ∈ l, y ∈ g.recent) → push n g.recent x = l ++ [x] →
          ∃ m' s', callStore hash rf x { m with evalHash := l.map hash, evalVal := l.map Jv } s = (.ok (Jv x), m', s') ∧
            Agrees P hash Jv G Inv At Lin n { g with recent := push n g.recent x, pt := some x } m' s' := by
        intro l hl hp
        unfold callStore
        rw [e]
        refine ⟨_, s', rfl, ?_, a.dpoints, ?_, ?_, a.derivHash, a.derivVal, F.inv hat, ?_, fun z hz => hlin z (a.adj z hz)⟩
        · intro y hy
          rcases mem_push hy with hy | rfl
          · exact a.points y hy
          · exact hx
        · show _ = (push n g.recent x).map hash
          rw [hp]; simp
        · show _ = (push n g.recent x).map Jv
          rw [hp]; simp
        · intro y hy; cases hy; exact hat
      have hlen : m.evalHash.length = g.recent.length := by rw [a.evalHash, List.length_map]
      rw [hlen]
      by_cases hl : g.recent.length = n
      · rw [if_pos hl]
        obtain ⟨y, ys, hy⟩ : ∃ y ys, g.recent = y :: ys := by
          cases hr : g.recent with
          | nil => rw [hr] at hl; exact absurd hl.symm hn
          | cons y ys => exact ⟨y, ys, rfl⟩
        have := store ys (fun z hz => by rw [hy]; exact List.mem_cons_of_mem _ hz) (by unfold push; rw [if_pos hl, hy]; rfl)
        have hv : m.evalVal = Jv y :: ys.map Jv := by rw [a.evalVal, hy]; rfl
        have hh : m.evalHash.tail = ys.map hash := by rw [a.evalHash, hy]; rfl
        rw [hv, hh]
        exact this
      · rw [if_neg hl]
        have := store g.recent (fun _ h => h) (by unfold push; rw [if_neg hl])
        rw [← a.evalHash, ← a.evalVal] at this
        exact this
    · rw [← a.evalHash] at h1
      rw [h1, if_pos h3]
      simp only []
      have : m.evalVal[i]? = some (Jv x) := by rw [a.evalVal, List.getElem?_map, h2]; rfl
      rw [this]
      exact ⟨m, s, rfl, a⟩

theorem deriv_spec (F : Faithful rf Jv G H Inv At Lin) (hinj : ∀ x y, P x → P y → hash x = hash y → x = y)
    {g : Ghost X} {m : Memo K Y D} {s : S} (a : Agrees P hash Jv G Inv At Lin n g m s) (x : X) (hx : P x) (hpt : g.pt = some x) :
    ∃ m' s', deriv n hash rf x m s = (.ok (G x), m', s') ∧ Agrees P hash Jv G Inv At Lin n (g.diff n x) m' s' := by
  obtain ⟨s', e, hat, hlin⟩ := F.deriv (a.pt x hpt)
  have hpt' : ∀ y, g.pt = some y → At y s' := by intro y hy; rw [hpt] at hy; cases hy; exact hat
  have hadj' : ∀ y, g.pt = some y → Lin y s' := by intro y hy; rw [hpt] at hy; cases hy; exact hlin
  unfold deriv Ghost.diff
  by_cases hn : n = 0
  · rw [if_pos hn, if_pos hn, e]
    exact ⟨m, s', rfl, a.points, a.dpoints, a.evalHash, a.evalVal, a.derivHash, a.derivVal, F.inv hat, hpt', hadj'⟩
  · rw [if_neg hn, if_neg hn]
    rcases lookup hinj a.dpoints hx with ⟨hni, h1⟩ | ⟨i, h1, h2, h3⟩
    · rw [← a.derivHash] at h1
      rw [h1, if_neg hni]
      simp only []
      have store : ∀ l : List X, push n g.drecent x = l ++ [x] →
          ∃ m' s', derivStore hash rf x { m with derivHash := l.map hash, derivVal := l.map G } s = (.ok (G x), m', s') ∧
            Agrees P hash Jv G Inv At Lin n { g with drecent := push n g.drecent x, adj := g.pt } m' s' := by
        intro l hp
        unfold derivStore
        rw [e]
        refine ⟨_, s', rfl, a.points, ?_, a.evalHash, a.evalVal, ?_, ?_, F.inv hat, hpt', hadj'⟩
        · intro y hy
          rcases mem_push hy with hy | rfl
          · exact a.dpoints y hy
          · exact hx
        · show _ = (push n g.drecent x).map hash
          rw [hp]; simp
        · show _ = (push n g.drecent x).map G
          rw [hp]; simp
      have hlen : m.derivHash.length = g.drecent.length := by rw [a.derivHash, List.length_map]
      rw [hlen]
      by_cases hl : g.drecent.length = n
      · rw [if_pos hl]
        obtain ⟨y, ys, hy⟩ : ∃ y ys, g.drecent = y :: ys := by
          cases hr : g.drecent with
          | nil => rw [hr] at hl; exact absurd hl.symm hn
          | cons y ys => exact ⟨y, ys, rfl⟩
        have := store ys (by unfold push; rw [if_pos hl, hy]; rfl)
        have hv : m.derivVal = G y :: ys.map G := by rw [a.derivVal, hy]; rfl
        have hh : m.derivHash.tail = ys.map hash := by rw [a.derivHash, hy]; rfl
        rw [hv, hh]
        exact this
      · rw [if_neg hl]
        have := store g.drecent (by unfold push; rw [if_neg hl])
        rw [← a.derivHash, ← a.derivVal] at this
        exact this
    · rw [← a.derivHash] at h1
      rw [h1, if_pos h3]
      simp only []
      have : m.derivVal[i]? = some (G x) := by rw [a.derivVal, List.getElem?_map, h2]; rfl
      rw [this]
      exact ⟨m, s, rfl, a⟩

/-- **C32.** For every `memoize` and every sequence of calls in which derivatives are asked where the tape was last evaluated (by an evaluation that was
not answered from the memory), and Hessian actions where the tape was last evaluated and differentiated: every result is that of the reduced
functional at the point given.  Hashes of different points used are assumed to differ. -/
theorem memo_transparent_partial (F : Faithful rf Jv G H Inv At Lin) (hinj : ∀ x y, P x → P y → hash x = hash y → x = y)
    (l : List (Op X Dir)) (hP : ∀ op ∈ l, P op.point) (s : S) (hs : Inv s) (hl : ({} : Ghost X).AllAllowed H n l) :
    List.Forall₂ (Right (E := E) Jv G H) l (run n hash rf l {} s).1 := by
  have gen : ∀ (l : List (Op X Dir)) (g : Ghost X) (m : Memo K Y D) (s : S), (∀ op ∈ l, P op.point) → Agrees P hash Jv G Inv At Lin n g m s →
      g.AllAllowed H n l → List.Forall₂ (Right (E := E) Jv G H) l (run n hash rf l m s).1 := by
    intro l
    induction l with
    | nil => intro g m s _ _ _; exact .nil
    | cons op l ih =>
      intro g m s hP a hal
      have key : ∃ r m' s', step n hash rf m s op = (r, m', s') ∧ Right (E := E) Jv G H op r ∧
          Agrees P hash Jv G Inv At Lin n (g.step n op) m' s' := by
        have hp := hP op List.mem_cons_self
        cases op with
        | call x =>
          obtain ⟨m', s', e, a'⟩ := call_spec F hinj a x hp
          exact ⟨.ok (.value (Jv x)), m', s', by rw [step, e]; rfl, rfl, a'⟩
        | deriv x =>
          obtain ⟨m', s', e, a'⟩ := deriv_spec F hinj a x hp hal.1
          exact ⟨.ok (.grad (G x)), m', s', by rw [step, e]; rfl, rfl, a'⟩
        | hessian x =>
          obtain ⟨m', s', e, a'⟩ := call_spec F hinj a x hp
          exact ⟨.ok .closure, m', s', by rw [step, e]; rfl, trivial, a'⟩
        | action x d =>
          obtain ⟨h1, h2, h3⟩ := hal.1
          obtain ⟨v, hv⟩ := Option.isSome_iff_exists.1 h3
          obtain ⟨s', e, hat, hlin⟩ := F.hess d v (a.pt x h1) (a.adj x h2) hv
          refine ⟨.ok (.hess v), m, s', by rw [step, e]; rfl, hv, a.points, a.dpoints, a.evalHash, a.evalVal, a.derivHash, a.derivVal, F.inv hat, ?_, ?_⟩
          · intro y hy
            have hy : g.pt = some y := hy
            rw [h1] at hy; cases hy; exact hat
          · intro y hy
            have hy : g.adj = some y := hy
            rw [h2] at hy; cases hy; exact hlin
      obtain ⟨r, m', s', e, hr, a'⟩ := key
      have : (run n hash rf (op :: l) m s).1 = r :: (run n hash rf l m' s').1 := by rw [run, e]
      rw [this]
      exact .cons hr (ih _ m' s' (fun q hq => hP q (List.mem_cons_of_mem _ hq)) a' hal.2)
  exact gen l {} {} s hP ⟨by simp, by simp, rfl, rfl, rfl, rfl, hs, by simp, by simp⟩ hl

/-! ### Few evaluations remembered -/

/-- The point of the last call, and that of the last derivative. -/
structure Last (X : Type*) where
  pt : Option X := none
  adj : Option X := none

def Last.step (g : Last X) : Op X Dir → Last X
  | .call x => { g with pt := some x }
  | .deriv x => { g with adj := some x }
  | .hessian x => { g with pt := some x }
  | .action _ _ => g

/-- A derivative is asked where the functional was called last; a Hessian action where it was called and differentiated last. -/
def Last.Allowed (H : X → Dir → Option HV) (g : Last X) : Op X Dir → Prop
  | .call _ => True
  | .deriv x => g.pt = some x
  | .hessian _ => True
  | .action x d => g.pt = some x ∧ g.adj = some x ∧ (H x d).isSome

def Last.AllAllowed (H : X → Dir → Option HV) : Last X → List (Op X Dir) → Prop
  | _, [] => True
  | g, op :: l => g.Allowed H op ∧ (g.step op).AllAllowed H l

/-- **C32, `memoize` 0 or 1 (the default).** It is enough that the derivative is asked where the functional was called last, and the Hessian action where
it was called and differentiated last. -/
theorem memo_default_transparent (F : Faithful rf Jv G H Inv At Lin) (hinj : ∀ x y, P x → P y → hash x = hash y → x = y) (hn : n ≤ 1)
    (l : List (Op X Dir)) (hP : ∀ op ∈ l, P op.point) (s : S) (hs : Inv s) (hl : ({} : Last X).AllAllowed H l) :
    List.Forall₂ (Right (E := E) Jv G H) l (run n hash rf l {} s).1 := by
  refine memo_transparent_partial F hinj l hP s hs ?_
  have gen : ∀ (l : List (Op X Dir)) (g : Ghost X) (k : Last X), g.pt = k.pt → g.adj = k.adj →
      (n = 1 → g.recent = k.pt.toList ∧ g.drecent = k.adj.toList) → k.AllAllowed H l → g.AllAllowed H n l := by
    intro l
    induction l with
    | nil => intros; trivial
    | cons op l ih =>
      intro g k h1 h2 h3 hal
      have ev : ∀ x, (g.eval n x).pt = some x ∧ (g.eval n x).adj = k.adj ∧
          (n = 1 → (g.eval n x).recent = [x] ∧ (g.eval n x).drecent = k.adj.toList) := by
        intro x
        unfold Ghost.eval
        by_cases h0 : n = 0
        · rw [if_pos h0]
          exact ⟨rfl, h2, fun h => by omega⟩
        · have hn1 : n = 1 := by omega
          obtain ⟨e1, e2⟩ := h3 hn1
          rw [if_neg h0]
          cases hk : k.pt with
          | none =>
            rw [hk] at e1 h1
            rw [if_neg (by rw [e1]; simp)]
            refine ⟨rfl, h2, fun _ => ⟨?_, e2⟩⟩
            show push n g.recent x = [x]
            rw [e1]
            unfold push
            rw [if_neg (by show ¬ 0 = n; omega)]; rfl
          | some y =>
            rw [hk] at e1 h1
            by_cases hxy : x = y
            · subst hxy
              rw [if_pos (by rw [e1]; simp)]
              exact ⟨h1, h2, fun _ => ⟨e1, e2⟩⟩
            · rw [if_neg (by rw [e1]; simpa using hxy)]
              refine ⟨rfl, h2, fun _ => ⟨?_, e2⟩⟩
              show push n g.recent x = [x]
              rw [e1]
              unfold push
              rw [if_pos (by simp [hn1])]; rfl
      cases op with
      | call x => exact ⟨trivial, ih _ { k with pt := some x } (ev x).1 (ev x).2.1 (ev x).2.2 hal.2⟩
      | hessian x => exact ⟨trivial, ih _ { k with pt := some x } (ev x).1 (ev x).2.1 (ev x).2.2 hal.2⟩
      | deriv x =>
        have hx : k.pt = some x := hal.1
        refine ⟨h1.trans hx, ?_⟩
        have df : (g.diff n x).pt = k.pt ∧ (g.diff n x).adj = some x ∧
            (n = 1 → (g.diff n x).recent = k.pt.toList ∧ (g.diff n x).drecent = [x]) := by
          unfold Ghost.diff
          by_cases h0 : n = 0
          · rw [if_pos h0]
            exact ⟨h1, h1.trans hx, fun h => by omega⟩
          · have hn1 : n = 1 := by omega
            obtain ⟨e1, e2⟩ := h3 hn1
            rw [if_neg h0]
            cases hk : k.adj with
            | none =>
              rw [hk] at e2
              rw [if_neg (by rw [e2]; simp)]
              refine ⟨h1, h1.trans hx, fun _ => ⟨e1, ?_⟩⟩
              show push n g.drecent x = [x]
              rw [e2]
              unfold push
              rw [if_neg (by show ¬ 0 = n; omega)]; rfl
            | some y =>
              rw [hk] at e2 h2
              by_cases hxy : x = y
              · subst hxy
                rw [if_pos (by rw [e2]; simp)]
                exact ⟨h1, h2, fun _ => ⟨e1, e2⟩⟩
              · rw [if_neg (by rw [e2]; simpa using hxy)]
                refine ⟨h1, h1.trans hx, fun _ => ⟨e1, ?_⟩⟩
                show push n g.drecent x = [x]
                rw [e2]
                unfold push
                rw [if_pos (by simp [hn1])]; rfl
        exact ih _ { k with adj := some x } df.1 df.2.1 df.2.2 hal.2
      | action x d =>
        obtain ⟨a1, a2, a3⟩ := hal.1
        exact ⟨⟨h1.trans a1, h2.trans a2, a3⟩, ih g k h1 h2 h3 hal.2⟩
  exact gen l {} {} rfl rfl (fun _ => ⟨rfl, rfl⟩) hl

/-- **C32, values.** Values need no order of calls: for every `memoize`, calls at any points in any order give the values there. -/
theorem memo_values (F : Faithful rf Jv G H Inv At Lin) (hinj : ∀ x y, P x → P y → hash x = hash y → x = y)
    (xs : List X) (hP : ∀ x ∈ xs, P x) (s : S) (hs : Inv s) :
    List.Forall₂ (fun x r => r = (.ok (.value (Jv x)) : Except (Err E) (Res Y D HV))) xs (run n hash rf (xs.map .call) {} s).1 := by
  have h := memo_transparent_partial (n := n) F hinj (xs.map .call) (by
    intro op hop
    obtain ⟨x, hx, rfl⟩ := List.mem_map.1 hop
    exact hP x hx) s hs (by
    generalize ({} : Ghost X) = g
    induction xs generalizing g with
    | nil => trivial
    | cons x xs ih => exact ⟨trivial, ih (fun y hy => hP y (List.mem_cons_of_mem _ hy)) _⟩)
  rw [List.forall₂_map_left_iff] at h
  refine h.imp ?_
  intro x r hr
  cases r with
  | error e => exact hr.elim
  | ok r =>
    cases r with
    | value y => have hr : y = Jv x := hr; rw [hr]
    | grad d => exact hr.elim
    | closure => exact hr.elim
    | hess v => exact hr.elim

/-! ### Failing evaluations -/

omit [DecidableEq X] in
/-- Without memory (`memoize = 0`), evaluations that raise leave no trace: after any number of calls, which may have raised, a call that returns gives
the value there, and the derivative after it is right.  Evaluations may raise, but keep the tape usable (see `SameBase.step`, case `crash`). -/
theorem direct_after_failures {rf : Rf X Y D Dir HV S E} (hash : X → K)
    (inv : ∀ {x s}, At x s → Inv s)
    (eval : ∀ {s} x, Inv s → (∃ s', rf.eval x s = (.ok (Jv x), s') ∧ At x s') ∨ ∃ e s', rf.eval x s = (.error e, s') ∧ Inv s')
    (deriv : ∀ {x s}, At x s → ∃ s', rf.deriv s = (.ok (G x), s') ∧ At x s')
    (xs : List X) (s : S) (hs : Inv s) (x : X) :
    let r := run 0 hash rf (xs.map .call) ({} : Memo K Y D) s
    let r' := run 0 hash rf [.call x, .deriv x] r.2.1 r.2.2
    (∃ e, r'.1.head? = some (.error (.rf e))) ∨ r'.1 = [.ok (.value (Jv x)), .ok (.grad (G x))] := by
  have h : ∀ (xs : List X) (m : Memo K Y D) (s : S), Inv s → Inv (run 0 hash rf (xs.map .call) m s).2.2 := by
    intro xs
    induction xs with
    | nil => intro m s hs; exact hs
    | cons y ys ih =>
      intro m s hs
      rw [List.map_cons]
      have : ∃ r m' s', step 0 hash rf m s (.call y) = (r, m', s') ∧ Inv s' := by
        rcases eval y hs with ⟨s', e, hat⟩ | ⟨er, s', e, hi⟩
        · exact ⟨_, _, s', by rw [step, call, if_pos rfl, e], inv hat⟩
        · exact ⟨_, _, s', by rw [step, call, if_pos rfl, e], hi⟩
      obtain ⟨r, m', s', e, hi⟩ := this
      have : (run 0 hash rf (.call y :: ys.map .call) m s).2.2 = (run 0 hash rf (ys.map .call) m' s').2.2 := by rw [run, e]
      rw [this]
      exact ih m' s' hi
  intro r r'
  have hi : Inv r.2.2 := h xs {} s hs
  rcases eval x hi with ⟨s', e, hat⟩ | ⟨er, s', e, -⟩
  · right
    obtain ⟨s'', e', -⟩ := deriv hat
    show (run 0 hash rf [.call x, .deriv x] r.2.1 r.2.2).1 = _
    simp only [run, step, call, Moola.deriv, if_true, e, e', lift, Except.map]
  · left
    refine ⟨er, ?_⟩
    show (run 0 hash rf [.call x, .deriv x] r.2.1 r.2.2).1.head? = _
    simp only [run, step, call, if_true, e, lift, Except.map, List.head?_cons]

end

/-! ## The tape is such a reduced functional -/

/-- `rf` on a tape of `AdjFloat` operations, with points of the right size.  If `rf.hessian` raises, the state left is not modelled. -/
noncomputable def tapeRf (t : FTape) (J : BV) (cs : List BV) (scale seed : ℝ) :
    Rf {x : List ℝ // x.length = cs.length} ℝ (List ℝ) (List ℝ) (List ℝ) FHeap FBlock.PyErr where
  eval x s := (.ok (saved (rfEval t.blocks cs x.1 s) J * scale), rfEval t.blocks cs x.1 s)
  deriv s := (.ok (computeGradient t.blocks J cs seed s).1, (computeGradient t.blocks J cs seed s).2)
  hess d s :=
    match t.computeHessian J cs d s with
    | .ok (v, s') => (.ok v, s')
    | .error e => (.error e, s)

/-- The Hessian action at a point, where it does not raise. -/
noncomputable def hessAt (t : FTape) (J : BV) (cs : List BV) (seed : ℝ) (h₀ : FHeap) (x d : List ℝ) : Option (List ℝ) :=
  match (t.computeHessian J cs d (computeGradientState t.blocks J cs seed (rfEval t.blocks cs x h₀))).map (·.1) with
  | .ok v => some v
  | .error _ => none

/-- The hypothesis of the theorems above holds for every well-formed tape whose functional and controls are on it. -/
theorem tape_faithful (t : FTape) (wf : WF t.blocks) (cs : List BV) (hnd : cs.Nodup) (J : BV) (hJ : OnTape t.blocks J)
    (hcs : ∀ c ∈ cs, OnTape t.blocks c) (scale seed : ℝ) (h₀ : FHeap) (hfl : ∀ v, (h₀ v).isControl = false) (hmk : ∀ v, (h₀ v).marked = false) :
    Faithful (tapeRf t J cs scale seed)
      (fun x => saved (rfEval t.blocks cs x.1 h₀) J * scale)
      (fun x => (computeGradient t.blocks J cs seed (rfEval t.blocks cs x.1 h₀)).1)
      (fun x d => hessAt t J cs seed h₀ x.1 d)
      (SameBase t cs h₀)
      (fun x s => SameBase t cs h₀ s ∧ ∀ v, saved s v = saved (rfEval t.blocks cs x.1 h₀) v)
      (fun x s => ∀ v, touched t cs J v → (s v).adj = (computeGradientState t.blocks J cs seed (rfEval t.blocks cs x.1 h₀) v).adj) := by
  have hon : ∀ v, touched t cs J v → OnTape t.blocks v := by
    rintro v (hv | hv | rfl)
    · exact hv
    · exact hcs v hv
    · exact hJ
  have base₀ : SameBase t cs h₀ h₀ := ⟨fun _ => rfl, hfl, hmk, fun _ _ => rfl⟩
  have base : ∀ x, SameBase t cs h₀ (rfEval t.blocks cs x h₀) := fun x => base₀.step wf (.eval x) rfl
  refine ⟨fun h => h.1, ?_, ?_, ?_⟩
  · intro s x hs
    have hsv := evaluation_history_independent wf cs hnd x.1 x.2 t.total s h₀ hs.flags hfl hs.output hs.kept
    refine ⟨rfEval t.blocks cs x.1 s, ?_, ⟨hs.step wf (.eval x.1) rfl, hsv⟩, fun z hz v hv => ?_⟩
    · show (Except.ok _, _) = _
      rw [hsv J]
    · obtain ⟨c, hc⟩ := rfEval_frame t.blocks cs x.1 s v (fun c _ => hs.flags c)
      rw [hc]; exact hz v hv
  · rintro x s ⟨hs, hsv⟩
    refine ⟨computeGradientState t.blocks J cs seed s, ?_, ⟨hs.step wf (.derivative J cs seed) rfl, fun v => ?_⟩, ?_⟩
    · show (Except.ok _, _) = _
      rw [gradient_of_saved wf J cs seed s _ hsv fun c hc => Or.inl (hcs c hc)]
      rfl
    · rw [← hsv v]
      obtain ⟨a, e⟩ := computeGradientState_adj_frame t.blocks J cs seed s hs.flags hs.marks v
      exact saved_congr (by rw [e]) (by rw [e])
    · exact adj_of_saved t J cs seed hon s _ (fun v _ => hsv v) hs.marks (base x.1).marks
  · rintro x s d v ⟨hs, hsv⟩ hlin hv
    have key : (t.computeHessian J cs d s).map (·.1)
        = (t.computeHessian J cs d (computeGradientState t.blocks J cs seed (rfEval t.blocks cs x.1 h₀))).map (·.1) := by
      have hb := (base x.1).step wf (.derivative J cs seed) rfl
      refine hessian_of_saved t J cs d _ _ (fun v _ => ?_) hlin (fun v _ => (hs.marks v).trans (hb.marks v).symm) fun v hv => Or.inl (hon v hv)
      rw [hsv v]
      obtain ⟨a, e⟩ := computeGradientState_adj_frame t.blocks J cs seed _ (base x.1).flags (base x.1).marks v
      exact (saved_congr (by rw [e]) (by rw [e])).symm
    unfold hessAt at hv
    rw [← key] at hv
    cases hr : t.computeHessian J cs d s with
    | error e => rw [hr] at hv; cases hv
    | ok r =>
      rw [hr] at hv
      have hv : r.1 = v := by simpa [Except.map] using hv
      have fr := fun v => computeHessian_frame t (FTape.WF_self wf) J cs d s hs.marks r.1 r.2 hr v
      refine ⟨r.2, ?_, ⟨hs.step wf (.hessian J cs d) (by show (t.computeHessian J cs d s).map _ = _; rw [hr]; rfl), fun w => ?_⟩, fun w hw => ?_⟩
      · show (match t.computeHessian J cs d s with
          | .ok (v, s') => (Except.ok v, s')
          | .error e => (.error e, s)) = _
        rw [hr, ← hv]
      · obtain ⟨a, b, e⟩ := fr w
        rw [← hsv w]
        exact saved_congr (by rw [e]) (by rw [e])
      · obtain ⟨a, b, e⟩ := fr w
        rw [e]; exact hlin w hw

/-- **C32 on the tape.** `memo_default_transparent` for a reduced functional on a tape. -/
theorem moola_on_tape (t : FTape) (wf : WF t.blocks) (cs : List BV) (hnd : cs.Nodup) (J : BV) (hJ : OnTape t.blocks J)
    (hcs : ∀ c ∈ cs, OnTape t.blocks c) (scale seed : ℝ) (h₀ : FHeap) (hfl : ∀ v, (h₀ v).isControl = false) (hmk : ∀ v, (h₀ v).marked = false)
    [DecidableEq {x : List ℝ // x.length = cs.length}] (hash : {x : List ℝ // x.length = cs.length} → K) (hinj : Function.Injective hash) (n : Nat) (hn : n ≤ 1)
    (l : List (Op {x : List ℝ // x.length = cs.length} (List ℝ)))
    (hl : ({} : Last {x : List ℝ // x.length = cs.length}).AllAllowed (fun x d => hessAt t J cs seed h₀ x.1 d) l) :
    List.Forall₂ (Right (E := FBlock.PyErr) (fun x => saved (rfEval t.blocks cs x.1 h₀) J * scale)
        (fun x => (computeGradient t.blocks J cs seed (rfEval t.blocks cs x.1 h₀)).1) (fun x d => hessAt t J cs seed h₀ x.1 d))
      l (run n hash (tapeRf t J cs scale seed) l {} h₀).1 :=
  memo_default_transparent (P := fun _ => True) (tape_faithful t wf cs hnd J hJ hcs scale seed h₀ hfl hmk) (fun _ _ _ _ h => hinj h) hn l
    (fun _ _ => trivial) h₀ ⟨fun _ => rfl, hfl, hmk, fun _ _ => rfl⟩ hl

/-- The hypotheses hold for `J = x²`, and a sequence of calls as a Newton solver makes them. -/
example : WF sqTape.blocks ∧ OnTape sqTape.blocks 1 ∧ OnTape sqTape.blocks 0 ∧
    ({} : Last {x : List ℝ // x.length = [0].length}).AllAllowed (fun x d => hessAt sqTape 1 [0] 1 unitHeap x.1 d)
      [.call ⟨[1], rfl⟩, .deriv ⟨[1], rfl⟩, .hessian ⟨[1], rfl⟩, .action ⟨[1], rfl⟩ [2], .action ⟨[1], rfl⟩ [3], .call ⟨[5], rfl⟩, .call ⟨[4], rfl⟩,
        .deriv ⟨[4], rfl⟩] :=
  ⟨sqTape_wf, ⟨_, List.mem_cons_self, Or.inr (List.mem_singleton.2 rfl)⟩, ⟨_, List.mem_cons_self, Or.inl List.mem_cons_self⟩,
    trivial, rfl, trivial, ⟨rfl, rfl, rfl⟩, ⟨rfl, rfl, rfl⟩, trivial, trivial, rfl, trivial⟩

/-! ## Where it is not transparent -/

/-- `v₁ = v₀²` (example data). -/
def sqInt : Blocks Int Int Int :=
  [{ deps := [0], outs := [1], recomputeC := fun i _ => (i[0]?).map fun x => x * x,
     adjC := fun i a _ => match i[0]?, (a[0]?).join with | some x, some a => some (2 * x * a) | _, _ => none,
     tlmC := fun _ _ _ => none, hessC := fun _ _ _ _ _ => none }]

/-- `rf` for `J = x²` that raises at 0 (example data). -/
def sqIntRf : Rf (List Int) Int (List Int) Unit Unit (Heap Int Int Int) Unit where
  eval x s := if x = [0] then (.error (), s) else (.ok (saved (rfEval sqInt [0] x s) 1), rfEval sqInt [0] x s)
  deriv s := (.ok (computeGradient sqInt 1 [0] 1 s).1, (computeGradient sqInt 1 [0] 1 s).2)
  hess _ s := (.error (), s)

/-- **With `memoize = 2` derivatives can be those at another point**: `f(1)`, `f(2)`, `f(1)` (from memory, the tape stays at 2), `f.derivative(1)`
is 4, although the derivative at 1 is 2, and it was asked directly after a call at 1. -/
theorem memo_stale_derivative :
    (run 2 id sqIntRf [.call [1], .call [2], .call [1], .deriv [1]] {} exHeap).1
      = [.ok (.value 1), .ok (.value 4), .ok (.value 1), .ok (.grad [4])] ∧
    (run 0 id sqIntRf [.call [1], .call [2], .call [1], .deriv [1]] {} exHeap).1
      = [.ok (.value 1), .ok (.value 4), .ok (.value 1), .ok (.grad [2])] := ⟨rfl, rfl⟩

/-- **A failing evaluation corrupts later results**: with `memoize = 2`, after `f(0)` raised and `f(3)` returned 9, `f(0)` returns 9, and `f(3)` raises an
`IndexError`. -/
theorem memo_corrupt_after_failure :
    (run 2 id sqIntRf [.call [0], .call [3], .call [0], .call [3]] {} exHeap).1
      = [.error (.rf ()), .ok (.value 9), .ok (.value 9), .error .index] := rfl

/-- With `memoize = 1`, the call after a failing one raises an `IndexError`, and the one after that returns. -/
theorem memo_index_error_after_failure :
    (run 1 id sqIntRf [.call [0], .call [3], .call [3]] {} exHeap).1 = [.error (.rf ()), .error .index, .ok (.value 9)] := rfl

omit [DecidableEq X] in
/-- One call keeps the two lists of the derivative at the same length. -/
theorem step_derivLists (n : Nat) (hash : X → K) (rf : Rf X Y D Dir HV S E) (op : Op X Dir) (m : Memo K Y D) (s : S)
    (hm : m.derivHash.length = m.derivVal.length) :
    (step n hash rf m s op).2.1.derivHash.length = (step n hash rf m s op).2.1.derivVal.length ∧
    ∀ x, op = .deriv x → (step n hash rf m s op).1 ≠ .error .index := by
  have store : ∀ (x : X) (m : Memo K Y D), m.derivHash.length = m.derivVal.length →
      (derivStore hash rf x m s).2.1.derivHash.length = (derivStore hash rf x m s).2.1.derivVal.length ∧ (derivStore hash rf x m s).1 ≠ .error .index := by
    intro x m hm
    unfold derivStore
    rcases rf.deriv s with ⟨_ | d, s'⟩
    · exact ⟨hm, fun h => by cases h⟩
    · refine ⟨?_, fun h => by cases h⟩
      simp only [List.length_append, hm, List.length_cons, List.length_nil]
  have hcall : ∀ x, (call n hash rf x m s).2.1.derivHash = m.derivHash ∧ (call n hash rf x m s).2.1.derivVal = m.derivVal := by
    intro x
    have st : ∀ m' : Memo K Y D, (callStore hash rf x m' s).2.1.derivHash = m'.derivHash ∧ (callStore hash rf x m' s).2.1.derivVal = m'.derivVal := by
      intro m'
      unfold callStore
      rcases rf.eval x s with ⟨_ | y, s'⟩ <;> exact ⟨rfl, rfl⟩
    unfold call
    by_cases h0 : n = 0
    · rw [if_pos h0]; exact ⟨rfl, rfl⟩
    rw [if_neg h0]
    cases m.evalHash.idxOf? (hash x) with
    | some i => dsimp only; cases m.evalVal[i]? <;> exact ⟨rfl, rfl⟩
    | none =>
      dsimp only
      by_cases hl : m.evalHash.length = n
      · rw [if_pos hl]
        cases m.evalVal with
        | nil => exact ⟨rfl, rfl⟩
        | cons v vs => exact st _
      · rw [if_neg hl]; exact st m
  have hderiv : ∀ x, (deriv n hash rf x m s).2.1.derivHash.length = (deriv n hash rf x m s).2.1.derivVal.length ∧
      (deriv n hash rf x m s).1 ≠ .error .index := by
    intro x
    unfold deriv
    by_cases h0 : n = 0
    · rw [if_pos h0]
      rcases rf.deriv s with ⟨_ | d, s'⟩ <;> exact ⟨hm, fun h => by cases h⟩
    rw [if_neg h0]
    cases hi : m.derivHash.idxOf? (hash x) with
    | some i =>
      dsimp only
      have hlt : i < m.derivVal.length := by
        rw [← hm]
        exact (List.findIdx?_eq_some_iff_getElem.1 hi).1
      rw [List.getElem?_eq_getElem hlt]
      exact ⟨hm, fun h => by cases h⟩
    | none =>
      dsimp only
      by_cases hl : m.derivHash.length = n
      · rw [if_pos hl]
        cases hv : m.derivVal with
        | nil => rw [hv] at hm; exact absurd (hl.symm.trans hm) h0
        | cons v vs =>
          refine store x _ ?_
          simp only [List.length_tail, hm, hv, List.length_cons, Nat.add_sub_cancel]
      · rw [if_neg hl]; exact store x m hm
  cases op with
  | call x =>
    refine ⟨?_, fun _ h => by cases h⟩
    show (call n hash rf x m s).2.1.derivHash.length = (call n hash rf x m s).2.1.derivVal.length
    rw [(hcall x).1, (hcall x).2, hm]
  | deriv x =>
    refine ⟨(hderiv x).1, fun _ _ h => (hderiv x).2 ?_⟩
    have h' : ((deriv n hash rf x m s).1.map .grad : Except (Err E) (Res Y D HV)) = .error .index := h
    cases hd : (deriv n hash rf x m s).1 with
    | ok d => rw [hd] at h'; cases h'
    | error e => rw [hd] at h'; cases h'; rfl
  | hessian x =>
    refine ⟨?_, fun _ h => by cases h⟩
    show (call n hash rf x m s).2.1.derivHash.length = (call n hash rf x m s).2.1.derivVal.length
    rw [(hcall x).1, (hcall x).2, hm]
  | action x d => exact ⟨hm, fun _ h => by cases h⟩

omit [DecidableEq X] in
/-- **C32: failures never corrupt the memory of derivatives.**  Whatever is called, and whatever raises, `derivative` does not raise an `IndexError`
(`__call__` does, `memo_index_error_after_failure`). -/
theorem memo_derivative_never_index (n : Nat) (hash : X → K) (rf : Rf X Y D Dir HV S E) (l : List (Op X Dir)) (s : S) (k : Nat) (x : X)
    (hk : l[k]? = some (.deriv x)) : (run n hash rf l {} s).1[k]? ≠ some (.error .index) := by
  have gen : ∀ (l : List (Op X Dir)) (m : Memo K Y D) (s : S) (k : Nat), m.derivHash.length = m.derivVal.length → l[k]? = some (.deriv x) →
      (run n hash rf l m s).1[k]? ≠ some (.error .index) := by
    intro l
    induction l with
    | nil => intro m s k _ hk; cases hk
    | cons op l ih =>
      intro m s k hm hk
      have hs := step_derivLists n hash rf op m s hm
      unfold run
      cases k with
      | zero =>
        cases hk
        intro h
        exact hs.2 x rfl (Option.some.inj h)
      | succ k => exact ih _ _ k hs.1 hk
  exact gen l {} s k rfl hk

example : ([.call [0], .call [3], .deriv [3]] : List (Op (List Int) Unit))[2]? = some (.deriv [3]) ∧
    (run 1 id sqIntRf [.call [0], .call [3], .deriv [3]] {} exHeap).1[1]? = some (.error .index) := ⟨rfl, rfl⟩

end Moola
end Pyadjoint
