import Verif.Model.Aliasing
import Verif.Spec.Tapes

/-!
# Accumulating one derivative never changes another (C41)

The sweeps over objects refine the sweeps over values of `Verif.Model.Core`, which all other theorems are about: the tangent
sweep always, the adjoint and Hessian sweeps if objects are immutable, or if blocks return new objects; and they do not if a
block hands on the object it was given and `+=` works in place.
-/

namespace Pyadjoint

variable {V T A : Type*}

namespace Objs

variable {K : Type*}

/-- References point to existing objects, and if `+=` works in place no two attributes share one. -/
structure Sep (inplace : Bool) (s : Objs K A) : Prop where
  bounded : ∀ k a, s.ref k = some a → a < s.next
  inj : inplace = true → ∀ k l a, s.ref k = some a → s.ref l = some a → k = l

/-- An existing object that the sweep has no business with: with `+=` in place, one that no attribute refers to. -/
def Foreign (inplace : Bool) (s : Objs K A) (a : Nat) : Prop :=
  a < s.next ∧ (inplace = true → ∀ k, s.ref k ≠ some a)

/-- Components declared to hand on an object do so; with `+=` in place no component does. -/
structure Honest (inplace : Bool) (c : List (Option A) → Nat → Option A) (src : Nat → Option Nat) : Prop where
  honest : ∀ ins idx k, src idx = some k → c ins idx = (ins[k]?).join
  fresh : inplace = true → ∀ idx, src idx = none

/-- Accumulation of values. -/
def plus [Add A] : Option A → Option A → Option A
  | x, none => x
  | none, some a => some a
  | some x, some a => some (x + a)

variable [DecidableEq K] {inplace : Bool}

theorem add_next [Add A] (s : Objs K A) (k : K) (a : Nat) : s.next ≤ (s.add inplace k a).next := by
  unfold add
  split
  · exact Nat.le_refl _
  · split
    · exact Nat.le_refl _
    · exact Nat.le_succ _

theorem add_ref_of_ne [Add A] (s : Objs K A) (k l : K) (a : Nat) (h : l ≠ k) :
    (s.add inplace k a).ref l = s.ref l := by
  unfold add
  split
  · simp [h]
  · split
    · rfl
    · simp [h]

/-- The reference afterwards is the old one, the object given, or a new one. -/
theorem add_ref [Add A] (s : Objs K A) (k : K) (a : Nat) (x : Nat) (h : (s.add inplace k a).ref k = some x) :
    (s.ref k = some x ∧ (s.add inplace k a).next = s.next) ∨ x = a ∨
      (inplace = false ∧ x = s.next ∧ (s.add inplace k a).next = s.next + 1) := by
  unfold add at h ⊢
  split at h
  · rename_i hr
    simp at h
    exact Or.inr (Or.inl h.symm)
  · rename_i a0 hr
    cases inplace with
    | true =>
      simp only [if_true] at h ⊢
      exact Or.inl ⟨h, trivial⟩
    | false =>
      simp at h
      exact Or.inr (Or.inr ⟨rfl, h.symm, rfl⟩)

theorem add_store [Add A] (s : Objs K A) (k : K) (a x : Nat) (hx : x < s.next)
    (h : inplace = true → s.ref k ≠ some x) : (s.add inplace k a).store x = s.store x := by
  unfold add
  split
  · rfl
  · rename_i a0 hr
    cases inplace with
    | true =>
      simp only [if_true]
      rw [Function.update_of_ne]
      rintro rfl
      exact h rfl hr
    | false =>
      simp only [Bool.false_eq_true, if_false]
      rw [Function.update_of_ne]
      omega

theorem add_val [Add A] (s : Objs K A) (hs : s.Sep inplace) (k : K) (a : Nat) :
    (s.add inplace k a).val = Function.update s.val k (plus (s.val k) (some (s.store a))) := by
  funext l
  by_cases hl : l = k
  · subst hl
    rw [Function.update_self]
    unfold val
    unfold add
    cases hr : s.ref l with
    | none => simp [plus]
    | some a0 =>
      cases inplace with
      | true => simp [plus, hr]
      | false => simp [plus]
  · have hr := add_ref_of_ne (inplace := inplace) s k l a hl
    rw [Function.update_of_ne hl]
    unfold val
    rw [hr]
    cases hrw : s.ref l with
    | none => rfl
    | some x =>
      simp only [Option.map_some]
      rw [add_store s k a x (hs.bounded l x hrw)]
      intro hi hv
      exact hl (hs.inj hi l k x hrw hv)

theorem add_sep [Add A] (s : Objs K A) (hs : s.Sep inplace) (k : K) (a : Nat) (ha : a < s.next)
    (hf : inplace = true → ∀ l, s.ref l ≠ some a) : (s.add inplace k a).Sep inplace := by
  constructor
  · intro l x hx
    have hn := add_next (inplace := inplace) s k a
    by_cases hl : l = k
    · subst hl
      rcases add_ref s l a x hx with h | h | h
      · have := hs.bounded l x h.1; omega
      · omega
      · omega
    · rw [add_ref_of_ne s k l a hl] at hx
      have := hs.bounded l x hx
      omega
  · intro hi
    have key : ∀ l x, l ≠ k → (s.add inplace k a).ref l = some x → (s.add inplace k a).ref k = some x → False := by
      intro l x hl h1 h2
      rw [add_ref_of_ne s k l a hl] at h1
      rcases add_ref s k a x h2 with h | h | h
      · exact hl (hs.inj hi l k x h1 h.1)
      · subst h; exact hf hi l h1
      · rw [hi] at h; cases h.1
    intro l l' x h1 h2
    by_cases hl : l = k
    · by_cases hl' : l' = k
      · rw [hl, hl']
      · subst hl; exact (key l' x hl' h2 h1).elim
    · by_cases hl' : l' = k
      · subst hl'; exact (key l x hl h1 h2).elim
      · rw [add_ref_of_ne s k _ a hl] at h1
        rw [add_ref_of_ne s k _ a hl'] at h2
        exact hs.inj hi l l' x h1 h2

omit [DecidableEq K] in
theorem alloc_val (s : Objs K A) (hs : s.Sep inplace) (x : A) : (s.alloc x).2.val = s.val := by
  funext k
  simp only [val, alloc]
  cases hr : s.ref k with
  | none => rfl
  | some a =>
    have := hs.bounded k a hr
    simp only [Option.map_some]
    rw [Function.update_of_ne (by omega)]

omit [DecidableEq K] in
theorem alloc_sep (s : Objs K A) (hs : s.Sep inplace) (x : A) : (s.alloc x).2.Sep inplace :=
  ⟨fun k a h => Nat.lt_succ_of_lt (hs.bounded k a h), hs.inj⟩

/-- One round of the loop. -/
theorem give_spec [Add A] {c : List (Option A) → Nat → Option A} {src : Nat → Option Nat} (hb : Honest inplace c src)
    (ins : List (Option Nat)) (s : Objs K A) (hs : s.Sep inplace) (hin : ∀ a, some a ∈ ins → a < s.next) (p : K × Nat) :
    let s' := s.give inplace p.1 (c (ins.map fun o => o.map s.store) p.2) ((src p.2).bind fun k => (ins[k]?).join)
    s'.val = Function.update s.val p.1 (plus (s.val p.1) (c (ins.map fun o => o.map s.store) p.2)) ∧
    s'.Sep inplace ∧ s.next ≤ s'.next ∧ (∀ l, l ≠ p.1 → s'.ref l = s.ref l) ∧
    (∀ a, s.Foreign inplace a → s'.Foreign inplace a ∧ s'.store a = s.store a) ∧
    (∀ l a, l ≠ p.1 → s.ref l = some a → s'.store a = s.store a) := by
  intro s'
  have hdef : s' = s.give inplace p.1 (c (ins.map fun o => o.map s.store) p.2)
    ((src p.2).bind fun k => (ins[k]?).join) := rfl
  unfold give at hdef
  cases hc : c (ins.map fun o => o.map s.store) p.2 with
  | none =>
    rw [hc] at hdef
    simp only at hdef
    rw [hdef]
    refine ⟨?_, hs, Nat.le_refl _, fun _ _ => rfl, fun a ha => ⟨ha, rfl⟩, fun _ _ _ _ => rfl⟩
    have : plus (s.val p.1) none = s.val p.1 := by cases s.val p.1 <;> rfl
    rw [this, Function.update_eq_self]
  | some x =>
    rw [hc] at hdef
    simp only at hdef
    cases hsrc : (src p.2).bind fun k => (ins[k]?).join with
    | some a =>
      rw [hsrc] at hdef
      simp only at hdef
      rw [hdef]
      obtain ⟨k, hk, hka⟩ := Option.bind_eq_some_iff.1 hsrc
      have hni : inplace = false := by
        cases hi : inplace with
        | false => rfl
        | true => rw [hb.fresh hi] at hk; cases hk
      have hmem : some a ∈ ins := by
        cases hg : ins[k]? with
        | none => simp [hg] at hka
        | some o => simp [hg] at hka; subst hka; exact List.mem_of_getElem? hg
      have ha := hin a hmem
      have hx : x = s.store a := by
        have := hb.honest (ins.map fun o => o.map s.store) p.2 k hk
        rw [hc] at this
        cases hg : ins[k]? with
        | none => simp [hg] at hka
        | some o =>
          simp [hg] at hka
          subst hka
          simp [hg] at this
          exact this
      refine ⟨?_, add_sep s hs p.1 a ha (fun h => by rw [hni] at h; cases h), add_next s _ _,
        fun l hl => add_ref_of_ne s _ l _ hl, fun y hy => ⟨⟨?_, fun h => by rw [hni] at h; cases h⟩, ?_⟩,
        fun l y hl hy => ?_⟩
      · rw [add_val s hs p.1 a, hx]
      · exact Nat.lt_of_lt_of_le hy.1 (add_next s _ _)
      · exact add_store s _ _ _ hy.1 fun h => hy.2 h p.1
      · exact add_store s _ _ _ (hs.bounded l y hy) fun h => by rw [hni] at h; cases h
    | none =>
      rw [hsrc] at hdef
      simp only at hdef
      rw [hdef]
      have hs1 := alloc_sep (inplace := inplace) s hs x
      have ha : (s.alloc x).1 < (s.alloc x).2.next := Nat.lt_succ_self _
      have hfr : ∀ l, (s.alloc x).2.ref l ≠ some (s.alloc x).1 := by
        intro l hl
        have := hs.bounded l _ hl
        exact Nat.lt_irrefl _ this
      have hst : (s.alloc x).2.store (s.alloc x).1 = x := by simp [alloc]
      have hold : ∀ y, y < s.next → (s.alloc x).2.store y = s.store y := by
        intro y hy; simp only [alloc]; rw [Function.update_of_ne (by omega)]
      refine ⟨?_, add_sep _ hs1 p.1 _ ha fun _ => hfr,
        Nat.le_trans (Nat.le_succ _) (add_next (s.alloc x).2 _ _), fun l hl => add_ref_of_ne _ _ l _ hl,
        fun y hy => ⟨⟨?_, fun hi l => ?_⟩, ?_⟩, fun l y hl hy => ?_⟩
      · rw [add_val _ hs1 p.1 _, hst, alloc_val s hs]
      · exact Nat.lt_of_lt_of_le (Nat.lt_succ_of_lt hy.1) (add_next (s.alloc x).2 _ _)
      · intro hl
        by_cases hlp : l = p.1
        · subst hlp
          rcases add_ref _ _ _ _ hl with h | h | h
          · exact hy.2 hi _ h.1
          · have := hy.1
            have h' : y = s.next := h
            omega
          · rw [hi] at h; cases h.1
        · rw [add_ref_of_ne _ _ l _ hlp] at hl
          exact hy.2 hi l hl
      · rw [add_store (s.alloc x).2 _ _ _ (Nat.lt_succ_of_lt hy.1) fun h => hy.2 h p.1]
        exact hold y hy.1
      · rw [add_store (s.alloc x).2 _ _ _ (Nat.lt_succ_of_lt (hs.bounded l y hy))]
        · exact hold y (hs.bounded l y hy)
        · intro hi hp
          exact hl (hs.inj hi l p.1 y hy hp)

/-- The loop over values. -/
def loopVal [Add A] (c : List (Option A) → Nat → Option A) (ins : List (Option A)) (ps : List (K × Nat))
    (f : K → Option A) : K → Option A :=
  ps.foldl (fun f p => Function.update f p.1 (plus (f p.1) (c ins p.2))) f

/-- The loop, when none of the attributes it accumulates on is read. -/
theorem loop_spec [Add A] {c : List (Option A) → Nat → Option A} {src : Nat → Option Nat} (hb : Honest inplace c src)
    (keys : List K) (ps : List (K × Nat)) (hps : ∀ p ∈ ps, p.1 ∉ keys) (s : Objs K A) (hs : s.Sep inplace) :
    let s' := s.loop inplace c src (keys.map s.ref) ps
    s'.val = loopVal c (keys.map s.val) ps s.val ∧ s'.Sep inplace ∧
    ∀ a, s.Foreign inplace a → s'.Foreign inplace a ∧ s'.store a = s.store a := by
  intro s'
  have hdef : s' = s.loop inplace c src (keys.map s.ref) ps := rfl
  clear_value s'
  subst hdef
  have hvals : keys.map s.val = (keys.map s.ref).map fun o => o.map s.store := by simp [val]
  rw [hvals]
  generalize hvs : (keys.map s.ref).map (fun o => o.map s.store) = vs
  have hbound : ∀ a, some a ∈ keys.map s.ref → a < s.next := by
    intro a ha
    obtain ⟨o, _, ho⟩ := List.mem_map.1 ha
    exact hs.bounded o a ho
  have hrefs : ∀ a, some a ∈ keys.map s.ref → ∃ k ∈ keys, s.ref k = some a := by
    intro a ha; obtain ⟨o, ho, h⟩ := List.mem_map.1 ha; exact ⟨o, ho, h⟩
  generalize keys.map s.ref = ins at hvs hbound hrefs ⊢
  clear hvals
  unfold loop loopVal
  induction ps generalizing s with
  | nil => exact ⟨rfl, hs, fun a ha => ⟨ha, rfl⟩⟩
  | cons p ps ih =>
    obtain ⟨h1, h2, h3, h4, h5, h6⟩ := give_spec hb ins s hs hbound p
    rw [List.foldl_cons, List.foldl_cons]
    have hp : p.1 ∉ keys := hps p (List.mem_cons_self ..)
    obtain ⟨i1, i2, i3⟩ := ih (fun q hq => hps q (List.mem_cons_of_mem _ hq)) _ h2
      (by
        rw [← hvs]
        apply List.map_congr_left
        intro o ho
        cases o with
        | none => rfl
        | some a =>
          obtain ⟨k, hk, hka⟩ := hrefs a ho
          simp only [Option.map_some]
          rw [h6 k a (fun e => hp (e ▸ hk)) hka])
      (fun a ha => Nat.lt_of_lt_of_le (hbound a ha) h3)
      (fun a ha => by
        obtain ⟨k, hk, hka⟩ := hrefs a ha
        exact ⟨k, hk, by rw [h4 k fun e => hp (e ▸ hk)]; exact hka⟩)
    refine ⟨?_, i2, fun a ha => ?_⟩
    · rw [i1, h1, hvs]
    · obtain ⟨f1, f2⟩ := h5 a ha
      obtain ⟨f3, f4⟩ := i3 a f1
      exact ⟨f3, f4.trans f2⟩

/-- The loop, when the attributes it sets were empty and are set once: nothing is ever added to an object. -/
theorem loop_fresh_spec [Add A] {c : List (Option A) → Nat → Option A} {src : Nat → Option Nat}
    (hb : ∀ ins idx k, src idx = some k → c ins idx = (ins[k]?).join)
    (keys : List K) (ps : List (K × Nat)) (hps : ∀ p ∈ ps, p.1 ∉ keys) (hnd : (ps.map Prod.fst).Nodup) (s : Objs K A)
    (hs : ∀ k a, s.ref k = some a → a < s.next) (hnone : ∀ p ∈ ps, s.ref p.1 = none) :
    let s' := s.loop inplace c src (keys.map s.ref) ps
    s'.val = loopVal c (keys.map s.val) ps s.val ∧ (∀ k a, s'.ref k = some a → a < s'.next) ∧
    (∀ k, (∀ p ∈ ps, k ≠ p.1) → s'.ref k = s.ref k) ∧ s.next ≤ s'.next ∧
    ∀ a, a < s.next → s'.store a = s.store a := by
  intro s'
  have hdef : s' = s.loop inplace c src (keys.map s.ref) ps := rfl
  clear_value s'
  subst hdef
  have hvals : keys.map s.val = (keys.map s.ref).map fun o => o.map s.store := by simp [val]
  rw [hvals]
  generalize hvs : (keys.map s.ref).map (fun o => o.map s.store) = vs
  have hbound : ∀ a, some a ∈ keys.map s.ref → a < s.next := by
    intro a ha
    obtain ⟨o, _, ho⟩ := List.mem_map.1 ha
    exact hs o a ho
  generalize keys.map s.ref = ins at hvs hbound ⊢
  clear hvals
  unfold loop loopVal
  induction ps generalizing s with
  | nil => exact ⟨rfl, hs, fun _ _ => rfl, Nat.le_refl _, fun _ _ => rfl⟩
  | cons p ps ih =>
    rw [List.foldl_cons, List.foldl_cons]
    have hr := hnone p (List.mem_cons_self ..)
    obtain ⟨hnp, hnd⟩ := List.nodup_cons.1 hnd
    -- one round
    have step : ∀ s' : Objs K A, s' = s.give inplace p.1 (c (ins.map fun o => o.map s.store) p.2)
        ((src p.2).bind fun k => (ins[k]?).join) →
        s'.val = Function.update s.val p.1 (plus (s.val p.1) (c vs p.2)) ∧ (∀ k a, s'.ref k = some a → a < s'.next) ∧
        (∀ k, k ≠ p.1 → s'.ref k = s.ref k) ∧ s.next ≤ s'.next ∧ ∀ a, a < s.next → s'.store a = s.store a := by
      intro s' hdef
      rw [hvs] at hdef
      unfold give at hdef
      cases hc : c vs p.2 with
      | none =>
        rw [hc] at hdef
        simp only at hdef
        subst hdef
        have : plus (s'.val p.1) none = s'.val p.1 := by cases s'.val p.1 <;> rfl
        rw [this, Function.update_eq_self]
        exact ⟨rfl, hs, fun _ _ => rfl, Nat.le_refl _, fun _ _ => rfl⟩
      | some x =>
        rw [hc] at hdef
        simp only at hdef
        have hplus : plus (s.val p.1) (some x) = some x := by
          unfold val
          rw [hr]
          rfl
        rw [hplus]
        cases hsrc : (src p.2).bind fun k => (ins[k]?).join with
        | some a =>
          rw [hsrc] at hdef
          simp only at hdef
          unfold add at hdef
          rw [hr] at hdef
          dsimp only at hdef
          subst hdef
          obtain ⟨k, hk, hka⟩ := Option.bind_eq_some_iff.1 hsrc
          have hg : ins[k]? = some (some a) := by
            cases hg : ins[k]? with
            | none => simp [hg] at hka
            | some o => simp [hg] at hka; subst hka; rfl
          have ha := hbound a (List.mem_of_getElem? hg)
          have hx : x = s.store a := by
            have := hb vs p.2 k hk
            rw [hc, ← hvs, List.getElem?_map, hg] at this
            simpa using this
          refine ⟨?_, ?_, ?_, Nat.le_refl _, fun _ _ => rfl⟩
          · funext l
            by_cases hl : l = p.1
            · subst hl; simp [val, hx]
            · simp [val, hl]
          · intro l y hy
            dsimp only at hy ⊢
            by_cases hl : l = p.1
            · subst hl
              rw [Function.update_self] at hy
              cases hy
              exact ha
            · rw [Function.update_of_ne hl] at hy
              exact hs l y hy
          · intro l hl
            exact Function.update_of_ne hl _ _
        | none =>
          rw [hsrc] at hdef
          simp only at hdef
          unfold add alloc at hdef
          dsimp only at hdef
          rw [hr] at hdef
          dsimp only at hdef
          subst hdef
          refine ⟨?_, ?_, ?_, Nat.le_succ _, fun a ha => ?_⟩
          · funext l
            by_cases hl : l = p.1
            · subst hl; simp [val]
            · simp only [val, Function.update_of_ne hl]
              cases hrl : s.ref l with
              | none => rfl
              | some y =>
                have := hs l y hrl
                simp only [Option.map_some]
                rw [Function.update_of_ne (by omega)]
          · intro l y hy
            dsimp only at hy ⊢
            by_cases hl : l = p.1
            · subst hl
              rw [Function.update_self] at hy
              cases hy
              exact Nat.lt_succ_self _
            · rw [Function.update_of_ne hl] at hy
              exact Nat.lt_succ_of_lt (hs l y hy)
          · intro l hl
            exact Function.update_of_ne hl _ _
          · show Function.update s.store s.next x a = _
            rw [Function.update_of_ne (by omega)]
    obtain ⟨h1, h2, h3, h4, h5⟩ := step _ rfl
    obtain ⟨i1, i2, i3, i4, i5⟩ := ih (fun q hq => hps q (List.mem_cons_of_mem _ hq)) hnd _ h2
      (fun q hq => by
        rw [h3 q.1 fun e => hnp (e ▸ List.mem_map_of_mem hq)]
        exact hnone q (List.mem_cons_of_mem _ hq))
      (by
        rw [← hvs]
        apply List.map_congr_left
        intro o ho
        cases o with
        | none => rfl
        | some a =>
          simp only [Option.map_some]
          rw [h5 a (hbound a ho)])
      (fun a ha => Nat.lt_of_lt_of_le (hbound a ha) h4)
    refine ⟨by rw [i1, h1], i2, fun k hk => ?_, Nat.le_trans h4 i4, fun a ha => ?_⟩
    · rw [i3 k fun q hq => hk q (List.mem_cons_of_mem _ hq), h3 k (hk p (List.mem_cons_self ..))]
    · rw [i5 a (Nat.lt_of_lt_of_le ha h4), h5 a ha]

end Objs

namespace RState

open Objs

/-- The heap of values. -/
def abs (s : RState V T A) : Heap V T A :=
  fun v => { s.base v with tlm := s.tan.val v, adj := s.cot.val (false, v), hess := s.cot.val (true, v) }

end RState

/-- Components of the block declared to hand on an object do so; with `+=` in place no component does. -/
structure RBlock.Ok (inplace : Bool) (b : RBlock V T A) : Prop where
  adj : ∀ inputs, Objs.Honest inplace (b.block.adjC inputs) b.adjSrc
  hess : ∀ inputs tlms, Objs.Honest inplace (RState.hessComponent b.block inputs tlms b.block.outs.length) b.hessSrc

namespace RState

open Objs

variable {inplace : Bool}

theorem loopVal_ne [Add A] {K : Type*} [DecidableEq K] (c : List (Option A) → Nat → Option A) (ins : List (Option A))
    (ps : List (K × Nat)) (f : K → Option A) (k : K) (hk : ∀ p ∈ ps, k ≠ p.1) : loopVal c ins ps f k = f k := by
  unfold loopVal
  induction ps generalizing f with
  | nil => rfl
  | cons p ps ih =>
    rw [List.foldl_cons, ih _ fun q hq => hk q (List.mem_cons_of_mem _ hq),
      Function.update_of_ne (hk p (List.mem_cons_self ..))]

/-- The loop of `Block.evaluateAdj` as a loop over values. -/
theorem foldl_addAdj [Add A] (c : List (Option A) → Nat → Option A) (ins : List (Option A)) (rel : List (BV × Nat))
    (f : Bool × BV → Option A) (t : BV → Option T) (base : Heap V T A) :
    rel.foldl (fun h p => addAdj? h p.1 (c ins p.2))
      (fun v => { base v with tlm := t v, adj := f (false, v), hess := f (true, v) } : Heap V T A) =
    fun v => { base v with
      tlm := t v
      adj := loopVal c ins (rel.map fun p => ((false, p.1), p.2)) f (false, v)
      hess := loopVal c ins (rel.map fun p => ((false, p.1), p.2)) f (true, v) } := by
  unfold loopVal
  induction rel generalizing f with
  | nil => rfl
  | cons p rel ih =>
    rw [List.foldl_cons, List.map_cons]
    simp only [List.foldl_cons]
    rw [← ih]
    congr 1
    funext v
    have h2 : ∀ x : Option A, Function.update f (false, p.1) x (true, v) = f (true, v) := by
      intro x
      rw [Function.update_of_ne (by simp)]
    rw [h2]
    cases hc : c ins p.2 with
    | none =>
      have : plus (f (false, p.1)) none = f (false, p.1) := by cases f (false, p.1) <;> rfl
      rw [this, Function.update_eq_self]
      rfl
    | some a =>
      show addAdj _ _ _ _ = _
      unfold addAdj
      by_cases hv : v = p.1
      · subst hv
        rw [Function.update_self, Function.update_self]
        dsimp only
        cases f (false, p.1) <;> rfl
      · rw [Function.update_of_ne hv, Function.update_of_ne (by simp [hv])]

/-- The loop of `Block.evaluateHessian` as a loop over values. -/
theorem foldl_addHess [Add A] (c : List (Option A) → Nat → Option A) (ins : List (Option A)) (rel : List (BV × Nat))
    (f : Bool × BV → Option A) (t : BV → Option T) (base : Heap V T A) :
    rel.foldl (fun h p => addHess? h p.1 (c ins p.2))
      (fun v => { base v with tlm := t v, adj := f (false, v), hess := f (true, v) } : Heap V T A) =
    fun v => { base v with
      tlm := t v
      adj := loopVal c ins (rel.map fun p => ((true, p.1), p.2)) f (false, v)
      hess := loopVal c ins (rel.map fun p => ((true, p.1), p.2)) f (true, v) } := by
  unfold loopVal
  induction rel generalizing f with
  | nil => rfl
  | cons p rel ih =>
    rw [List.foldl_cons, List.map_cons]
    simp only [List.foldl_cons]
    rw [← ih]
    congr 1
    funext v
    have h2 : ∀ x : Option A, Function.update f (true, p.1) x (false, v) = f (false, v) := by
      intro x
      rw [Function.update_of_ne (by simp)]
    rw [h2]
    cases hc : c ins p.2 with
    | none =>
      have : plus (f (true, p.1)) none = f (true, p.1) := by cases f (true, p.1) <;> rfl
      rw [this, Function.update_eq_self]
      rfl
    | some a =>
      show addHess _ _ _ _ = _
      unfold addHess
      by_cases hv : v = p.1
      · subst hv
        rw [Function.update_self, Function.update_self]
        dsimp only
        cases f (true, p.1) <;> rfl
      · rw [Function.update_of_ne hv, Function.update_of_ne (by simp [hv])]

/-- The loop of `Block.evaluateTlm` as a loop over values. -/
theorem foldl_addTlm [Add T] (c : List (Option T) → Nat → Option T) (ins : List (Option T)) (rel : List (BV × Nat))
    (f : BV → Option T) (g : Bool × BV → Option A) (base : Heap V T A) :
    rel.foldl (fun h p => addTlm? h p.1 (c ins p.2))
      (fun v => { base v with tlm := f v, adj := g (false, v), hess := g (true, v) } : Heap V T A) =
    fun v => { base v with tlm := loopVal c ins rel f v, adj := g (false, v), hess := g (true, v) } := by
  unfold loopVal
  induction rel generalizing f with
  | nil => rfl
  | cons p rel ih =>
    rw [List.foldl_cons, List.foldl_cons, ← ih]
    congr 1
    funext v
    cases hc : c ins p.2 with
    | none =>
      have : plus (f p.1) none = f p.1 := by cases f p.1 <;> rfl
      rw [this, Function.update_eq_self]
      rfl
    | some a =>
      show addTlm _ _ _ _ = _
      unfold addTlm
      by_cases hv : v = p.1
      · subst hv
        rw [Function.update_self, Function.update_self]
        dsimp only
        cases f p.1 <;> rfl
      · rw [Function.update_of_ne hv, Function.update_of_ne hv]

theorem relevant_mem {h : Heap V T A} {m : Bool} {l : List BV} {p : BV × Nat} (hp : p ∈ relevant h m l) : p.1 ∈ l := by
  obtain ⟨_, _, h3⟩ := List.mem_zipIdx (List.mem_filter.1 hp).1
  rw [h3]
  exact List.getElem_mem _

theorem relevant_nodup {h : Heap V T A} {m : Bool} {l : List BV} (hl : l.Nodup) :
    ((relevant h m l).map Prod.fst).Nodup := by
  unfold relevant
  refine List.Nodup.sublist (List.Sublist.map _ (List.filter_sublist ..)) ?_
  rw [List.zipIdx_map_fst]
  exact hl

theorem all_isNone_val {K : Type*} {s : Objs K A} (l : List BV) (g : BV → K) :
    (l.map fun o => s.val (g o)).all Option.isNone = (l.map fun o => s.ref (g o)).all Option.isNone := by
  simp only [List.all_map]
  congr 1
  funext o
  simp [val]

/-- One block of the adjoint sweep. -/
theorem evaluateAdjBlock_spec [Add A] (b : RBlock V T A) (hb : b.Ok inplace)
    (hself : ∀ d ∈ b.block.deps, d ∉ b.block.outs) (m : Bool) (s : RState V T A) (hs : s.cot.Sep inplace) :
    let s' := evaluateAdjBlock inplace b m s
    s'.abs = b.block.evaluateAdj m s.abs ∧ s'.cot.Sep inplace ∧ s'.tan = s.tan ∧
    ∀ a, s.cot.Foreign inplace a → s'.cot.Foreign inplace a ∧ s'.cot.store a = s.cot.store a := by
  unfold evaluateAdjBlock Block.evaluateAdj
  dsimp only
  have hnone : (b.block.outs.map fun o => (s.abs o).adj).all Option.isNone =
      (b.block.outs.map fun o => s.cot.ref (false, o)).all Option.isNone := all_isNone_val _ _
  have hrel : relevant s.abs m b.block.deps = relevant s.base m b.block.deps := rfl
  have hsv : b.block.deps.map (saved s.abs) = b.block.deps.map (saved s.base) := rfl
  rw [hnone, hrel, hsv]
  by_cases h1 : (b.block.outs.map fun o => s.cot.ref (false, o)).all Option.isNone = true
  · rw [if_pos h1, if_pos h1]
    exact ⟨rfl, hs, rfl, fun a ha => ⟨ha, rfl⟩⟩
  · rw [if_neg h1, if_neg h1]
    by_cases h2 : (relevant s.base m b.block.deps).isEmpty = true
    · rw [if_pos h2, if_pos h2]
      exact ⟨rfl, hs, rfl, fun a ha => ⟨ha, rfl⟩⟩
    · rw [if_neg h2, if_neg h2]
      obtain ⟨i1, i2, i3⟩ := loop_spec (hb.adj (b.block.deps.map (saved s.base)))
        (b.block.outs.map fun o => ((false, o) : Bool × BV))
        ((relevant s.base m b.block.deps).map fun p => (((false, p.1) : Bool × BV), p.2)) (by
          intro p hp hk
          obtain ⟨q, hq, rfl⟩ := List.mem_map.1 hp
          obtain ⟨o, ho, he⟩ := List.mem_map.1 hk
          have : o = q.1 := by simpa using he
          subst this
          exact hself _ (relevant_mem hq) ho) s.cot hs
      rw [List.map_map, List.map_map] at i1
      rw [List.map_map] at i2 i3
      refine ⟨?_, i2, rfl, i3⟩
      have e := foldl_addAdj (b.block.adjC (b.block.deps.map (saved s.base)))
        (b.block.outs.map fun o => s.cot.val (false, o)) (relevant s.base m b.block.deps) s.cot.val s.tan.val s.base
      refine Eq.trans ?_ e.symm
      funext v
      simp only [abs]
      congr 1
      · exact congrFun i1 (false, v)
      · exact congrFun i1 (true, v)

/-- One block of the Hessian sweep. -/
theorem evaluateHessianBlock_spec [Add A] (b : RBlock V T A) (hb : b.Ok inplace)
    (hself : ∀ d ∈ b.block.deps, d ∉ b.block.outs) (m : Bool) (s : RState V T A) (hs : s.cot.Sep inplace) :
    let s' := evaluateHessianBlock inplace b m s
    s'.abs = b.block.evaluateHessian m s.abs ∧ s'.cot.Sep inplace ∧ s'.tan = s.tan ∧
    ∀ a, s.cot.Foreign inplace a → s'.cot.Foreign inplace a ∧ s'.cot.store a = s.cot.store a := by
  unfold evaluateHessianBlock Block.evaluateHessian
  dsimp only
  have hnone : (b.block.outs.map fun o => (s.abs o).hess).all Option.isNone =
      (b.block.outs.map fun o => s.cot.ref (true, o)).all Option.isNone := all_isNone_val _ _
  have hrel : relevant s.abs m b.block.deps = relevant s.base m b.block.deps := rfl
  have hsv : b.block.deps.map (saved s.abs) = b.block.deps.map (saved s.base) := rfl
  rw [hnone, hrel, hsv]
  by_cases h1 : (b.block.outs.map fun o => s.cot.ref (true, o)).all Option.isNone = true
  · rw [if_pos h1, if_pos h1]
    exact ⟨rfl, hs, rfl, fun a ha => ⟨ha, rfl⟩⟩
  · rw [if_neg h1, if_neg h1]
    by_cases h2 : (relevant s.base m b.block.deps).isEmpty = true
    · rw [if_pos h2, if_pos h2]
      exact ⟨rfl, hs, rfl, fun a ha => ⟨ha, rfl⟩⟩
    · rw [if_neg h2, if_neg h2]
      obtain ⟨i1, i2, i3⟩ := loop_spec (hb.hess (b.block.deps.map (saved s.base))
          ((relevant s.base m b.block.deps).map fun q => (q.2, s.tan.val q.1)))
        ((b.block.outs.map fun o => ((true, o) : Bool × BV)) ++ b.block.outs.map fun o => ((false, o) : Bool × BV))
        ((relevant s.base m b.block.deps).map fun p => (((true, p.1) : Bool × BV), p.2)) (by
          intro p hp hk
          obtain ⟨q, hq, rfl⟩ := List.mem_map.1 hp
          rcases List.mem_append.1 hk with hk | hk
          · obtain ⟨o, ho, he⟩ := List.mem_map.1 hk
            have : o = q.1 := by simpa using he
            subst this
            exact hself _ (relevant_mem hq) ho
          · obtain ⟨o, ho, he⟩ := List.mem_map.1 hk
            simp at he) s.cot hs
      rw [List.map_append, List.map_append, List.map_map, List.map_map, List.map_map, List.map_map] at i1
      rw [List.map_append, List.map_map, List.map_map] at i2 i3
      refine ⟨?_, i2, rfl, i3⟩
      have e := foldl_addHess (hessComponent b.block (b.block.deps.map (saved s.base))
          ((relevant s.base m b.block.deps).map fun q => (q.2, s.tan.val q.1)) b.block.outs.length)
        ((b.block.outs.map fun o => s.cot.val (true, o)) ++ b.block.outs.map fun o => s.cot.val (false, o))
        (relevant s.base m b.block.deps) s.cot.val s.tan.val s.base
      have e' : (fun (h : Heap V T A) (p : BV × Nat) => addHess? h p.1
          (hessComponent b.block (b.block.deps.map (saved s.base))
            ((relevant s.base m b.block.deps).map fun q => (q.2, s.tan.val q.1)) b.block.outs.length
            ((b.block.outs.map fun o => s.cot.val (true, o)) ++ b.block.outs.map fun o => s.cot.val (false, o)) p.2)) =
          fun (h : Heap V T A) (p : BV × Nat) => addHess? h p.1 (b.block.hessC (b.block.deps.map (saved s.base))
            (b.block.outs.map fun o => (s.abs o).hess) (b.block.outs.map fun o => (s.abs o).adj) p.2
            ((relevant s.base m b.block.deps).map fun q => (q.2, (s.abs q.1).tlm))) := by
        funext h p
        unfold hessComponent
        rw [List.take_left' (by simp), List.drop_left' (by simp)]
        rfl
      rw [e'] at e
      refine Eq.trans ?_ e.symm
      funext v
      simp only [abs]
      congr 1
      · exact congrFun i1 (false, v)
      · exact congrFun i1 (true, v)

/-- One block of the tangent sweep: nothing is assumed about what the block hands on. -/
theorem evaluateTlmBlock_spec [Add T] (b : RBlock V T A)
    (hb : ∀ inputs ins idx k, b.tlmSrc idx = some k → b.block.tlmC inputs ins idx = (ins[k]?).join)
    (hself : ∀ d ∈ b.block.deps, d ∉ b.block.outs) (hnd : b.block.outs.Nodup) (m : Bool) (s : RState V T A)
    (hs : ∀ v a, s.tan.ref v = some a → a < s.tan.next) (hnone : ∀ o ∈ b.block.outs, s.tan.ref o = none) :
    let s' := evaluateTlmBlock inplace b m s
    s'.abs = b.block.evaluateTlm m s.abs ∧ s'.cot = s.cot ∧ (∀ v a, s'.tan.ref v = some a → a < s'.tan.next) ∧
    (∀ v, v ∉ b.block.outs → s'.tan.ref v = s.tan.ref v) ∧ s.tan.next ≤ s'.tan.next ∧
    ∀ a, a < s.tan.next → s'.tan.store a = s.tan.store a := by
  unfold evaluateTlmBlock Block.evaluateTlm
  dsimp only
  have hn : (b.block.deps.map fun o => (s.abs o).tlm).all Option.isNone =
      (b.block.deps.map s.tan.ref).all Option.isNone := all_isNone_val _ id
  have hrel : relevant s.abs m b.block.outs = relevant s.base m b.block.outs := rfl
  have hsv : b.block.deps.map (saved s.abs) = b.block.deps.map (saved s.base) := rfl
  rw [hn, hrel, hsv]
  by_cases h1 : (b.block.deps.map s.tan.ref).all Option.isNone = true
  · rw [if_pos h1, if_pos h1]
    exact ⟨rfl, rfl, hs, fun _ _ => rfl, Nat.le_refl _, fun a ha => rfl⟩
  · rw [if_neg h1, if_neg h1]
    by_cases h2 : (relevant s.base m b.block.outs).isEmpty = true
    · rw [if_pos h2, if_pos h2]
      exact ⟨rfl, rfl, hs, fun _ _ => rfl, Nat.le_refl _, fun a ha => rfl⟩
    · rw [if_neg h2, if_neg h2]
      obtain ⟨i1, i2, i3, i4, i5⟩ := loop_fresh_spec (inplace := inplace) (hb (b.block.deps.map (saved s.base)))
        b.block.deps (relevant s.base m b.block.outs)
        (fun p hp hk => hself _ hk (relevant_mem hp)) (relevant_nodup hnd) s.tan hs
        (fun p hp => hnone _ (relevant_mem hp))
      refine ⟨?_, rfl, i2, fun v hv => i3 v fun p hp e => hv (e ▸ relevant_mem hp), i4, i5⟩
      have e := foldl_addTlm (b.block.tlmC (b.block.deps.map (saved s.base)))
        (b.block.deps.map s.tan.val) (relevant s.base m b.block.outs) s.tan.val s.cot.val s.base
      refine Eq.trans ?_ e.symm
      funext v
      simp only [abs]
      congr 1
      exact congrFun i1 v

/-- **C41, adjoint values.** If `+=` makes new objects, or if no block hands on the objects it was given: the adjoint sweep over
objects leaves on every variable the value of the sweep over values, whatever was accumulated where; sharing does not arise;
and objects that no variable refers to, such as derivatives returned earlier, are not changed. -/
theorem accumulation_refines_partial [Add A] (bs : List (RBlock V T A)) (hb : ∀ b ∈ bs, b.Ok inplace)
    (hself : ∀ b ∈ bs, ∀ d ∈ b.block.deps, d ∉ b.block.outs) (m : Bool) (s : RState V T A) (hs : s.cot.Sep inplace) :
    let s' := RState.evaluateAdj inplace bs m s
    s'.abs = Pyadjoint.evaluateAdj (bs.map RBlock.block) m s.abs ∧ s'.cot.Sep inplace ∧ s'.tan = s.tan ∧
    ∀ a, s.cot.Foreign inplace a → s'.cot.store a = s.cot.store a := by
  have key : ∀ (l : List (RBlock V T A)) (s : RState V T A), (∀ b ∈ l, b ∈ bs) → s.cot.Sep inplace →
      (l.foldl (fun s b => evaluateAdjBlock inplace b m s) s).abs =
        (l.map RBlock.block).foldl (fun h b => b.evaluateAdj m h) s.abs ∧
      (l.foldl (fun s b => evaluateAdjBlock inplace b m s) s).cot.Sep inplace ∧
      (l.foldl (fun s b => evaluateAdjBlock inplace b m s) s).tan = s.tan ∧
      ∀ a, s.cot.Foreign inplace a →
        (l.foldl (fun s b => evaluateAdjBlock inplace b m s) s).cot.store a = s.cot.store a := by
    intro l
    induction l with
    | nil => intro s _ hs; exact ⟨rfl, hs, rfl, fun _ _ => rfl⟩
    | cons b l ih =>
      intro s hl hs
      have hbm := hl b (List.mem_cons_self ..)
      obtain ⟨h1, h2, h3, h4⟩ := evaluateAdjBlock_spec b (hb b hbm) (hself b hbm) m s hs
      obtain ⟨i1, i2, i3, i4⟩ := ih _ (fun b' hb' => hl b' (List.mem_cons_of_mem _ hb')) h2
      refine ⟨?_, i2, i3.trans h3, fun a ha => ?_⟩
      · simp only [List.foldl_cons, List.map_cons]
        rw [i1, h1]
      · obtain ⟨f1, f2⟩ := h4 a ha
        exact (i4 a f1).trans f2
  have := key bs.reverse s (fun b hb => List.mem_reverse.1 hb) hs
  rw [List.map_reverse] at this
  exact this

/-- **C41, Hessian values.** The same for the Hessian sweep; in particular it changes no adjoint value, although Hessian and
adjoint values may be the same objects. -/
theorem hessian_accumulation_refines_partial [Add A] (bs : List (RBlock V T A)) (hb : ∀ b ∈ bs, b.Ok inplace)
    (hself : ∀ b ∈ bs, ∀ d ∈ b.block.deps, d ∉ b.block.outs) (m : Bool) (s : RState V T A) (hs : s.cot.Sep inplace) :
    let s' := RState.evaluateHessian inplace bs m s
    s'.abs = Pyadjoint.evaluateHessian (bs.map RBlock.block) m s.abs ∧ s'.cot.Sep inplace ∧ s'.tan = s.tan ∧
    ∀ a, s.cot.Foreign inplace a → s'.cot.store a = s.cot.store a := by
  have key : ∀ (l : List (RBlock V T A)) (s : RState V T A), (∀ b ∈ l, b ∈ bs) → s.cot.Sep inplace →
      (l.foldl (fun s b => evaluateHessianBlock inplace b m s) s).abs =
        (l.map RBlock.block).foldl (fun h b => b.evaluateHessian m h) s.abs ∧
      (l.foldl (fun s b => evaluateHessianBlock inplace b m s) s).cot.Sep inplace ∧
      (l.foldl (fun s b => evaluateHessianBlock inplace b m s) s).tan = s.tan ∧
      ∀ a, s.cot.Foreign inplace a →
        (l.foldl (fun s b => evaluateHessianBlock inplace b m s) s).cot.store a = s.cot.store a := by
    intro l
    induction l with
    | nil => intro s _ hs; exact ⟨rfl, hs, rfl, fun _ _ => rfl⟩
    | cons b l ih =>
      intro s hl hs
      have hbm := hl b (List.mem_cons_self ..)
      obtain ⟨h1, h2, h3, h4⟩ := evaluateHessianBlock_spec b (hb b hbm) (hself b hbm) m s hs
      obtain ⟨i1, i2, i3, i4⟩ := ih _ (fun b' hb' => hl b' (List.mem_cons_of_mem _ hb')) h2
      refine ⟨?_, i2, i3.trans h3, fun a ha => ?_⟩
      · simp only [List.foldl_cons, List.map_cons]
        rw [i1, h1]
      · obtain ⟨f1, f2⟩ := h4 a ha
        exact (i4 a f1).trans f2
  have := key bs.reverse s (fun b hb => List.mem_reverse.1 hb) hs
  rw [List.map_reverse] at this
  exact this

/-- **C41, tangent values.** On a tape whose variables are produced once, with no tangent values on the outputs of its blocks
(they were reset, and no control is the result of a block): whether `+=` works in place or not and whatever objects
blocks hand on, the tangent sweep leaves the values of the sweep over values, and changes no object that existed before, in
particular not the directions the user gave. -/
theorem tangent_refines [Add T] (bs : List (RBlock V T A)) (wf : WF (bs.map RBlock.block))
    (hb : ∀ b ∈ bs, ∀ inputs ins idx k, b.tlmSrc idx = some k → b.block.tlmC inputs ins idx = (ins[k]?).join)
    (m : Bool) (s : RState V T A) (hs : ∀ v a, s.tan.ref v = some a → a < s.tan.next)
    (hnone : ∀ b ∈ bs, ∀ o ∈ b.block.outs, s.tan.ref o = none) :
    let s' := RState.evaluateTlm inplace bs m s
    s'.abs = Pyadjoint.evaluateTlm (bs.map RBlock.block) m s.abs ∧ s'.cot = s.cot ∧
    ∀ a, a < s.tan.next → s'.tan.store a = s.tan.store a := by
  unfold RState.evaluateTlm Pyadjoint.evaluateTlm
  induction bs generalizing s with
  | nil => exact ⟨rfl, rfl, fun _ _ => rfl⟩
  | cons b bs ih =>
    rw [List.map_cons] at wf
    obtain ⟨h1, h2, h3, h4, h5, h6⟩ := evaluateTlmBlock_spec (inplace := inplace) b (hb b (by simp))
      (wf.self b.block (by simp)) (wf.nodup b.block (by simp)) m s hs (hnone b (by simp))
    obtain ⟨p1, p2⟩ := List.pairwise_cons.1 wf.later
    obtain ⟨i1, i2, i3⟩ := ih ⟨fun b' hb' => wf.nodup b' (by simp [hb']), fun b' hb' => wf.self b' (by simp [hb']), p2⟩
      (fun b' hb' => hb b' (by simp [hb'])) (evaluateTlmBlock inplace b m s) h3
      (fun b' hb' o ho => by
        rw [h4 o fun h => (p1 b'.block (List.mem_map_of_mem hb')).2 o h ho]
        exact hnone b' (by simp [hb']) o ho)
    refine ⟨?_, i2.trans h2, fun a ha => (i3 a (Nat.lt_of_lt_of_le ha h5)).trans (h6 a ha)⟩
    simp only [List.foldl_cons, List.map_cons]
    rw [i1, h1]

end RState

/-! ## In place, handing on objects -/

/-- The addition block of `adjfloat.py:434-454` (`return adj_inputs[0]`, line 439; the new object `tlm_output`, lines 442-450;
`return hessian_inputs[0]`, line 454) as a block with objects. -/
def rAdd (a b o : BV) : RBlock Int Int Int where
  block :=
    { deps := [a, b], outs := [o]
      recomputeC := fun i _ => some (i.getD 0 0 + i.getD 1 0)
      adjC := fun _ adjIn _ => (adjIn[0]?).join
      tlmC := fun _ t _ => some (0 + (t[0]?).join.getD 0 + (t[1]?).join.getD 0)
      hessC := fun _ h _ _ _ => (h[0]?).join }
  adjSrc := fun _ => some 0
  tlmSrc := fun _ => none
  hessSrc := fun _ => some 0

/-- The state after seeding one attribute with object `0`, of value 1, and the tangent value of variable 0 with such an object. -/
def rSeed (k : Bool × BV) : RState Int Int Int where
  base := fun _ => { output := 0 }
  tan := { ref := fun w => if w = 0 then some 0 else none, store := fun _ => 1, next := 1 }
  cot := { ref := fun w => if w = k then some 0 else none, store := fun _ => 1, next := 1 }

/-- **C41 fails in place.** `y = a + b; J = y + a` with variables 0, 1, 2, 3: the derivative with respect to `b` is 1.  If `+=` works in place, the
addition block's handing on of its adjoint input makes it 2; with new objects it is 1. -/
theorem inplace_sharing_wrong :
    (((RState.evaluateAdj true [rAdd 0 1 2, rAdd 2 0 3] false (rSeed (false, 3))).abs 1).adj = some 2) ∧
    (((RState.evaluateAdj false [rAdd 0 1 2, rAdd 2 0 3] false (rSeed (false, 3))).abs 1).adj = some 1) ∧
    ((Pyadjoint.evaluateAdj [(rAdd 0 1 2).block, (rAdd 2 0 3).block] false (rSeed (false, 3)).abs 1).adj = some 1) := by
  refine ⟨?_, ?_, ?_⟩ <;> decide +kernel

/-- The object the user gave as adjoint input is changed in the same way. -/
theorem inplace_seed_changed :
    (rSeed (false, 3)).cot.store 0 = 1 ∧
    (RState.evaluateAdj true [rAdd 0 1 2, rAdd 2 0 3] false (rSeed (false, 3))).cot.store 0 = 2 := by
  refine ⟨?_, ?_⟩ <;> decide +kernel

/-- The Hessian sweep has the same problem. -/
theorem inplace_hessian_sharing_wrong :
    (((RState.evaluateHessian true [rAdd 0 1 2, rAdd 2 0 3] false (rSeed (true, 3))).abs 1).hess = some 2) ∧
    (((RState.evaluateHessian false [rAdd 0 1 2, rAdd 2 0 3] false (rSeed (true, 3))).abs 1).hess = some 1) := by
  refine ⟨?_, ?_⟩ <;> decide +kernel

/-- The tangent values 0 and 2 were given by the user as objects 0 and 1, of values 1 and 10. -/
def rDirections : RState Int Int Int where
  base := fun _ => { output := 0 }
  tan := { ref := fun w => if w = 0 then some 0 else if w = 2 then some 1 else none
           store := fun i => if i = 1 then 10 else 1
           next := 2 }
  cot := { ref := fun _ => none, store := fun _ => 0, next := 0 }

/-- The hypothesis of `tangent_refines` that no control is the result of a block is needed: otherwise the direction the user
gave for it is changed in place. -/
theorem inplace_direction_changed :
    rDirections.tan.store 1 = 10 ∧
    (RState.evaluateTlm true [rAdd 0 1 2] false rDirections).tan.store 1 = 11 ∧
    (RState.evaluateTlm false [rAdd 0 1 2] false rDirections).tan.store 1 = 10 := by
  refine ⟨?_, ?_, ?_⟩ <;> decide +kernel

theorem rAdd_ok (a b o : BV) : (rAdd a b o).Ok false := by
  refine ⟨fun inputs => ⟨fun ins idx k hk => ?_, fun h => (by cases h)⟩,
    fun inputs tlms => ⟨fun ins idx k hk => ?_, fun h => (by cases h)⟩⟩
  · simp only [rAdd, Option.some.injEq] at hk
    subst hk
    rfl
  · simp only [rAdd, Option.some.injEq] at hk
    subst hk
    show ((ins.take 1)[0]?).join = _
    cases ins <;> rfl

theorem rSeed_sep (inplace : Bool) (k : Bool × BV) : (rSeed k).cot.Sep inplace := by
  constructor
  · intro l a h
    simp only [rSeed] at h ⊢
    split at h
    · cases h; decide
    · cases h
  · intro _ l l' a h1 h2
    simp only [rSeed] at h1 h2
    split at h1
    · split at h2
      · rename_i e1 e2; rw [e1, e2]
      · cases h2
    · cases h1

/-- The hypotheses of `accumulation_refines_partial` and `hessian_accumulation_refines_partial` for immutable objects hold for
this tape. -/
example (k : Bool × BV) : (∀ b ∈ [rAdd 0 1 2, rAdd 2 0 3], b.Ok false) ∧ (rSeed k).cot.Sep false ∧
    (∀ b ∈ [rAdd 0 1 2, rAdd 2 0 3], ∀ d ∈ b.block.deps, d ∉ b.block.outs) := by
  refine ⟨?_, rSeed_sep _ _, ?_⟩
  · intro b hb
    simp only [List.mem_cons, List.not_mem_nil, or_false] at hb
    rcases hb with rfl | rfl <;> exact rAdd_ok _ _ _
  · simp [rAdd]

/-- Those of `tangent_refines` hold for it too. -/
example : WF ([rAdd 0 1 2, rAdd 2 0 3].map RBlock.block) ∧
    (∀ v a, (rSeed (false, 3)).tan.ref v = some a → a < (rSeed (false, 3)).tan.next) ∧
    (∀ b ∈ [rAdd 0 1 2, rAdd 2 0 3], ∀ o ∈ b.block.outs, (rSeed (false, 3)).tan.ref o = none) ∧
    ((RState.evaluateTlm true [rAdd 0 1 2, rAdd 2 0 3] false (rSeed (false, 3))).abs 3).tlm = some 2 := by
  refine ⟨⟨?_, ?_, ?_⟩, ?_, ?_, by decide +kernel⟩
  · simp [rAdd]
  · simp [rAdd]
  · simp [rAdd]
  · intro v a h
    simp only [rSeed] at h ⊢
    split at h
    · cases h; decide
    · cases h
  · simp [rAdd, rSeed]

/-- A block that doubles its argument and makes new objects. -/
def rDouble : RBlock Int Int Int where
  block :=
    { deps := [0], outs := [1]
      recomputeC := fun i _ => some (2 * i.getD 0 0)
      adjC := fun _ adjIn _ => (adjIn[0]?).join.map (2 * ·)
      tlmC := fun _ t _ => (t[0]?).join.map (2 * ·)
      hessC := fun _ h _ _ _ => (h[0]?).join.map (2 * ·) }
  adjSrc := fun _ => none
  tlmSrc := fun _ => none
  hessSrc := fun _ => none

/-- In place, with a block that makes new objects, the hypotheses hold too. -/
example : rDouble.Ok true ∧ (rSeed (false, 1)).cot.Sep true :=
  ⟨⟨fun _ => ⟨fun _ _ _ h => (by cases h), fun _ _ => rfl⟩, fun _ _ => ⟨fun _ _ _ h => (by cases h), fun _ _ => rfl⟩⟩,
    rSeed_sep _ _⟩

end Pyadjoint
