import Verif.Model.Options
import Mathlib.Data.Nat.Digits.Lemmas
import Mathlib.Data.List.Nodup
import Mathlib.Tactic.IntervalCases

/-!
# PETSc options handling (C33)
-/

namespace Pyadjoint
namespace Opts

variable {α β : Type}

/-! ## Specification of flattening -/

mutual
/-- `v[k₁]…[kₙ]` is `x`, and `x` is not a non-empty dictionary. -/
inductive LeafV : PVal α → List Key → PVal α → Prop
  | leaf (a : α) : LeafV (.leaf a) [] (.leaf a)
  | empty : LeafV (.dict .nil) [] (.dict .nil)
  | dict {d p x} : LeafD d p x → LeafV (.dict d) p x
/-- The same for the items of a dictionary. -/
inductive LeafD : PDict α → List Key → PVal α → Prop
  | here {k v d p x} : LeafV v p x → LeafD (.cons k v d) (k :: p) x
  | there {k v d p x} : LeafD d p x → LeafD (.cons k v d) p x
end

/-- The keys joined by the separator, which is not put after an empty key or a key that ends with it. -/
def joinPath (sep : Key) : List Key → Key
  | [] => []
  | [k] => k
  | k :: k' :: p => (if k = [] ∨ sep <:+ k then k else k ++ sep) ++ joinPath sep (k' :: p)

/-! ## Flattening -/

mutual
theorem mem_flattenVal : ∀ (v : PVal α) (ps q : List Key) (x : PVal α),
    (q, x) ∈ flattenVal v ps ↔ ∃ p, LeafV v p x ∧ q = p.reverse ++ ps
  | .leaf a, ps, q, x => by
    rw [flattenVal, List.mem_singleton]
    constructor
    · intro h; cases h; exact ⟨[], .leaf a, rfl⟩
    · rintro ⟨p, hp, rfl⟩; cases hp; rfl
  | .dict .nil, ps, q, x => by
    rw [flattenVal, List.mem_singleton]
    constructor
    · intro h; cases h; exact ⟨[], .empty, rfl⟩
    · rintro ⟨p, hp, rfl⟩
      cases hp with
      | empty => rfl
      | dict h => cases h
  | .dict (.cons k v d), ps, q, x => by
    rw [flattenVal, List.mem_append, mem_flattenVal v, mem_flattenDict d]
    constructor
    · rintro (⟨p, hp, rfl⟩ | ⟨p, hp, rfl⟩)
      · exact ⟨k :: p, .dict (.here hp), by simp⟩
      · exact ⟨p, .dict (.there hp), rfl⟩
    · rintro ⟨p, hp, rfl⟩
      cases hp with
      | dict h =>
        cases h with
        | here h => exact Or.inl ⟨_, h, by simp⟩
        | there h => exact Or.inr ⟨_, h, rfl⟩
theorem mem_flattenDict : ∀ (d : PDict α) (ps q : List Key) (x : PVal α),
    (q, x) ∈ flattenDict d ps ↔ ∃ p, LeafD d p x ∧ q = p.reverse ++ ps
  | .nil, ps, q, x => by
    rw [flattenDict]
    constructor
    · intro h; cases h
    · rintro ⟨p, hp, _⟩; cases hp
  | .cons k v d, ps, q, x => by
    rw [flattenDict, List.mem_append, mem_flattenVal v, mem_flattenDict d]
    constructor
    · rintro (⟨p, hp, rfl⟩ | ⟨p, hp, rfl⟩)
      · exact ⟨k :: p, .here hp, by simp⟩
      · exact ⟨p, .there hp, rfl⟩
    · rintro ⟨p, hp, rfl⟩
      cases hp with
      | here h => exact Or.inl ⟨_, h, by simp⟩
      | there h => exact Or.inr ⟨_, h, rfl⟩
end

theorem addSep_eq (sep k : Key) : addSep sep k = if k = [] ∨ sep <:+ k then k else k ++ sep := by
  unfold addSep
  by_cases h1 : k = []
  · simp [h1]
  · by_cases h2 : sep <:+ k
    · simp [h1, h2]
    · simp [h1, h2]

theorem munge_reverse (sep : Key) (p : List Key) : munge sep p.reverse = joinPath sep p := by
  have gen : ∀ (q : List Key) (k : Key), (q.map (addSep sep)).flatten ++ k = joinPath sep (q ++ [k]) := by
    intro q
    induction q with
    | nil => intro k; rfl
    | cons a q ih =>
      intro k
      rw [List.map_cons, List.flatten_cons, List.append_assoc, ih, addSep_eq]
      cases q with
      | nil => rfl
      | cons b q => rfl
  cases hp : p.reverse with
  | nil =>
    have : p = [] := by simpa using hp
    subst this; rfl
  | cons k q =>
    have : p = q.reverse ++ [k] := by
      have := congrArg List.reverse hp
      simpa using this
    rw [this, ← gen]
    rfl

theorem lookup_assign (l : List (Key × β)) (k k' : Key) (v : β) :
    lookup (assign l k v) k' = if k' = k then some v else lookup l k' := by
  induction l with
  | nil =>
    unfold assign lookup
    by_cases h : k' = k
    · simp [h]
    · simp [h, Ne.symm h]
  | cons p l ih =>
    obtain ⟨k₀, v₀⟩ := p
    unfold assign
    by_cases h0 : k₀ = k
    · subst h0
      rw [if_pos rfl]
      unfold lookup
      by_cases h : k' = k₀
      · simp [h]
      · simp [h, Ne.symm h]
    · rw [if_neg h0]
      by_cases h : k₀ = k'
      · subst h
        unfold lookup
        simp [h0]
      · have e1 : lookup ((k₀, v₀) :: assign l k v) k' = lookup (assign l k v) k' := by unfold lookup; simp [h]
        have e2 : lookup ((k₀, v₀) :: l) k' = lookup l k' := by unfold lookup; simp [h]
        rw [e1, e2, ih]

/-- Assigning one after the other: the last assignment of a key counts. -/
theorem lookup_assignAll {γ : Type} (f : γ → Key) (g : γ → β) (l : List γ) (new : List (Key × β)) (s : Key) :
    lookup (l.foldl (fun new p => assign new (f p) (g p)) new) s
      = (((l.filter fun p => f p = s).getLast?).map g).or (lookup new s) := by
  induction l generalizing new with
  | nil => rfl
  | cons p l ih =>
    rw [List.foldl_cons, ih, lookup_assign, List.filter_cons]
    by_cases h : f p = s
    · simp only [h, if_true, decide_true]
      rw [List.getLast?_cons]
      cases (l.filter fun p => decide (f p = s)).getLast? <;> simp
    · simp only [h, decide_false, Bool.false_eq_true, if_false, Ne.symm h]

/-- **C33, flattening keeps every leaf**, under the joined path, if no different leaf has the same joined path. -/
theorem flatten_keeps (sep : Key) (d : PDict α) (p : List Key) (x : PVal α) (hp : LeafD d p x)
    (huniq : ∀ q y, LeafD d q y → joinPath sep q = joinPath sep p → y = x) :
    lookup (flattenParameters sep d) (joinPath sep p) = some x := by
  unfold flattenParameters
  rw [lookup_assignAll (fun p : List Key × PVal α => munge sep p.1) (·.2)]
  have hmem : (p.reverse, x) ∈ (flattenDict d []).filter fun q => munge sep q.1 = joinPath sep p := by
    rw [List.mem_filter]
    refine ⟨(mem_flattenDict d [] _ _).2 ⟨p, hp, by simp⟩, ?_⟩
    simp [munge_reverse]
  generalize hl : ((flattenDict d []).filter fun q => munge sep q.1 = joinPath sep p) = l at hmem
  cases hL : l.getLast? with
  | none =>
    rw [List.getLast?_eq_none_iff] at hL
    subst hL; cases hmem
  | some q =>
    have hq : q ∈ l := List.mem_of_getLast? hL
    rw [← hl, List.mem_filter] at hq
    obtain ⟨q1, q2⟩ := q
    obtain ⟨p', hp', he⟩ := (mem_flattenDict d [] _ _).1 hq.1
    have hj : joinPath sep p' = joinPath sep p := by
      rw [List.append_nil] at he
      have := hq.2
      simp only [decide_eq_true_eq] at this
      rw [he, munge_reverse] at this
      exact this
    simp [huniq p' q2 hp' hj]

/-- **C33, flattening invents nothing**: every entry is a leaf under its joined path, and keys are distinct. -/
theorem flatten_sound (sep : Key) (d : PDict α) (s : Key) (x : PVal α) (h : lookup (flattenParameters sep d) s = some x) :
    ∃ p, LeafD d p x ∧ joinPath sep p = s := by
  unfold flattenParameters at h
  rw [lookup_assignAll (fun p : List Key × PVal α => munge sep p.1) (·.2)] at h
  generalize hl : ((flattenDict d []).filter fun q => decide (munge sep q.1 = s)) = l at h
  cases hL : l.getLast? with
  | none => rw [hL] at h; cases h
  | some q =>
    rw [hL] at h
    have hq : q ∈ l := List.mem_of_getLast? hL
    rw [← hl, List.mem_filter] at hq
    obtain ⟨q1, q2⟩ := q
    cases h
    obtain ⟨p', hp', he⟩ := (mem_flattenDict d [] _ _).1 hq.1
    refine ⟨p', hp', ?_⟩
    have := hq.2
    simp only [decide_eq_true_eq] at this
    rw [he, List.append_nil, munge_reverse] at this
    exact this

/-- No leaf is lost altogether: its joined path is a key. -/
theorem flatten_covers (sep : Key) (d : PDict α) (p : List Key) (x : PVal α) (hp : LeafD d p x) :
    ∃ y, lookup (flattenParameters sep d) (joinPath sep p) = some y := by
  unfold flattenParameters
  rw [lookup_assignAll (fun p : List Key × PVal α => munge sep p.1) (·.2)]
  have hmem : (p.reverse, x) ∈ (flattenDict d []).filter fun q => munge sep q.1 = joinPath sep p := by
    rw [List.mem_filter]
    refine ⟨(mem_flattenDict d [] _ _).2 ⟨p, hp, by simp⟩, ?_⟩
    simp [munge_reverse]
  generalize ((flattenDict d []).filter fun q => munge sep q.1 = joinPath sep p) = l at hmem
  cases hL : l.getLast? with
  | none =>
    rw [List.getLast?_eq_none_iff] at hL
    subst hL; cases hmem
  | some q => exact ⟨q.2, rfl⟩

theorem mem_keys_assign (l : List (Key × β)) (k k' : Key) (v : β) :
    k' ∈ (assign l k v).map (·.1) ↔ k' = k ∨ k' ∈ l.map (·.1) := by
  induction l with
  | nil => simp [assign]
  | cons p l ih =>
    obtain ⟨k₀, v₀⟩ := p
    unfold assign
    split
    · rename_i h; subst h; simp
    · simp only [List.map_cons, List.mem_cons, ih]
      constructor
      · rintro (h | h | h)
        · exact Or.inr (Or.inl h)
        · exact Or.inl h
        · exact Or.inr (Or.inr h)
      · rintro (h | h | h)
        · exact Or.inr (Or.inl h)
        · exact Or.inl h
        · exact Or.inr (Or.inr h)

theorem nodup_assign (l : List (Key × β)) (k : Key) (v : β) (h : (l.map (·.1)).Nodup) : ((assign l k v).map (·.1)).Nodup := by
  induction l with
  | nil => simp [assign]
  | cons p l ih =>
    obtain ⟨k₀, v₀⟩ := p
    rw [List.map_cons, List.nodup_cons] at h
    unfold assign
    split
    · rename_i e; subst e
      rw [List.map_cons, List.nodup_cons]; exact h
    · rename_i e
      rw [List.map_cons, List.nodup_cons]
      refine ⟨fun hm => ?_, ih h.2⟩
      rcases (mem_keys_assign l k _ v).1 hm with h' | h'
      · exact e h'
      · exact h.1 h'

theorem nodup_assignAll {γ : Type} (f : γ → Key) (g : γ → β) (l : List γ) (new : List (Key × β)) (h : (new.map (·.1)).Nodup) :
    ((l.foldl (fun new p => assign new (f p) (g p)) new).map (·.1)).Nodup := by
  induction l generalizing new with
  | nil => exact h
  | cons p l ih => exact ih _ (nodup_assign _ _ _ h)

theorem flatten_nodup (sep : Key) (d : PDict α) : ((flattenParameters sep d).map (·.1)).Nodup :=
  nodup_assignAll _ _ _ _ List.nodup_nil

/-- The flat dictionary as a dictionary. -/
def ofList : List (Key × PVal α) → PDict α
  | [] => .nil
  | p :: l => .cons p.1 p.2 (ofList l)

theorem assign_append (l : List (Key × β)) (k : Key) (v : β) (h : k ∉ l.map (·.1)) : assign l k v = l ++ [(k, v)] := by
  induction l with
  | nil => rfl
  | cons p l ih =>
    simp only [List.map_cons, List.mem_cons, not_or] at h
    unfold assign
    rw [if_neg (Ne.symm h.1), ih h.2]
    rfl

mutual
theorem LeafV.flat : ∀ {v : PVal α} {p : List Key} {x : PVal α}, LeafV v p x → (∃ a, x = .leaf a) ∨ x = .dict .nil
  | _, _, _, .leaf a => Or.inl ⟨a, rfl⟩
  | _, _, _, .empty => Or.inr rfl
  | _, _, _, .dict h => h.flat
theorem LeafD.flat : ∀ {d : PDict α} {p : List Key} {x : PVal α}, LeafD d p x → (∃ a, x = .leaf a) ∨ x = .dict .nil
  | _, _, _, .here h => h.flat
  | _, _, _, .there h => h.flat
end

theorem mem_assign (l : List (Key × β)) (k : Key) (v : β) (q : Key × β) (h : q ∈ assign l k v) : q = (k, v) ∨ q ∈ l := by
  induction l with
  | nil => simpa [assign] using h
  | cons p l ih =>
    obtain ⟨k₀, v₀⟩ := p
    unfold assign at h
    split at h
    · rcases List.mem_cons.1 h with h | h
      · exact Or.inl h
      · exact Or.inr (List.mem_cons_of_mem _ h)
    · rcases List.mem_cons.1 h with h | h
      · exact Or.inr (h ▸ List.mem_cons_self ..)
      · rcases ih h with h | h
        · exact Or.inl h
        · exact Or.inr (List.mem_cons_of_mem _ h)

/-- **C33, flattening is idempotent.** -/
theorem flatten_idempotent (sep : Key) (d : PDict α) :
    flattenParameters sep (ofList (flattenParameters sep d)) = flattenParameters sep d := by
  have hflat : ∀ q ∈ flattenParameters sep d, (∃ a, q.2 = .leaf a) ∨ q.2 = .dict .nil := by
    have gen : ∀ (l : List (List Key × PVal α)) (new : List (Key × PVal α)),
        (∀ q ∈ l, (∃ a, q.2 = .leaf a) ∨ q.2 = .dict .nil) → (∀ q ∈ new, (∃ a, q.2 = .leaf a) ∨ q.2 = .dict .nil) →
        ∀ q ∈ l.foldl (fun new p => assign new (munge sep p.1) p.2) new, (∃ a, q.2 = .leaf a) ∨ q.2 = .dict .nil := by
      intro l
      induction l with
      | nil => intro new _ hn; exact hn
      | cons p l ih =>
        intro new hl hn
        refine ih _ (fun q hq => hl q (List.mem_cons_of_mem _ hq)) fun q hq => ?_
        rcases mem_assign _ _ _ _ hq with rfl | hq
        · exact hl p (List.mem_cons_self ..)
        · exact hn q hq
    refine gen _ [] (fun q hq => ?_) (fun q hq => by cases hq)
    obtain ⟨q1, q2⟩ := q
    obtain ⟨p, hp, _⟩ := (mem_flattenDict d [] _ _).1 hq
    exact hp.flat
  have hnd := flatten_nodup sep d
  generalize flattenParameters sep d = l at hflat hnd
  have e1 : flattenDict (ofList l) [] = l.map fun p => ([p.1], p.2) := by
    clear hnd
    induction l with
    | nil => rfl
    | cons p l ih =>
      rw [ofList, flattenDict, ih fun q hq => hflat q (List.mem_cons_of_mem _ hq)]
      rcases hflat p (List.mem_cons_self ..) with ⟨a, ha⟩ | ha <;> rw [ha] <;> rw [flattenVal, List.map_cons, ha] <;> rfl
  unfold flattenParameters
  rw [e1]
  have gen : ∀ (l new : List (Key × PVal α)), ((new ++ l).map (·.1)).Nodup →
      (l.map fun p => ([p.1], p.2)).foldl (fun new (p : List Key × PVal α) => assign new (munge sep p.1) p.2) new = new ++ l := by
    intro l
    induction l with
    | nil => intro new _; simp
    | cons p l ih =>
      intro new hn
      rw [List.map_cons, List.foldl_cons]
      have hp : munge sep [p.1] = p.1 := rfl
      simp only [hp]
      rw [assign_append _ _ _ (by
        rw [List.map_append, List.nodup_append] at hn
        intro hm
        exact hn.2.2 _ hm _ (by simp) rfl)]
      rw [ih _ (by simpa using hn)]
      simp
  simpa using gen l [] (by simpa using hnd)

/-- **Duplicates.** The warning says the new option is ignored; it is the old one that is lost. -/
theorem duplicate_option_overwrites :
    lookup (flattenParameters ['_'] (.cons ['a', '_', 'b'] (.leaf 1) (.cons ['a'] (.dict (.cons ['b'] (.leaf 2) .nil)) .nil)))
      ['a', '_', 'b'] = some (.leaf 2) := rfl

/-- `{"a": {"b": {"c": 4}, "d": 2}, "e": 1}` of the documentation, with the hypotheses of `flatten_keeps` for `a.b.c`. -/
def docDict : PDict Nat :=
  .cons ['a'] (.dict (.cons ['b'] (.dict (.cons ['c'] (.leaf 4) .nil)) (.cons ['d'] (.leaf 2) .nil))) (.cons ['e'] (.leaf 1) .nil)

example : LeafD docDict [['a'], ['b'], ['c']] (.leaf 4) ∧
    (∀ q y, LeafD docDict q y → joinPath ['_'] q = joinPath ['_'] [['a'], ['b'], ['c']] → y = .leaf 4) ∧
    joinPath ['_'] [['a'], ['b'], ['c']] = ['a', '_', 'b', '_', 'c'] := by
  refine ⟨.here (.dict (.here (.dict (.here (.leaf 4))))), ?_, by decide⟩
  intro q y hq he
  obtain ⟨l, hl⟩ : ∃ l, l = flattenDict docDict [] := ⟨_, rfl⟩
  have hm := (mem_flattenDict docDict [] q.reverse y).2 ⟨q, hq, by simp⟩
  have e : flattenDict docDict [] = [([['c'], ['b'], ['a']], .leaf 4), ([['d'], ['a']], .leaf 2), ([['e']], .leaf 1)] := rfl
  rw [e] at hm
  rw [← munge_reverse] at he
  simp only [List.mem_cons, Prod.mk.injEq, List.not_mem_nil, or_false] at hm
  rcases hm with ⟨_, h⟩ | ⟨h, _⟩ | ⟨h, _⟩
  · exact h
  · rw [h] at he; exact absurd he (by decide)
  · rw [h] at he; exact absurd he (by decide)

/-! ## The options manager -/

/-- What constructors and `set_default_parameter` maintain. -/
structure Manager.Ok (m : Manager β) : Prop where
  nodup : (m.params.map (·.1)).Nodup
  sub : ∀ k ∈ m.toDelete, k ∈ m.params.map (·.1)

theorem initAuto_ok (n : Nat) (params : List (Key × β)) (h : (params.map (·.1)).Nodup) : (initAuto n params).Ok := ⟨h, fun _ h => h⟩

theorem mem_keys_assignAll {γ : Type} (f : γ → Key) (g : γ → β) (l : List γ) (new : List (Key × β)) (k : Key) (h : k ∈ new.map (·.1)) :
    k ∈ (l.foldl (fun new p => assign new (f p) (g p)) new).map (·.1) := by
  induction l generalizing new with
  | nil => exact h
  | cons p l ih => exact ih _ ((mem_keys_assign _ _ _ _).2 (Or.inr h))

theorem initPrefix_ok (cmd : List Key) (db : List (Key × β)) (pre : Key) (params : List (Key × β)) (h : (params.map (·.1)).Nodup) :
    (initPrefix cmd db pre params).Ok := by
  refine ⟨nodup_assignAll (fun p : Key × β => p.1.drop (fixPrefix pre).length) (·.2) _ _ ?_, fun k hk => mem_keys_assignAll _ _ _ _ _ hk⟩
  exact h.sublist (List.Sublist.map _ List.filter_sublist)

theorem setDefault_ok (m : Manager β) (db : DB β) (key : Key) (val : β) (h : m.Ok) : (m.setDefault db key val).Ok := by
  unfold Manager.setDefault
  split
  · refine ⟨nodup_assign _ _ _ h.nodup, fun k hk => (mem_keys_assign _ _ _ _).2 ?_⟩
    rcases List.mem_cons.1 hk with rfl | hk
    · exact Or.inl rfl
    · exact Or.inr (h.sub k hk)
  · exact h

theorem lookup_cons (k₀ : Key) (v₀ : β) (l : List (Key × β)) (k : Key) :
    lookup ((k₀, v₀) :: l) k = if k₀ = k then some v₀ else lookup l k := by
  unfold lookup
  by_cases h : k₀ = k <;> simp [h]

theorem lookup_eq_none (l : List (Key × β)) (k : Key) : lookup l k = none ↔ k ∉ l.map (·.1) := by
  induction l with
  | nil => simp [lookup]
  | cons p l ih =>
    obtain ⟨k₀, v₀⟩ := p
    rw [lookup_cons]
    by_cases h : k₀ = k
    · simp [h]
    · rw [if_neg h, ih]
      simp [Ne.symm h]

theorem lookup_of_mem (l : List (Key × β)) (hn : (l.map (·.1)).Nodup) (p : Key × β) (hp : p ∈ l) : lookup l p.1 = some p.2 := by
  induction l with
  | nil => cases hp
  | cons q l ih =>
    obtain ⟨k₀, v₀⟩ := q
    rw [List.map_cons, List.nodup_cons] at hn
    rw [lookup_cons]
    rcases List.mem_cons.1 hp with rfl | hp'
    · simp
    · rw [if_neg, ih hn.2 hp']
      intro e
      exact hn.1 (List.mem_map.2 ⟨p, hp', e.symm⟩)

theorem mem_of_lookup (l : List (Key × β)) (k : Key) (v : β) (h : lookup l k = some v) : (k, v) ∈ l := by
  induction l with
  | nil => cases h
  | cons q l ih =>
    obtain ⟨k₀, v₀⟩ := q
    rw [lookup_cons] at h
    split at h
    · rename_i e; subst e; cases h; exact List.mem_cons_self ..
    · exact List.mem_cons_of_mem _ (ih h)

theorem insertAll_apply (pre : Key) (l : List (Key × β)) (hn : (l.map (·.1)).Nodup) (db : DB β) :
    (∀ k, insertAll pre l db (pre ++ k) = (lookup l k).or (db (pre ++ k))) ∧
    ∀ s, (∀ k ∈ l.map (·.1), s ≠ pre ++ k) → insertAll pre l db s = db s := by
  induction l generalizing db with
  | nil => exact ⟨fun k => rfl, fun s _ => rfl⟩
  | cons q l ih =>
    obtain ⟨k₀, v₀⟩ := q
    rw [List.map_cons, List.nodup_cons] at hn
    obtain ⟨i1, i2⟩ := ih hn.2 (Function.update db (pre ++ k₀) (some v₀))
    constructor
    · intro k
      show insertAll pre l (Function.update db (pre ++ k₀) (some v₀)) (pre ++ k) = _
      rw [i1, lookup_cons]
      by_cases h : k₀ = k
      · subst h
        rw [(lookup_eq_none l k₀).2 hn.1]
        simp
      · have hne : pre ++ k ≠ pre ++ k₀ := fun e => h (List.append_cancel_left e).symm
        rw [Function.update_of_ne hne]
        simp [h]
    · intro s hs
      show insertAll pre l (Function.update db (pre ++ k₀) (some v₀)) s = _
      rw [i2 s fun k hk => hs k (List.mem_cons_of_mem _ hk), Function.update_of_ne (hs k₀ (List.mem_cons_self ..))]

theorem deleteAll_apply (pre : Key) (l : List Key) (db : DB β) :
    (∀ k ∈ l, deleteAll pre l db (pre ++ k) = none) ∧ ∀ s, (∀ k ∈ l, s ≠ pre ++ k) → deleteAll pre l db s = db s := by
  have gen : ∀ (l : List Key) (db : DB β) (s : Key), deleteAll pre l db s = db s ∨ deleteAll pre l db s = none := by
    intro l
    induction l with
    | nil => intro db s; exact Or.inl rfl
    | cons k l ih =>
      intro db s
      rcases ih (Function.update db (pre ++ k) none) s with h | h
      · by_cases hs : s = pre ++ k
        · subst hs
          right
          show deleteAll pre l (Function.update db (pre ++ k) none) _ = none
          rw [h]; simp
        · left
          show deleteAll pre l (Function.update db (pre ++ k) none) _ = _
          rw [h, Function.update_of_ne hs]
      · exact Or.inr h
  constructor
  · induction l generalizing db with
    | nil => intro k hk; cases hk
    | cons k₀ l ih =>
      intro k hk
      rcases List.mem_cons.1 hk with rfl | hk
      · rcases gen l (Function.update db (pre ++ k) none) (pre ++ k) with h | h
        · show deleteAll pre l (Function.update db (pre ++ k) none) _ = none
          rw [h]; simp
        · exact h
      · exact ih _ k hk
  · induction l generalizing db with
    | nil => intro s _; rfl
    | cons k₀ l ih =>
      intro s hs
      show deleteAll pre l (Function.update db (pre ++ k₀) none) s = _
      rw [ih _ s fun k hk => hs k (List.mem_cons_of_mem _ hk), Function.update_of_ne (hs k₀ (List.mem_cons_self ..))]

/-- **C33, inside.** The body sees the manager's parameters under its prefix, and otherwise the database as it was. -/
theorem inserted_visible (m : Manager β) (hm : m.Ok) (body : DB β → Bool × DB β) (db : DB β) :
    ∃ seen : DB β, (m.inserted body db).1 = (body seen).1 ∧
      (∀ k v, (k, v) ∈ m.params → seen (m.optPrefix ++ k) = some v) ∧
      ∀ s, (∀ k ∈ m.params.map (·.1), s ≠ m.optPrefix ++ k) → seen s = db s := by
  obtain ⟨i1, i2⟩ := insertAll_apply m.optPrefix m.params hm.nodup db
  refine ⟨insertAll m.optPrefix m.params db, rfl, fun k v hk => ?_, i2⟩
  rw [i1, lookup_of_mem _ hm.nodup _ hk]
  rfl

/-- **C33, on exit.** Whether or not the body raises, exactly the names to delete are gone, everything else is as the body left it. -/
theorem inserted_exit (m : Manager β) (body : DB β → Bool × DB β) (db : DB β) :
    (∀ k ∈ m.toDelete, (m.inserted body db).2 (m.optPrefix ++ k) = none) ∧
    ∀ s, (∀ k ∈ m.toDelete, s ≠ m.optPrefix ++ k) →
      (m.inserted body db).2 s = (body (insertAll m.optPrefix m.params db)).2 s :=
  deleteAll_apply m.optPrefix m.toDelete _

/-- **C33, restoring.** If none of the names to delete is in the database on entry, and the other parameters have the values the database has, then a
body that leaves the database alone leaves it as it was on entry, whether or not it raises. -/
theorem inserted_restores_partial (m : Manager β) (hm : m.Ok) (ok : Bool) (db : DB β)
    (hfree : ∀ k ∈ m.toDelete, db (m.optPrefix ++ k) = none)
    (hsame : ∀ p ∈ m.params, p.1 ∉ m.toDelete → db (m.optPrefix ++ p.1) = some p.2) :
    m.inserted (fun d => (ok, d)) db = (ok, db) := by
  obtain ⟨i1, i2⟩ := insertAll_apply m.optPrefix m.params hm.nodup db
  obtain ⟨d1, d2⟩ := inserted_exit m (fun d => (ok, d)) db
  refine Prod.ext rfl ?_
  funext s
  by_cases hs : ∃ k ∈ m.toDelete, s = m.optPrefix ++ k
  · obtain ⟨k, hk, rfl⟩ := hs
    exact (d1 k hk).trans (hfree k hk).symm
  · have hs' : ∀ k ∈ m.toDelete, s ≠ m.optPrefix ++ k := fun k hk e => hs ⟨k, hk, e⟩
    refine (d2 s hs').trans ?_
    show insertAll m.optPrefix m.params db s = db s
    by_cases hp : ∃ k ∈ m.params.map (·.1), s = m.optPrefix ++ k
    · obtain ⟨k, hk, rfl⟩ := hp
      obtain ⟨p, hp, rfl⟩ := List.mem_map.1 hk
      rw [i1, lookup_of_mem _ hm.nodup _ hp, hsame p hp fun hd => hs' _ hd rfl]
      rfl
    · exact i2 s fun k hk e => hp ⟨k, hk, e⟩

/-- Without prefix: it is enough that the names are not in the database. -/
theorem auto_restores (n : Nat) (params : List (Key × β)) (hn : (params.map (·.1)).Nodup) (ok : Bool) (db : DB β)
    (hfree : ∀ k ∈ params.map (·.1), db (autoPrefix n ++ k) = none) :
    (initAuto n params).inserted (fun d => (ok, d)) db = (ok, db) :=
  inserted_restores_partial _ (initAuto_ok n params hn) ok db hfree fun _ hp hd => absurd (List.mem_map_of_mem hp) hd

/-- **C33, precedence.** With a prefix, the database wins over the dictionary; what is on the command line is not taken from the dictionary. -/
theorem prefix_precedence (cmd : List Key) (db : List (Key × β)) (hdb : (db.map (·.1)).Nodup) (pre : Key) (params : List (Key × β)) (k : Key) :
    lookup (initPrefix cmd db pre params).params k
      = (lookup db (fixPrefix pre ++ k)).or (if fixPrefix pre ++ k ∈ cmd then none else lookup params k) := by
  unfold initPrefix
  simp only []
  generalize fixPrefix pre = q
  rw [lookup_assignAll (fun p : Key × β => p.1.drop q.length) (·.2)]
  have h1 : lookup (params.filter fun p => ¬ (q ++ p.1) ∈ cmd) k = if q ++ k ∈ cmd then none else lookup params k := by
    induction params with
    | nil => simp [lookup]
    | cons p l ih =>
      obtain ⟨k₀, v₀⟩ := p
      rw [List.filter_cons]
      by_cases h : q ++ k₀ ∈ cmd
      · rw [if_neg (by simpa using h), ih, lookup_cons]
        by_cases hk : k₀ = k
        · subst hk; simp [h]
        · simp [hk]
      · rw [if_pos (by simpa using h), lookup_cons, lookup_cons, ih]
        by_cases hk : k₀ = k
        · subst hk; simp [h]
        · simp [hk]
  rw [h1]
  congr 1
  rw [List.filter_filter]
  induction db with
  | nil => rfl
  | cons p l ih =>
    obtain ⟨k₀, v₀⟩ := p
    rw [List.map_cons, List.nodup_cons] at hdb
    rw [List.filter_cons, lookup_cons]
    by_cases h : k₀ = q ++ k
    · subst h
      have hnil : (l.filter fun p => decide (p.1.drop q.length = k) && q.isPrefixOf p.1) = [] := by
        rw [List.filter_eq_nil_iff]
        rintro ⟨k', v'⟩ hp
        simp only [Bool.and_eq_true, decide_eq_true_eq, List.isPrefixOf_iff_prefix, not_and]
        rintro he ⟨t, ht⟩
        apply hdb.1
        have : k' = q ++ k := by
          rw [← ht] at he ⊢
          rw [List.drop_left] at he
          rw [he]
        rw [← this]
        exact List.mem_map_of_mem (f := (·.1)) hp
      simp [hnil]
    · rw [if_neg h, if_neg, ih hdb.2]
      simp only [Bool.and_eq_true, decide_eq_true_eq, List.isPrefixOf_iff_prefix, not_and]
      rintro he ⟨t, ht⟩
      apply h
      rw [← ht] at he ⊢
      rw [List.drop_left] at he
      rw [he]

/-- With prefix: if the names taken from the dictionary are not in the database the manager was made with, the database is as it was. -/
theorem prefix_restores (cmd : List Key) (db : List (Key × β)) (hdb : (db.map (·.1)).Nodup) (pre : Key) (params : List (Key × β))
    (hn : (params.map (·.1)).Nodup) (ok : Bool)
    (hfree : ∀ k ∈ (initPrefix cmd db pre params).toDelete, lookup db (fixPrefix pre ++ k) = none) :
    (initPrefix cmd db pre params).inserted (fun d => (ok, d)) (lookup db) = (ok, lookup db) := by
  refine inserted_restores_partial _ (initPrefix_ok cmd db pre params hn) ok _ hfree fun p hp hd => ?_
  have h1 := lookup_of_mem _ (initPrefix_ok cmd db pre params hn).nodup p hp
  rw [prefix_precedence cmd db hdb pre params p.1] at h1
  show lookup db (fixPrefix pre ++ p.1) = some p.2
  cases hl : lookup db (fixPrefix pre ++ p.1) with
  | some v => rw [hl] at h1; simpa using h1
  | none =>
    rw [hl] at h1
    exfalso
    split at h1
    · cases h1
    · rename_i hc
      apply hd
      have := mem_of_lookup _ _ _ (by simpa using h1)
      show p.1 ∈ (params.filter fun p => ¬ (fixPrefix pre ++ p.1) ∈ cmd).map (·.1)
      exact List.mem_map.2 ⟨p, List.mem_filter.2 ⟨this, by simpa using hc⟩, rfl⟩

/-- **C33 fails for options set by the program.** The database holds `p_k = 1`, not from the command line.  A manager with prefix `p` and the parameter
`k = 2` uses the value 1, and on exit removes the option that it had not inserted. -/
theorem inserted_deletes_existing :
    let m := initPrefix [] [("p_k".toList, 1)] "p".toList [("k".toList, 2)]
    let db : DB Nat := lookup [("p_k".toList, 1)]
    insertAll m.optPrefix m.params db "p_k".toList = some 1 ∧
    (m.inserted (fun d => (true, d)) db).2 "p_k".toList = none ∧ db "p_k".toList = some 1 := by
  decide

/-- **C33, defaults.** Inside the context a name given to `set_default_parameter` has the value of the dictionary, else that of the database, else
the default; other names are not affected, and afterwards the database is what it would have been without the default. -/
theorem default_parameter (m : Manager β) (hm : m.Ok) (db : DB β) (key : Key) (val : β) (ok : Bool) :
    let m' := m.setDefault db key val
    insertAll m'.optPrefix m'.params db (m.optPrefix ++ key)
        = ((lookup m.params key).or (db (m.optPrefix ++ key))).or (some val) ∧
    (∀ s, s ≠ m.optPrefix ++ key → insertAll m'.optPrefix m'.params db s = insertAll m.optPrefix m.params db s) ∧
    m'.inserted (fun d => (ok, d)) db = m.inserted (fun d => (ok, d)) db := by
  intro m'
  by_cases h : db (m.optPrefix ++ key) = none ∧ lookup m.params key = none
  · have e : m' = { m with params := assign m.params key val, toDelete := key :: m.toDelete } := by
      show Manager.setDefault m db key val = _
      unfold Manager.setDefault
      rw [if_pos h]
    have hn := nodup_assign m.params key val hm.nodup
    obtain ⟨i1, i2⟩ := insertAll_apply m.optPrefix m.params hm.nodup db
    obtain ⟨k1, k2⟩ := insertAll_apply m.optPrefix (assign m.params key val) hn db
    have other : ∀ s, s ≠ m.optPrefix ++ key → insertAll m.optPrefix (assign m.params key val) db s = insertAll m.optPrefix m.params db s := by
      intro s hs
      by_cases hp : ∃ k, s = m.optPrefix ++ k
      · obtain ⟨k, rfl⟩ := hp
        rw [k1, i1, lookup_assign, if_neg (fun hk => hs (by rw [hk]))]
      · push Not at hp
        rw [k2 s fun k _ => hp k, i2 s fun k _ => hp k]
    rw [e]
    refine ⟨?_, other, ?_⟩
    · show insertAll m.optPrefix (assign m.params key val) db (m.optPrefix ++ key) = _
      rw [k1, lookup_assign, if_pos rfl, h.1, h.2]
      rfl
    · refine Prod.ext rfl ?_
      funext s
      show deleteAll m.optPrefix (key :: m.toDelete) (insertAll m.optPrefix (assign m.params key val) db) s
        = deleteAll m.optPrefix m.toDelete (insertAll m.optPrefix m.params db) s
      obtain ⟨d1, d2⟩ := deleteAll_apply m.optPrefix (key :: m.toDelete) (insertAll m.optPrefix (assign m.params key val) db)
      obtain ⟨f1, f2⟩ := deleteAll_apply m.optPrefix m.toDelete (insertAll m.optPrefix m.params db)
      by_cases hs : ∃ k ∈ m.toDelete, s = m.optPrefix ++ k
      · obtain ⟨k, hk, rfl⟩ := hs
        rw [d1 k (List.mem_cons_of_mem _ hk), f1 k hk]
      · push Not at hs
        rw [f2 s hs]
        by_cases hk : s = m.optPrefix ++ key
        · subst hk
          rw [d1 key (List.mem_cons_self ..), i1, h.1, h.2]
          rfl
        · rw [d2 s (by
            intro k hk'
            rcases List.mem_cons.1 hk' with rfl | hk'
            · exact hk
            · exact hs k hk'), other s hk]
  · have e : m' = m := by
      show Manager.setDefault m db key val = _
      unfold Manager.setDefault
      rw [if_neg h]
    rw [e]
    refine ⟨?_, fun _ _ => rfl, rfl⟩
    rw [(insertAll_apply m.optPrefix m.params hm.nodup db).1]
    cases hl : lookup m.params key with
    | some v => rfl
    | none =>
      cases hd : db (m.optPrefix ++ key) with
      | some v => rfl
      | none => exact absurd ⟨hd, hl⟩ h

example : let m := initAuto 0 [("a".toList, 1)]
    let db : DB Nat := lookup [("pyadjoint_0_b".toList, 7)]
    insertAll m.optPrefix (m.setDefault db "b".toList 5).params db "pyadjoint_0_b".toList = some 7 ∧
    insertAll m.optPrefix (m.setDefault db "a".toList 5).params db "pyadjoint_0_a".toList = some 1 ∧
    insertAll m.optPrefix (m.setDefault db "c".toList 5).params db "pyadjoint_0_c".toList = some 5 := by decide

/-! ## Automatic prefixes -/

theorem digitChar_ne_underscore (d : Nat) (h : d < 10) : Nat.digitChar d ≠ '_' := by
  interval_cases d <;> decide

theorem digitChar_inj (a b : Nat) (ha : a < 10) (hb : b < 10) (h : Nat.digitChar a = Nat.digitChar b) : a = b := by
  interval_cases a <;> interval_cases b <;> first | rfl | exact absurd h (by decide)

theorem decimal_no_underscore (n : Nat) : '_' ∉ decimal n := by
  unfold decimal
  split
  · decide
  · rw [List.mem_map]
    rintro ⟨d, hd, he⟩
    exact digitChar_ne_underscore d (Nat.digits_lt_base (by norm_num) (List.mem_reverse.1 hd)) he

theorem decimal_inj (n m : Nat) (h : decimal n = decimal m) : n = m := by
  have key : ∀ n : Nat, decimal n = if n = 0 then ['0'] else (Nat.digits 10 n).reverse.map Nat.digitChar := fun _ => rfl
  have inj : ∀ (l l' : List Nat), (∀ d ∈ l, d < 10) → (∀ d ∈ l', d < 10) → l.map Nat.digitChar = l'.map Nat.digitChar → l = l' := by
    intro l
    induction l with
    | nil => intro l' _ _ h; simpa using h.symm
    | cons a l ih =>
      intro l' hl hl' h
      cases l' with
      | nil => simp at h
      | cons b l' =>
        simp only [List.map_cons, List.cons.injEq] at h
        rw [digitChar_inj a b (hl a (by simp)) (hl' b (by simp)) h.1,
          ih l' (fun d hd => hl d (by simp [hd])) (fun d hd => hl' d (by simp [hd])) h.2]
  have lt : ∀ n : Nat, ∀ d ∈ (Nat.digits 10 n).reverse, d < 10 := fun n d hd =>
    Nat.digits_lt_base (by norm_num) (List.mem_reverse.1 hd)
  -- zero has the digit 0, which is no leading digit
  have zero : ∀ n : Nat, n ≠ 0 → (Nat.digits 10 n).reverse.map Nat.digitChar ≠ ['0'] := by
    intro n hn he
    have := inj _ [0] (lt n) (by simp) he
    have h2 : Nat.digits 10 n = [0] := by simpa using congrArg List.reverse this
    have := Nat.ofDigits_digits 10 n
    rw [h2] at this
    exact hn (by simpa using this.symm)
  rw [key, key] at h
  by_cases hn : n = 0 <;> by_cases hm : m = 0
  · rw [hn, hm]
  · rw [if_pos hn, if_neg hm] at h; exact absurd h.symm (zero m hm)
  · rw [if_neg hn, if_pos hm] at h; exact absurd h (zero n hn)
  · rw [if_neg hn, if_neg hm] at h
    have := List.reverse_injective (inj _ _ (lt n) (lt m) h)
    exact Nat.digits_inj_iff.1 this

/-- **Automatic prefixes never clash**: options of different managers have different names. -/
theorem autoPrefix_separate (n m : Nat) (k k' : Key) (h : autoPrefix n ++ k = autoPrefix m ++ k') : n = m ∧ k = k' := by
  unfold autoPrefix at h
  rw [List.append_assoc, List.append_assoc, List.append_assoc, List.append_assoc] at h
  have h := List.append_cancel_left h
  have split : ∀ (a b : Key) (x y : Key), '_' ∉ a → '_' ∉ b → a ++ (['_'] ++ x) = b ++ (['_'] ++ y) → a = b ∧ x = y := by
    intro a
    induction a with
    | nil =>
      intro b x y _ hb h
      cases b with
      | nil => simpa using h
      | cons c b =>
        simp only [List.nil_append, List.cons_append, List.cons.injEq] at h
        exact absurd (h.1 ▸ List.mem_cons_self ..) hb
    | cons c a ih =>
      intro b x y ha hb h
      cases b with
      | nil =>
        simp only [List.nil_append, List.cons_append, List.cons.injEq] at h
        exact absurd (h.1 ▸ List.mem_cons_self ..) ha
      | cons c' b =>
        simp only [List.cons_append, List.cons.injEq] at h
        obtain ⟨e1, e2⟩ := ih b x y (fun hh => ha (List.mem_cons_of_mem _ hh)) (fun hh => hb (List.mem_cons_of_mem _ hh)) (by simpa using h.2)
        exact ⟨by rw [h.1, e1], e2⟩
  obtain ⟨e1, e2⟩ := split _ _ _ _ (decimal_no_underscore n) (decimal_no_underscore m) h
  exact ⟨decimal_inj n m e1, e2⟩

/-- **Nesting.** Using one manager inside another's block neither hides nor removes the outer one's options. -/
theorem auto_nested (n m : Nat) (hnm : n ≠ m) (p q : List (Key × β)) (hp : (p.map (·.1)).Nodup) (hq : (q.map (·.1)).Nodup) (ok : Bool) (db : DB β)
    (k : Key) (v : β) (hk : (k, v) ∈ p) :
    ∃ seen : DB β, seen (autoPrefix n ++ k) = some v ∧ (∀ k' v', (k', v') ∈ q → seen (autoPrefix m ++ k') = some v') ∧
      ((initAuto m q).inserted (fun d => (ok, d)) (insertAll (autoPrefix n) p db)).2 (autoPrefix n ++ k) = some v ∧
      seen = insertAll (autoPrefix m) q (insertAll (autoPrefix n) p db) := by
  have hne : ∀ k', autoPrefix n ++ k ≠ autoPrefix m ++ k' := fun k' e => hnm (autoPrefix_separate _ _ _ _ e).1
  have h1 : insertAll (autoPrefix n) p db (autoPrefix n ++ k) = some v := by
    rw [(insertAll_apply (autoPrefix n) p hp db).1, lookup_of_mem p hp _ hk]; rfl
  have h2 : insertAll (autoPrefix m) q (insertAll (autoPrefix n) p db) (autoPrefix n ++ k) = some v := by
    rw [(insertAll_apply (autoPrefix m) q hq _).2 _ fun k' _ => hne k', h1]
  refine ⟨_, h2, fun k' v' hk' => ?_, ?_, rfl⟩
  · rw [(insertAll_apply (autoPrefix m) q hq _).1, lookup_of_mem q hq _ hk']; rfl
  · rw [(inserted_exit (initAuto m q) (fun d => (ok, d)) _).2 _ fun k' _ => hne k']
    exact h2

/-! ## `set_from_options` -/

theorem setFromMany_done (m : Manager β) (hm : m.setFromOptions = true) (db : DB β) (l : List (DB β → Bool × DB β)) :
    ∀ r ∈ setFromMany m db l, r = (false, true) := by
  induction l generalizing db with
  | nil => intro r hr; cases hr
  | cons obj l ih =>
    intro r hr
    have e : m.setFrom obj db = (true, false, m, db) := by unfold Manager.setFrom; rw [if_pos hm]
    rw [setFromMany, e] at hr
    rcases List.mem_cons.1 hr with rfl | hr
    · rfl
    · exact ih db r hr

/-- **C33, at most once.** For every sequence of `set_from_options` calls: every call before the first that completes calls `setFromOptions`, and no call
after it does. -/
theorem set_from_options_once (m : Manager β) (hm : m.setFromOptions = false) (db : DB β) (l : List (DB β → Bool × DB β)) :
    ∃ n, setFromMany m db l = List.replicate n (true, false) ++ (if n < l.length then (true, true) :: List.replicate (l.length - n - 1) (false, true) else []) ∧
      n ≤ l.length := by
  induction l generalizing m db with
  | nil => exact ⟨0, rfl, Nat.le_refl _⟩
  | cons obj l ih =>
    have e : m.setFrom obj db = ((m.inserted obj db).1, true, { m with setFromOptions := (m.inserted obj db).1 }, (m.inserted obj db).2) := by
      unfold Manager.setFrom; rw [if_neg (by simp [hm])]
    rw [setFromMany, e]
    simp only []
    cases hok : (m.inserted obj db).1 with
    | true =>
      refine ⟨0, ?_, Nat.zero_le _⟩
      have hd := setFromMany_done { m with setFromOptions := true } rfl (m.inserted obj db).2 l
      have hlen : ∀ (m : Manager β) (db : DB β) (l : List (DB β → Bool × DB β)), (setFromMany m db l).length = l.length := by
        intro m db l
        induction l generalizing m db with
        | nil => rfl
        | cons o l ih => rw [setFromMany, List.length_cons, ih, List.length_cons]
      have := List.eq_replicate_iff.2 ⟨hlen { m with setFromOptions := true } (m.inserted obj db).2 l, hd⟩
      rw [this]
      simp
    | false =>
      obtain ⟨n, hn, hle⟩ := ih { m with setFromOptions := false } rfl (m.inserted obj db).2
      refine ⟨n + 1, ?_, by simpa using hle⟩
      rw [hn, List.replicate_succ, List.cons_append]
      congr 2
      simp only [List.length_cons, Nat.add_lt_add_iff_right]
      congr 3
      omega

/-- Non-vacuity: a manager, and the documentation's dictionary as its parameters. -/
example : (initAuto 3 (flattenParameters ['_'] docDict)).Ok ∧
    (flattenParameters ['_'] docDict).map (·.1) = [['a', '_', 'b', '_', 'c'], ['a', '_', 'd'], ['e']] ∧
    autoPrefix 3 = "pyadjoint_3_".toList :=
  ⟨initAuto_ok 3 _ (flatten_nodup _ _), by decide, by decide⟩

/-- Non-vacuity of `prefix_restores`: a command-line option is kept, a dictionary entry is inserted and removed. -/
example : ∀ k ∈ (initPrefix ["p_x".toList] [("p_x".toList, 1)] "p".toList [("x".toList, 5), ("k".toList, 2)]).toDelete,
    lookup [("p_x".toList, 1)] (fixPrefix "p".toList ++ k) = none := by decide

end Opts
end Pyadjoint
