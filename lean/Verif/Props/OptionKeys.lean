import Verif.Model.OptionKeys
import Verif.Props.Options

/-!
# Parameter dictionaries with keys that are not strings (C33)
-/

namespace Pyadjoint
namespace Opts

variable {α : Type}

/-! ## Specification -/

mutual
/-- The value with every key in it replaced by its text. -/
def AVal.texts : AVal α → PVal α
  | .leaf a => .leaf a
  | .dict d => .dict d.texts
/-- The dictionary with every key in it replaced by its text. -/
def ADict.texts : ADict α → PDict α
  | .nil => .nil
  | .cons k v d => .cons k.text v.texts d.texts
end

/-- A dictionary with at least one entry. -/
def AVal.nested : AVal α → Prop
  | .leaf _ => False
  | .dict .nil => False
  | .dict (.cons _ _ _) => True

mutual
/-- All keys inside the value that lead to a dictionary with an entry satisfy `P`. -/
def AVal.InnerKeys (P : PyKey → Prop) : AVal α → Prop
  | .leaf _ => True
  | .dict d => d.InnerKeys P
/-- All keys of the dictionary, at any depth, that lead to a dictionary with an entry satisfy `P`. -/
def ADict.InnerKeys (P : PyKey → Prop) : ADict α → Prop
  | .nil => True
  | .cons k v d => (v.nested → P k) ∧ v.InnerKeys P ∧ d.InnerKeys P
end

/-- Strings. -/
def PyKey.IsStr (k : PyKey) : Prop := ∃ s, k = .str s

/-- Strings, and sized objects of length zero. -/
def PyKey.Joinable (k : PyKey) : Prop := k.IsStr ∨ ∃ t, k = .sized true t

/-! ## Proof -/

mutual
theorem aflattenVal_tails (P : PyKey → Prop) : ∀ (v : AVal α) (ps : List PyKey),
    (∀ p ∈ aflattenVal v ps, ∀ x ∈ p.1.tail, P x) ↔
      v.InnerKeys P ∧ (v.nested → ∀ x ∈ ps, P x) ∧ (¬ v.nested → ∀ x ∈ ps.tail, P x)
  | .leaf a, ps => by
    simp [aflattenVal, AVal.InnerKeys, AVal.nested]
  | .dict .nil, ps => by
    simp [aflattenVal, AVal.InnerKeys, ADict.InnerKeys, AVal.nested]
  | .dict (.cons k v d), ps => by
    have e : aflattenVal (.dict (.cons k v d)) ps = aflattenDict (.cons k v d) ps := by rw [aflattenVal, aflattenDict]
    rw [e, aflattenDict_tails P (.cons k v d) ps]
    simp [AVal.InnerKeys, AVal.nested]
theorem aflattenDict_tails (P : PyKey → Prop) : ∀ (d : ADict α) (ps : List PyKey),
    (∀ p ∈ aflattenDict d ps, ∀ x ∈ p.1.tail, P x) ↔ d.InnerKeys P ∧ (d ≠ .nil → ∀ x ∈ ps, P x)
  | .nil, ps => by simp [aflattenDict, ADict.InnerKeys]
  | .cons k v d, ps => by
    rw [aflattenDict]
    have hv := aflattenVal_tails P v (k :: ps)
    have hd := aflattenDict_tails P d ps
    constructor
    · intro h
      obtain ⟨h1, h2, h3⟩ := hv.1 fun p hp => h p (List.mem_append_left _ hp)
      obtain ⟨h4, h5⟩ := hd.1 fun p hp => h p (List.mem_append_right _ hp)
      refine ⟨⟨fun hn => h2 hn k List.mem_cons_self, h1, h4⟩, fun _ => ?_⟩
      by_cases hn : v.nested
      · exact fun x hx => h2 hn x (List.mem_cons_of_mem _ hx)
      · exact h3 hn
    · rintro ⟨⟨h1, h2, h3⟩, h4⟩ p hp
      have h4 := h4 (fun e => by cases e)
      rcases List.mem_append.1 hp with hp | hp
      · refine hv.2 ⟨h2, fun hn x hx => ?_, fun _ => h4⟩ p hp
        rcases List.mem_cons.1 hx with rfl | hx
        · exact h1 hn
        · exact h4 x hx
      · exact hd.2 ⟨h3, fun _ => h4⟩ p hp
end

mutual
theorem aflattenVal_texts : ∀ (v : AVal α) (ps : List PyKey),
    (aflattenVal v ps).map (fun p => (p.1.map PyKey.text, p.2.texts)) = flattenVal v.texts (ps.map PyKey.text)
  | .leaf a, ps => by rw [aflattenVal, AVal.texts, flattenVal]; rfl
  | .dict .nil, ps => by rw [aflattenVal, AVal.texts, ADict.texts, flattenVal]; rfl
  | .dict (.cons k v d), ps => by
    rw [aflattenVal, AVal.texts, ADict.texts, flattenVal, List.map_append, aflattenVal_texts v (k :: ps), aflattenDict_texts d ps]; rfl
theorem aflattenDict_texts : ∀ (d : ADict α) (ps : List PyKey),
    (aflattenDict d ps).map (fun p => (p.1.map PyKey.text, p.2.texts)) = flattenDict d.texts (ps.map PyKey.text)
  | .nil, ps => by rw [aflattenDict, ADict.texts, flattenDict]; rfl
  | .cons k v d, ps => by
    rw [aflattenDict, ADict.texts, flattenDict, List.map_append, aflattenVal_texts v (k :: ps), aflattenDict_texts d ps]; rfl
end

theorem aaddSep_ok (sep : Key) (k : PyKey) : (∃ s, aaddSep sep k = .ok s) ↔ k.Joinable := by
  cases k with
  | str s => exact ⟨fun _ => Or.inl ⟨s, rfl⟩, fun _ => ⟨_, rfl⟩⟩
  | sized e t =>
    cases e with
    | true => exact ⟨fun _ => Or.inr ⟨t, rfl⟩, fun _ => ⟨_, rfl⟩⟩
    | false =>
      constructor
      · rintro ⟨s, h⟩; cases h
      · rintro (⟨s, h⟩ | ⟨s, h⟩) <;> cases h
  | unsized t =>
    constructor
    · rintro ⟨s, h⟩; cases h
    · rintro (⟨s, h⟩ | ⟨s, h⟩) <;> cases h

theorem mapM_aaddSep (sep : Key) (l : List PyKey) : (∃ s, l.mapM (aaddSep sep) = .ok s) ↔ ∀ k ∈ l, k.Joinable := by
  induction l with
  | nil => exact ⟨fun _ k hk => (by cases hk), fun _ => ⟨_, rfl⟩⟩
  | cons k l ih =>
    rw [List.mapM_cons]
    cases hk : aaddSep sep k with
    | error e =>
      constructor
      · rintro ⟨s, h⟩; cases h
      · intro h
        obtain ⟨s, hs⟩ := (aaddSep_ok sep k).2 (h k List.mem_cons_self)
        rw [hk] at hs; cases hs
    | ok s =>
      have hj := (aaddSep_ok sep k).1 ⟨s, hk⟩
      cases hl : l.mapM (aaddSep sep) with
      | error e =>
        constructor
        · rintro ⟨s, h⟩; cases h
        · intro h
          obtain ⟨s, hs⟩ := ih.2 fun x hx => h x (List.mem_cons_of_mem _ hx)
          rw [hl] at hs; cases hs
      | ok ss =>
        refine ⟨fun _ x hx => ?_, fun _ => ⟨_, rfl⟩⟩
        rcases List.mem_cons.1 hx with rfl | hx
        · exact hj
        · exact ih.1 ⟨_, hl⟩ x hx

theorem amunge_ok (sep : Key) (q : List PyKey) : (∃ s, amunge sep q = .ok s) ↔ ∀ k ∈ q.tail, k.Joinable := by
  cases q with
  | nil => exact ⟨fun _ k hk => (by cases hk), fun _ => ⟨_, rfl⟩⟩
  | cons k q =>
    have h := mapM_aaddSep sep q.reverse
    simp only [List.mem_reverse] at h
    rw [List.tail_cons, ← h, amunge]
    cases q.reverse.mapM (aaddSep sep) with
    | error e => exact ⟨fun ⟨s, h⟩ => (by cases h), fun ⟨s, h⟩ => (by cases h)⟩
    | ok ks => exact ⟨fun _ => ⟨_, rfl⟩, fun _ => ⟨_, rfl⟩⟩

theorem mapM_strs (sep : Key) (l : List PyKey) (h : ∀ k ∈ l, k.IsStr) : l.mapM (aaddSep sep) = .ok (l.map fun k => addSep sep k.text) := by
  induction l with
  | nil => rfl
  | cons k l ih =>
    obtain ⟨s, rfl⟩ := h k List.mem_cons_self
    rw [List.mapM_cons, ih fun x hx => h x (List.mem_cons_of_mem _ hx)]
    rfl

theorem amunge_strs (sep : Key) (q : List PyKey) (h : ∀ k ∈ q.tail, k.IsStr) : amunge sep q = .ok (munge sep (q.map PyKey.text)) := by
  cases q with
  | nil => rfl
  | cons k q =>
    rw [amunge, mapM_strs sep q.reverse fun x hx => h x (List.mem_reverse.1 hx), List.map_cons, munge, ← List.map_reverse, List.map_map]
    rfl

/-- **C33: when a parameter dictionary is accepted.**  `flatten_parameters` returns exactly if every key that leads to a dictionary with an entry is a
string or an empty sequence; any other key there, a number for instance, makes it raise.  Keys of values can be anything. -/
theorem flatten_any_keys_iff (sep : Key) (d : ADict α) : (∃ l, aflattenParameters sep d = .ok l) ↔ d.InnerKeys PyKey.Joinable := by
  have h := aflattenDict_tails PyKey.Joinable d []
  have h' : (∀ p ∈ aflattenDict d [], ∀ x ∈ p.1.tail, x.Joinable) ↔ d.InnerKeys PyKey.Joinable :=
    h.trans ⟨fun g => g.1, fun g => ⟨g, fun _ x hx => by cases hx⟩⟩
  rw [← h', aflattenParameters]
  generalize aflattenDict d [] = l
  generalize ([] : List (Key × AVal α)) = new
  clear h h'
  induction l generalizing new with
  | nil => exact ⟨fun _ p hp => (by cases hp), fun _ => ⟨_, rfl⟩⟩
  | cons p l ih =>
    have hm := amunge_ok sep p.1
    rw [List.foldlM_cons]
    cases hp : amunge sep p.1 with
    | error e =>
      constructor
      · rintro ⟨s, h⟩; cases h
      · intro h
        obtain ⟨s, hs⟩ := hm.2 (h p List.mem_cons_self)
        rw [hp] at hs; cases hs
    | ok k =>
      refine Iff.trans (ih (assign new k p.2)) ⟨fun h q hq => ?_, fun h q hq => h q (List.mem_cons_of_mem _ hq)⟩
      rcases List.mem_cons.1 hq with rfl | hq
      · exact hm.1 ⟨_, hp⟩
      · exact h q hq

theorem assign_map {β γ : Type} (f : β → γ) (l : List (Key × β)) (k : Key) (v : β) :
    (assign l k v).map (fun p => (p.1, f p.2)) = assign (l.map fun p => (p.1, f p.2)) k (f v) := by
  induction l with
  | nil => rfl
  | cons p l ih =>
    obtain ⟨k', v'⟩ := p
    simp only [assign, List.map_cons]
    by_cases h : k' = k
    · rw [if_pos h, if_pos h]; rfl
    · rw [if_neg h, if_neg h, List.map_cons, ih]

/-- **C33: keys count as their text.**  If every key that leads to a dictionary with an entry is a string, the result is that for the dictionary with every
key replaced by its text, so that the other theorems of C33 apply to it. -/
theorem flatten_any_keys (sep : Key) (d : ADict α) (hd : d.InnerKeys PyKey.IsStr) :
    ∃ l, aflattenParameters sep d = .ok l ∧ (l.map fun p => (p.1, p.2.texts)) = flattenParameters sep d.texts := by
  have h : ∀ p ∈ aflattenDict d [], ∀ x ∈ p.1.tail, x.IsStr :=
    (aflattenDict_tails PyKey.IsStr d []).2 ⟨hd, fun _ x hx => by cases hx⟩
  have ht : _ = flattenDict d.texts [] := aflattenDict_texts d []
  rw [aflattenParameters, flattenParameters, ← ht]
  clear ht
  have gen : ∀ (l : List (List PyKey × AVal α)) (new : List (Key × AVal α)), (∀ p ∈ l, ∀ x ∈ p.1.tail, x.IsStr) →
      ∃ r, l.foldlM (fun new p => match amunge sep p.1 with
        | .error e => .error e
        | .ok k => .ok (assign new k p.2)) new = (.ok r : Except KeyErr _) ∧ (r.map fun p => (p.1, p.2.texts))
          = (l.map fun p => (p.1.map PyKey.text, p.2.texts)).foldl (fun new p => assign new (munge sep p.1) p.2) (new.map fun p => (p.1, p.2.texts)) := by
    intro l
    induction l with
    | nil => intro new _; exact ⟨new, rfl, rfl⟩
    | cons p l ih =>
      intro new hl
      obtain ⟨r, h1, h2⟩ := ih (assign new (munge sep (p.1.map PyKey.text)) p.2) fun q hq => hl q (List.mem_cons_of_mem _ hq)
      refine ⟨r, ?_, ?_⟩
      · rw [List.foldlM_cons, amunge_strs sep p.1 (hl p List.mem_cons_self)]
        exact h1
      · rw [h2, List.map_cons, List.foldl_cons, assign_map AVal.texts]
  exact gen _ [] h

/-- `{"a": {1: 5}}` gives the option `a_1`, `{1: {"a": 5}}` raises a `TypeError`, and `{("x",): {"a": 5}}` an `AttributeError` (with the texts abbreviated). -/
example : aflattenParameters ['_'] (.cons (.str ['a']) (.dict (.cons (.unsized ['1']) (.leaf 5) .nil)) .nil) = .ok [(['a', '_', '1'], .leaf 5)] ∧
    aflattenParameters ['_'] (.cons (.unsized ['1']) (.dict (.cons (.str ['a']) (.leaf 5) .nil)) .nil) = .error .typeError ∧
    aflattenParameters ['_'] (.cons (.sized false ['x']) (.dict (.cons (.str ['a']) (.leaf 5) .nil)) .nil) = .error .attributeError ∧
    (ADict.cons (.str ['a']) (.dict (.cons (.unsized ['1']) (.leaf 5) .nil)) .nil).InnerKeys PyKey.IsStr :=
  ⟨rfl, rfl, rfl, ⟨fun _ => ⟨_, rfl⟩, ⟨fun h => h.elim, trivial, trivial⟩, trivial⟩⟩

end Opts
end Pyadjoint
