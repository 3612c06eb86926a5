import Verif.Proofs.Structures
import Verif.Props.Strings

/-!
# Reading a directory name back
-/

namespace Verif

open Str

namespace Structures

/-- Loose parameters with keyword that are set. -/
def kwItems : List Fld → List Val → List (Str × Str)
  | .par p :: fs, .str s :: vs =>
    if p.transient = false ∧ p.positional = false ∧ p.keyword = true then (p.name, s) :: kwItems fs vs else kwItems fs vs
  | _ :: fs, _ :: vs => kwItems fs vs
  | _, _ => []

/-- Loose parameters without keyword that are set. -/
def npItems : List Fld → List Val → List (Str × Str)
  | .par p :: fs, .str s :: vs =>
    if p.transient = false ∧ p.positional = false ∧ p.keyword = false then (p.name, s) :: npItems fs vs else npItems fs vs
  | _ :: fs, _ :: vs => npItems fs vs
  | _, _ => []

/-- The positional parameters, and those of nested structures. -/
def fldPos : Fld → Val → List (Str × Str)
  | .par p, .str s => if p.transient = false ∧ p.positional = true then [(p.name, s)] else []
  | .struct p g, .obj ws => if p.transient then [] else items g ws
  | _, _ => []

def posItems : List Fld → List Val → List (Str × Str)
  | f :: fs, v :: vs => fldPos f v ++ posItems fs vs
  | _, _ => []

/-- The component that the loose parameters make. -/
def keyComp (fs : List Fld) (vs : List Val) : List Str :=
  match npItems fs vs with
  | [] => if kwItems fs vs = [] then [] else [join '_' (sortStr ((kwItems fs vs).map formatItem))]
  | (_, s) :: _ => [join '_' (s :: sortStr ((kwItems fs vs).map formatItem))]

mutual

def fldComps : Fld → Val → List Str
  | .par p, .str s => if p.transient = false ∧ p.positional = true then [parString p s] else []
  | .struct p g, .obj ws => if p.transient then [] else comps g ws ++ keyComp g ws
  | _, _ => []

def comps : List Fld → List Val → List Str
  | f :: fs, v :: vs => fldComps f v ++ comps fs vs
  | _, _ => []

end

/-! ### Dictionaries -/

theorem get?_append {ν : Type} (d e : PyDict Str ν) (k : Str) :
    PyDict.get? (d ++ e) k = (PyDict.get? d k).or (PyDict.get? e k) := by
  induction d with
  | nil => simp [PyDict.get?]
  | cons a d ih =>
    obtain ⟨x, v⟩ := a
    rw [List.cons_append, PyDict.get?, PyDict.get?]
    by_cases h : x = k
    · simp [h]
    · rw [if_neg h, if_neg h, ih]

theorem get?_perm {ν : Type} {d e : PyDict Str ν} (h : d.Perm e) (hd : (d.map Prod.fst).Nodup) (k : Str) :
    PyDict.get? d k = PyDict.get? e k := by
  have he : (e.map Prod.fst).Nodup := (h.map Prod.fst).nodup_iff.1 hd
  cases hk : PyDict.get? d k with
  | some v => exact (PyDict.get?_of_mem he (h.mem_iff.1 (PyDict.mem_of_get? hk))).symm
  | none =>
    rw [PyDict.get?_eq_none] at hk
    symm
    rw [PyDict.get?_eq_none]
    exact fun hm => hk ((h.map Prod.fst).mem_iff.2 hm)

theorem get?_map {ν μ : Type} (g : ν → μ) (d : PyDict Str ν) (k : Str) :
    PyDict.get? (d.map fun kv => (kv.1, g kv.2)) k = (PyDict.get? d k).map g := by
  induction d with
  | nil => rfl
  | cons a d ih =>
    obtain ⟨x, v⟩ := a
    rw [List.map_cons, PyDict.get?, PyDict.get?]
    by_cases h : x = k
    · simp [h]
    · rw [if_neg h, if_neg h, ih]

theorem get?_set {ν : Type} (d : PyDict Str ν) (k j : Str) (v : ν) :
    PyDict.get? (PyDict.set d k v) j = if k = j then some v else PyDict.get? d j := by
  by_cases h : k = j
  · subst h; rw [if_pos rfl]; exact PyDict.get?_set_self d k v
  · rw [if_neg h]; exact PyDict.get?_set_other d v fun e => h e.symm

theorem updateAll_spec {L : Type} (d e : PyDict Str (PV L)) (he : (PyDict.keys e).Nodup) (hd : (PyDict.keys d).Nodup) :
    (PyDict.keys (updateAll d e)).Nodup ∧
    ∀ k, PyDict.get? (updateAll d e) k = (PyDict.get? e k).or (PyDict.get? d k) := by
  induction e generalizing d with
  | nil => exact ⟨hd, fun k => by simp [updateAll, PyDict.get?]⟩
  | cons a e ih =>
    obtain ⟨x, v⟩ := a
    rw [PyDict.keys_cons, List.nodup_cons] at he
    have e1 : updateAll d ((x, v) :: e) = updateAll (PyDict.set d x v) e := rfl
    rw [e1]
    obtain ⟨h1, h2⟩ := ih (PyDict.set d x v) he.2 (PyDict.nodup_keys_set hd)
    refine ⟨h1, fun k => ?_⟩
    rw [h2, get?_set, PyDict.get?]
    by_cases h : x = k
    · subst h
      have : PyDict.get? e x = none := PyDict.get?_eq_none.2 he.1
      rw [if_pos rfl, if_pos rfl, this]
      rfl
    · rw [if_neg h, if_neg h]

/-- The parameters with string values. -/
def asPV {L : Type} (l : List (Str × Str)) : PyDict Str (PV L) := l.map fun kv => (kv.1, .atom (.str kv.2))

theorem get?_asPV {L : Type} (l : List (Str × Str)) (k : Str) :
    PyDict.get? (asPV (L := L) l) k = (PyDict.get? l k).map fun s => .atom (.str s) :=
  get?_map (fun s => PV.atom (.str s)) l k

theorem asPV_append {L : Type} (l m : List (Str × Str)) : asPV (L := L) (l ++ m) = asPV l ++ asPV m := List.map_append

theorem keys_asPV {L : Type} (l : List (Str × Str)) : PyDict.keys (asPV (L := L) l) = l.map Prod.fst := by
  simp [PyDict.keys, asPV]

/-! ### Items -/

section

variable {L : Type} {lit : Str → Option L} {prev : Option Str}

theorem fldGood_struct {p : Par} {g : List Fld} {v : Val} (h : FldGood lit prev (.struct p g) v) :
    p.transient = true ∨ (p.keyword = false ∧ p.positional = true ∧ ∃ ws, v = .obj ws ∧ FldsGood lit prev g ws ∧ ClassGood g ws) := by
  cases v <;> simp [FldGood] at h ⊢ <;> tauto

theorem fldGood_str {p : Par} {s : Str} (h : FldGood lit prev (.par p) (.str s)) : p.transient = true ∨ ParGood lit p s := by
  simpa [FldGood] using h

theorem fldGood_unset {p : Par} (h : FldGood lit prev (.par p) .unset) :
    p.transient = true ∨ p.required = false ∧ p.keyword = true ∧
      (p.positional = true → ∃ c, prev = some c ∧ Other lit p c) := by
  simpa [FldGood] using h

theorem fldGood_obj {p : Par} {ws : List Val} (h : FldGood lit prev (.par p) (.obj ws)) : p.transient = true := by
  simpa [FldGood] using h

theorem items_perm (fs : List Fld) (vs : List Val) :
    (items fs vs).Perm (posItems fs vs ++ (npItems fs vs ++ kwItems fs vs)) := by
  induction fs generalizing vs with
  | nil => cases vs <;> simp [items, posItems, npItems, kwItems]
  | cons f fs ih =>
    cases vs with
    | nil => cases f <;> simp [items, posItems, npItems, kwItems]
    | cons v vs =>
      have h := ih vs
      rw [items, posItems]
      cases f with
      | struct p g =>
        have e1 : npItems (.struct p g :: fs) (v :: vs) = npItems fs vs := by cases v <;> rfl
        have e2 : kwItems (.struct p g :: fs) (v :: vs) = kwItems fs vs := by cases v <;> rfl
        have e3 : fldItems (.struct p g) v = fldPos (.struct p g) v := by cases v <;> simp [fldItems, fldPos]
        rw [e1, e2, e3, List.append_assoc]
        exact h.append_left _
      | par p =>
        cases v with
        | unset => simpa [fldItems, fldPos, npItems, kwItems] using h
        | obj ws => simpa [fldItems, fldPos, npItems, kwItems] using h
        | str s =>
          simp only [fldItems, fldPos, npItems, kwItems]
          cases h1 : p.transient
          · cases h2 : p.positional
            · cases h3 : p.keyword
              · simp
                refine (h.cons _).trans ?_
                simpa using (List.perm_middle (a := (p.name, s)) (l₁ := posItems fs vs) (l₂ := npItems fs vs ++ kwItems fs vs)).symm
              · simp
                refine (h.cons _).trans ?_
                have := (List.perm_middle (a := (p.name, s)) (l₁ := posItems fs vs ++ npItems fs vs) (l₂ := kwItems fs vs)).symm
                simpa using this
            · simpa using h
          · simpa using h

theorem kwItems_good {fs : List Fld} {vs : List Val} (h : FldsGood lit prev fs vs) :
    ∀ kv ∈ kwItems fs vs, kv.1 ≠ [] ∧ '-' ∉ kv.1 ∧ '_' ∉ kv.2 ∧ (∀ c ∈ kv.1, keepH c = true) ∧ (∀ c ∈ kv.2, keepH c = true) := by
  induction fs generalizing vs prev with
  | nil => cases vs <;> simp [kwItems]
  | cons f fs ih =>
    cases vs with
    | nil => cases f <;> simp [kwItems]
    | cons v vs =>
      rw [FldsGood] at h
      have h2 := ih h.2
      cases f with
      | struct p g => have e2 : kwItems (.struct p g :: fs) (v :: vs) = kwItems fs vs := by cases v <;> rfl
                      rw [e2]; exact h2
      | par p =>
        cases v with
        | unset => exact h2
        | obj ws => exact h2
        | str s =>
          rw [kwItems]
          split_ifs with hc
          · intro kv hkv
            rcases List.mem_cons.1 hkv with rfl | hkv
            · have h1 := h.1
              rw [FldGood] at h1
              obtain ⟨hcl, hu, -⟩ := h1.resolve_left (by simp [hc.1])
              exact ⟨hcl.1, hcl.2.1, hu hc.2.1, hcl.2.2.1, hcl.2.2.2.2.1⟩
            · exact h2 kv hkv
          · exact h2

theorem npItems_good {fs : List Fld} {vs : List Val} (h : FldsGood lit prev fs vs) :
    ∀ kv ∈ npItems fs vs, ∃ p : Par, p.name = kv.1 ∧ Clean p kv.2 ∧ '_' ∉ kv.2 := by
  induction fs generalizing vs prev with
  | nil => cases vs <;> simp [npItems]
  | cons f fs ih =>
    cases vs with
    | nil => cases f <;> simp [npItems]
    | cons v vs =>
      rw [FldsGood] at h
      have h2 := ih h.2
      cases f with
      | struct p g => have e2 : npItems (.struct p g :: fs) (v :: vs) = npItems fs vs := by cases v <;> rfl
                      rw [e2]; exact h2
      | par p =>
        cases v with
        | unset => exact h2
        | obj ws => exact h2
        | str s =>
          rw [npItems]
          split_ifs with hc
          · intro kv hkv
            rcases List.mem_cons.1 hkv with rfl | hkv
            · have h1 := h.1
              rw [FldGood] at h1
              obtain ⟨hcl, hu, -⟩ := h1.resolve_left (by simp [hc.1])
              exact ⟨p, rfl, hcl, hu hc.2.1⟩
            · exact h2 kv hkv
          · exact h2

/-- `has_nonpos_nonkey` finds the names of the loose parameters without keyword. -/
theorem npnkOf_eq {fs : List Fld} {vs : List Val} (h : FldsGood lit prev fs vs) :
    npnkOf fs = match npItems fs vs with
      | [] => .ok none
      | [kv] => .ok (some kv.1)
      | _ => .error .typeError := by
  have key : ∀ (prev : Option Str) (fs : List Fld) (vs : List Val), FldsGood lit prev fs vs →
      (fs.filter fun f => !(Fld.flags f).positional && !(Fld.flags f).keyword && !(Fld.flags f).transient).map
        (fun f => (Fld.flags f).name) = (npItems fs vs).map Prod.fst := by
    intro prev fs
    induction fs generalizing prev with
    | nil => intro vs _; cases vs <;> rfl
    | cons f fs ih =>
      intro vs h
      cases vs with
      | nil => rw [FldsGood] at h; exact h.elim; all_goals simp
      | cons v vs =>
        rw [FldsGood] at h
        have h2 := ih _ vs h.2
        have h1 := h.1
        cases f with
        | struct p g =>
          have e2 : npItems (.struct p g :: fs) (v :: vs) = npItems fs vs := by cases v <;> rfl
          have h1 := fldGood_struct h1
          rw [e2, List.filter_cons_of_neg, h2]
          simp only [Fld.flags]
          rcases h1 with h1 | h1
          · simp [h1]
          · simp [h1.2.1]
        | par p =>
          cases v with
          | unset =>
            have h1 := fldGood_unset h1
            have e2 : npItems (.par p :: fs) (.unset :: vs) = npItems fs vs := rfl
            rw [e2, List.filter_cons_of_neg, h2]
            simp only [Fld.flags]
            rcases h1 with h1 | h1
            · simp [h1]
            · simp [h1.2.1]
          | obj ws =>
            have e2 : npItems (.par p :: fs) (.obj ws :: vs) = npItems fs vs := rfl
            rw [e2, List.filter_cons_of_neg, h2]
            simp only [Fld.flags]
            simp [fldGood_obj h1]
          | str s =>
            rw [npItems]
            by_cases hc : p.transient = false ∧ p.positional = false ∧ p.keyword = false
            · rw [if_pos hc, List.filter_cons_of_pos, List.map_cons, h2]
              · rfl
              · simp [Fld.flags, hc]
            · rw [if_neg hc, List.filter_cons_of_neg, h2]
              simp only [Fld.flags]
              intro e
              apply hc
              simp only [Bool.and_eq_true, Bool.not_eq_true'] at e
              exact ⟨e.2, e.1.1, e.1.2⟩
  have hk := key prev fs vs h
  rw [npnkOf]
  cases hn : npItems fs vs with
  | nil =>
    rw [hn, List.map_nil, List.map_eq_nil_iff] at hk
    rw [hk]; rfl
  | cons a l =>
    cases l with
    | nil =>
      rw [hn] at hk
      obtain ⟨f, hf, hf'⟩ : ∃ f, (fs.filter fun f => !(Fld.flags f).positional && !(Fld.flags f).keyword && !(Fld.flags f).transient) = [f] ∧
          (Fld.flags f).name = a.1 := by
        rw [List.map_cons, List.map_nil, List.map_eq_singleton_iff] at hk
        obtain ⟨f, h1, h2⟩ := hk
        exact ⟨f, h1, h2⟩
      rw [hf]
      change Except.ok (some (Fld.flags f).name) = Except.ok (some a.1)
      rw [hf']
    | cons b l =>
      rw [hn] at hk
      have hl : 2 ≤ (fs.filter fun f => !(Fld.flags f).positional && !(Fld.flags f).keyword && !(Fld.flags f).transient).length := by
        rw [← List.length_map (f := fun f => (Fld.flags f).name), hk]; simp
      split
      · rename_i e; rw [e] at hl; simp at hl
      · rename_i f e; rw [e] at hl; simp at hl
      · rfl

theorem filter_keepH {s : Str} (h : ∀ c ∈ s, keepH c = true) : s.filter keepH = s := List.filter_eq_self.2 h

theorem parString_kw {p : Par} {s : Str} (hk : p.keyword = true) (hc : Clean p s) : parString p s = formatItem (p.name, s) := by
  rw [parString, if_pos ⟨hk, hc.1⟩, filter_keepH hc.2.2.2.2.1]; rfl

theorem parString_nokw {p : Par} {s : Str} (hk : p.keyword = false) (hc : Clean p s) : parString p s = s := by
  rw [parString, if_neg (by simp [hk]), filter_keepH hc.2.2.2.2.1]

theorem nonposArgs_eq {fs : List Fld} {vs : List Val} (h : FldsGood lit prev fs vs) (n : Option Str)
    (hn : (npItems fs vs).length + (if n.isSome then 1 else 0) ≤ 1) :
    nonposArgs fs vs n = .ok ((kwItems fs vs).map formatItem, n.or ((npItems fs vs).head?.map Prod.snd)) := by
  induction fs generalizing vs prev n with
  | nil => cases vs <;> simp [nonposArgs, kwItems, npItems, pure_eq_ok]
  | cons f fs ih =>
    cases vs with
    | nil => cases f <;> simp [FldsGood] at h
    | cons v vs =>
      rw [FldsGood] at h
      have h1 := h.1
      cases f with
      | struct p g =>
        have e1 : npItems (.struct p g :: fs) (v :: vs) = npItems fs vs := by cases v <;> rfl
        have e2 : kwItems (.struct p g :: fs) (v :: vs) = kwItems fs vs := by cases v <;> rfl
        rw [e1] at hn ⊢
        rw [e2]
        exact ih h.2 n hn
      | par p =>
        cases v with
        | unset =>
          rw [nonposArgs]
          have e := ih h.2 n hn
          have h1 := fldGood_unset h1
          rcases h1 with h1 | h1
          · rw [if_pos (Or.inl h1)]; exact e
          · rw [h1.1]
            simp only [Bool.false_eq_true, if_false, ite_self]
            exact e
        | obj ws =>
          rw [nonposArgs, if_pos (Or.inl (fldGood_obj h1))]
          exact ih h.2 n hn
        | str s =>
          rw [nonposArgs]
          by_cases hc : p.transient = true ∨ p.positional = true
          · rw [if_pos hc]
            have c1 : ¬ (p.transient = false ∧ p.positional = false ∧ p.keyword = true) := by
              rintro ⟨a, b, -⟩; rw [a, b] at hc; simp at hc
            have c2 : ¬ (p.transient = false ∧ p.positional = false ∧ p.keyword = false) := by
              rintro ⟨a, b, -⟩; rw [a, b] at hc; simp at hc
            rw [npItems, if_neg c2] at hn ⊢
            rw [kwItems, if_neg c1]
            exact ih h.2 n hn
          · rw [if_neg hc]
            have ht : p.transient = false := by
              cases e : p.transient with
              | false => rfl
              | true => exact absurd (Or.inl e) hc
            have hp : p.positional = false := by
              cases e : p.positional with
              | false => rfl
              | true => exact absurd (Or.inr e) hc
            obtain ⟨hcl, -, -⟩ := (fldGood_str h1).resolve_left (by simp [ht])
            dsimp only
            by_cases hk : p.keyword = true
            · have e1 : npItems (.par p :: fs) (.str s :: vs) = npItems fs vs := by rw [npItems, if_neg (by simp [hk])]
              have e2 : kwItems (.par p :: fs) (.str s :: vs) = (p.name, s) :: kwItems fs vs := by
                rw [kwItems, if_pos ⟨ht, hp, hk⟩]
              rw [e1] at hn ⊢
              rw [e2, if_pos hk, ih h.2 n hn, ok_bind, parString_kw hk hcl]
              rfl
            · have hk' : p.keyword = false := by simpa using hk
              have e1 : npItems (.par p :: fs) (.str s :: vs) = (p.name, s) :: npItems fs vs := by
                rw [npItems, if_pos ⟨ht, hp, hk'⟩]
              have e2 : kwItems (.par p :: fs) (.str s :: vs) = kwItems fs vs := by rw [kwItems, if_neg (by simp [hk'])]
              rw [e1] at hn ⊢
              have hnn : n = none := by
                cases n with
                | none => rfl
                | some x => simp at hn
              subst hnn
              have hn' : (npItems fs vs).length + 1 ≤ 1 := by simpa using hn
              rw [e2, if_neg hk, if_neg (by simp), ih h.2 _ (by simpa using hn'), parString_nokw hk' hcl]
              rfl

theorem sortStr_map (l : List (Str × Str)) : ∃ m : List (Str × Str), m.Perm l ∧ sortStr (l.map formatItem) = m.map formatItem := by
  have hp : (sortStr (l.map formatItem)).Perm (l.map formatItem) := List.mergeSort_perm _ _
  obtain ⟨m, h1, h2⟩ : ∃ m : List (Str × Str), m.Perm l ∧ m.map formatItem = sortStr (l.map formatItem) := by
    generalize sortStr (l.map formatItem) = s at hp
    have : ∀ (a b : List Str), a.Perm b → ∀ l : List (Str × Str), b = l.map formatItem → ∃ m : List (Str × Str), m.Perm l ∧ m.map formatItem = a := by
      intro a b hab
      induction hab with
      | nil => intro l hl; exact ⟨[], by rw [List.map_eq_nil_iff.1 hl.symm], rfl⟩
      | cons x _ ih =>
        intro l hl
        obtain ⟨y, l', rfl, rfl, rfl⟩ := List.map_eq_cons_iff.1 hl.symm
        obtain ⟨m, h1, h2⟩ := ih l' rfl
        exact ⟨y :: m, h1.cons y, by rw [List.map_cons, h2]⟩
      | swap x y _ =>
        intro l hl
        obtain ⟨y1, l', rfl, rfl, hl'⟩ := List.map_eq_cons_iff.1 hl.symm
        obtain ⟨y2, l'', rfl, rfl, rfl⟩ := List.map_eq_cons_iff.1 hl'
        exact ⟨y2 :: y1 :: l'', List.Perm.swap _ _ _, rfl⟩
      | trans _ _ ih1 ih2 =>
        intro l hl
        obtain ⟨m, h1, h2⟩ := ih2 l hl
        obtain ⟨m', h3, h4⟩ := ih1 m h2.symm
        exact ⟨m', h3.trans h1, h4⟩
    exact this s _ hp l rfl
  exact ⟨m, h1, h2.symm⟩

end

end Structures

end Verif
