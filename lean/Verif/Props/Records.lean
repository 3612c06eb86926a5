import Verif.Model.Records
import Verif.Props.Construct

/-!
# C120: records of structures
-/

namespace Verif

open Construct

namespace Construct

/-- `f` is a parameter that is not a structure and not transient, of the class or of a nested one. -/
inductive Inside (tr : Par → Bool) (f : Fld) : List Fld → Prop
  | here {fs} : f ∈ fs → (∀ p cls g i, f ≠ .struct p cls g i) → tr f.par = false → Inside tr f fs
  | inside {fs p cls g i} : Fld.struct p cls g i ∈ fs → Inside tr f g → Inside tr f fs

/-- The parameter `f` has the value `v` in an instance with these attributes or in one nested in it. -/
inductive Holds (tr : Par → Bool) (f : Fld) (v : V) : List Fld → PyDict Str V → Prop
  | here {fs attrs} : f ∈ fs → (∀ p cls g i, f ≠ .struct p cls g i) → tr f.par = false → PyDict.get? attrs f.par.name = some v → Holds tr f v fs attrs
  | inside {fs attrs p cls g i a} : Fld.struct p cls g i ∈ fs → PyDict.get? attrs p.name = some (.obj cls a) → Holds tr f v g a → Holds tr f v fs attrs

/-- The flat record has the values of all parameters, also of those of nested structures. -/
def FlatComplete (tr : Par → Bool) (str : Fld → V → Py Str) (fs : List Fld) (attrs : PyDict Str V) : Prop :=
  ∃ d, flatRecord tr str false fs attrs = .ok d ∧ ∀ f v, Holds tr f v fs attrs → PyDict.get? d f.par.name = some v

theorem mapM_item_ok {attrs : PyDict Str V} : ∀ {fs : List Fld}, (∀ f ∈ fs, ∃ v, PyDict.get? attrs f.par.name = some v) →
    fs.mapM (item attrs) = .ok (fs.map fun f => (f.par.name, (PyDict.get? attrs f.par.name).getD .none))
  | [], _ => rfl
  | f :: fs, h => by
    obtain ⟨v, hv⟩ := h f List.mem_cons_self
    have hi : item attrs f = .ok (f.par.name, v) := by rw [item, hv]
    rw [List.mapM_cons, mapM_item_ok fun g hg => h g (List.mem_cons_of_mem _ hg), hi, ok_bind, ok_bind, List.map_cons, hv]
    rfl

theorem mapM_item_error {attrs : PyDict Str V} : ∀ {fs : List Fld}, (∃ f ∈ fs, PyDict.get? attrs f.par.name = none) →
    fs.mapM (item attrs) = .error .attributeError
  | [], h => by obtain ⟨f, hf, -⟩ := h; simp at hf
  | f :: fs, h => by
    rw [List.mapM_cons, item]
    cases e : PyDict.get? attrs f.par.name with
    | none => rfl
    | some v =>
      obtain ⟨g, hg, hn⟩ := h
      rcases List.mem_cons.1 hg with rfl | hg
      · rw [e] at hn; cases hn
      · rw [ok_bind, mapM_item_error ⟨g, hg, hn⟩]
        rfl

mutual

theorem mem_baseOf {tr : Par → Bool} {f : Fld} : ∀ g : Fld, f ∈ baseOf tr g ↔ Inside tr f [g]
  | .struct p cls fs i => by
    rw [baseOf, mem_baseParams fs]
    refine ⟨fun h => .inside (List.mem_singleton.2 rfl) h, fun h => ?_⟩
    cases h with
    | here hm hs => exact absurd (List.mem_singleton.1 hm) (hs _ _ _ _)
    | inside hm h =>
      obtain ⟨-, -, rfl, -⟩ := Fld.struct.inj (List.mem_singleton.1 hm)
      exact h
  | .plain p ty => by
    rw [baseOf]
    · refine ⟨fun h => ?_, fun h => ?_⟩
      · split_ifs at h with hk
        · obtain rfl := List.mem_singleton.1 h
          exact .here (List.mem_singleton.2 rfl) (fun _ _ _ _ e => nomatch e) (by simpa [kept] using hk)
        · simp at h
      · cases h with
        | here hm hs ht =>
          obtain rfl := List.mem_singleton.1 hm
          simp [kept, ht]
        | inside hm h => exact nomatch List.mem_singleton.1 hm
    · intro p cls fs i e; cases e
  | .listable p b => by
    rw [baseOf]
    · refine ⟨fun h => ?_, fun h => ?_⟩
      · split_ifs at h with hk
        · obtain rfl := List.mem_singleton.1 h
          exact .here (List.mem_singleton.2 rfl) (fun _ _ _ _ e => nomatch e) (by simpa [kept] using hk)
        · simp at h
      · cases h with
        | here hm hs ht =>
          obtain rfl := List.mem_singleton.1 hm
          simp [kept, ht]
        | inside hm h => exact nomatch List.mem_singleton.1 hm
    · intro p cls fs i e; cases e
  | .keyed p => by
    rw [baseOf]
    · refine ⟨fun h => ?_, fun h => ?_⟩
      · split_ifs at h with hk
        · obtain rfl := List.mem_singleton.1 h
          exact .here (List.mem_singleton.2 rfl) (fun _ _ _ _ e => nomatch e) (by simpa [kept] using hk)
        · simp at h
      · cases h with
        | here hm hs ht =>
          obtain rfl := List.mem_singleton.1 hm
          simp [kept, ht]
        | inside hm h => exact nomatch List.mem_singleton.1 hm
    · intro p cls fs i e; cases e

theorem mem_baseParams {tr : Par → Bool} {f : Fld} : ∀ fs : List Fld, f ∈ baseParams tr fs ↔ Inside tr f fs
  | [] => by
    rw [baseParams]
    refine ⟨fun h => by simp at h, fun h => ?_⟩
    cases h with
    | here hm => simp at hm
    | inside hm => simp at hm
  | g :: fs => by
    rw [baseParams, List.mem_append, mem_baseOf g, mem_baseParams fs]
    refine ⟨fun h => ?_, fun h => ?_⟩
    · rcases h with h | h
      · cases h with
        | here hm hs ht => exact .here (List.mem_cons.2 (Or.inl (List.mem_singleton.1 hm))) hs ht
        | inside hm h => exact .inside (List.mem_cons.2 (Or.inl (List.mem_singleton.1 hm))) h
      · cases h with
        | here hm hs ht => exact .here (List.mem_cons_of_mem _ hm) hs ht
        | inside hm h => exact .inside (List.mem_cons_of_mem _ hm) h
    · cases h with
      | here hm hs ht =>
        rcases List.mem_cons.1 hm with hm | hm
        · exact Or.inl (.here (List.mem_singleton.2 hm) hs ht)
        · exact Or.inr (.here hm hs ht)
      | inside hm h =>
        rcases List.mem_cons.1 hm with hm | hm
        · exact Or.inl (.inside (List.mem_singleton.2 hm) h)
        · exact Or.inr (.inside hm h)

end

/-- What a flat record has under a name. -/
theorem flatLoop_ok {str : Fld → V → Py Str} {coll : Bool} {attrs : PyDict Str V} : ∀ {fs : List Fld} {d r : PyDict Str V},
    flatLoop str coll attrs fs d = .ok r →
      (∀ k, k ∉ fs.map (fun f => f.par.name) → PyDict.get? r k = PyDict.get? d k) ∧
      ∀ k, k ∈ fs.map (fun f => f.par.name) → ∃ f ∈ fs, f.par.name = k ∧ ∃ v, flatVal str coll attrs f = .ok v ∧ PyDict.get? r k = some v
  | [], d, r, h => by
    obtain rfl := Except.ok.inj h
    exact ⟨fun _ _ => rfl, fun k hk => by simp at hk⟩
  | f :: fs, d, r, h => by
    rw [flatLoop] at h
    obtain ⟨v, h1, h2⟩ := bind_eq_ok.1 h
    obtain ⟨i1, i2⟩ := flatLoop_ok h2
    refine ⟨fun k hk => ?_, fun k hk => ?_⟩
    · rw [List.map_cons, List.mem_cons, not_or] at hk
      rw [i1 k hk.2, PyDict.get?_set_other _ _ hk.1]
    · by_cases hm : k ∈ fs.map fun f => f.par.name
      · obtain ⟨g, hg, rest⟩ := i2 k hm
        exact ⟨g, List.mem_cons_of_mem _ hg, rest⟩
      · rw [List.map_cons, List.mem_cons] at hk
        have hk := hk.resolve_right hm
        refine ⟨f, List.mem_cons_self, hk.symm, v, h1, ?_⟩
        rw [i1 k hm, hk, PyDict.get?_set_self]

theorem flatLoop_plain {str : Fld → V → Py Str} {attrs : PyDict Str V} : ∀ {fs : List Fld} {d : PyDict Str V},
    (∀ f ∈ fs, ∃ v, PyDict.get? attrs f.par.name = some v) → (PyDict.keys d ++ fs.map fun f => f.par.name).Nodup →
    flatLoop str false attrs fs d = .ok (d ++ fs.map fun f => (f.par.name, (PyDict.get? attrs f.par.name).getD .none))
  | [], d, _, _ => by simp [flatLoop]
  | f :: fs, d, h, hn => by
    obtain ⟨v, hv⟩ := h f List.mem_cons_self
    have hset : ∀ (d : PyDict Str V) (k : Str) (v : V), k ∉ PyDict.keys d → PyDict.set d k v = d ++ [(k, v)] := by
      intro d k v hk
      induction d with
      | nil => rfl
      | cons p d ih =>
        obtain ⟨k', v'⟩ := p
        rw [PyDict.keys_cons, List.mem_cons, not_or] at hk
        rw [PyDict.set, if_neg (Ne.symm hk.1), ih hk.2]
        rfl
    have hk : f.par.name ∉ PyDict.keys d := by
      intro hm
      rw [List.map_cons] at hn
      exact (List.nodup_append.1 hn).2.2 _ hm _ List.mem_cons_self rfl
    rw [flatLoop, flatVal, hv]
    simp only [Bool.false_and, Bool.false_eq_true, if_false, ok_bind]
    rw [hset d _ _ hk, flatLoop_plain (fun g hg => h g (List.mem_cons_of_mem _ hg))]
    · simp [hv]
    · simpa [PyDict.keys, List.append_assoc] using hn

theorem baseParams_simple {tr : Par → Bool} : ∀ {fs : List Fld}, (∀ p cls g i, Fld.struct p cls g i ∉ fs) → baseParams tr fs = fs.filter (kept tr)
  | [], _ => by rw [baseParams]; rfl
  | f :: fs, h => by
    rw [baseParams, baseParams_simple fun p cls g i hm => h p cls g i (List.mem_cons_of_mem _ hm), List.filter_cons]
    have hf : baseOf tr f = if kept tr f then [f] else [] := by
      cases f with
      | struct p cls g i => exact absurd List.mem_cons_self (h p cls g i)
      | plain p ty => rw [baseOf]; intro p cls fs i e; cases e
      | listable p b => rw [baseOf]; intro p cls fs i e; cases e
      | keyed p => rw [baseOf]; intro p cls fs i e; cases e
    rw [hf]
    split_ifs <;> rfl

/-- A field that is not among the keywords, all of which are fields, is set as without any keywords. -/
theorem setFld_unnamed (E : Ext) (names names' : List Str) (kw : PyDict Str V) (f : Fld) (hk : PyDict.get? kw f.par.name = none)
    (hn : ∀ k ∈ PyDict.keys kw, k ∈ names) : setFld E names kw f = setFld E names' [] f := by
  have hex : extras names kw = [] := by
    unfold extras
    rw [List.filter_eq_nil_iff]
    intro kv hkv
    have := hn kv.1 (List.mem_map_of_mem (f := Prod.fst) hkv)
    simp [this]
  cases f with
  | plain p ty => simp only [Fld.par] at hk; simp only [setFld, setPlain, hk, PyDict.get?]
  | listable p b => simp only [Fld.par] at hk; simp only [setFld, given, hk, PyDict.get?]
  | keyed p => simp only [Fld.par] at hk; simp only [setFld, given, hk, PyDict.get?]
  | struct p cls g i => simp only [Fld.par] at hk; simp only [setFld, setStruct, hk, PyDict.get?, hex]; rfl

theorem setFlds_exists {E : Ext} {names : List Str} {kw : PyDict Str V} : ∀ {fs : List Fld}, (∀ f ∈ fs, ∃ v, setFld E names kw f = .ok v) →
    ∃ a, setFlds E names kw fs = .ok a
  | [], _ => ⟨[], by rw [setFlds]; rfl⟩
  | f :: fs, h => by
    obtain ⟨v, hv⟩ := h f List.mem_cons_self
    obtain ⟨a, ha⟩ := setFlds_exists fun g hg => h g (List.mem_cons_of_mem _ hg)
    exact ⟨_, by rw [setFlds, hv, ok_bind, ha, ok_bind]; rfl⟩

end Construct

/-- **C120 (record).** The record of an instance has exactly the fields that are not transient, in order, with their values.  If one of them is not set
AttributeError is raised. -/
theorem C120_record (tr : Par → Bool) (fs : List Fld) (attrs : PyDict Str V) (hn : (fs.map fun f => f.par.name).Nodup) :
    ((∃ f ∈ fs, tr f.par = false ∧ PyDict.get? attrs f.par.name = none) → record tr fs attrs = .error .attributeError) ∧
    ((∀ f ∈ fs, tr f.par = false → ∃ v, PyDict.get? attrs f.par.name = some v) → ∃ r, record tr fs attrs = .ok r ∧
      PyDict.keys r = (fs.filter fun f => !tr f.par).map (fun f => f.par.name) ∧
      ∀ f ∈ fs, PyDict.get? r f.par.name = if tr f.par then none else PyDict.get? attrs f.par.name) := by
  have hkept : ∀ f ∈ fs.filter (kept tr), f ∈ fs ∧ tr f.par = false := by
    intro f hf
    rw [List.mem_filter, kept, Bool.not_eq_true'] at hf
    exact hf
  refine ⟨fun h => mapM_item_error ?_, fun h => ?_⟩
  · obtain ⟨f, hf, ht, hv⟩ := h
    exact ⟨f, List.mem_filter.2 ⟨hf, by rw [kept, ht]; rfl⟩, hv⟩
  · refine ⟨_, mapM_item_ok fun f hf => h f (hkept f hf).1 (hkept f hf).2, ?_, fun f hf => ?_⟩
    · have : kept tr = fun f : Fld => !tr f.par := rfl
      simp [PyDict.keys, Function.comp_def, this]
    · cases ht : tr f.par with
      | true =>
        rw [if_pos rfl, PyDict.get?_eq_none]
        intro hm
        simp only [PyDict.keys, List.map_map, List.mem_map, Function.comp] at hm
        obtain ⟨g, hg, he⟩ := hm
        obtain rfl := List.inj_on_of_nodup_map hn (hkept g hg).1 hf he
        rw [(hkept g hg).2] at ht
        cases ht
      | false =>
        have hs : ((fs.filter (kept tr)).map fun f => f.par.name).Nodup := hn.sublist (List.filter_sublist.map _)
        rw [get?_map_item (val := fun f => (PyDict.get? attrs f.par.name).getD .none) hs f (List.mem_filter.2 ⟨hf, by rw [kept, ht]; rfl⟩)]
        obtain ⟨v, hv⟩ := h f hf ht
        simp [hv]

/-- **C120 (from a record).** If an instance was constructed and the transient fields can be left out, an instance can be constructed from the record.  It
has the same record, and its transient fields are set as in an instance constructed from nothing. -/
theorem C120_reconstruct (E : Ext) (hE : E.Lawful) (tr : Par → Bool) (fs : List Fld) (inh : List Str) (kw attrs r : PyDict Str V)
    (hn : (fs.map fun f => f.par.name).Nodup) (hi : ∀ n ∈ inh, n ∉ fs.map fun f => f.par.name)
    (ht : ∀ f ∈ fs, tr f.par = true → ∃ a, construct E [f] [] [] = .ok a) (h : construct E fs inh kw = .ok attrs) (hr : record tr fs attrs = .ok r) :
    ∃ attrs', construct E fs inh r = .ok attrs' ∧ record tr fs attrs' = .ok r ∧
      (∀ f ∈ fs, tr f.par = false → PyDict.get? attrs' f.par.name = PyDict.get? attrs f.par.name) ∧
      ∀ f ∈ fs, tr f.par = true → ∀ a, construct E [f] [] [] = .ok a → PyDict.get? attrs' f.par.name = PyDict.get? a f.par.name := by
  have hset : ∀ f ∈ fs, tr f.par = false → ∃ v, PyDict.get? attrs f.par.name = some v := by
    intro f hf htf
    cases e : PyDict.get? attrs f.par.name with
    | some v => exact ⟨v, rfl⟩
    | none =>
      rw [(C120_record tr fs attrs hn).1 ⟨f, hf, htf, e⟩] at hr
      cases hr
  obtain ⟨r', hr', hkeys, hget⟩ := (C120_record tr fs attrs hn).2 hset
  obtain rfl : r = r' := by rw [hr] at hr'; exact Except.ok.inj hr'
  have hsub : ∀ k ∈ PyDict.keys r, k ∈ fs.map fun f => f.par.name := by
    intro k hk
    rw [hkeys] at hk
    obtain ⟨f, hf, rfl⟩ := List.mem_map.1 hk
    exact List.mem_map_of_mem (f := fun f : Fld => f.par.name) (List.mem_filter.1 hf).1
  obtain ⟨a0, h1, rfl⟩ := map_eq_ok.1 h
  have hspec := (setFlds_spec h1).2.2 hn
  have hgeti : ∀ (kw a : PyDict Str V), ∀ f ∈ fs, PyDict.get? (setInherited inh kw a) f.par.name = PyDict.get? a f.par.name := fun kw a f hf =>
    get?_setInherited_other fun hm => hi _ hm (List.mem_map_of_mem (f := fun f : Fld => f.par.name) hf)
  have hset' : ∀ f ∈ fs, tr f.par = false → setFld E (fs.map fun f => f.par.name) r f = .ok (PyDict.get? a0 f.par.name) := by
    intro f hf htf
    obtain ⟨v, hv⟩ := hset f hf htf
    have hs := hspec f hf
    rw [← hgeti kw a0 f hf, hv] at hs
    rw [← hgeti kw a0 f hf, hv]
    refine setFld_idem hE hs _ _ ?_
    rw [hget f hf, htf, if_neg (by simp), hv]
  have htr : ∀ f ∈ fs, tr f.par = true → ∀ a, construct E [f] [] [] = .ok a →
      setFld E (fs.map fun f => f.par.name) r f = .ok (PyDict.get? a f.par.name) := by
    intro f hf htf a ha
    obtain ⟨b, hb, rfl⟩ := map_eq_ok.1 ha
    have hs := (setFlds_spec hb).2.2 (by simp) f (by simp)
    rw [setFld_unnamed E _ ([f].map fun f => f.par.name) r f (by rw [hget f hf, htf]; rfl) hsub, hs]
    rfl
  obtain ⟨a', ha'⟩ := setFlds_exists (E := E) (names := fs.map fun f => f.par.name) (kw := r) (fs := fs) (by
    intro f hf
    cases htf : tr f.par with
    | false => exact ⟨_, hset' f hf htf⟩
    | true =>
      obtain ⟨a, ha⟩ := ht f hf htf
      exact ⟨_, htr f hf htf a ha⟩)
  have hspec' := (setFlds_spec ha').2.2 hn
  have hk1 : ∀ f ∈ fs, tr f.par = false → PyDict.get? (setInherited inh r a') f.par.name = PyDict.get? (setInherited inh kw a0) f.par.name := by
    intro f hf htf
    have := hspec' f hf
    rw [hset' f hf htf] at this
    rw [hgeti r a' f hf, hgeti kw a0 f hf]
    exact (Except.ok.inj this).symm
  refine ⟨setInherited inh r a', map_eq_ok.2 ⟨a', ha', rfl⟩, ?_, hk1, ?_⟩
  · rw [← hr]
    have hk : ∀ f ∈ fs.filter (kept tr), f ∈ fs ∧ tr f.par = false := by
      intro f hf
      rw [List.mem_filter, kept, Bool.not_eq_true'] at hf
      exact hf
    unfold record
    rw [mapM_item_ok fun f hf => hset f (hk f hf).1 (hk f hf).2,
      mapM_item_ok fun f hf => by rw [hk1 f (hk f hf).1 (hk f hf).2]; exact hset f (hk f hf).1 (hk f hf).2]
    congr 1
    exact List.map_congr_left fun f hf => by rw [hk1 f (hk f hf).1 (hk f hf).2]
  · intro f hf htf a ha
    have := hspec' f hf
    rw [htr f hf htf a ha] at this
    rw [hgeti r a' f hf]
    exact (Except.ok.inj this).symm

/-- **C120 (flat record, which values).** A flat record has exactly the names of the parameters of the class and of the nested ones that are not
structures or transient.  The values are always those of the attributes of the instance itself, and if it does not have one AttributeError is raised. -/
theorem C120_flat (tr : Par → Bool) (str : Fld → V → Py Str) (fs : List Fld) (attrs : PyDict Str V) :
    ((∃ f, Inside tr f fs ∧ PyDict.get? attrs f.par.name = none) → flatRecord tr str false fs attrs = .error .attributeError) ∧
    ((∀ f, Inside tr f fs → ∃ v, PyDict.get? attrs f.par.name = some v) → ∃ d, flatRecord tr str false fs attrs = .ok d ∧
      ∀ k, PyDict.get? d k = open Classical in if ∃ f, Inside tr f fs ∧ f.par.name = k then PyDict.get? attrs k else none) := by
  have hval : ∀ f, flatVal str false attrs f = match PyDict.get? attrs f.par.name with | none => .error .attributeError | some v => .ok v := by
    intro f
    rw [flatVal]
    cases PyDict.get? attrs f.par.name <;> rfl
  have hloop : ∀ (l : List Fld) (d : PyDict Str V), (∃ f ∈ l, PyDict.get? attrs f.par.name = none) →
      flatLoop str false attrs l d = .error .attributeError := by
    intro l
    induction l with
    | nil => rintro d ⟨f, hf, -⟩; simp at hf
    | cons f l ih =>
      rintro d ⟨g, hg, hn⟩
      rw [flatLoop, hval]
      cases e : PyDict.get? attrs f.par.name with
      | none => rfl
      | some v => exact ih _ ⟨g, (List.mem_cons.1 hg).resolve_left (fun e' => by rw [e', e] at hn; exact nomatch hn), hn⟩
  have hok : ∀ (l : List Fld) (d : PyDict Str V), (∀ f ∈ l, ∃ v, PyDict.get? attrs f.par.name = some v) →
      ∃ r, flatLoop str false attrs l d = .ok r := by
    intro l
    induction l with
    | nil => exact fun d _ => ⟨d, rfl⟩
    | cons f l ih =>
      intro d h
      obtain ⟨v, hv⟩ := h f List.mem_cons_self
      rw [flatLoop, hval, hv]
      exact ih _ fun g hg => h g (List.mem_cons_of_mem _ hg)
  refine ⟨fun h => ?_, fun h => ?_⟩
  · obtain ⟨f, hf, hn⟩ := h
    exact hloop _ _ ⟨f, (mem_baseParams fs).2 hf, hn⟩
  · obtain ⟨r, hr⟩ := hok (baseParams tr fs) [] fun f hf => h f ((mem_baseParams fs).1 hf)
    obtain ⟨h1, h2⟩ := flatLoop_ok hr
    refine ⟨r, hr, fun k => ?_⟩
    split_ifs with hk
    · obtain ⟨f, hf, rfl⟩ := hk
      obtain ⟨g, hg, he, v, hv, hrv⟩ := h2 _ (List.mem_map_of_mem (f := fun f : Fld => f.par.name) ((mem_baseParams fs).2 hf))
      rw [hval, he] at hv
      cases e : PyDict.get? attrs f.par.name with
      | none => rw [e] at hv; cases hv
      | some w =>
        rw [e] at hv
        rw [hrv, Except.ok.inj hv]
    · refine h1 k fun hm => hk ?_
      obtain ⟨f, hf, he⟩ := List.mem_map.1 hm
      exact ⟨f, (mem_baseParams fs).1 hf, he⟩

/-- **C120 (flat record of strings).** With `coll_strings` the values of lists and dictionaries in a flat record are their strings, and the others as
they are, if no name occurs twice. -/
theorem C120_flat_strings (tr : Par → Bool) (str : Fld → V → Py Str) (fs : List Fld) (attrs d : PyDict Str V)
    (hn : ∀ f g, Inside tr f fs → Inside tr g fs → f.par.name = g.par.name → f = g) (h : flatRecord tr str true fs attrs = .ok d) (f : Fld)
    (hf : Inside tr f fs) : ∃ v, PyDict.get? attrs f.par.name = some v ∧
      match f with
      | .listable _ _ | .keyed _ => ∃ s, str f v = .ok s ∧ PyDict.get? d f.par.name = some (.str s)
      | _ => PyDict.get? d f.par.name = some v := by
  obtain ⟨g, hg, he, v, hv, hrv⟩ := (flatLoop_ok h).2 _ (List.mem_map_of_mem (f := fun f : Fld => f.par.name) ((mem_baseParams fs).2 hf))
  obtain rfl := hn g f ((mem_baseParams fs).1 hg) hf he
  rw [flatVal] at hv
  cases e : PyDict.get? attrs g.par.name with
  | none => rw [e] at hv; cases hv
  | some w =>
    rw [e] at hv
    refine ⟨w, rfl, ?_⟩
    cases g with
    | plain p ty => obtain rfl := Except.ok.inj hv; exact hrv
    | struct p cls g i => obtain rfl := Except.ok.inj hv; exact hrv
    | listable p b =>
      obtain ⟨s, hs, rfl⟩ := map_eq_ok.1 hv
      exact ⟨s, hs, hrv⟩
    | keyed p =>
      obtain ⟨s, hs, rfl⟩ := map_eq_ok.1 hv
      exact ⟨s, hs, hrv⟩

/-- **C120 (flat record, complete).** The full statement is `FlatComplete`: that the flat record of every constructed instance has the values of all its
parameters, nested or not.  It holds for classes without nested structures, where the flat record is the record. -/
theorem C120_flat_complete_partial (tr : Par → Bool) (str : Fld → V → Py Str) (fs : List Fld) (attrs : PyDict Str V)
    (hn : (fs.map fun f => f.par.name).Nodup) (hs : ∀ p cls g i, Fld.struct p cls g i ∉ fs)
    (hset : ∀ f ∈ fs, tr f.par = false → ∃ v, PyDict.get? attrs f.par.name = some v) :
    FlatComplete tr str fs attrs ∧ flatRecord tr str false fs attrs = record tr fs attrs := by
  have hall : ∀ f ∈ fs.filter (kept tr), ∃ v, PyDict.get? attrs f.par.name = some v := by
    intro f hf
    rw [List.mem_filter, kept, Bool.not_eq_true'] at hf
    exact hset f hf.1 hf.2
  have heq : flatRecord tr str false fs attrs = record tr fs attrs := by
    rw [flatRecord, baseParams_simple hs, flatLoop_plain hall, record, mapM_item_ok hall, List.nil_append]
    exact hn.sublist (List.filter_sublist.map _)
  refine ⟨?_, heq⟩
  obtain ⟨r, hr, -, hget⟩ := (C120_record tr fs attrs hn).2 hset
  refine ⟨r, heq.trans hr, fun f v hv => ?_⟩
  cases hv with
  | here hm _ ht hv => rw [hget f hm, ht, if_neg (by simp), hv]
  | inside hm => exact absurd hm (hs _ _ _ _)

/-- **C120 (flat records of nested structures fail).** If a nested structure has a parameter, not transient, whose name is neither a field of the
instance nor inherited, the flat record of every instance constructed raises AttributeError. -/
theorem C120_flat_nested (E : Ext) (tr : Par → Bool) (str : Fld → V → Py Str) (fs : List Fld) (inh : List Str) (kw attrs : PyDict Str V)
    (h : construct E fs inh kw = .ok attrs) (f : Fld) (hf : Inside tr f fs) (h1 : f.par.name ∉ fs.map fun f => f.par.name) (h2 : f.par.name ∉ inh) :
    flatRecord tr str false fs attrs = .error .attributeError := by
  refine (C120_flat tr str fs attrs).1 ⟨f, hf, ?_⟩
  obtain ⟨a, ha, rfl⟩ := map_eq_ok.1 h
  rw [get?_setInherited_other h2, PyDict.get?_eq_none]
  exact fun hm => h1 ((setFlds_spec ha).1 _ hm)

/-- **C120 (flat records of nested structures with the wrong value).** If instead the instance has a field of the same name, the flat record has its
value, and the value in the nested structure is lost. -/
theorem C120_flat_shadow (E : Ext) (str : Fld → V → Py Str) (n q : Str) (hq : n ≠ q) (cls : ℕ) (v w : V) (hvw : v ≠ w) :
    ∃ fs attrs, construct E fs [] [(n, v), (q, .dict [(n, w)])] = .ok attrs ∧
      flatRecord (fun _ => false) str false fs attrs = .ok [(n, v)] ∧
      Holds (fun _ => false) (.plain ⟨n, true, none, [], none⟩ none) w fs attrs ∧ ¬ FlatComplete (fun _ => false) str fs attrs := by
  have hfs : construct E [.plain ⟨n, true, none, [], none⟩ none, .struct ⟨q, true, none, [], none⟩ cls [.plain ⟨n, true, none, [], none⟩ none] []] []
      [(n, v), (q, .dict [(n, w)])] = .ok [(n, v), (q, .obj cls [(n, w)])] := by
    simp [construct, setFlds, setFld, setPlain, setStruct, PyDict.get?, hq, finish, nargsOf, convertVal, convertTo, checkChoice, toObj, setInherited, ok_bind,
      map_ok, pure_eq_ok, Fld.par]
  have hflat : flatRecord (fun _ => false) str false
      [.plain ⟨n, true, none, [], none⟩ none, .struct ⟨q, true, none, [], none⟩ cls [.plain ⟨n, true, none, [], none⟩ none] []]
      [(n, v), (q, .obj cls [(n, w)])] = .ok [(n, v)] := by
    simp [flatRecord, baseParams, baseOf, kept, flatLoop, flatVal, Fld.par, PyDict.get?, PyDict.set, ok_bind]
  have hholds : Holds (fun _ => false) (.plain ⟨n, true, none, [], none⟩ none) w
      [.plain ⟨n, true, none, [], none⟩ none, .struct ⟨q, true, none, [], none⟩ cls [.plain ⟨n, true, none, [], none⟩ none] []]
      [(n, v), (q, .obj cls [(n, w)])] := by
    refine .inside (List.mem_cons_of_mem _ List.mem_cons_self) (a := [(n, w)]) ?_ (.here List.mem_cons_self (fun _ _ _ _ e => nomatch e) rfl ?_)
    · simp [PyDict.get?, hq]
    · simp [PyDict.get?, Fld.par]
  refine ⟨_, _, hfs, hflat, hholds, ?_⟩
  rintro ⟨d, hd, hall⟩
  rw [hflat] at hd
  obtain rfl := Except.ok.inj hd
  have := hall _ _ hholds
  simp [PyDict.get?, Fld.par] at this
  exact hvw this

/-- **C120 (one parameter).** A parameter matches if its value, as a string without the name, is not among those to drop and is among those asserted, if
any are given for it, and if it is a structure this matches as well. -/
theorem C120_matches_param (str : Fld → V → Py Str) (nested : PyDict Str V → Py Bool) (attrs : PyDict Str V) (drop assert : PyDict Str (List Str))
    (f : Fld) : matchesParam str nested attrs drop assert f = .ok true ↔
      ∃ v s, PyDict.get? attrs f.par.name = some v ∧ str f v = .ok s ∧ (∀ l, PyDict.get? drop f.par.name = some l → s ∉ l) ∧
        (∀ l, PyDict.get? assert f.par.name = some l → s ∈ l) ∧
        ∀ p cls g i, f = .struct p cls g i → ∃ c a, v = .obj c a ∧ nested a = .ok true := by
  rw [matchesParam]
  cases hv : PyDict.get? attrs f.par.name with
  | none => simp
  | some v =>
    cases hs : str f v with
    | error e => simp [hs]
    | ok s =>
      simp only [ok_bind, Option.some.injEq, exists_and_left, exists_eq_left', hs, Except.ok.injEq]
      split_ifs with h1 h2
      · obtain ⟨l, hl, hm⟩ := h1
        simp only [Except.ok.injEq, Bool.false_eq_true, false_iff, not_and]
        exact fun hd => absurd hm (hd l hl)
      · obtain ⟨l, hl, hm⟩ := h2
        simp only [Except.ok.injEq, Bool.false_eq_true, false_iff, not_and]
        exact fun _ ha => absurd (ha l hl) hm
      · have h1' : ∀ l, PyDict.get? drop f.par.name = some l → s ∉ l := fun l hl hm => h1 ⟨l, hl, hm⟩
        have h2' : ∀ l, PyDict.get? assert f.par.name = some l → s ∈ l := fun l hl => by_contra fun hm => h2 ⟨l, hl, hm⟩
        cases f with
        | struct p cls g i =>
          cases v with
          | obj c a =>
            rw [matchesInside]
            refine ⟨fun h => ⟨h1', h2', fun _ _ _ _ _ => ⟨c, a, rfl, h⟩⟩, fun h => ?_⟩
            obtain ⟨c', a', he, hr⟩ := h.2.2 _ _ _ _ rfl
            obtain ⟨-, rfl⟩ := V.obj.inj he
            exact hr
          | _ =>
            rw [matchesInside]
            · refine ⟨fun h => (nomatch h), fun h => ?_⟩
              obtain ⟨c', a', he, hr⟩ := h.2.2 _ _ _ _ rfl
              cases he
            · intro c a e; cases e
        | plain p ty => exact ⟨fun _ => ⟨h1', h2', fun _ _ _ _ e => nomatch e⟩, fun _ => by rw [matchesInside] <;> (intros; contradiction)⟩
        | listable p b => exact ⟨fun _ => ⟨h1', h2', fun _ _ _ _ e => nomatch e⟩, fun _ => by rw [matchesInside] <;> (intros; contradiction)⟩
        | keyed p => exact ⟨fun _ => ⟨h1', h2', fun _ _ _ _ e => nomatch e⟩, fun _ => by rw [matchesInside] <;> (intros; contradiction)⟩

/-- **C120 (nested structures do not match).** A structure does not match if it does not have some key that is asserted (C107), so with `matches_param` no
parameter of the outer structure can be asserted: its nested structures do not match. -/
theorem C120_matches_nested (str : Fld → V → Py Str) (nested : PyDict Str V → Py Bool) (attrs : PyDict Str V) (drop assert : PyDict Str (List Str))
    (hnest : ∀ a, (∃ k ∈ PyDict.keys assert, PyDict.get? a k = none) → nested a ≠ .ok true) (p : Par) (cls : ℕ) (g : List Fld) (i : List Str) (c : ℕ)
    (a : PyDict Str V) (hv : PyDict.get? attrs p.name = some (.obj c a)) (k : Str) (hk : k ∈ PyDict.keys assert) (ha : PyDict.get? a k = none) :
    matchesParam str nested attrs drop assert (.struct p cls g i) ≠ .ok true := by
  intro h
  obtain ⟨v, s, hv', -, -, -, h1⟩ := (C120_matches_param str nested attrs drop assert _).1 h
  obtain ⟨c', a', rfl, h2⟩ := h1 _ _ _ _ rfl
  simp only [Fld.par] at hv'
  rw [hv] at hv'
  obtain ⟨-, rfl⟩ := V.obj.inj (Option.some.inj hv')
  exact hnest _ ⟨k, hk, ha⟩ h2

namespace Construct

/-- The transient parameters of the examples. -/
def exampleTr (p : Par) : Bool := decide (p.name = "items".toList)

/-- The record of the instance constructed in the example of C105, whose list is transient, is found, and another instance with the same record can be
constructed from it if the list may be left out. -/
example : record exampleTr exampleFields [("kind".toList, .str "a".toList), ("items".toList, .list [.none]), ("log".toList, .obj 1 [("file".toList, .str "x".toList)])] =
    .ok [("kind".toList, .str "a".toList), ("log".toList, .obj 1 [("file".toList, .str "x".toList)])] := rfl

example : ∃ attrs', construct exampleExt [.plain ⟨"kind".toList, true, none, [], none⟩ (some .str), .listable ⟨"items".toList, false, none, [], none⟩ false] []
      [("kind".toList, .str "a".toList)] = .ok attrs' ∧
    record exampleTr [.plain ⟨"kind".toList, true, none, [], none⟩ (some .str), .listable ⟨"items".toList, false, none, [], none⟩ false] attrs' =
      .ok [("kind".toList, .str "a".toList)] := by
  obtain ⟨attrs', h1, h2, -⟩ := C120_reconstruct exampleExt exampleExt_lawful exampleTr
    [.plain ⟨"kind".toList, true, none, [], none⟩ (some .str), .listable ⟨"items".toList, false, none, [], none⟩ false] []
    [("kind".toList, .str "a".toList), ("items".toList, .list [.none])] _ _ (by decide) (by simp)
    (by
      intro f hf ht
      rcases List.mem_cons.1 hf with rfl | hf
      · exact absurd ht (by decide)
      · obtain rfl := List.mem_singleton.1 hf
        exact ⟨_, rfl⟩) rfl rfl
  exact ⟨attrs', h1, h2⟩

/-- The flat record of an instance with the file in a nested structure is not found. -/
example (str : Fld → V → Py Str) : flatRecord exampleTr str false exampleFields
    [("kind".toList, .str "a".toList), ("items".toList, .list [.none]), ("log".toList, .obj 1 [("file".toList, .str "x".toList)])] =
      .error .attributeError :=
  C120_flat_nested exampleExt exampleTr str exampleFields ["base_dir".toList]
    [("kind".toList, .str "a".toList), ("items".toList, .list [.none]), ("file".toList, .str "x".toList)] _ rfl
    (.plain ⟨"file".toList, true, none, [], none⟩ (some .str))
    (.inside (p := ⟨"log".toList, true, none, [], none⟩) (cls := 1) (i := ["base_dir".toList])
      (g := [.plain ⟨"file".toList, true, none, [], none⟩ (some .str)]) (by simp [exampleFields])
      (.here (by simp) (fun _ _ _ _ e => nomatch e) (by decide))) (by decide) (by decide)

end Construct

end Verif
