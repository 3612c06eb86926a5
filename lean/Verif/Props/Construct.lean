import Verif.Model.Construct
import Mathlib.Data.List.Nodup

/-!
# C105: construction of structures from keywords
-/

namespace Verif

open Construct

namespace Construct

/-- What is assumed of the external functions: the constructor of a type returns a value of this type, and `from_wildcard` of a class an instance of
this class. -/
structure Ext.Lawful (E : Ext) : Prop where
  conv : ∀ t v w, E.conv t v = some w → inst t w = true
  other : ∀ c v w, E.fromOther c v = .ok w → ∃ a, w = .obj c a

/-- The value has the expected type and is one of the choices, if there are any. -/
def Good (E : Ext) (p : Par) (ty : Option Ty) (v : V) : Prop :=
  (∀ t, ty = some t → inst t v = true) ∧ (p.choices ≠ [] → ∃ c ∈ p.choices, E.eq v c = true)

/-- `v` is the value of the string parameter `name`, without choices, somewhere in an instance with these attributes.  On the way down no structure has
another field of this name, none is among the keywords given, and no field is inherited. -/
inductive At (name : Str) (v : V) (kw : PyDict Str V) : List Fld → List Str → PyDict Str V → Prop
  | here {fs inh attrs p} : (fs.map fun f => f.par.name).Nodup → Fld.plain p (some .str) ∈ fs → p.name = name → name ∉ inh → p.choices = [] →
      p.nargs = none → PyDict.get? attrs name = some v → At name v kw fs inh attrs
  | inside {fs inh attrs p cls g inh' a} : (fs.map fun f => f.par.name).Nodup → Fld.struct p cls g inh' ∈ fs → p.name ∉ PyDict.keys kw →
      p.name ∉ inh → p.nargs = none → name ∉ fs.map (fun f => f.par.name) → PyDict.get? attrs p.name = some (.obj cls a) →
      At name v kw g inh' a → At name v kw fs inh attrs

/-- The exception for a required parameter that is missing. -/
def missingErr : Fld → PyErr
  | .plain _ _ => .typeError
  | _ => .valueError

theorem checkChoice_ok {E : Ext} {p : Par} {v w : V} : checkChoice E p v = .ok w ↔ w = v ∧ (p.choices ≠ [] → ∃ c ∈ p.choices, E.eq v c = true) := by
  have hany : p.choices.any (E.eq v) = true ↔ ∃ c ∈ p.choices, E.eq v c = true := List.any_eq_true
  unfold checkChoice
  split_ifs with hc
  · refine ⟨fun h => (by cases h), fun h => ?_⟩
    have := hany.2 (h.2 hc.1)
    rw [hc.2] at this
    cases this
  · rw [Except.ok.injEq]
    refine ⟨fun h => ⟨h.symm, fun hne => hany.1 ?_⟩, fun h => h.1.symm⟩
    cases e : p.choices.any (E.eq v) with
    | true => rfl
    | false => exact absurd ⟨hne, e⟩ hc

theorem convertVal_good {E : Ext} (hE : E.Lawful) {p : Par} {ty : Option Ty} {v w : V} (h : convertVal E p ty v = .ok w) : Good E p ty w := by
  simp only [convertVal, bind_eq_ok, checkChoice_ok] at h
  obtain ⟨u, h1, rfl, h2⟩ := h
  refine ⟨fun t ht => ?_, h2⟩
  subst ht
  simp only [convertTo] at h1
  split_ifs at h1 with hi
  · obtain rfl := Except.ok.inj h1
    exact hi
  · cases e : E.conv t v with
    | none => rw [e] at h1; cases h1
    | some w =>
      rw [e] at h1
      obtain rfl := Except.ok.inj h1
      exact hE.conv _ _ _ e

theorem convertVal_of_good {E : Ext} {p : Par} {ty : Option Ty} {v : V} (h : Good E p ty v) : convertVal E p ty v = .ok v := by
  simp only [convertVal, bind_eq_ok, checkChoice_ok]
  refine ⟨v, ?_, rfl, h.2⟩
  cases ty with
  | none => rfl
  | some t => rw [convertTo]; simp only [h.1 t rfl, if_true]

theorem mapM_forall {conv : V → Py V} {P : V → Prop} (h : ∀ v w, conv v = .ok w → P w) : ∀ (l l' : List V), l.mapM conv = .ok l' → ∀ w ∈ l', P w
  | [], l', e => by
    rw [List.mapM_nil] at e
    obtain rfl := Except.ok.inj e
    simp
  | v :: l, l', e => by
    simp only [List.mapM_cons, bind_eq_ok, pure_eq_ok, Except.ok.injEq] at e
    obtain ⟨w, h1, l'', h2, rfl⟩ := e
    intro x hx
    rcases List.mem_cons.1 hx with rfl | hx
    · exact h _ _ h1
    · exact mapM_forall h l l'' h2 x hx

theorem mapM_fix {conv : V → Py V} : ∀ l : List V, (∀ w ∈ l, conv w = .ok w) → l.mapM conv = .ok l
  | [], _ => rfl
  | v :: l, h => by
    rw [List.mapM_cons, h v List.mem_cons_self, ok_bind, mapM_fix l (fun w hw => h w (List.mem_cons_of_mem _ hw)), ok_bind, pure_eq_ok]

theorem finish_good {p : Par} {conv : V → Py V} {P : V → Prop} (h : ∀ v w, conv v = .ok w → P w) {v w : V} (hf : finish p conv v = .ok w) :
    (nargsOf p = none → P w) ∧ ∀ n, nargsOf p = some n → ∃ l, w = .list l ∧ (∀ x ∈ l, P x) ∧ ∀ k, n = .num k → l.length = k := by
  unfold finish at hf
  cases e : nargsOf p with
  | none =>
    rw [e] at hf
    exact ⟨fun _ => h _ _ hf, fun n hn => (nomatch hn)⟩
  | some n =>
    rw [e] at hf
    refine ⟨fun hn => (nomatch hn), ?_⟩
    rintro n' hn'
    obtain rfl := Option.some.inj hn'
    simp only [bind_eq_ok] at hf
    obtain ⟨l, h1, h2⟩ := hf
    have hl := mapM_forall h _ _ h1
    cases n with
    | num k =>
      simp only [cut] at h2
      split_ifs at h2 with hk
      · obtain rfl := Except.ok.inj h2
        refine ⟨_, rfl, fun x hx => hl x (List.mem_of_mem_take hx), ?_⟩
        rintro k' hk'
        obtain rfl := Nargs.num.inj hk'
        rw [List.length_take]
        omega
    | plus =>
      obtain rfl := Except.ok.inj h2
      exact ⟨_, rfl, hl, fun k hk => (nomatch hk)⟩
    | other =>
      obtain rfl := Except.ok.inj h2
      exact ⟨_, rfl, hl, fun k hk => (nomatch hk)⟩

theorem finish_idem {p : Par} {conv : V → Py V} (h : ∀ v w, conv v = .ok w → conv w = .ok w) {v w : V} (hf : finish p conv v = .ok w) :
    finish p conv w = .ok w := by
  obtain ⟨h1, h2⟩ := finish_good (P := fun w => conv w = .ok w) h hf
  unfold finish
  cases e : nargsOf p with
  | none => exact h1 e
  | some n =>
    obtain ⟨l, rfl, hl, hk⟩ := h2 n e
    simp only [elems, mapM_fix l hl, ok_bind]
    cases n with
    | num k =>
      have := hk k rfl
      rw [cut, if_neg (by omega), List.take_of_length_le (by omega)]
    | plus => rfl
    | other => rfl

theorem map_eq_ok {α β : Type} {f : α → β} {x : Py α} {b : β} : (f <$> x) = .ok b ↔ ∃ a, x = .ok a ∧ f a = b := by
  cases x with
  | error e => simp [Functor.map, Except.map]
  | ok a => simp [Functor.map, Except.map]

theorem setPlain_cases {E : Ext} {p : Par} {ty : Option Ty} {kw : PyDict Str V} {v : V} (h : setPlain E p ty kw = .ok (some v)) :
    ∃ u, finish p (convertVal E p ty) u = .ok v ∧ ∀ x, PyDict.get? kw p.name = some x → u = x := by
  unfold setPlain at h
  cases e : PyDict.get? kw p.name with
  | some x =>
    rw [e] at h
    obtain ⟨w, h1, h2⟩ := map_eq_ok.1 h
    obtain rfl := Option.some.inj h2
    exact ⟨x, h1, fun y hy => Option.some.inj hy⟩
  | none =>
    rw [e] at h
    unfold fromDefault at h
    cases e' : p.default with
    | some x =>
      rw [e'] at h
      obtain ⟨w, h1, h2⟩ := map_eq_ok.1 h
      obtain rfl := Option.some.inj h2
      exact ⟨x, h1, fun y hy => (nomatch hy)⟩
    | none =>
      rw [e'] at h
      dsimp only at h
      split_ifs at h
      cases Except.ok.inj h

theorem setFld_idem {E : Ext} (hE : E.Lawful) {names : List Str} {kw : PyDict Str V} {f : Fld} {v : V}
    (h : setFld E names kw f = .ok (some v)) (names' : List Str) (kw' : PyDict Str V) (hk : PyDict.get? kw' f.par.name = some v) :
    setFld E names' kw' f = .ok (some v) := by
  cases f with
  | plain p ty =>
    rw [setFld] at h ⊢
    obtain ⟨u, h1, -⟩ := setPlain_cases h
    have := finish_idem (fun v w hvw => convertVal_of_good (convertVal_good hE hvw)) h1
    simp only [Fld.par] at hk
    rw [setPlain, hk]
    dsimp only
    rw [this]
    rfl
  | listable p b =>
    simp only [setFld, bind_eq_ok, pure_eq_ok, Except.ok.injEq, Option.some.injEq] at h ⊢
    simp only [Fld.par] at hk
    obtain ⟨u, -, w, h1, rfl⟩ := h
    refine ⟨w, by rw [given, hk], w, ?_, rfl⟩
    have key : ∃ u, w = listify u := by
      unfold listVal at h1
      split at h1
      · obtain ⟨l, -, rfl⟩ := map_eq_ok.1 h1
        exact ⟨.list l, rfl⟩
      · exact ⟨_, (Except.ok.inj h1).symm⟩
    obtain ⟨u, rfl⟩ := key
    cases u <;> cases b <;> rfl
  | keyed p =>
    simp only [setFld, bind_eq_ok, pure_eq_ok, Except.ok.injEq, Option.some.injEq] at h ⊢
    simp only [Fld.par] at hk
    obtain ⟨u, -, w, h1, rfl⟩ := h
    refine ⟨w, by rw [given, hk], w, ?_, rfl⟩
    unfold keyedVal at h1
    split at h1
    · obtain ⟨l, -, rfl⟩ := map_eq_ok.1 h1
      rfl
    · obtain rfl := Except.ok.inj h1
      rfl
    · obtain rfl := Except.ok.inj h1
      rfl
    · rename_i hns hnd hne
      have hw : w = u → keyedVal E w = .ok w := by
        rintro rfl
        unfold keyedVal
        split
        · exact absurd rfl (hns _)
        · rfl
        · rfl
        · exact h1
      split at h1
      · exact hw (Except.ok.inj h1).symm
      · split at h1
        · exact hw (Except.ok.inj h1).symm
        · cases h1
        · obtain rfl := Except.ok.inj h1
          rfl
  | struct p cls fs inh =>
    rw [setFld] at h ⊢
    simp only [Fld.par] at hk
    generalize (fun d => setInherited inh d <$> setFlds E (fs.map fun f => f.par.name) d fs) = build at h ⊢
    unfold setStruct at h ⊢
    set conv : V → Py V := fun v => do
      let w ← toObj E cls build v
      checkChoice E p w with hconv
    have hc : ∀ v w, conv v = .ok w → conv w = .ok w := by
      intro v w hvw
      simp only [hconv, bind_eq_ok, checkChoice_ok] at hvw
      obtain ⟨u, h1, rfl, h2⟩ := hvw
      have hu : ∃ a, w = .obj cls a := by
        unfold toObj at h1
        split at h1
        · split_ifs at h1 with hcl
          · subst hcl
            obtain rfl := Except.ok.inj h1
            exact ⟨_, rfl⟩
          · exact hE.other _ _ _ h1
        · obtain ⟨a, -, rfl⟩ := map_eq_ok.1 h1
          exact ⟨_, rfl⟩
        · exact hE.other _ _ _ h1
      obtain ⟨a, rfl⟩ := hu
      simp only [hconv, bind_eq_ok, checkChoice_ok]
      exact ⟨_, by rw [toObj, if_pos rfl], rfl, h2⟩
    have hdef : fromDefault p conv = .ok (some v) → ∃ u, finish p conv u = .ok v := by
      intro h
      unfold fromDefault at h
      split at h
      · obtain ⟨w, h1, h2⟩ := map_eq_ok.1 h
        obtain rfl := Option.some.inj h2
        exact ⟨_, h1⟩
      · split_ifs at h
        cases Except.ok.inj h
    have hfin : ∃ u, finish p conv u = .ok v := by
      dsimp only at h
      split at h
      · obtain ⟨w, h1, h2⟩ := map_eq_ok.1 h
        obtain rfl := Option.some.inj h2
        exact ⟨_, h1⟩
      · by_cases hex : extras names kw ≠ []
        · rw [if_pos hex] at h
          split at h
          · obtain ⟨w, h1, h2⟩ := map_eq_ok.1 h
            obtain rfl := Option.some.inj h2
            exact ⟨_, h1⟩
          · split_ifs at h
            cases Except.ok.inj h
          · cases h
        · rw [if_neg hex] at h
          exact hdef h
    obtain ⟨u, hu⟩ := hfin
    have := finish_idem hc hu
    dsimp only
    rw [hk]
    dsimp only
    rw [this]
    rfl

theorem get?_setInherited_other {inh : List Str} {kw attrs : PyDict Str V} {n : Str} (h : n ∉ inh) :
    PyDict.get? (setInherited inh kw attrs) n = PyDict.get? attrs n := by
  unfold setInherited
  induction inh generalizing attrs with
  | nil => rfl
  | cons i inh ih =>
    rw [List.mem_cons, not_or] at h
    rw [List.foldl_cons, ih h.2]
    cases PyDict.get? kw i with
    | none => rfl
    | some v => exact PyDict.get?_set_other _ _ h.1

theorem setInherited_none {inh : List Str} {kw attrs : PyDict Str V} (h : ∀ n ∈ inh, PyDict.get? kw n = none) :
    setInherited inh kw attrs = attrs := by
  unfold setInherited
  induction inh generalizing attrs with
  | nil => rfl
  | cons i inh ih =>
    rw [List.foldl_cons, h i List.mem_cons_self]
    exact ih fun n hn => h n (List.mem_cons_of_mem _ hn)

/-- The attributes are those of the fields. -/
theorem setFlds_spec {E : Ext} {names : List Str} {kw : PyDict Str V} : ∀ {fs : List Fld} {a : PyDict Str V}, setFlds E names kw fs = .ok a →
    (∀ k ∈ PyDict.keys a, k ∈ fs.map fun f => f.par.name) ∧ (∀ f ∈ fs, ∃ v, setFld E names kw f = .ok v) ∧
    ((fs.map fun f => f.par.name).Nodup → ∀ f ∈ fs, setFld E names kw f = .ok (PyDict.get? a f.par.name))
  | [], a, h => by
    rw [setFlds] at h
    obtain rfl := Except.ok.inj h
    simp
  | f :: fs, a, h => by
    simp only [setFlds, bind_eq_ok, pure_eq_ok, Except.ok.injEq] at h
    obtain ⟨v, h1, a', h2, rfl⟩ := h
    obtain ⟨i1, i2, i3⟩ := setFlds_spec h2
    refine ⟨?_, ?_, ?_⟩
    · intro k hk
      rw [List.map_cons, List.mem_cons]
      cases v with
      | none => exact Or.inr (i1 k hk)
      | some v =>
        simp only [Option.map_some, Option.toList_some, List.singleton_append, PyDict.keys_cons, List.mem_cons] at hk
        exact hk.imp id (i1 k)
    · intro g hg
      rcases List.mem_cons.1 hg with rfl | hg
      · exact ⟨v, h1⟩
      · exact i2 g hg
    · intro hn g hg
      rw [List.map_cons, List.nodup_cons] at hn
      have hnone : PyDict.get? a' f.par.name = none := PyDict.get?_eq_none.2 fun hk => hn.1 (i1 _ hk)
      rcases List.mem_cons.1 hg with rfl | hg
      · rw [h1]
        cases v with
        | none => simp [hnone]
        | some v => simp [PyDict.get?]
      · have hne : f.par.name ≠ g.par.name := fun e => hn.1 (e ▸ List.mem_map_of_mem (f := fun f : Fld => f.par.name) hg)
        rw [i3 hn.2 g hg]
        cases v with
        | none => simp
        | some v => simp [PyDict.get?, hne]

theorem setFlds_of {E : Ext} {names : List Str} {kw : PyDict Str V} {val : Fld → V} : ∀ {fs : List Fld},
    (∀ f ∈ fs, setFld E names kw f = .ok (some (val f))) → setFlds E names kw fs = .ok (fs.map fun f => (f.par.name, val f))
  | [], _ => by rw [setFlds]; rfl
  | f :: fs, h => by
    simp only [setFlds, h f List.mem_cons_self, ok_bind, setFlds_of (fun g hg => h g (List.mem_cons_of_mem _ hg)), pure_eq_ok]
    rfl

theorem mapM_item {attrs : PyDict Str V} : ∀ {fs : List Fld} {l : PyDict Str V}, fs.mapM (item attrs) = .ok l →
    (∀ f ∈ fs, ∃ v, PyDict.get? attrs f.par.name = some v) ∧ l = fs.map fun f => (f.par.name, (PyDict.get? attrs f.par.name).getD .none)
  | [], l, h => by
    rw [List.mapM_nil] at h
    obtain rfl := Except.ok.inj h
    simp
  | f :: fs, l, h => by
    simp only [List.mapM_cons, bind_eq_ok, pure_eq_ok, Except.ok.injEq] at h
    obtain ⟨p, h1, l', h2, rfl⟩ := h
    obtain ⟨i1, i2⟩ := mapM_item h2
    unfold item at h1
    cases e : PyDict.get? attrs f.par.name with
    | none => rw [e] at h1; cases h1
    | some v =>
      rw [e] at h1
      obtain rfl := Except.ok.inj h1
      refine ⟨?_, ?_⟩
      · intro g hg
        rcases List.mem_cons.1 hg with rfl | hg
        · exact ⟨v, e⟩
        · exact i1 g hg
      · rw [List.map_cons, ← i2, e]
        rfl

theorem get?_map_item {val : Fld → V} : ∀ {fs : List Fld}, (fs.map fun f => f.par.name).Nodup → ∀ f ∈ fs,
    PyDict.get? (fs.map fun f => (f.par.name, val f)) f.par.name = some (val f)
  | [], _, f, hf => by simp at hf
  | g :: fs, hn, f, hf => by
    rw [List.map_cons, List.nodup_cons] at hn
    rcases List.mem_cons.1 hf with rfl | hf
    · simp [PyDict.get?]
    · have hne : g.par.name ≠ f.par.name := fun e => hn.1 (e ▸ List.mem_map_of_mem (f := fun f : Fld => f.par.name) hf)
      simp only [List.map_cons, PyDict.get?, if_neg hne]
      exact get?_map_item hn.2 f hf

end Construct

/-- **C105 (types).** In every instance that is constructed, the value of a parameter has the expected type and is one of the choices; with `nargs` it is
a list of such values, of the right length if `nargs` is a number. -/
theorem C105_types (E : Ext) (hE : E.Lawful) (fs : List Fld) (inh : List Str) (kw attrs : PyDict Str V)
    (hn : (fs.map fun f => f.par.name).Nodup) (h : construct E fs inh kw = .ok attrs) (p : Par) (ty : Option Ty) (hp : Fld.plain p ty ∈ fs)
    (hi : p.name ∉ inh) (v : V) (hv : PyDict.get? attrs p.name = some v) :
    (nargsOf p = none → Good E p ty v) ∧
    ∀ n, nargsOf p = some n → ∃ l, v = .list l ∧ (∀ x ∈ l, Good E p ty x) ∧ ∀ k, n = .num k → l.length = k := by
  obtain ⟨a, h1, rfl⟩ := map_eq_ok.1 h
  have h2 := (setFlds_spec h1).2.2 hn _ hp
  rw [get?_setInherited_other hi] at hv
  rw [setFld] at h2
  simp only [Fld.par] at h2
  rw [hv] at h2
  obtain ⟨u, h3, -⟩ := setPlain_cases h2
  exact finish_good (fun v w hvw => convertVal_good hE hvw) h3

/-- **C105 (copy).** An instance constructed again from its own items has the same items: every value is a fixed point of its conversion, at any depth
of nesting. -/
theorem C105_copy (E : Ext) (hE : E.Lawful) (fs : List Fld) (inh : List Str) (kw attrs l : PyDict Str V)
    (hn : (fs.map fun f => f.par.name).Nodup) (hi : ∀ n ∈ inh, n ∉ fs.map fun f => f.par.name)
    (h : construct E fs inh kw = .ok attrs) (hl : items fs attrs = .ok l) : construct E fs inh l = .ok l ∧ items fs l = .ok l := by
  obtain ⟨a, h1, rfl⟩ := map_eq_ok.1 h
  have h2 := (setFlds_spec h1).2.2 hn
  obtain ⟨h3, rfl⟩ := mapM_item hl
  have hget : ∀ f ∈ fs, PyDict.get? (setInherited inh kw a) f.par.name = PyDict.get? a f.par.name := fun f hf =>
    get?_setInherited_other fun hm => hi _ hm (List.mem_map_of_mem (f := fun f : Fld => f.par.name) hf)
  set val : Fld → V := fun f => (PyDict.get? (setInherited inh kw a) f.par.name).getD .none with hval
  have hl' := fun f hf => get?_map_item (val := val) hn f hf
  have hset : ∀ f ∈ fs, setFld E (fs.map fun f => f.par.name) (fs.map fun f => (f.par.name, val f)) f = .ok (some (val f)) := by
    intro f hf
    obtain ⟨v, hv⟩ := h3 f hf
    have e1 : val f = v := by rw [hval]; simp only [hv, Option.getD_some]
    refine setFld_idem hE (names := fs.map fun f => f.par.name) (kw := kw) ?_ _ _ (hl' f hf)
    rw [h2 f hf, ← hget f hf, hv, e1]
  have hcons : construct E fs inh (fs.map fun f => (f.par.name, val f)) = .ok (fs.map fun f => (f.par.name, val f)) := by
    rw [construct, setFlds_of hset, map_ok, setInherited_none]
    intro n hn'
    rw [PyDict.get?_eq_none]
    intro hk
    refine hi n hn' ?_
    simpa [PyDict.keys] using hk
  refine ⟨hcons, ?_⟩
  have : ∀ gs : List Fld, (∀ g ∈ gs, g ∈ fs) → gs.mapM (item (fs.map fun f => (f.par.name, val f))) = .ok (gs.map fun f => (f.par.name, val f)) := by
    intro gs
    induction gs with
    | nil => intro _; rfl
    | cons g gs ih =>
      intro hg
      rw [List.mapM_cons, item, hl' g (hg g List.mem_cons_self), ok_bind, ih fun x hx => hg x (List.mem_cons_of_mem _ hx), ok_bind, pure_eq_ok]
      rfl
  exact this fs fun _ h => h

/-- **C105 (missing).** A required parameter without default that is not given makes the construction raise, if the fields before it can be set:
TypeError for a plain parameter and ValueError for a `Listable` or `Keyed` one.  A number for `nargs` makes a required parameter optional. -/
theorem C105_missing (E : Ext) (pre post : List Fld) (f : Fld) (inh : List Str) (kw : PyDict Str V) (hd : f.par.default = none)
    (hk : PyDict.get? kw f.par.name = none) (hs : ∀ p cls g i, f ≠ .struct p cls g i)
    (hpre : ∀ g ∈ pre, ∃ v, setFld E ((pre ++ f :: post).map fun f => f.par.name) kw g = .ok v) :
    (isRequired f.par = true → construct E (pre ++ f :: post) inh kw = .error (missingErr f)) ∧
    (isRequired f.par = true ↔ f.par.nargs = some .plus ∨ (f.par.required = true ∧ (f.par.nargs = none ∨ f.par.nargs = some (.num 0)))) := by
  refine ⟨fun hr => ?_, ?_⟩
  · have hf : setFld E ((pre ++ f :: post).map fun f => f.par.name) kw f = .error (missingErr f) := by
      cases f with
      | plain p ty =>
        simp only [Fld.par] at hd hk hr
        rw [setFld, setPlain, hk]
        simp only [fromDefault, hd, hr, if_true, missingErr]
      | listable p b =>
        simp only [Fld.par] at hd hk hr
        rw [setFld, given, hk]
        simp only [hd, hr, if_true, error_bind, missingErr]
      | keyed p =>
        simp only [Fld.par] at hd hk hr
        rw [setFld, given, hk]
        simp only [hd, hr, if_true, error_bind, missingErr]
      | struct p cls g i => exact absurd rfl (hs p cls g i)
    generalize hnames : ((pre ++ f :: post).map fun f => f.par.name) = names at hf hpre
    have : setFlds E names kw (pre ++ f :: post) = .error (missingErr f) := by
      clear hnames
      induction pre with
      | nil => rw [List.nil_append, setFlds, hf, error_bind]
      | cons g pre ih =>
        obtain ⟨v, hv⟩ := hpre g List.mem_cons_self
        rw [List.cons_append, setFlds, hv, ok_bind, ih fun x hx => hpre x (List.mem_cons_of_mem _ hx), error_bind]
    rw [construct, hnames, this]
    rfl
  · unfold isRequired nargsOf
    cases e : f.par.nargs with
    | none => simp
    | some n =>
      cases n with
      | num k => cases k <;> simp
      | plus => simp
      | other => simp

/-- **C105 (own keyword).** In a structure without nested ones a field depends on its own keyword only: other keywords and their order do not matter. -/
theorem C105_own_keyword (E : Ext) (fs : List Fld) (kw kw' : PyDict Str V) (hs : ∀ p cls g i, Fld.struct p cls g i ∉ fs)
    (h : ∀ f ∈ fs, PyDict.get? kw f.par.name = PyDict.get? kw' f.par.name) : construct E fs [] kw = construct E fs [] kw' := by
  have hf : ∀ names, ∀ f ∈ fs, setFld E names kw f = setFld E names kw' f := by
    intro names f hf
    have h1 := h f hf
    cases f with
    | plain p ty => simp only [Fld.par] at h1; simp only [setFld, setPlain, h1]
    | listable p b => simp only [Fld.par] at h1; simp only [setFld, given, h1]
    | keyed p => simp only [Fld.par] at h1; simp only [setFld, given, h1]
    | struct p cls g i => exact absurd hf (hs p cls g i)
  have : ∀ (names : List Str) (gs : List Fld), (∀ g ∈ gs, g ∈ fs) → setFlds E names kw gs = setFlds E names kw' gs := by
    intro names gs
    induction gs with
    | nil => intro _; rw [setFlds, setFlds]
    | cons g gs ih =>
      intro hg
      rw [setFlds, setFlds, hf names g (hg g List.mem_cons_self), ih fun x hx => hg x (List.mem_cons_of_mem _ hx)]
  simp only [construct, this _ fs fun _ h => h]
  rfl

/-- **C105 (nested keywords).** A keyword reaches the parameter of this name in nested structures of any depth: if no nested structure is given as a
whole, then every string parameter without choices that has this name has the value given. -/
theorem C105_nested_keywords (E : Ext) (name s : Str) (fs : List Fld) (inh : List Str) (kw attrs : PyDict Str V) (v : V)
    (hk : PyDict.get? kw name = some (.str s)) (hc : construct E fs inh kw = .ok attrs) (ha : At name v kw fs inh attrs) : v = .str s := by
  have hex : ∀ (names : List Str) (kw' : PyDict Str V), name ∉ names → PyDict.get? (extras names kw') name = PyDict.get? kw' name := by
    intro names kw' hn
    induction kw' with
    | nil => rfl
    | cons p kw' ih =>
      unfold extras at ih ⊢
      by_cases hp : p.1 ∈ names
      · have hne : p.1 ≠ name := fun e => hn (e ▸ hp)
        rw [List.filter_cons_of_neg (by simpa using hp), ih, PyDict.get?, if_neg hne]
      · rw [List.filter_cons_of_pos (by simpa using hp)]
        simp only [PyDict.get?]
        rw [ih]
  have main : ∀ kw' : PyDict Str V, (∀ k ∈ PyDict.keys kw', k ∈ PyDict.keys kw) → PyDict.get? kw' name = some (.str s) →
      construct E fs inh kw' = .ok attrs → v = .str s := by
    clear hk hc
    induction ha with
    | @here fs inh attrs p hn hp he hi hch hna hv =>
      subst he
      intro kw' _ hk hc
      obtain ⟨a, h1, rfl⟩ := map_eq_ok.1 hc
      have h2 := (setFlds_spec h1).2.2 hn _ hp
      rw [get?_setInherited_other hi] at hv
      simp only [Fld.par] at h2
      rw [setFld, hv, setPlain, hk] at h2
      dsimp only at h2
      have hnn : nargsOf p = none := by rw [nargsOf, hna]
      rw [finish, hnn] at h2
      dsimp only at h2
      rw [convertVal_of_good (⟨fun t ht => by obtain rfl := Option.some.inj ht; rfl, fun h => absurd hch h⟩ : Good E p (some .str) (.str s))] at h2
      exact (Option.some.inj (Except.ok.inj h2)).symm
    | @inside fs inh attrs p cls g inh' a hn hp hnk hi hna hnm hv _ ih =>
      intro kw' hsub hk hc
      obtain ⟨b, h1, rfl⟩ := map_eq_ok.1 hc
      have h2 := (setFlds_spec h1).2.2 hn _ hp
      rw [get?_setInherited_other hi] at hv
      change setFld E (fs.map fun f => f.par.name) kw' (.struct p cls g inh') = .ok (PyDict.get? b p.name) at h2
      rw [setFld, hv, setStruct] at h2
      have hnone : PyDict.get? kw' p.name = none := PyDict.get?_eq_none.2 fun h => hnk (hsub _ h)
      have hget := hex _ kw' hnm
      rw [hk] at hget
      have hne : extras (fs.map fun f => f.par.name) kw' ≠ [] := by
        intro e
        rw [e] at hget
        cases hget
      rw [hnone] at h2
      dsimp only at h2
      rw [if_pos hne] at h2
      split at h2
      · rename_i a' hb
        obtain ⟨w, h3, h4⟩ := map_eq_ok.1 h2
        obtain rfl := Option.some.inj h4
        have hnn : nargsOf p = none := by rw [nargsOf, hna]
        rw [finish, hnn] at h3
        simp only [toObj, if_true, ok_bind, checkChoice_ok, V.obj.injEq, true_and] at h3
        obtain ⟨rfl, -⟩ := h3
        refine ih (extras _ kw') (fun k hk' => hsub k ?_) hget hb
        simp only [PyDict.keys, extras, List.mem_map, List.mem_filter] at hk' ⊢
        obtain ⟨q, ⟨hq, -⟩, rfl⟩ := hk'
        exact ⟨q, hq, rfl⟩
      · split_ifs at h2
        cases Except.ok.inj h2
      · cases h2
  exact main kw (fun _ h => h) hk hc

/-- **C105 (Boolean).** A Boolean parameter given as a string is `True` for every string but the empty one, so also for `'False'`. -/
theorem C105_boolean_string (E : Ext) (hb : ∀ s, E.conv .bool (.str s) = some (.bool (decide (s ≠ [])))) (p : Par) (hna : p.nargs = none)
    (hc : p.choices = []) (s : Str) (hs : s ≠ []) :
    construct E [.plain p (some .bool)] [] [(p.name, .str s)] = .ok [(p.name, .bool true)] := by
  have hnn : nargsOf p = none := by rw [nargsOf, hna]
  simp only [construct, setFlds, setFld, setPlain, PyDict.get?, if_true, finish, hnn, convertVal, convertTo, inst, Bool.false_eq_true, if_false, hb,
    ok_bind, checkChoice, hc, ne_eq, not_true_eq_false, false_and, map_ok, pure_eq_ok, setInherited, List.foldl_nil]
  simp [hs, Fld.par]

/-- **C105 (Booleans as numbers).** An integer parameter keeps a Boolean as it is, since Booleans are integers in Python. -/
theorem C105_integer_boolean (E : Ext) (p : Par) (hna : p.nargs = none) (hc : p.choices = []) (b : Bool) :
    construct E [.plain p (some .int)] [] [(p.name, .bool b)] = .ok [(p.name, .bool b)] := by
  have hnn : nargsOf p = none := by rw [nargsOf, hna]
  simp only [construct, setFlds, setFld, setPlain, PyDict.get?, if_true, finish, hnn, convertVal, convertTo, inst,
    ok_bind, checkChoice, hc, ne_eq, not_true_eq_false, false_and, if_false, map_ok, pure_eq_ok, setInherited, List.foldl_nil]
  simp [Fld.par]

/-- **C105 (dictionary for several values).** A parameter with several values that is given a dictionary gets the list of the keys. -/
theorem C105_dict_keys (E : Ext) (p : Par) (hna : nargsOf p = some .plus) (hc : p.choices = []) (d : List (Str × V)) :
    construct E [.plain p none] [] [(p.name, .dict d)] = .ok [(p.name, .list (d.map fun kv => .str kv.1))] := by
  have hm : ∀ l : List V, l.mapM (convertVal E p none) = .ok l := by
    intro l
    induction l with
    | nil => rfl
    | cons v l ih =>
      rw [List.mapM_cons, ih]
      simp [convertVal, convertTo, checkChoice, hc, ok_bind, pure_eq_ok]
  simp only [construct, setFlds, setFld, setPlain, PyDict.get?, if_true, finish, hna, elems, hm, ok_bind, cut, map_ok, pure_eq_ok, setInherited,
    List.foldl_nil]
  simp [Fld.par]

/-- **C105 (dictionary given as a list).** A `Keyed` parameter that is given a list of strings gets what it would for these strings with underscores in
between, but if this raises TypeError the list is kept. -/
theorem C105_keyed_list (E : Ext) (p : Par) (ss : List Str) :
    construct E [.keyed p] [] [(p.name, .list (ss.map V.str))] =
      match E.keyedDe (ss.intersperse ['_']).flatten with
      | .error .typeError => .ok [(p.name, .list (ss.map V.str))]
      | .error e => .error e
      | .ok d => .ok [(p.name, .dict d)] := by
  have hm : (ss.map V.str).mapM strOf? = some ss := by
    induction ss with
    | nil => rfl
    | cons s ss ih => simp [List.mapM_cons, strOf?, ih]
  have hj : ∀ ss : List Str, Str.join '_' ss = (ss.intersperse ['_']).flatten := by
    intro ss
    induction ss with
    | nil => rfl
    | cons a ss ih =>
      cases ss with
      | nil => simp [Str.join]
      | cons b ss => rw [Str.join, ih]; simp
  simp only [construct, setFlds, setFld, given, PyDict.get?, if_true, ok_bind, keyedVal, joinStrs, hm, Option.map_some, hj, setInherited, List.foldl_nil]
  cases E.keyedDe (ss.intersperse ['_']).flatten with
  | error e => cases e <;> simp [Fld.par, pure_eq_ok, ok_bind, error_bind, map_ok] <;> rfl
  | ok d => simp [Fld.par, pure_eq_ok, ok_bind, map_ok, setInherited]

/-- **C105 (list given as a string).** A string given for a `Listable` is parsed into a list, and an error of the parser is raised.  But if the type of the
elements is `str`, then the whole string is the only element. -/
theorem C105_list_string (E : Ext) (p : Par) (s : Str) :
    construct E [.listable p false] [] [(p.name, .str s)] = (E.listDe s).map (fun l => [(p.name, .list l)]) ∧
    construct E [.listable p true] [] [(p.name, .str s)] = .ok [(p.name, .list [.str s])] := by
  refine ⟨?_, ?_⟩
  · simp only [construct, setFlds, setFld, given, PyDict.get?, if_true, ok_bind, listVal]
    cases E.listDe s with
    | error e => rfl
    | ok l => simp [Fld.par, setInherited, pure_eq_ok, ok_bind, map_ok, Except.map]
  · simp only [construct, setFlds, setFld, given, PyDict.get?, if_true, ok_bind, listVal, listify, pure_eq_ok, map_ok, setInherited, List.foldl_nil]
    simp [Fld.par]

/-- **C105 (list that is not given).** An optional `Listable` without default that is not given becomes the list of the marker for missing values, which
is not the marker itself, so that the parameter counts as set; an optional `Keyed` one becomes the marker. -/
theorem C105_missing_list (E : Ext) (p : Par) (b : Bool) (hd : p.default = none) (hr : isRequired p = false) (kw : PyDict Str V)
    (hk : PyDict.get? kw p.name = none) :
    construct E [.listable p b] [] kw = .ok [(p.name, .list [.empty])] ∧ construct E [.keyed p] [] kw = .ok [(p.name, .empty)] := by
  refine ⟨?_, ?_⟩
  · simp only [construct, setFlds, setFld, given, hk, hd, hr, Bool.false_eq_true, if_false, ok_bind, listVal, listify, pure_eq_ok, map_ok,
      setInherited, List.foldl_nil]
    simp [Fld.par]
  · simp only [construct, setFlds, setFld, given, hk, hd, hr, Bool.false_eq_true, if_false, ok_bind, keyedVal, pure_eq_ok, map_ok,
      setInherited, List.foldl_nil]
    simp [Fld.par]

/-- **C105 (nested structure without keywords).** A required structure all of whose parameters have defaults is not constructed if there are no keywords
at all: TypeError.  With any keyword, even one that nothing uses, it is. -/
theorem C105_nested_no_keywords (E : Ext) (outer inner k : Str) (d v : V) (cls : ℕ) (hk : k ≠ outer) (hki : k ≠ inner) :
    let fs := [Fld.struct ⟨outer, true, none, [], none⟩ cls [.plain ⟨inner, true, some d, [], none⟩ none] []]
    construct E fs [] [] = .error .typeError ∧ construct E fs [] [(k, v)] = .ok [(outer, .obj cls [(inner, d)])] := by
  intro fs
  refine ⟨?_, ?_⟩
  · simp only [fs, construct, setFlds, setFld, setStruct, PyDict.get?, extras, List.filter_nil, ne_eq, not_true_eq_false, if_false, fromDefault,
      isRequired, nargsOf, if_true, error_bind]
    rfl
  · have hex : extras [outer] [(k, v)] = [(k, v)] := by simp [extras, hk]
    simp only [fs, construct, setFlds, setFld, setStruct, List.map_cons, List.map_nil, Fld.par, hex, PyDict.get?, if_neg hk, if_neg hki, ne_eq,
      List.cons_ne_nil, not_false_eq_true, if_true, setPlain, fromDefault, finish, nargsOf, convertVal, convertTo, ok_bind, checkChoice,
      not_true_eq_false, false_and, if_false, map_ok, pure_eq_ok, setInherited, List.foldl_nil, toObj]
    rfl

namespace Construct

/-- External functions for the examples: only strings can be converted, to Booleans. -/
def exampleExt : Ext where
  conv t v := match t, v with
    | .bool, .str s => some (.bool (decide (s ≠ [])))
    | _, _ => none
  eq v w := match v, w with
    | .str s, .str t => decide (s = t)
    | _, _ => false
  listDe s := .ok [.str s]
  keyedDe s := .ok [(s, .none)]
  fromOther _ _ := .error .typeError

theorem exampleExt_lawful : exampleExt.Lawful where
  conv := by
    intro t v w h
    cases t <;> cases v <;> simp only [exampleExt, Option.some.injEq, reduceCtorEq] at h
    subst h
    rfl
  other := by
    intro c v w h
    cases h

/-- A structure with a name out of two, a list, and a nested structure with a file name. -/
def exampleFields : List Fld :=
  [.plain ⟨"kind".toList, true, none, [.str "a".toList, .str "b".toList], none⟩ (some .str),
   .listable ⟨"items".toList, true, none, [], none⟩ false,
   .struct ⟨"log".toList, true, none, [], none⟩ 1 [.plain ⟨"file".toList, true, none, [], none⟩ (some .str)] ["base_dir".toList]]

/-- The structure is constructed, the keyword `file` goes into the nested structure, and constructing it from its items gives the same items. -/
example : ∃ attrs l, construct exampleExt exampleFields ["base_dir".toList]
      [("kind".toList, .str "a".toList), ("items".toList, .list [.none]), ("file".toList, .str "x".toList)] = .ok attrs ∧
    items exampleFields attrs = .ok l ∧ construct exampleExt exampleFields ["base_dir".toList] l = .ok l ∧
    At "file".toList (.str "x".toList) [("kind".toList, .str "a".toList), ("items".toList, .list [.none]), ("file".toList, .str "x".toList)]
      exampleFields ["base_dir".toList] attrs := by
  have h1 : construct exampleExt exampleFields ["base_dir".toList]
      [("kind".toList, .str "a".toList), ("items".toList, .list [.none]), ("file".toList, .str "x".toList)] =
      .ok [("kind".toList, .str "a".toList), ("items".toList, .list [.none]), ("log".toList, .obj 1 [("file".toList, .str "x".toList)])] := by
    rfl
  refine ⟨_, _, h1, rfl, (C105_copy exampleExt exampleExt_lawful exampleFields _ _ _ _ (by decide) (by decide) h1 rfl).1, ?_⟩
  refine .inside (p := ⟨"log".toList, true, none, [], none⟩) (cls := 1) (inh' := ["base_dir".toList])
    (g := [.plain ⟨"file".toList, true, none, [], none⟩ (some .str)]) (a := [("file".toList, .str "x".toList)])
    (by decide) (by simp [exampleFields]) (by decide) (by decide) rfl (by decide) rfl ?_
  exact .here (p := ⟨"file".toList, true, none, [], none⟩) (by decide) (by simp) rfl (by decide) rfl rfl rfl

end Construct

end Verif
