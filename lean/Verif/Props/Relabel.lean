import Verif.Proofs.Relabel
import Verif.Proofs.CTWHom
import Verif.Props.Estimators
import Verif.Props.Weights
import Verif.Props.CTW

/-!
# The names of the symbols (C138), and models in place of equal models (C139)

C138: a model does not depend on what its symbols are called.  If all symbols are renamed, in the alphabet, the observations and the histories, then every call
returns what it returned.  It holds for all model classes, but not for the default context function of `CTW`, which pads short histories with zeros: there
zero is special.

C139: a model inside another one can be replaced by a model that answers alike, `KT` of two symbols by `KTBinary` and `CTW` by `CTW_KT`, at every depth.
-/

namespace Verif

open Predictor Relabel PyDict

/-! ## What alike models have in common -/

section Alike

variable {σ τ α β : Type} {P : Predictor σ α} {Q : Predictor τ β} {f : α → β}

/-- **C138 (observable).** Alike models give the same answers to all sequences of calls, and so do their copies. -/
theorem C138_outputs (s : σ) (t : τ) (h : Alike P Q f s t) (cs : List (Call α)) :
    P.outputs s cs = Q.outputs t (cs.map (Call.map f)) ∧
    PyLift (fun s' t' => ∀ ds : List (Call α), P.outputs s' ds = Q.outputs t' (ds.map (Call.map f))) (P.copy s) (Q.copy t) := by
  obtain ⟨R, hR, h⟩ := h
  have toRes : ∀ {x : Py (ℝ × σ)} {y : Py (ℝ × τ)}, PyLift (fun u v => u.1 = v.1 ∧ R u.2 v.2) x y → CorrRes R x y := by
    intro x y hxy
    cases hxy with
    | ok h => exact h
    | error e => rfl
  have hH : Hom P Q f (fun _ => True) R := ⟨fun s t a h w hst _ => toRes (hR.update s t hst a h w), fun s t a h hst => toRes (hR.logPredict s t hst a h)⟩
  have hw : ∀ c : Call α, c.Weight fun _ => True := fun c => by cases c <;> trivial
  exact ⟨hH.outputs_eq h cs fun c _ => hw c, (hR.copy s t h).mono fun u v huv ds => hH.outputs_eq huv ds fun c _ => hw c⟩

/-- **C138 (probabilities).** And they give the same probability to every sequence of observations. -/
theorem C138_seqProb (s : σ) (t : τ) (h : Alike P Q f s t) (xs : List (Obs α)) :
    P.seqProb s xs = Q.seqProb t (xs.map (Obs.translate f)) := by
  obtain ⟨R, hR, h⟩ := h
  have key : PyLift (fun u v => u.1 = v.1 ∧ R u.2 v.2) (P.run s xs) (Q.run t (xs.map (Obs.translate f))) := by
    induction xs generalizing s t with
    | nil => exact .ok ⟨rfl, h⟩
    | cons o xs ih =>
      refine (hR.update _ _ h o.sym o.hist o.weight).bind ?_
      rintro ⟨r, s'⟩ ⟨r', t'⟩ ⟨rfl, h'⟩
      refine (ih _ _ h').bind ?_
      rintro ⟨q, s''⟩ ⟨q', t''⟩ ⟨rfl, h''⟩
      exact .ok ⟨rfl, h''⟩
  simp only [seqProb]
  generalize P.run s xs = x at key ⊢
  generalize Q.run t (xs.map (Obs.translate f)) = y at key ⊢
  cases key with
  | ok h => obtain ⟨h1, _⟩ := h; simp only [probOf, h1]
  | error e => rfl

end Alike

/-! ## Estimators -/

namespace Relabel

variable {α β : Type} [DecidableEq α] [DecidableEq β] {f : α → β}

/-- A dictionary with renamed keys. -/
def renamed {ν : Type} (f : α → β) (d : PyDict α ν) : PyDict β ν := d.map fun p => (f p.1, p.2)

theorem get?_renamed {ν : Type} (hf : Function.Injective f) (d : PyDict α ν) (a : α) : get? (renamed f d) (f a) = get? d a := by
  induction d with
  | nil => rfl
  | cons p d ih =>
    simp only [renamed, List.map_cons, get?, hf.eq_iff] at ih ⊢
    rw [ih]

theorem getE_renamed {ν : Type} (hf : Function.Injective f) (d : PyDict α ν) (a : α) : getE (renamed f d) (f a) = getE d a := by
  simp only [getE, get?_renamed hf]

theorem set_renamed {ν : Type} (hf : Function.Injective f) (d : PyDict α ν) (a : α) (v : ν) : PyDict.set (renamed f d) (f a) v = renamed f (PyDict.set d a v) := by
  induction d with
  | nil => rfl
  | cons p d ih =>
    simp only [renamed, List.map_cons, PyDict.set, hf.eq_iff] at ih ⊢
    split
    · rfl
    · rw [ih]; rfl

omit [DecidableEq α] [DecidableEq β] in
theorem values_renamed {ν : Type} (d : PyDict α ν) : values (renamed f d) = values d := by
  simp [values, renamed]

omit [DecidableEq α] [DecidableEq β] in
theorem length_renamed {ν : Type} (d : PyDict α ν) : (renamed f d).length = d.length := by
  simp [renamed]

/-- `KT` with renamed symbols. -/
def ktRenamed (f : α → β) (s : KT α) : KT β := ⟨renamed f s.counts, s.sumCounts⟩

theorem kt_logPredict (hf : Function.Injective f) (s : KT α) (a : α) : (ktRenamed f s).logPredict (f a) = s.logPredict a := by
  simp only [KT.logPredict, ktRenamed, getE_renamed hf]

theorem kt (hf : Function.Injective f) : Corresponds KT.predictor KT.predictor f (fun s t => t = ktRenamed f s) where
  update := by
    rintro s _ rfl a h w
    simp only [KT.predictor, KT.update, kt_logPredict hf, show (ktRenamed f s).counts = renamed f s.counts from rfl, getE_renamed hf]
    refine (PyLift.refl _).bind ?_
    rintro r _ rfl
    refine (PyLift.refl _).bind ?_
    rintro c _ rfl
    exact .ok ⟨rfl, by simp only [ktRenamed, set_renamed hf]⟩
  logPredict := by
    rintro s _ rfl a h
    simp only [KT.predictor, kt_logPredict hf]
    refine (PyLift.refl _).bind ?_
    rintro r _ rfl
    exact .ok ⟨rfl, rfl⟩
  copy := by
    rintro s _ rfl
    exact .ok rfl

theorem comprehension_renamed (hf : Function.Injective f) {g : α → Py ℝ} {g' : β → Py ℝ} (hg : ∀ a, g' (f a) = g a) (A : List α) (d : PyDict α ℝ) :
    PyLift (fun u v => v = renamed f u) (KT.comprehension g A d) (KT.comprehension g' (A.map f) (renamed f d)) := by
  induction A generalizing d with
  | nil => exact .ok rfl
  | cons a A ih =>
    simp only [KT.comprehension, List.map_cons, hg]
    refine (PyLift.refl _).bind ?_
    rintro v _ rfl
    rw [set_renamed hf]
    exact ih _

/-- `SAD` with renamed symbols. -/
def sadRenamed (f : α → β) (s : SAD α) : SAD β := ⟨s.n, renamed f s.counts, s.sumCounts⟩

theorem sad_logPredict (hf : Function.Injective f) (s : SAD α) (a : α) : (sadRenamed f s).logPredict (f a) = s.logPredict a := by
  simp only [SAD.logPredict, SAD.beta, sadRenamed, get?_renamed hf, length_renamed]

theorem sad (hf : Function.Injective f) : Corresponds SAD.predictor SAD.predictor f (fun s t => t = sadRenamed f s) where
  update := by
    rintro s _ rfl a h w
    simp only [SAD.predictor, SAD.update, sad_logPredict hf, show (sadRenamed f s).counts = renamed f s.counts from rfl, get?_renamed hf]
    refine (PyLift.refl _).bind ?_
    rintro r _ rfl
    cases get? s.counts a with
    | some c =>
      simp only [getE_renamed hf]
      refine (PyLift.refl _).bind ?_
      rintro c _ rfl
      exact .ok ⟨rfl, by simp only [sadRenamed, set_renamed hf]⟩
    | none =>
      simp only [set_renamed hf, getE_renamed hf]
      refine (PyLift.refl _).bind ?_
      rintro c _ rfl
      exact .ok ⟨rfl, by simp only [sadRenamed]⟩
  logPredict := by
    rintro s _ rfl a h
    simp only [SAD.predictor, sad_logPredict hf]
    refine (PyLift.refl _).bind ?_
    rintro r _ rfl
    exact .ok ⟨rfl, rfl⟩
  copy := by
    rintro s _ rfl
    exact .ok rfl

theorem ktBinary : Corresponds KTBinary.predictor KTBinary.predictor Bool.not (fun s t => t = ⟨s.c1, s.c0⟩) where
  update := by
    rintro ⟨x, y⟩ _ rfl a h w
    have hl : KTBinary.logPredict ⟨y, x⟩ (!a) = KTBinary.logPredict ⟨x, y⟩ a := by
      cases a <;> simp [KTBinary.logPredict, KTBinary.get, add_comm]
    simp only [KTBinary.predictor, KTBinary.update, hl]
    refine (PyLift.refl _).bind ?_
    rintro r _ rfl
    exact .ok ⟨rfl, by cases a <;> simp [KTBinary.bump]⟩
  logPredict := by
    rintro ⟨x, y⟩ _ rfl a h
    have hl : KTBinary.logPredict ⟨y, x⟩ (!a) = KTBinary.logPredict ⟨x, y⟩ a := by
      cases a <;> simp [KTBinary.logPredict, KTBinary.get, add_comm]
    simp only [KTBinary.predictor, hl]
    refine (PyLift.refl _).bind ?_
    rintro r _ rfl
    exact .ok ⟨rfl, rfl⟩
  copy := by
    rintro ⟨x, y⟩ _ rfl
    exact .ok rfl

end Relabel

/-- **C138 (`KT`).** Renaming the alphabet, and the keys of the given counts. -/
theorem C138_KT {α β : Type} [DecidableEq α] [DecidableEq β] (f : α → β) (hf : Function.Injective f) (A : List α) (c : Option (PyDict α ℝ)) :
    PyLift (Alike KT.predictor KT.predictor f) (KT.init A c) (KT.init (A.map f) (c.map fun d => d.map fun p => (f p.1, p.2))) := by
  have fin : ∀ {x : Py (PyDict α ℝ)} {y : Py (PyDict β ℝ)}, PyLift (fun u v => v = renamed f u) x y →
      PyLift (Alike KT.predictor KT.predictor f) (x >>= fun d => pure { counts := d, sumCounts := d.values.sum })
        (y >>= fun d => pure { counts := d, sumCounts := d.values.sum }) := by
    intro x y hxy
    refine hxy.bind ?_
    rintro d _ rfl
    exact .ok ⟨_, kt hf, by simp only [ktRenamed, values_renamed]⟩
  cases c with
  | none =>
    simp only [KT.init, Option.map_none, List.length_map]
    exact fin (comprehension_renamed (g := fun _ => pyDiv 1 (A.length : ℝ)) (g' := fun _ => pyDiv 1 (A.length : ℝ)) hf (fun _ => rfl) A [])
  | some c =>
    cases c with
    | nil =>
      simp only [KT.init, Option.map_some, List.map_nil, List.length_map]
      exact fin (comprehension_renamed (g := fun _ => pyDiv 1 (A.length : ℝ)) (g' := fun _ => pyDiv 1 (A.length : ℝ)) hf (fun _ => rfl) A [])
    | cons p c =>
      simp only [KT.init, Option.map_some, List.map_cons]
      exact fin (comprehension_renamed hf (fun a => getE_renamed hf (p :: c) a) A [])

/-- **C138 (`KTBinary`).** The two bits exchanged. -/
theorem C138_KTBinary (x y : ℝ) : Alike KTBinary.predictor KTBinary.predictor Bool.not ⟨x, y⟩ ⟨y, x⟩ := ⟨_, Relabel.ktBinary, rfl⟩

/-- **C138 (`SAD`).** -/
theorem C138_SAD {α β : Type} [DecidableEq α] [DecidableEq β] (f : α → β) (hf : Function.Injective f) (n : ℤ) :
    Alike SAD.predictor SAD.predictor f (SAD.init n) (SAD.init n) := ⟨_, sad hf, rfl⟩

/-! ## Combinations -/

section Combinations

variable {σ τ α β : Type} (P : Predictor σ α) (Q : Predictor τ β) (f : α → β)

/-- **C138, C139 (`Averager`).** -/
theorem C138_Averager (ms : List σ) (ns : List τ) (h : List.Forall₂ (Alike P Q f) ms ns) :
    PyLift (Alike (Averager.predictor P) (Averager.predictor Q) f) (Averager.init ms) (Averager.init ns) :=
  (av_init h).mono fun _ _ h' => ⟨_, averager alike_corresponds, h'⟩

/-- **C138, C139 (`Factored`).** -/
theorem C138_Factored (ms : List σ) (ns : List τ) (h : List.Forall₂ (Alike P Q f) ms ns) :
    Alike (Factored.predictor P) (Factored.predictor Q) f ⟨ms⟩ ⟨ns⟩ := ⟨_, factored alike_corresponds, h⟩

/-- **C138, C139 (`CTW`).** With context functions that give renamed contexts for renamed histories; context symbols may be renamed differently.
Missing: the default one, which pads with zero whatever the symbols are called (`C138_CTW_zero`). -/
theorem C138_CTW_partial {κ κ' : Type} [DecidableEq κ] [DecidableEq κ'] (s : σ) (t : τ) (h : Alike P Q f s t) (e : κ → κ') (he : Function.Injective e)
    (ctx : List α → List κ) (ctx' : List β → List κ') (hc : ∀ h, ctx' (h.map f) = (ctx h).map e) :
    Alike (CTW.predictor P s ctx) (CTW.predictor Q t ctx') f (CTW.init s) (CTW.init t) :=
  ⟨_, ctw alike_corresponds he h hc, nodeRel_new h⟩

/-- **C138 (`CTW`, the context function of the code).** It commutes with renaming if the symbol used for padding is renamed too. -/
theorem C138_CTW_padding (s : σ) (t : τ) (h : Alike P Q f s t) [DecidableEq α] [DecidableEq β] (hf : Function.Injective f) (d : ℕ) (z : α) :
    Alike (CTW.predictor P s (CTW.mkcontext d z)) (CTW.predictor Q t (CTW.mkcontext d (f z))) f (CTW.init s) (CTW.init t) := by
  refine C138_CTW_partial P Q f s t h f hf _ _ fun hi => ?_
  simp only [CTW.mkcontext, pyTail, List.map_append, List.map_replicate, List.length_map]
  split
  · rfl
  · rw [List.map_drop]

/-- **C138, C139 (`PTW`).** -/
theorem C138_PTW (s : σ) (t : τ) (h : Alike P Q f s t) (m : ℕ) :
    Alike (PTW.predictor P s m) (PTW.predictor Q t m) f (PTW.init s m) (PTW.init t m) :=
  ⟨_, ptw alike_corresponds h m, ptw_init h m⟩

/-- **C138, C139 (`PTWFixedLength`).** -/
theorem C138_PTWFixedLength (s : σ) (t : τ) (h : Alike P Q f s t) (m height : ℕ) :
    Alike (PTWFixedLength.predictor P s m height) (PTWFixedLength.predictor Q t m height) f (PTW.init s m) (PTW.init t m) :=
  ⟨_, ptwFixedLength alike_corresponds h m height, ptw_init h m⟩

/-- **C138, C139 (`FMN`).** With `LogStore` and with `LogStoreUniform`. -/
theorem C138_FMN (s : σ) (t : τ) (h : Alike P Q f s t) (m : ℕ) :
    PyLift (Alike (FMN.predictor (LogStore.store σ) P m) (FMN.predictor (LogStore.store τ) Q m) f)
      (FMN.init (LogStore.store σ) P s m) (FMN.init (LogStore.store τ) Q t m) ∧
    PyLift (Alike (FMN.predictor (LogStoreUniform.store σ) P m) (FMN.predictor (LogStoreUniform.store τ) Q m) f)
      (FMN.init (LogStoreUniform.store σ) P s m) (FMN.init (LogStoreUniform.store τ) Q t m) :=
  ⟨(fmn_init alike_corresponds logStore h m).mono fun _ _ h' => ⟨_, fmn alike_corresponds logStore m, h'⟩,
    (fmn_init alike_corresponds logStoreUniform h m).mono fun _ _ h' => ⟨_, fmn alike_corresponds logStoreUniform m, h'⟩⟩

end Combinations

/-- `PTW` over `CTW` over `KT`: letters in place of the digits. -/
example (m d : ℕ) : ∃ s t, KT.init [0, 1, 2] none = .ok s ∧ KT.init ['a', 'b', 'c'] none = .ok t ∧
    Alike (PTW.predictor (CTW.predictor KT.predictor s (CTW.mkcontext d 0)) (CTW.init s) m)
      (PTW.predictor (CTW.predictor KT.predictor t (CTW.mkcontext d 'a')) (CTW.init t) m) (fun n : Fin 3 => ['a', 'b', 'c'].get n)
      (PTW.init (CTW.init s) m) (PTW.init (CTW.init t) m) := by
  have hf : Function.Injective (fun n : Fin 3 => ['a', 'b', 'c'].get n) := by decide
  have h := C138_KT (fun n : Fin 3 => ['a', 'b', 'c'].get n) hf [0, 1, 2] none
  have h0 := KT.init_default (A := ([0, 1, 2] : List (Fin 3))) (by decide) (by decide)
  have h1 : KT.init ([0, 1, 2].map fun n : Fin 3 => ['a', 'b', 'c'].get n) (none : Option (PyDict Char ℝ)) = _ :=
    KT.init_default (A := ['a', 'b', 'c']) (by decide) (by decide)
  rw [Option.map_none, h0, h1] at h
  cases h with
  | ok h => exact ⟨_, _, h0, h1, C138_PTW _ _ _ _ _ (C138_CTW_padding _ _ _ _ _ h hf d 0) m⟩

/-- **C138 (the code violates it: the default context of `CTW`).** The bits exchanged, a context tree of depth one gives another probability: 1/8 for 0, 1 and
3/16 for 1, 0. -/
theorem C138_CTW_zero :
    (CTW.predictor KTBinary.predictor (KTBinary.init none) (CTW.mkcontext 1 false)).seqProb (CTW.init (KTBinary.init none))
      [⟨false, [], 1⟩, ⟨true, [false], 1⟩] = 1 / 8 ∧
    (CTW.predictor KTBinary.predictor (KTBinary.init none) (CTW.mkcontext 1 false)).seqProb (CTW.init (KTBinary.init none))
      [⟨true, [], 1⟩, ⟨false, [true], 1⟩] = 3 / 16 ∧
    ¬ Alike (CTW.predictor KTBinary.predictor (KTBinary.init none) (CTW.mkcontext 1 false))
      (CTW.predictor KTBinary.predictor (KTBinary.init none) (CTW.mkcontext 1 false)) Bool.not (CTW.init (KTBinary.init none))
      (CTW.init (KTBinary.init none)) := by
  have hlen : ∀ h : List Bool, (CTW.mkcontext 1 false h).length = 1 := fun h => (C18_mkcontext_partial 1 le_rfl false h).1
  have hprob : ∀ xs : List (Obs Bool), (∀ o ∈ xs, 0 ≤ o.weight) →
      (CTW.predictor KTBinary.predictor (KTBinary.init none) (CTW.mkcontext 1 false)).seqProb (CTW.init (KTBinary.init none)) xs =
      ctwProb (KTBinary.predictor.seqProb (KTBinary.init none)) 1 (withCtx (CTW.mkcontext 1 false) xs) := by
    intro xs hx
    obtain ⟨r, t, hr⟩ := C13_CTW_run_succeeds KTBinary.predictor (KTBinary.init none) (CTW.mkcontext 1 false) _ _ _ KTBinary.lawful.updateLawful
      (by norm_num [KTBinary.init]) 1 hlen xs (fun o ho => ⟨by cases o.sym <;> simp, hx o ho⟩)
    rw [seqProb_of_run hr]
    exact C13_CTW_closed_form _ _ _ 1 _ (fun o _ => hlen o.hist) _ _ hr
  have e1 : (CTW.predictor KTBinary.predictor (KTBinary.init none) (CTW.mkcontext 1 false)).seqProb (CTW.init (KTBinary.init none))
      [⟨false, [], 1⟩, ⟨true, [false], 1⟩] = 1 / 8 := by
    rw [hprob _ (by simp), Weights.ctwProb_one (Weights.ktb_nil (KTBinary.init none))]
    norm_num [withCtx, CTW.mkcontext, pyTail, Weights.subCtx_cons, subCtx_nil, KTBinary.init, Weights.ktb_cons, Weights.ktb_nil]
  have e2 : (CTW.predictor KTBinary.predictor (KTBinary.init none) (CTW.mkcontext 1 false)).seqProb (CTW.init (KTBinary.init none))
      [⟨true, [], 1⟩, ⟨false, [true], 1⟩] = 3 / 16 := by
    rw [hprob _ (by simp), Weights.ctwProb_one (Weights.ktb_nil (KTBinary.init none))]
    norm_num [withCtx, CTW.mkcontext, pyTail, Weights.subCtx_cons, subCtx_nil, KTBinary.init, Weights.ktb_cons, Weights.ktb_nil]
  refine ⟨e1, e2, fun h => ?_⟩
  have := C138_seqProb _ _ h [⟨false, [], 1⟩, ⟨true, [false], 1⟩]
  simp only [List.map_cons, List.map_nil, Obs.translate, Bool.not_false, Bool.not_true] at this
  rw [e1, e2] at this
  norm_num at this

/-! ## Models in place of equal models -/

/-- **C139 (`KTBinary` for `KT`).** -/
theorem C139_KTBinary : ∃ s, KT.init [false, true] none = .ok s ∧ Alike KT.predictor KTBinary.predictor id s (KTBinary.init none) := by
  refine ⟨_, C04_KTBinary_eq_KT.1, fun s t => s = t.toKT, ⟨?_, ?_, ?_⟩, rfl⟩
  · rintro _ t rfl a h w
    rw [(C04_KTBinary_eq_KT.2.2 t a h w).1, List.map_id, id]
    cases KTBinary.predictor.update t a h w with
    | ok p => exact .ok ⟨rfl, rfl⟩
    | error e => exact .error e
  · rintro _ t rfl a h
    rw [(C04_KTBinary_eq_KT.2.2 t a h 1).2, List.map_id, id]
    cases KTBinary.predictor.logPredict t a h with
    | ok p => exact .ok ⟨rfl, rfl⟩
    | error e => exact .error e
  · rintro _ t rfl
    exact .ok rfl

/-- **C139 (`CTW_KT` for `CTW`).** -/
theorem C139_CTW_KT (d : ℕ) : Alike (KNode.predictor d) (CTW.predictor KTBinary.predictor (KTBinary.init none) (CTW.mkcontext d false)) id KNode.new
    (CTW.init (KTBinary.init none)) := by
  have lift : ∀ {x : Py (ℝ × KNode)} {y : Py (ℝ × CTWNode KTBinary Bool)}, KNode.CorrResult x y → PyLift (fun u v => u.1 = v.1 ∧ KNode.Corr u.2 v.2) x y := by
    intro x y h
    cases x with
    | ok p =>
      cases y with
      | ok q => exact .ok h
      | error e => exact h.elim
    | error e =>
      cases y with
      | ok q => exact h.elim
      | error e' =>
        have : e = e' := h
        subst this
        exact .error e
  refine ⟨KNode.Corr, ⟨?_, ?_, ?_⟩, KNode.corr_new⟩
  · intro s t h a hi w
    rw [List.map_id]
    exact lift (h.update a hi w _)
  · intro s t h a hi
    rw [List.map_id]
    exact lift (h.logPredict a hi _)
  · intro s t h
    cases h with
    | @mk k n h1 h2 h3 h4 h5 h6 => exact .ok (.mk h1 h2 h3 h4 h5 h6)

/-- **C139 (exchange).** A model that answers alike, in place of the base model of `CTW`, `PTW`, `PTWFixedLength` and `FMN`, and of the components of
`Averager` and `Factored`: the whole answers alike. -/
theorem C139_exchange {σ τ α κ : Type} [DecidableEq κ] (P : Predictor σ α) (Q : Predictor τ α) (s : σ) (t : τ) (h : Alike P Q id s t) :
    (∀ ctx : List α → List κ, Alike (CTW.predictor P s ctx) (CTW.predictor Q t ctx) id (CTW.init s) (CTW.init t)) ∧
    (∀ m, Alike (PTW.predictor P s m) (PTW.predictor Q t m) id (PTW.init s m) (PTW.init t m)) ∧
    (∀ m height, Alike (PTWFixedLength.predictor P s m height) (PTWFixedLength.predictor Q t m height) id (PTW.init s m) (PTW.init t m)) ∧
    (∀ m, PyLift (Alike (FMN.predictor (LogStoreUniform.store σ) P m) (FMN.predictor (LogStoreUniform.store τ) Q m) id)
      (FMN.init (LogStoreUniform.store σ) P s m) (FMN.init (LogStoreUniform.store τ) Q t m)) ∧
    (∀ ms ns, List.Forall₂ (Alike P Q id) ms ns →
      PyLift (Alike (Averager.predictor P) (Averager.predictor Q) id) (Averager.init ms) (Averager.init ns) ∧
      Alike (Factored.predictor P) (Factored.predictor Q) id ⟨ms⟩ ⟨ns⟩) :=
  ⟨fun ctx => C138_CTW_partial P Q id s t h id Function.injective_id ctx ctx fun h => by rw [List.map_id, List.map_id], C138_PTW P Q id s t h,
    C138_PTWFixedLength P Q id s t h, fun m => (C138_FMN P Q id s t h m).2,
    fun ms ns hm => ⟨C138_Averager P Q id ms ns hm, C138_Factored P Q id ms ns hm⟩⟩

/-- **C139 (an instance).** `FMN` over `CTW_KT`, and `FMN` over `CTW` over `KT((0, 1))`: no calls tell them apart. -/
theorem C139_FMN (d m : ℕ) : ∃ k s t, KT.init [false, true] none = .ok k ∧
    FMN.init (LogStoreUniform.store _) (KNode.predictor d) KNode.new m = .ok s ∧
    FMN.init (LogStoreUniform.store _) (CTW.predictor KT.predictor k (CTW.mkcontext d false)) (CTW.init k) m = .ok t ∧
    ∀ cs : List (Call Bool), (FMN.predictor (LogStoreUniform.store _) (KNode.predictor d) m).outputs s cs =
      (FMN.predictor (LogStoreUniform.store _) (CTW.predictor KT.predictor k (CTW.mkcontext d false)) m).outputs t cs := by
  obtain ⟨k, hk, ha⟩ := C139_KTBinary
  have hid : ∀ cs : List (Call Bool), cs.map (Call.map id) = cs := by
    intro cs
    refine (List.map_congr_left fun c _ => ?_).trans (List.map_id cs)
    cases c <;> simp [Call.map]
  have h1 := (C138_FMN _ _ id _ _ (C139_CTW_KT d) m).2
  have h2 := (C138_FMN _ _ id _ _ (C138_CTW_padding KT.predictor KTBinary.predictor id k _ ha Function.injective_id d false) m).2
  rw [id] at h2
  have h0 : ∃ s, FMN.init (LogStoreUniform.store _) (KNode.predictor d) KNode.new m = .ok s := by
    simp [FMN.init, LogStoreUniform.store, LogStoreUniform.init, LogStoreUniform.add, LogStoreUniform.list, FMN.modelFactory, FMN.copies, KNode.predictor,
      Averager.init, pyDiv, pyLog]
  obtain ⟨s, hs⟩ := h0
  rw [hs] at h1
  generalize hu : FMN.init (LogStoreUniform.store _) (CTW.predictor KTBinary.predictor (KTBinary.init none) (CTW.mkcontext d false))
    (CTW.init (KTBinary.init none)) m = u at h1 h2
  generalize hv : FMN.init (LogStoreUniform.store _) (CTW.predictor KT.predictor k (CTW.mkcontext d false)) (CTW.init k) m = v at h2
  cases h1 with
  | ok h1 =>
    cases h2 with
    | ok h2 =>
      refine ⟨k, s, _, hk, hs, hv, fun cs => ?_⟩
      have g1 := (C138_outputs _ _ h1 cs).1
      have g2 := (C138_outputs _ _ h2 cs).1
      rw [hid] at g1 g2
      rw [g1, g2]

end Verif
