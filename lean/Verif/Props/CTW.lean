import Verif.Proofs.CTWPure

/-!
# C13-C19 and C23: context tree weighting on tree values
-/

namespace Verif

open Predictor

section General

variable {σ κ α : Type} [DecidableEq κ] (P : Predictor σ α) (fresh : σ) (ctx : List α → List κ)

/-- The observations with their contexts, most recent context symbol first. -/
def withCtx {α κ : Type} (ctx : List α → List κ) (xs : List (Obs α)) : List (List κ × Obs α) :=
  xs.map fun o => ((ctx o.hist).reverse, o)

/-- **C13.** Whenever a run of `CTW` succeeds on observations whose contexts have length `d`, the probability it
reports is the recursively defined context-tree mixture of the base model's sequence probabilities. -/
theorem C13_CTW_closed_form (d : ℕ) (xs : List (Obs α)) (hc : ∀ o ∈ xs, (ctx o.hist).length = d)
    (r : ℝ) (n : CTWNode σ κ) (hr : (CTW.predictor P fresh ctx).run (CTW.init fresh) xs = .ok (r, n)) :
    Real.exp r = ctwProb (P.seqProb fresh) d (withCtx ctx xs) := by
  obtain ⟨h1, h2⟩ := (CTWNode.Rep.new d).run hc hr
  have : r = n.lp := by
    rw [h2]
    simp [CTWNode.new]
  rw [this, h1.exp_lp]
  rfl

/-- **C13 (success).** Over a base model that does not raise on the alphabet, no such run raises. -/
theorem C13_CTW_run_succeeds (I : σ → Prop) (A : List α) (W : ℝ → Prop) (hP : P.UpdateLawful I A W)
    (hf : I fresh) (d : ℕ) (hc : ∀ h, (ctx h).length = d) (xs : List (Obs α))
    (hx : ∀ o ∈ xs, o.sym ∈ A ∧ W o.weight) :
    ∃ r n, (CTW.predictor P fresh ctx).run (CTW.init fresh) xs = .ok (r, n) := by
  obtain ⟨r, n, h, _⟩ := (CTWNode.updateLawful hP hc).run_ok (CTWNode.WF.new hf d) hx
  exact ⟨r, n, h⟩

/-- **C14 and C15.** Over a lawful base model, in every state that predictions and updates can reach, `log_predict`
returns what `update` returns, neither raises, and the predicted probabilities sum to one. -/
theorem C14_CTW_predict_eq_update (I : σ → Prop) (A : List α) (W : ℝ → Prop) (hP : P.Lawful I A W)
    (hf : I fresh) (d : ℕ) (hc : ∀ h, (ctx h).length = d) (n : CTWNode σ κ)
    (hr : Reach (CTW.predictor P fresh ctx) A W (CTW.init fresh) n) (a : α) (ha : a ∈ A) (h : List α)
    (w : ℝ) (hw : W w) :
    ∃ r n' t, (CTW.predictor P fresh ctx).update n a h w = .ok (r, n') ∧
      (CTW.predictor P fresh ctx).logPredict n a h = .ok (r, t) := by
  have hL := CTWNode.lawful (fresh := fresh) hP hc
  have hs := hL.reach (CTWNode.WF.new hf d) hr
  obtain ⟨r, n', hu, _⟩ := hL.update_ok n a h w hs ha hw
  obtain ⟨t, ht⟩ := hL.coherent n a h w hs ha hw r n' hu
  exact ⟨r, n', t, hu, ht⟩

/-- **C15.** -/
theorem C15_CTW_normalised (I : σ → Prop) (A : List α) (W : ℝ → Prop) (hP : P.Lawful I A W)
    (hf : I fresh) (d : ℕ) (hc : ∀ h, (ctx h).length = d) (n : CTWNode σ κ)
    (hr : Reach (CTW.predictor P fresh ctx) A W (CTW.init fresh) n) (h : List α) :
    (A.map fun a => probOf ((CTW.predictor P fresh ctx).logPredict n a h)).sum = 1 ∧
    ∀ a ∈ A, ∃ p t, (CTW.predictor P fresh ctx).predict n a h = .ok (p, t) ∧ 0 < p := by
  have hL := CTWNode.lawful (fresh := fresh) hP hc
  have hs := hL.reach (CTWNode.WF.new hf d) hr
  refine ⟨hL.normalised n h hs, ?_⟩
  intro a ha
  obtain ⟨r, t, ht, _⟩ := hL.predict_ok n a h hs ha
  exact ⟨Real.exp r, t, by simp [predict, ht], Real.exp_pos r⟩

/-- **C16.** On every sequence and for every pruning of the context tree, the loss of `CTW` exceeds the loss of the
pruned tree source by at most the pruning's description length in bits. -/
theorem C16_CTW_regret [Fintype κ] (d : ℕ) (xs : List (Obs α)) (hc : ∀ o ∈ xs, (ctx o.hist).length = d)
    (r : ℝ) (n : CTWNode σ κ) (hr : (CTW.predictor P fresh ctx).run (CTW.init fresh) xs = .ok (r, n))
    (t : Pruning κ d) :
    (1/2 : ℝ) ^ t.cost * t.prob (P.seqProb fresh) (withCtx ctx xs) ≤ Real.exp r := by
  rw [C13_CTW_closed_form P fresh ctx d xs hc r n hr]
  apply ctwProb_ge_pruning
  · simp [seqProb, Predictor.run, probOf]
  · exact P.seqProb_nonneg fresh

/-- A pruning of depth 2 with three leaves has cost 3 bits: two for the split and the shallow leaf, and one for the
inner split; the leaves at maximal depth are free. -/
example : (Pruning.split (d := 1) fun c : Bool =>
    if c then .leaf else .split (d := 0) fun _ => .leaf).cost = 3 := by decide

/-- **C17.** After a `log_predict` on any tree, every later sequence of updates and predictions returns what it would
have returned without it, provided the base model's own predictions have no observable effect. -/
theorem C17_CTW_predict_pure (hP : P.PurePredict) (n t : CTWNode σ κ) (a : α) (h : List α) (r : ℝ)
    (hp : (CTW.predictor P fresh ctx).logPredict n a h = .ok (r, t)) (cs : List (Call α)) :
    (CTW.predictor P fresh ctx).outputs t cs = (CTW.predictor P fresh ctx).outputs n cs :=
  ((CTWNode.purePredict hP ctx n a h r t hp).outputs_eq cs).symm

/-- **C17 for the other models.** The estimators satisfy the proviso, and `Averager` passes it on. -/
theorem C17_base_models_pure {β : Type} [DecidableEq β] :
    (KT.predictor : Predictor (KT β) β).PurePredict ∧ KTBinary.predictor.PurePredict ∧
    (SAD.predictor : Predictor (SAD β) β).PurePredict ∧
    (P.PurePredict → (Averager.predictor P).PurePredict) :=
  ⟨KT.pure, KTBinary.pure, SAD.pure, Averager.purePredict⟩

/-- The prediction does change the tree: on a new model of depth 1 it creates a child. -/
example : ∃ r t, (CTW.predictor KTBinary.predictor (KTBinary.init none) (CTW.mkcontext 1 false)).logPredict
    (CTW.init (KTBinary.init none)) true [] = .ok (r, t) ∧ t ≠ CTW.init (KTBinary.init none) := by
  have hlp : KTBinary.predictor.logPredict (KTBinary.init none) true [] =
      .ok (Real.log (1/2), KTBinary.init none) := by
    norm_num [KTBinary.predictor, KTBinary.logPredict, KTBinary.init, KTBinary.get, pyDiv, pyLog]
  refine ⟨log05 + logsumexp2 (0 + Real.log (1/2)) (0 + (0 + Real.log (1/2) - 0)) - 0,
    CTWNode.mk (KTBinary.init none) 0 0 0 (Function.update (fun _ => none) false (some (CTWNode.mk (KTBinary.init none) 0 0 0 fun _ => none))), ?_, ?_⟩
  · simp only [CTW.predictor, CTW.mkcontext, pyTail, CTW.init, CTWNode.new]
    simp [CTWNode.logPredict, hlp, CTWNode.new, CTWNode.base, CTWNode.lp, CTWNode.baseLP, CTWNode.childrenLP,
      CTWNode.children]
  · intro h
    have := congrArg (fun n => n.children false) h
    simp [CTW.init, CTWNode.new] at this

end General

section Context

variable {α : Type}

/-- **C18, partial** (depth at least 1). The default context consists of exactly `depth` symbols: it is what remains
of the zero-padded history after dropping as many symbols as the history is long.  Missing: depth 0, where the
code uses the whole history (`C18_depth_zero_context`). -/
theorem C18_mkcontext_partial (depth : ℕ) (hd : 1 ≤ depth) (zero : α) (x : List α) :
    (CTW.mkcontext depth zero x).length = depth ∧
    CTW.mkcontext depth zero x = (List.replicate depth zero ++ x).drop x.length := by
  have h0 : depth ≠ 0 := by omega
  constructor
  · simp only [CTW.mkcontext, pyTail, if_neg h0, List.length_append, List.length_replicate, List.length_drop]
    omega
  · simp only [CTW.mkcontext, pyTail, if_neg h0, List.drop_append, List.drop_replicate, List.length_replicate]

/-- **C18, partial** (locality). For depth at least 1 and a base model that ignores the history, two histories with
the same last `depth` symbols are treated identically. -/
theorem C18_locality_partial {σ : Type} [DecidableEq α] (P : Predictor σ α)
    (hu : ∀ s a h h' w, P.update s a h w = P.update s a h' w)
    (hp : ∀ s a h h', P.logPredict s a h = P.logPredict s a h') (fresh : σ) (zero : α) (last u v : List α)
    (hd : 1 ≤ last.length) (n : CTWNode σ α) (a : α) (w : ℝ) :
    (CTW.predictor P fresh (CTW.mkcontext last.length zero)).update n a (u ++ last) w =
      (CTW.predictor P fresh (CTW.mkcontext last.length zero)).update n a (v ++ last) w ∧
    (CTW.predictor P fresh (CTW.mkcontext last.length zero)).logPredict n a (u ++ last) =
      (CTW.predictor P fresh (CTW.mkcontext last.length zero)).logPredict n a (v ++ last) := by
  have h0 : last.length ≠ 0 := by omega
  have hctx : ∀ u : List α, CTW.mkcontext last.length zero (u ++ last) = last := by
    intro u
    simp only [CTW.mkcontext, pyTail, if_neg h0]
    simp
  have eu : ∀ (cs : List α) (n : CTWNode σ α) (h h' : List α),
      n.update P fresh a h w cs = n.update P fresh a h' w cs := by
    intro cs
    induction cs with
    | nil => intro n h h'; simp only [CTWNode.update, hu n.base a h h' w]
    | cons c cs ih =>
      intro n h h'
      simp only [CTWNode.update, hu n.base a h h' w, ih _ h h']
  have ep : ∀ (cs : List α) (n : CTWNode σ α) (h h' : List α),
      n.logPredict P fresh a h cs = n.logPredict P fresh a h' cs := by
    intro cs
    induction cs with
    | nil => intro n h h'; simp only [CTWNode.logPredict, hp n.base a h h']
    | cons c cs ih =>
      intro n h h'
      simp only [CTWNode.logPredict, hp n.base a h h', ih _ h h']
  constructor
  · simp only [CTW.predictor, hctx]
    exact eu _ _ _ _
  · simp only [CTW.predictor, hctx]
    exact ep _ _ _ _

/-- **C18 fails at depth 0**: the context is the entire history. -/
theorem C18_depth_zero_context (zero : α) (x : List α) : CTW.mkcontext 0 zero x = x := by
  simp [CTW.mkcontext, pyTail]

/-- **C18 fails at depth 0 (consequence).** After the first symbol, the two predictions of `CTW(0)` sum to 3/2. -/
theorem C18_depth_zero_not_normalised :
    ∃ r n, (CTW.predictor KTBinary.predictor (KTBinary.init none) (CTW.mkcontext 0 false)).update
        (CTW.init (KTBinary.init none)) false [] 1 = .ok (r, n) ∧
      ([false, true].map fun a => probOf ((CTW.predictor KTBinary.predictor (KTBinary.init none)
        (CTW.mkcontext 0 false)).logPredict n a [false])).sum = 3/2 := by
  have hu : KTBinary.predictor.update (KTBinary.init none) false [] 1 =
      .ok (Real.log (1/2), ⟨3/2, 1/2⟩) := by
    norm_num [KTBinary.predictor, KTBinary.update, KTBinary.logPredict, KTBinary.init, KTBinary.get, pyDiv, pyLog,
      KTBinary.bump]
  have hp0 : ∀ a, KTBinary.predictor.logPredict (KTBinary.init none) a [false] =
      .ok (Real.log (1/2), KTBinary.init none) := by
    intro a
    cases a <;>
    norm_num [KTBinary.predictor, KTBinary.logPredict, KTBinary.init, KTBinary.get, pyDiv, pyLog]
  have hpf : KTBinary.predictor.logPredict ⟨3/2, 1/2⟩ false [false] = .ok (Real.log (3/4), ⟨3/2, 1/2⟩) := by
    norm_num [KTBinary.predictor, KTBinary.logPredict, KTBinary.get, pyDiv, pyLog]
  have hpt : KTBinary.predictor.logPredict ⟨3/2, 1/2⟩ true [false] = .ok (Real.log (1/4), ⟨3/2, 1/2⟩) := by
    norm_num [KTBinary.predictor, KTBinary.logPredict, KTBinary.get, pyDiv, pyLog]
  refine ⟨Real.log (1/2), CTWNode.mk ⟨3/2, 1/2⟩ (Real.log (1/2)) 0 (Real.log (1/2)) (fun _ => none), ?_, ?_⟩
  · simp only [CTW.predictor, C18_depth_zero_context, List.reverse_nil, CTWNode.update, CTW.init, CTWNode.new,
      CTWNode.base_mk, hu]
    simp
  · simp only [CTW.predictor, C18_depth_zero_context, List.reverse_cons, List.reverse_nil, List.nil_append,
      CTWNode.logPredict, CTWNode.base_mk, CTWNode.children_mk, Option.getD_none, CTWNode.new, hp0, hpf, hpt,
      List.map_cons, List.map_nil, ok_bind, pure_eq_ok, probOf_ok, CTWNode.baseLP_mk, CTWNode.childrenLP_mk,
      CTWNode.lp_mk, List.sum_cons, List.sum_nil]
    rw [Real.exp_sub, Real.exp_sub, exp_half_lse2, exp_half_lse2]
    simp only [Real.exp_add, Real.exp_sub, Real.exp_zero]
    rw [Real.exp_log (by norm_num), Real.exp_log (by norm_num), Real.exp_log (by norm_num)]
    norm_num

/-- A history longer than the depth, and one shorter. -/
example : CTW.mkcontext 2 0 [5, 6, 7] = [6, 7] ∧ CTW.mkcontext 3 0 [7] = [0, 0, 7] := by decide

end Context

section CTWKT

/-- **C19.** `CTW_KT(depth)` and `CTW(depth)` with default arguments return the same values, or raise the same first
exception, for every sequence of calls. -/
theorem C19_CTW_KT_eq_CTW (depth : ℕ) (cs : List (Call Bool)) :
    (KNode.predictor depth).outputs KNode.new cs =
      (CTW.predictor KTBinary.predictor (KTBinary.init none) (CTW.mkcontext depth false)).outputs
        (CTW.init (KTBinary.init none)) cs :=
  KNode.corr_new.outputs_eq depth cs

/-- The default `CTW` of depth at least 1, concretely: every run of non-negative weights succeeds, its probability is
the context-tree mixture over KT estimators, and after it the two predictions sum to one. -/
theorem C13_CTW_default (depth : ℕ) (hd : 1 ≤ depth) (xs : List (Obs Bool)) (hw : ∀ o ∈ xs, 0 ≤ o.weight)
    (h : List Bool) :
    let M := CTW.predictor KTBinary.predictor (KTBinary.init none) (CTW.mkcontext depth false)
    ∃ r n, M.run (CTW.init (KTBinary.init none)) xs = .ok (r, n) ∧
      Real.exp r = ctwProb (KTBinary.predictor.seqProb (KTBinary.init none)) depth
        (withCtx (CTW.mkcontext depth false) xs) ∧
      ([false, true].map fun a => probOf (M.logPredict n a h)).sum = 1 := by
  intro M
  have hlen : ∀ h, (CTW.mkcontext depth false h).length = depth :=
    fun h => (C18_mkcontext_partial depth hd false h).1
  have hL := CTWNode.lawful (fresh := KTBinary.init none) KTBinary.lawful hlen
  have hf : 0 < (KTBinary.init none).c0 ∧ 0 < (KTBinary.init none).c1 := by norm_num [KTBinary.init]
  obtain ⟨r, n, hr, hn⟩ := hL.updateLawful.run_ok
    (CTWNode.WF.new (I := fun s : KTBinary => 0 < s.c0 ∧ 0 < s.c1) hf depth) (xs := xs)
    (fun o ho => ⟨by cases o.sym <;> simp, hw o ho⟩)
  exact ⟨r, n, hr, C13_CTW_closed_form _ _ _ depth xs (fun o _ => hlen _) r n hr, hL.normalised n h hn⟩

end CTWKT

section CopyDict

variable {σ κ α : Type} (P : Predictor σ α)

/-- **C23 fails**: copying a `CTW` with non-binary contexts raises for every tree; the exception is `TypeError`
whenever the base model itself can be copied. -/
theorem C23_copy_always_fails (n : CTWNode σ κ) :
    (∃ e, CTW.copyDict P n = .error e) ∧
    ((∃ b, P.copy n.base = .ok b) → CTW.copyDict P n = .error .typeError) := by
  constructor
  · cases h : P.copy n.base with
    | error e => exact ⟨e, by simp [CTW.copyDict, h]⟩
    | ok b => exact ⟨.typeError, by simp [CTW.copyDict, h]⟩
  · rintro ⟨b, hb⟩
    simp [CTW.copyDict, hb]

end CopyDict

end Verif
