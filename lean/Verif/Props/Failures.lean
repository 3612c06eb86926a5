import Verif.Proofs.Failures
import Verif.Props.Copy
import Verif.Proofs.Seq

/-! C121: what an update that raises leaves behind. -/

namespace Verif

open XPredictor Predictor

variable {σ α : Type} {X : XPredictor σ α} {P : Predictor σ α} {I : σ → Prop} {err : α → List α → Option PyErr}

/-- **C121 (the same methods).** Apart from the state after an exception, these are the methods of the other properties. -/
theorem C121_models [DecidableEq α] :
    Models (KT.xpredictor (α := α)) KT.predictor ∧ Models KTBinary.xpredictor KTBinary.predictor ∧ Models (SAD.xpredictor (α := α)) SAD.predictor ∧
    ∀ (X : XPredictor σ α) (P : Predictor σ α), Models X P → Models (Averager.xpredictor X) (Averager.predictor P) ∧
      (∀ (κ : Type) (_ : DecidableEq κ) (fresh : σ) (ctx : List α → List κ),
        Models (CTW.xpredictor X fresh (fun _ => true) ctx) (CTW.predictor P fresh ctx)) ∧
      (∀ fresh h0, Models (PTW.xpredictor X fresh h0) (PTW.predictor P fresh h0)) ∧
      (∀ fresh h0 height, Models (PTWFixedLength.xpredictor X fresh h0 height) (PTWFixedLength.predictor P fresh h0 height)) ∧
      (∀ (S : Type) (St : Store S σ) m, Models (FMN.xpredictor St P X m) (FMN.predictor St P m)) :=
  ⟨KT.xmodels, KTBinary.xmodels, SAD.xmodels, fun _ _ hX => ⟨Averager.xmodels hX, fun _ _ fresh ctx => CTW.xmodels hX fresh ctx,
    fun fresh h0 => PTW.xmodels hX fresh h0, fun fresh h0 height => PTWFixedLength.xmodels hX fresh h0 height, fun _ _ m => FMN.xmodels hX m⟩⟩

/-- **C121 (estimators).** An update of a `KT`, `KTBinary` or `SAD` model that raises leaves it as it was, in every state and for every argument. -/
theorem C121_estimators [DecidableEq α] (w : ℝ) (e : PyErr) :
    (∀ (s : KT α) a h, (KT.xpredictor.update s a h w).1 = .error e → (KT.xpredictor.update s a h w).2 = s) ∧
    (∀ (s : KTBinary) b h, (KTBinary.xpredictor.update s b h w).1 = .error e → (KTBinary.xpredictor.update s b h w).2 = s) ∧
    (∀ (s : SAD α) a h, (SAD.xpredictor.update s a h w).1 = .error e → (SAD.xpredictor.update s a h w).2 = s) := by
  refine ⟨fun s a h hh => KT.xupdate_error s a w e hh, fun s b h hh => ?_, fun s a h hh => SAD.xupdate_error s a w e hh⟩
  simp only [KTBinary.xpredictor] at hh ⊢
  cases h1 : s.logPredict b with
  | error e => rfl
  | ok r => rw [h1] at hh; cases hh

/-- **C121 (KT).** A `KT` model over the alphabet `A` raises `KeyError` for exactly the other symbols, changes nothing then, and goes on as if the update
had not been tried. -/
theorem C121_KT [DecidableEq α] (A : List α) : Atomic (KT.xpredictor (α := α)) (KT.Good A) (KT.err A) ∧
    ∀ s, KT.Good A s → Transparent KT.xpredictor s :=
  ⟨KT.atomic A, fun _ hs => (KT.atomic A).transparent hs⟩

/-- **C121 (Averager).** If the components raise for the same symbols and histories, an update of the mixture that raises changes nothing. -/
theorem C121_Averager (hX : Atomic X I err) : Atomic (Averager.xpredictor X) (Averager.Sound I) err ∧
    ∀ ms s, (∀ m ∈ ms, I m) → Averager.init ms = .ok s → Transparent (Averager.xpredictor X) s := by
  refine ⟨Averager.atomic hX, fun ms s hm hs => (Averager.atomic hX).transparent ?_⟩
  obtain ⟨hne, rfl⟩ := Averager.init_ok.mp hs
  refine ⟨by simpa using hne, fun x hx => ?_⟩
  obtain ⟨y, hy, rfl⟩ := List.mem_map.1 hx
  exact hm y hy

theorem Averager.xupdateModels_failed (a : α) (h : List α) (w : ℝ) (e : PyErr) (m m' : σ) (lp : ℝ) (later : List (σ × ℝ))
    (hm : X.update m a h w = (.error e, m')) : ∀ before before' : List (σ × ℝ),
    List.Forall₂ (fun x y => ∃ r, X.update x.1 a h w = (.ok r, y.1) ∧ y.2 = x.2 + r) before before' →
    Averager.xupdateModels X a h w (before ++ (m, lp) :: later) = (.error e, before' ++ (m', lp) :: later)
  | _, _, .nil => by simp only [List.nil_append, Averager.xupdateModels, hm]
  | (x, lx) :: _, (y, ly) :: _, .cons ⟨r, h1, h2⟩ hrest => by
    dsimp only at h1 h2
    simp only [List.cons_append, Averager.xupdateModels, h1, Averager.xupdateModels_failed a h w e m m' lp later hm _ _ hrest, h2]

/-- **C121 (a component that raises).** If a component of a mixture raises, then the components before it have been updated, it is as its own update left it,
and the components after it and the probability of the mixture are as before. -/
theorem C121_Averager_failed (a : α) (h : List α) (w : ℝ) (e : PyErr) (before before' later : List (σ × ℝ)) (m m' : σ) (lp total : ℝ)
    (hb : List.Forall₂ (fun x y => ∃ r, X.update x.1 a h w = (.ok r, y.1) ∧ y.2 = x.2 + r) before before')
    (hm : X.update m a h w = (.error e, m')) :
    (Averager.xpredictor X).update ⟨before ++ (m, lp) :: later, total⟩ a h w = (.error e, ⟨before' ++ (m', lp) :: later, total⟩) := by
  show Averager.xupdate X _ a h w = _
  simp only [Averager.xupdate, Averager.xupdateModels_failed a h w e m m' lp later hm _ _ hb]

/-- **C121 (a child that raises).** If the update of a child of a context tree raises, then the base model of the node has been updated and so has its
probability; the child is in the tree as its own update left it; the other children and the two other probabilities of the node are as before. -/
theorem C121_CTW_failed {κ : Type} [DecidableEq κ] (fresh : σ) (valid : κ → Bool) (n t : CTWNode σ κ) (c : κ) (cs : List κ) (a : α) (h : List α)
    (w r : ℝ) (b : σ) (e : PyErr) (hb : X.update n.base a h w = (.ok r, b)) (hv : valid c = true)
    (hc : ((n.children c).getD (CTWNode.new fresh)).xupdate X fresh valid a h w cs = (.error e, t)) :
    ∃ n', n.xupdate X fresh valid a h w (c :: cs) = (.error e, n') ∧ n'.base = b ∧ n'.baseLP = n.baseLP + r ∧ n'.childrenLP = n.childrenLP ∧
      n'.lp = n.lp ∧ n'.children c = some t ∧ ∀ d, d ≠ c → n'.children d = n.children d := by
  refine ⟨.mk b (n.baseLP + r) n.childrenLP n.lp (Function.update n.children c (some t)), ?_, rfl, rfl, rfl, rfl, ?_, ?_⟩
  · simp only [CTWNode.xupdate, hb, hv, hc, Bool.true_eq_false, if_false]
  · simp [CTWNode.children]
  · intro d hd
    simp [CTWNode.children, hd]

/-- **C121 (a later segment that raises).** If the update of the right child of a partition tree raises, then the base model of the node has been updated
and so has its probability; the right child is as its own update left it; the number of symbols, the height and the two other probabilities of the node
are as before. -/
theorem C121_PTW_failed (fresh : Py σ) (h0 : ℕ) (d : PTWData σ) (t t' : PTWNode σ) (a : α) (h : List α) (w r : ℝ) (b : σ) (e : PyErr)
    (hd : d.complete = false) (hb : X.update d.base a h w = (.ok r, b)) (ht : t.xupdate X fresh h0 a h w = (.error e, t')) :
    (PTWNode.inner d t).xupdate X fresh h0 a h w =
      (.error e, .inner ⟨b, d.height, d.count, d.baseLP + r, d.leftLP, d.lp⟩ t') := by
  simp only [PTWNode.xupdate, hd, hb, ht, PTWNode.xcombine, Bool.false_eq_true, if_false]

/-- **C121 (a factory that raises).** If a new base model cannot be made for the next segment, then no model has seen the symbol; the probability of the
segment that is complete has become that of the left child. -/
theorem C121_PTW_factory_failed (h0 : ℕ) (d : PTWData σ) (t : PTWNode σ) (a : α) (h : List α) (w : ℝ) (e : PyErr) (hd : d.complete = true) :
    (PTWNode.leaf d).xupdate X (.error e) h0 a h w = (.error e, .leaf ⟨d.base, d.height, d.count, d.baseLP, d.lp, d.lp⟩) ∧
    (PTWNode.inner d t).xupdate X (.error e) h0 a h w = (.error e, .inner ⟨d.base, d.height, d.count, d.baseLP, d.lp, d.lp⟩ t) := by
  constructor <;> simp only [PTWNode.xupdate, hd, if_true, PTWNode.xpromoted, PTWNode.withData, PTWNode.data]

/-- **C121 (a store that raises).** If the update of the trees of a forget-me-not model succeeds and storing the model of the segment raises, then the symbol
counts as seen, the trees are updated and the store is as before. -/
theorem C121_FMN_failed {S : Type} (St : Store S σ) (m : ℕ) (s : FMN S σ) (t : PTW (Averager σ)) (a : α) (h : List α) (w r : ℝ) (e : PyErr)
    (hu : s.ptw.xupdate (Averager.xpredictor X) (FMN.modelFactory P (St.items s.store)) m a h w = (.ok r, t)) (hm : (s.t + 1) % 2 ^ m = 0)
    (he : St.lazyAdd s.store (FMN.best P t) = .error e) :
    (FMN.xpredictor St P X m).update s a h w = (.error e, ⟨t, s.store, s.t + 1⟩) := by
  show FMN.xupdate St P X m s a h w = _
  simp only [FMN.xupdate, hu, hm, he, if_true]

/-- **C121 (CTW).** If all contexts can be used as indices of the children, an update of the tree that raises changes nothing. -/
theorem C121_CTW {κ : Type} [DecidableEq κ] (hX : Atomic X I err) {fresh : σ} (hf : I fresh) {valid : κ → Bool} {ctx : List α → List κ}
    (hv : ∀ h, ∀ c ∈ ctx h, valid c = true) : Atomic (CTW.xpredictor X fresh valid ctx) (CTWNode.Sound I) err ∧
      Transparent (CTW.xpredictor X fresh valid ctx) (CTWNode.new fresh) :=
  ⟨CTW.atomic hX hf hv, (CTW.atomic hX hf hv).transparent (.mk hf fun _ _ hc => nomatch hc)⟩

/-- **C121 (PTW).** An update of a `PTW` model that raises cannot be noticed in later updates.  Full statement: `Transparent`, that is in later calls of
both methods.  It is false, see `C121_PTW_log_predict`. -/
theorem C121_PTW_partial (hX : Atomic X I err) {fresh : σ} (hf : I fresh) (h0 : ℕ) : FailSafe (PTW.xpredictor X fresh h0) (PTW.init fresh h0) :=
  (PTW.recovers hX hf h0).failSafe (.leaf hf (by simp [PTWData.new]))

/-- **C121 (PTWFixedLength).** The same for a fixed length.  Full statement: `Transparent`; it is false, since the trees are those of `PTW`. -/
theorem C121_PTWFixedLength_partial (hX : Atomic X I err) {fresh : σ} (hf : I fresh) (h0 height : ℕ) :
    FailSafe (PTWFixedLength.xpredictor X fresh h0 height) (PTW.init fresh h0) :=
  (PTWFixedLength.recovers hX hf h0 height).failSafe (.leaf hf (by simp [PTWData.new]))

/-- **C121 (FMN).** The same for forget-me-not models with either store: a failed update does not count as a symbol and puts nothing in the store.  Full
statement: `Transparent`; it is false, since the trees are those of `PTW`. -/
theorem C121_FMN_partial (hX : Atomic X I err) (hC : P.Copyable I) {f : σ} (hf : I f) (m : ℕ) :
    (∃ s, FMN.init (LogStore.store σ) P f m = .ok s ∧ FailSafe (FMN.xpredictor (LogStore.store σ) P X m) s) ∧
    (∃ s, FMN.init (LogStoreUniform.store σ) P f m = .ok s ∧ FailSafe (FMN.xpredictor (LogStoreUniform.store σ) P X m) s) := by
  constructor
  · obtain ⟨s, h1, h2⟩ := FMN.init_fit (m := m) hC (LogStore.lawful σ) hf
    exact ⟨s, h1, (FMN.recovers hX hC (LogStore.lawful σ) m).failSafe h2⟩
  · obtain ⟨s, h1, h2⟩ := FMN.init_fit (m := m) hC (LogStoreUniform.lawful σ) hf
    exact ⟨s, h1, (FMN.recovers hX hC (LogStoreUniform.lawful σ) m).failSafe h2⟩

/-- **C121 (update_seq).** If an update of `update_seq` raises, the updates before it are done, and the caller's history has grown by their symbols. -/
theorem C121_update_seq (s : σ) (seq h : List α) (w : ℝ) (e : PyErr) (hh : (X.updateSeq s seq h w).1 = .error e) :
    ∃ i, ∃ hi : i < seq.length, ∃ t, (X.updateSeq s seq h w).2 = (t, h ++ seq.take i) ∧
      (∃ t', t' = X.after s ((seqObs h w (seq.take i)).map fun o => .update o.sym o.hist o.weight) ∧ X.update t' seq[i] (h ++ seq.take i) w = (.error e, t)) ∧
      (∀ x ∈ X.outcomes s ((seqObs h w (seq.take i)).map fun o => .update o.sym o.hist o.weight), ∃ r, x = .ok r) := by
  have key : ∀ (seq : List α) (s : σ) (h : List α) (rv : ℝ), (X.updateSeqLoop w s seq h rv).1 = .error e →
      ∃ i, ∃ hi : i < seq.length, ∃ t, (X.updateSeqLoop w s seq h rv).2 = (t, h ++ seq.take i) ∧
        (∃ t', t' = X.after s ((seqObs h w (seq.take i)).map fun o => .update o.sym o.hist o.weight) ∧ X.update t' seq[i] (h ++ seq.take i) w = (.error e, t)) ∧
        (∀ x ∈ X.outcomes s ((seqObs h w (seq.take i)).map fun o => .update o.sym o.hist o.weight), ∃ r, x = .ok r) := by
    intro seq
    induction seq with
    | nil => intro s h rv hh; cases hh
    | cons a seq ih =>
      intro s h rv hh
      rw [XPredictor.updateSeqLoop] at hh ⊢
      cases hu : X.update s a h w with
      | mk q s' =>
        rw [hu] at hh
        cases q with
        | error e' =>
          obtain rfl : e' = e := by simpa using hh
          exact ⟨0, by simp, s', by simp, ⟨s, rfl, by simpa using hu⟩, by simp [seqObs, outcomes]⟩
        | ok r =>
          obtain ⟨i, hi, t, h1, ⟨t', h2, h3⟩, h4⟩ := ih s' (h ++ [a]) (rv + r) hh
          refine ⟨i + 1, by simpa using hi, t, by simpa using h1, ⟨t', ?_, by simpa using h3⟩, ?_⟩
          · rw [List.take_succ_cons, seqObs_cons, List.map_cons, XPredictor.after, call, hu]
            exact h2
          · rw [List.take_succ_cons, seqObs_cons, List.map_cons, outcomes, call, hu]
            intro x hx
            rcases List.mem_cons.1 hx with rfl | hx
            · exact ⟨r, rfl⟩
            · exact h4 x hx
  have hl : (X.updateSeqLoop w s seq h 0).1 = .error e := by
    unfold XPredictor.updateSeq at hh
    cases hq : (X.updateSeqLoop w s seq h 0).1 with
    | error e' => simp only [hq] at hh; rw [hh]
    | ok r => simp only [hq] at hh; cases hh
  have h2 : (X.updateSeq s seq h w).2 = (X.updateSeqLoop w s seq h 0).2 := by simp only [XPredictor.updateSeq, hl]
  rw [h2]
  exact key seq s h 0 hl

/-! Failed updates that are noticed. -/

/-- A new `KT` model for two symbols. -/
noncomputable def kt01 : KT ℕ := ⟨[(0, 1 / 2), (1, 1 / 2)], 1⟩

/-- A new `KT` model for one symbol. -/
noncomputable def kt0 : KT ℕ := ⟨[(0, 1)], 1⟩

theorem kt01_init : KT.init [0, 1] none = .ok kt01 := by
  simp only [KT.init, KT.comprehension, pyDiv, kt01]
  norm_num [PyDict.set, PyDict.values]

theorem kt0_init : KT.init [0] none = .ok kt0 := by
  simp only [KT.init, KT.comprehension, pyDiv, kt0]
  norm_num [PyDict.set, PyDict.values]

theorem kt01_good : KT.Good [0, 1] kt01 := ⟨rfl, by simp [kt01], by norm_num [kt01, PyDict.values]⟩

/-- `log_predict` of a model for two symbols. -/
theorem kt01_predict (x y : ℝ) (hx : 0 < x) (hy : 0 < y) :
    (KT.logPredict (α := ℕ) ⟨[(0, x), (1, y)], x + y⟩ 0 = .ok (Real.log (x / (x + y)))) ∧
    (KT.logPredict (α := ℕ) ⟨[(0, x), (1, y)], x + y⟩ 1 = .ok (Real.log (y / (x + y)))) := by
  have hg : KT.Good [0, 1] (⟨[(0, x), (1, y)], x + y⟩ : KT ℕ) := ⟨rfl, by simp [hx, hy], by simp [PyDict.values]⟩
  exact ⟨hg.logPredict (by simp) (by simp [PyDict.get?]), hg.logPredict (by simp) (by simp [PyDict.get?])⟩

theorem kt01_eq : kt01 = ⟨[(0, 1 / 2), (1, 1 / 2)], 1 / 2 + 1 / 2⟩ := by norm_num [kt01]

/-- `kt01` after one `0`. -/
noncomputable def kt01' : KT ℕ := ⟨[(0, 3 / 2), (1, 1 / 2)], 3 / 2 + 1 / 2⟩

/-- `kt01` after one `1`. -/
noncomputable def kt01'' : KT ℕ := ⟨[(0, 1 / 2), (1, 3 / 2)], 1 / 2 + 3 / 2⟩

theorem kt01_update (h : List ℕ) : KT.xpredictor.update kt01 0 h 1 = (.ok (Real.log (1 / 2)), kt01') ∧
    KT.xpredictor.update kt01 1 h 1 = (.ok (Real.log (1 / 2)), kt01'') := by
  rw [kt01_eq]
  constructor
  · simp only [KT.xpredictor, KT.xupdate, (kt01_predict (1 / 2) (1 / 2) (by norm_num) (by norm_num)).1, PyDict.getE, PyDict.get?]
    norm_num [PyDict.set, kt01']
  · simp only [KT.xpredictor, KT.xupdate, (kt01_predict (1 / 2) (1 / 2) (by norm_num) (by norm_num)).2, PyDict.getE, PyDict.get?]
    norm_num [PyDict.set, kt01'']

theorem kt01_predicts (h : List ℕ) : KT.xpredictor.logPredict kt01 0 h = (.ok (Real.log (1 / 2)), kt01) ∧
    KT.xpredictor.logPredict kt01 1 h = (.ok (Real.log (1 / 2)), kt01) ∧
    KT.xpredictor.logPredict kt01' 0 h = (.ok (Real.log (3 / 4)), kt01') ∧ KT.xpredictor.logPredict kt01' 1 h = (.ok (Real.log (1 / 4)), kt01') := by
  have h1 := kt01_predict (1 / 2) (1 / 2) (by norm_num) (by norm_num)
  have h2 := kt01_predict (3 / 2) (1 / 2) (by norm_num) (by norm_num)
  rw [← kt01_eq] at h1
  rw [← kt01'] at h2
  simp only [KT.xpredictor, h1.1, h1.2, h2.1, h2.2]
  norm_num

theorem kt_fails {s : KT ℕ} {a : ℕ} {A : List ℕ} (hs : KT.Good A s) (ha : a ∉ A) (h : List ℕ) : KT.xpredictor.update s a h 1 = (.error .keyError, s) :=
  (KT.atomic A).fails s a h 1 .keyError hs (by norm_num) (by simp [KT.err, ha])

theorem kt0_update (h : List ℕ) : KT.xpredictor.update kt0 0 h 1 = (.ok (Real.log 1), ⟨[(0, 2)], 2⟩) ∧
    KT.xpredictor.update kt0 1 h 1 = (.error .keyError, kt0) := by
  have hg : KT.Good [0] kt0 := ⟨rfl, by simp [kt0], by simp [kt0, PyDict.values]⟩
  refine ⟨?_, kt_fails hg (by simp) h⟩
  simp only [KT.xpredictor, KT.xupdate, hg.logPredict (a := 0) (c := 1) (by simp) (by simp [kt0, PyDict.get?])]
  simp [kt0, PyDict.getE, PyDict.get?, PyDict.set]
  norm_num

/-- **C121 (mixed alphabets).** In a mixture of a model for `0` and `1` and a model for `0`, an update with `1` raises after the first component was updated:
the next update with `0` has probability 9/16, instead of 3/4. -/
theorem C121_Averager_mixed : ∃ s, Averager.init [kt01, kt0] = .ok s ∧
    ((Averager.xpredictor KT.xpredictor).update s 1 [] 1).1 = .error .keyError ∧
    ((Averager.xpredictor KT.xpredictor).update s 0 [] 1).1 = .ok (Real.log (3 / 4)) ∧
    ((Averager.xpredictor KT.xpredictor).update ((Averager.xpredictor KT.xpredictor).update s 1 [] 1).2 0 [] 1).1 = .ok (Real.log (9 / 16)) ∧
    ¬FailSafe (Averager.xpredictor KT.xpredictor) s := by
  have hi : Averager.init [kt01, kt0] = .ok ⟨[(kt01, Real.log (1 / 2)), (kt0, Real.log (1 / 2))], 0⟩ := by
    rw [Averager.init_ok]
    exact ⟨by simp, by norm_num⟩
  have h1 : (Averager.xpredictor KT.xpredictor).update ⟨[(kt01, Real.log (1 / 2)), (kt0, Real.log (1 / 2))], 0⟩ 1 [] 1
      = (.error .keyError, ⟨[(kt01'', Real.log (1 / 2) + Real.log (1 / 2)), (kt0, Real.log (1 / 2))], 0⟩) := by
    simp only [Averager.xpredictor, Averager.xupdate, Averager.xupdateModels, (kt01_update []).2, (kt0_update []).2]
  have h2 : ((Averager.xpredictor KT.xpredictor).update ⟨[(kt01, Real.log (1 / 2)), (kt0, Real.log (1 / 2))], 0⟩ 0 [] 1).1 = .ok (Real.log (3 / 4)) := by
    simp only [Averager.xpredictor, Averager.xupdate, Averager.xupdateModels, (kt01_update []).1, (kt0_update []).1, List.map_cons, List.map_nil]
    rw [logsumexp_eq (by simp)]
    simp only [List.map_cons, List.map_nil, List.sum_cons, List.sum_nil, Real.exp_add, Real.exp_log (show (0 : ℝ) < 1 / 2 by norm_num),
      Real.exp_log (show (0 : ℝ) < 1 by norm_num)]
    norm_num
  have h3 : KT.xpredictor.update kt01'' 0 [] 1 = (.ok (Real.log (1 / 4)), ⟨[(0, 3 / 2), (1, 3 / 2)], 3⟩) := by
    simp only [KT.xpredictor, KT.xupdate, kt01'', (kt01_predict (1 / 2) (3 / 2) (by norm_num) (by norm_num)).1, PyDict.getE, PyDict.get?]
    norm_num [PyDict.set]
  have h4 : ((Averager.xpredictor KT.xpredictor).update
      ((Averager.xpredictor KT.xpredictor).update ⟨[(kt01, Real.log (1 / 2)), (kt0, Real.log (1 / 2))], 0⟩ 1 [] 1).2 0 [] 1).1 = .ok (Real.log (9 / 16)) := by
    rw [h1]
    simp only [Averager.xpredictor, Averager.xupdate, Averager.xupdateModels, h3, (kt0_update []).1, List.map_cons, List.map_nil]
    rw [logsumexp_eq (by simp)]
    simp only [List.map_cons, List.map_nil, List.sum_cons, List.sum_nil, Real.exp_add, Real.exp_log (show (0 : ℝ) < 1 / 2 by norm_num),
      Real.exp_log (show (0 : ℝ) < 1 / 4 by norm_num), Real.exp_log (show (0 : ℝ) < 1 by norm_num)]
    norm_num
  refine ⟨_, hi, by rw [h1], h2, h4, fun hf => ?_⟩
  have := hf [] (.update 1 [] 1) .keyError [.update 0 [] 1] (by simp [Call.Fair]) trivial (by simp [Call.IsUpdate]) (by rw [XPredictor.after, call, h1])
  simp only [XPredictor.after, call, outcomes, h2, h4, List.cons.injEq, and_true, Except.ok.injEq] at this
  have := Real.log_injOn_pos (by norm_num [Set.mem_Ioi]) (by norm_num [Set.mem_Ioi]) this
  norm_num at this

/-- **C121 (invalid contexts).** With binary contexts, an update with the history `2` raises `IndexError` after the base model of the root was updated:
from then on the probabilities of the symbols add up to 3/4, while before they were 1/2 each. -/
theorem C121_CTW_context : ∃ t, (CTW.xpredictor KT.xpredictor kt01 (fun c => decide (c < 2)) id).update (CTWNode.new kt01) 0 [2] 1 = (.error .indexError, t) ∧
    ((CTW.xpredictor KT.xpredictor kt01 (fun c => decide (c < 2)) id).logPredict t 0 [0]).1 = .ok (Real.log (7 / 16)) ∧
    ((CTW.xpredictor KT.xpredictor kt01 (fun c => decide (c < 2)) id).logPredict t 1 [0]).1 = .ok (Real.log (5 / 16)) ∧
    ((CTW.xpredictor KT.xpredictor kt01 (fun c => decide (c < 2)) id).logPredict (CTWNode.new kt01) 0 [0]).1 = .ok (Real.log (1 / 2)) ∧
    ¬Transparent (CTW.xpredictor KT.xpredictor kt01 (fun c => decide (c < 2)) id) (CTWNode.new kt01) := by
  have h1 : (CTW.xpredictor KT.xpredictor kt01 (fun c => decide (c < 2)) id).update (CTWNode.new kt01) 0 [2] 1
      = (.error .indexError, .mk kt01' (0 + Real.log (1 / 2)) 0 0 fun _ => none) := by
    simp [CTW.xpredictor, CTWNode.xupdate, CTWNode.new, CTWNode.base, CTWNode.baseLP, CTWNode.childrenLP, CTWNode.lp, CTWNode.children, (kt01_update [2]).1]
  have hp : ∀ (b : KT ℕ) (x q : ℝ) (a : ℕ), 0 < x → 0 < q → KT.xpredictor.logPredict b a [0] = (.ok (Real.log q), b) →
      KT.xpredictor.logPredict kt01 a [0] = (.ok (Real.log (1 / 2)), kt01) →
      ((CTW.xpredictor KT.xpredictor kt01 (fun c => decide (c < 2)) id).logPredict (.mk b (Real.log x) 0 0 fun _ => none) a [0]).1
        = .ok (Real.log (x * q / 2 + 1 / 4)) := by
    intro b x q a hx hq hb hk
    simp only [CTW.xpredictor, CTWNode.xlogPredict, id, List.reverse_cons, List.reverse_nil, List.nil_append, CTWNode.base, CTWNode.baseLP,
      CTWNode.childrenLP, CTWNode.lp, CTWNode.children, hb, Option.getD_none, CTWNode.new, hk]
    simp only [Nat.ofNat_pos, decide_true, Bool.true_eq_false, if_false]
    rw [half_lse2_eq_log]
    simp only [Real.exp_add, Real.exp_log hx, Real.exp_log hq, Real.exp_sub, Real.exp_zero, Real.exp_log (show (0 : ℝ) < 1 / 2 by norm_num)]
    congr 1
    rw [sub_zero]
    congr 1
    ring
  have h7 := hp kt01' (1 / 2) (3 / 4) 0 (by norm_num) (by norm_num) (kt01_predicts [0]).2.2.1 (kt01_predicts [0]).1
  have h5 := hp kt01' (1 / 2) (1 / 4) 1 (by norm_num) (by norm_num) (kt01_predicts [0]).2.2.2 (kt01_predicts [0]).2.1
  have h0 := hp kt01 1 (1 / 2) 0 (by norm_num) (by norm_num) (kt01_predicts [0]).1 (kt01_predicts [0]).1
  rw [Real.log_one] at h0
  rw [show (1 / 2 : ℝ) * (3 / 4) / 2 + 1 / 4 = 7 / 16 by norm_num] at h7
  rw [show (1 / 2 : ℝ) * (1 / 4) / 2 + 1 / 4 = 5 / 16 by norm_num] at h5
  rw [show (1 : ℝ) * (1 / 2) / 2 + 1 / 4 = 1 / 2 by norm_num] at h0
  rw [zero_add] at h1
  refine ⟨_, h1, h7, h5, h0, fun hf => ?_⟩
  have := hf [] (.update 0 [2] 1) .indexError [.predict 0 [0]] (by simp [Call.Fair]) trivial (by rw [XPredictor.after, call, h1])
  simp only [XPredictor.after, call, outcomes, h1, List.cons.injEq, and_true] at this
  rw [h7, show (CTWNode.new kt01 : CTWNode (KT ℕ) ℕ) = .mk kt01 0 0 0 fun _ => none from rfl, h0, Except.ok.injEq] at this
  have := Real.log_injOn_pos (by norm_num [Set.mem_Ioi]) (by norm_num [Set.mem_Ioi]) this
  norm_num at this

/-- **C121 (invalid symbol deeper in the context).** With contexts of two binary symbols, an update with the history `2, 0` raises `IndexError` after the base
models of the root and of its child were updated: from then on the probabilities of the symbols after `0, 0` add up to 5/8. -/
theorem C121_CTW_context_deep : ∃ t,
    (CTW.xpredictor KT.xpredictor kt01 (fun c => decide (c < 2)) id).update (CTWNode.new kt01) 0 [2, 0] 1 = (.error .indexError, t) ∧
    ((CTW.xpredictor KT.xpredictor kt01 (fun c => decide (c < 2)) id).logPredict t 0 [0, 0]).1 = .ok (Real.log (13 / 32)) ∧
    ((CTW.xpredictor KT.xpredictor kt01 (fun c => decide (c < 2)) id).logPredict t 1 [0, 0]).1 = .ok (Real.log (7 / 32)) := by
  have h1 : (CTW.xpredictor KT.xpredictor kt01 (fun c => decide (c < 2)) id).update (CTWNode.new kt01) 0 [2, 0] 1
      = (.error .indexError, .mk kt01' (0 + Real.log (1 / 2)) 0 0
          (Function.update (fun _ => none) 0 (some (.mk kt01' (0 + Real.log (1 / 2)) 0 0 fun _ => none)))) := by
    simp [CTW.xpredictor, CTWNode.xupdate, CTWNode.new, CTWNode.base, CTWNode.baseLP, CTWNode.childrenLP, CTWNode.lp, CTWNode.children,
      (kt01_update [2, 0]).1]
  have hp : ∀ (q v : ℝ) (a : ℕ), 0 < q → KT.xpredictor.logPredict kt01' a [0, 0] = (.ok (Real.log q), kt01') →
      KT.xpredictor.logPredict kt01 a [0, 0] = (.ok (Real.log (1 / 2)), kt01) → q / 4 + (q / 4 + 1 / 4) / 2 = v →
      ((CTW.xpredictor KT.xpredictor kt01 (fun c => decide (c < 2)) id).logPredict (.mk kt01' (Real.log (1 / 2)) 0 0
          (Function.update (fun _ => none) 0 (some (.mk kt01' (Real.log (1 / 2)) 0 0 fun _ => none)))) a [0, 0]).1
        = .ok (Real.log v) := by
    intro q v a hq hb hk hv
    simp only [CTW.xpredictor, CTWNode.xlogPredict, id, List.reverse_cons, List.reverse_nil, List.nil_append, List.cons_append, CTWNode.base,
      CTWNode.baseLP, CTWNode.childrenLP, CTWNode.lp, CTWNode.children, hb, Option.getD_none, Option.getD_some, CTWNode.new, hk, Function.update_self]
    simp only [Nat.ofNat_pos, decide_true, Bool.true_eq_false, if_false]
    simp only [half_lse2_eq_log, sub_zero, zero_add]
    rw [← Real.log_mul (by norm_num) hq.ne']
    rw [Real.exp_log (by positivity), Real.exp_log (by positivity), Real.exp_log (by positivity)]
    congr 2
    rw [← hv]
    ring
  rw [zero_add] at h1
  exact ⟨_, h1, hp (3 / 4) _ 0 (by norm_num) (kt01_predicts [0, 0]).2.2.1 (kt01_predicts [0, 0]).1 (by norm_num),
    hp (1 / 4) _ 1 (by norm_num) (kt01_predicts [0, 0]).2.2.2 (kt01_predicts [0, 0]).2.1 (by norm_num)⟩

/-- **C121 (log_predict of PTW).** After one symbol, `log_predict` gives `0` probability 7/8, and 5/8 after an update with an unknown symbol that raised. -/
theorem C121_PTW_log_predict :
    ((PTW.xpredictor KT.xpredictor kt01 0).logPredict ((PTW.xpredictor KT.xpredictor kt01 0).after (PTW.init kt01 0) [.update 0 [] 1]) 0 []).1
      = .ok (Real.log (7 / 8)) ∧
    ((PTW.xpredictor KT.xpredictor kt01 0).update ((PTW.xpredictor KT.xpredictor kt01 0).after (PTW.init kt01 0) [.update 0 [] 1]) 2 [] 1).1
      = .error .keyError ∧
    ((PTW.xpredictor KT.xpredictor kt01 0).logPredict ((PTW.xpredictor KT.xpredictor kt01 0).after (PTW.init kt01 0) [.update 0 [] 1, .update 2 [] 1]) 0 []).1
      = .ok (Real.log (5 / 8)) ∧
    ¬Transparent (PTW.xpredictor KT.xpredictor kt01 0) (PTW.init kt01 0) := by
  have hg : KT.Good [0, 1] kt01' := ⟨rfl, by simp [kt01'], by norm_num [kt01', PyDict.values]⟩
  have h1 : (PTW.xpredictor KT.xpredictor kt01 0).update (PTW.init kt01 0) 0 [] 1
      = (.ok (Real.log (1 / 2)), ⟨.leaf ⟨kt01', 0, 1, Real.log (1 / 2), 0, Real.log (1 / 2)⟩, Real.log (1 / 2), 0⟩) := by
    simp [PTW.xpredictor, PTW.xupdate, PTW.init, PTW.adjusted, PTWNode.xupdate, PTWNode.data, PTWData.new, PTWData.complete, PTWNode.xleaf, (kt01_update []).1]
  have ha : ∀ x : ℝ, (⟨.leaf ⟨kt01', 0, 1, x, 0, x⟩, x, 0⟩ : PTW (KT ℕ)).adjusted = 0 := by
    intro x
    simp [PTW.adjusted, PTWNode.data, PTWData.complete, logsumexp2_self]
  have h2 : (PTW.xpredictor KT.xpredictor kt01 0).update ⟨.leaf ⟨kt01', 0, 1, Real.log (1 / 2), 0, Real.log (1 / 2)⟩, Real.log (1 / 2), 0⟩ 2 [] 1
      = (.error .keyError, ⟨.inner ⟨kt01', 1, 1, Real.log (1 / 2), Real.log (1 / 2), Real.log (1 / 2)⟩ (.leaf ⟨kt01, 0, 0, 0, 0, 0⟩), Real.log (1 / 2), 0⟩) := by
    simp only [PTW.xpredictor, PTW.xupdate, ha]
    simp [PTWNode.xupdate, PTWData.complete, PTWNode.xpromoted, PTWNode.data, PTWData.new, kt_fails hg (show (2 : ℕ) ∉ [0, 1] by decide) []]
  have h3 : ((PTW.xpredictor KT.xpredictor kt01 0).logPredict ⟨.leaf ⟨kt01', 0, 1, Real.log (1 / 2), 0, Real.log (1 / 2)⟩, Real.log (1 / 2), 0⟩ 0 []).1
      = .ok (Real.log (7 / 8)) := by
    simp only [PTW.xpredictor, PTW.xlogPredict, ha, PTWNode.xlogPredict, (kt01_predicts []).2.2.1]
    simp only [PTWData.complete, Nat.shiftRight_zero, Nat.lt_one_iff, decide_true, if_true, Verif.map_ok, half_lse2_eq_log, Real.exp_add,
      Real.exp_log (show (0 : ℝ) < 1 / 2 by norm_num), Real.exp_log (show (0 : ℝ) < 3 / 4 by norm_num), Nat.one_pos]
    rw [add_zero, ← Real.log_div (by norm_num) (by norm_num)]
    norm_num
  have h4 : ((PTW.xpredictor KT.xpredictor kt01 0).logPredict
      ⟨.inner ⟨kt01', 1, 1, Real.log (1 / 2), Real.log (1 / 2), Real.log (1 / 2)⟩ (.leaf ⟨kt01, 0, 0, 0, 0, 0⟩), Real.log (1 / 2), 0⟩ 0 []).1
      = .ok (Real.log (5 / 8)) := by
    have hc : ∀ (b : KT ℕ) (x y z : ℝ), PTWData.complete ⟨b, 1, 1, x, y, z⟩ = false := fun _ _ _ _ => by simp [PTWData.complete]
    have hc' : ∀ (b : KT ℕ) (x y z : ℝ), PTWData.complete ⟨b, 0, 0, x, y, z⟩ = false := fun _ _ _ _ => rfl
    have hz : ∀ x y : ℝ, PTWData.correct x (1 - 0 - 1) y = y := fun _ _ => rfl
    simp only [PTW.xpredictor, PTW.xlogPredict, PTW.adjusted, PTWNode.data, PTWNode.xlogPredict, (kt01_predicts []).2.2.1, (kt01_predicts []).1, hc, hc',
      Bool.false_eq_true, if_false, hz, zero_add, Verif.map_ok, half_lse2_eq_log, Real.exp_add,
      Real.exp_log (show (0 : ℝ) < 1 / 2 by norm_num), Real.exp_log (show (0 : ℝ) < 3 / 4 by norm_num), Real.exp_zero]
    rw [add_zero, ← Real.log_div (by norm_num) (by norm_num)]
    norm_num
  simp only [XPredictor.after, call, h1, h2]
  refine ⟨h3, trivial, h4, fun hf => ?_⟩
  have := hf [.update 0 [] 1] (.update 2 [] 1) .keyError [.predict 0 []] (by simp [Call.Fair]) trivial (by simp only [XPredictor.after, call, h1, h2])
  simp only [XPredictor.after, call, outcomes, h1, h2, h3, h4, List.cons.injEq, and_true, Except.ok.injEq] at this
  have := Real.log_injOn_pos (by norm_num [Set.mem_Ioi]) (by norm_num [Set.mem_Ioi]) this
  norm_num at this

/-- **C121 (history left behind).** After `update_seq` with `0` and an unknown symbol, the caller's history keeps the `0`. -/
theorem C121_update_seq_history : ((KT.xpredictor.updateSeq kt01 [0, 2] [] 1).1 = .error .keyError ∧ (KT.xpredictor.updateSeq kt01 [0, 2] [] 1).2.2 = [0]) := by
  have hg : KT.Good [0, 1] kt01' := ⟨rfl, by simp [kt01'], by norm_num [kt01', PyDict.values]⟩
  simp only [XPredictor.updateSeq, XPredictor.updateSeqLoop, (kt01_update []).1, kt_fails hg (show (2 : ℕ) ∉ [0, 1] by decide)]
  simp

/-- A tree over trees of `KT` models meets the hypotheses of the theorems above: the invariants hold at the start, some updates raise and others do not. -/
example : Atomic (CTW.xpredictor KT.xpredictor kt01 (fun _ => true) (fun h : List ℕ => h.take 3)) (CTWNode.Sound (KT.Good [0, 1])) (KT.err [0, 1]) ∧
    CTWNode.Sound (KT.Good [0, 1]) (CTWNode.new (κ := ℕ) kt01) ∧ KT.err [0, 1] 2 [] = some .keyError ∧ KT.err [0, 1] 1 [] = none ∧
    FailSafe (PTW.xpredictor (CTW.xpredictor KT.xpredictor kt01 (fun _ => true) (fun h : List ℕ => h.take 3)) (CTWNode.new kt01) 2)
      (PTW.init (CTWNode.new kt01) 2) ∧
    (KT.predictor (α := ℕ)).Copyable (KT.Good [0, 1]) := by
  have h1 := C121_CTW (κ := ℕ) (C121_KT [0, 1]).1 kt01_good (valid := fun _ => true) (ctx := fun h : List ℕ => h.take 3) (fun _ _ _ => rfl)
  have h2 : CTWNode.Sound (KT.Good [0, 1]) (CTWNode.new (κ := ℕ) kt01) := .mk kt01_good fun _ _ hc => nomatch hc
  exact ⟨h1.1, h2, rfl, rfl, C121_PTW_partial h1.1 h2 2, fun s hs => ⟨s, rfl, hs, fun _ => rfl⟩⟩

end Verif
