import Verif.Proofs.FramesFMN
import Verif.Props.Memory
import Verif.Props.CTW

/-!
# C140: how deep the calls of the models are nested, and when Python's limit is reached
-/

namespace Verif

open Frames Memory

variable {S σ α : Type}

theorem Frames.mkcontext_len {d : ℕ} (hd : 1 ≤ d) (z : α) (h : List α) : (CTW.mkcontext d z h).length = d := by
  unfold CTW.mkcontext pyTail
  rw [List.length_append, List.length_replicate, if_neg (by omega), List.length_drop]
  omega

theorem Frames.mkcontext_zero (z : α) (h : List α) : (CTW.mkcontext 0 z h).length = h.length := by
  unfold CTW.mkcontext pyTail
  simp

/-- **C140 (estimators).** An update of a `KT`, a `KTBinary` or a `SAD` makes two nested calls, a prediction and a copy one. -/
theorem C140_estimators [DecidableEq α] :
    (UpdateNeeds (simple (KT.predictor (α := α))) KT.predictor 2 2 ∧ PredictNeeds (simple (KT.predictor (α := α))) KT.predictor 1 1 ∧
      CopyNeeds (simple (KT.predictor (α := α))) KT.predictor 1 1) ∧
    (UpdateNeeds (simple KTBinary.predictor) KTBinary.predictor 2 2 ∧ PredictNeeds (simple KTBinary.predictor) KTBinary.predictor 1 1 ∧
      CopyNeeds (simple KTBinary.predictor) KTBinary.predictor 1 1) ∧
    (UpdateNeeds (simple (SAD.predictor (α := α))) SAD.predictor 2 2 ∧ PredictNeeds (simple (SAD.predictor (α := α))) SAD.predictor 1 1 ∧
      CopyNeeds (simple (SAD.predictor (α := α))) SAD.predictor 1 1) := by
  refine ⟨⟨simple_update _ ?_, simple_predict _, simple_copy _⟩, ⟨simple_update _ ?_, simple_predict _, simple_copy _⟩,
    ⟨simple_update _ ?_, simple_predict _, simple_copy _⟩⟩
  · intro s a h w e he
    have he' : (s.logPredict a >>= fun r => pure (r, s)) = (.error e : Py _) := he
    show s.update a w = _
    unfold KT.update
    cases h1 : s.logPredict a with
    | error e' => rw [h1] at he'; cases he'; rfl
    | ok r => rw [h1] at he'; cases he'
  · intro s a h w e he
    have he' : (s.logPredict a >>= fun r => pure (r, s)) = (.error e : Py _) := he
    show s.update a w = _
    unfold KTBinary.update
    cases h1 : s.logPredict a with
    | error e' => rw [h1] at he'; cases he'; rfl
    | ok r => rw [h1] at he'; cases he'
  · intro s a h w e he
    have he' : (s.logPredict a >>= fun r => pure (r, s)) = (.error e : Py _) := he
    show s.update a w = _
    unfold SAD.update
    cases h1 : s.logPredict a with
    | error e' => rw [h1] at he'; cases he'; rfl
    | ok r => rw [h1] at he'; cases he'

/-- **C140 (`Averager`).** One more than the deepest component, but at least three. -/
theorem C140_Averager {F : Framed σ α} {P : Predictor σ α} {u l : ℕ} (hu : UpdateNeeds F P u u) (hl : PredictNeeds F P l l) :
    UpdateNeeds (averager F) (Averager.predictor P) (max u 2 + 1) (max u 2 + 1) ∧
    PredictNeeds (averager F) (Averager.predictor P) (max (l + 1) 2 + 1) (max (l + 1) 2 + 1) :=
  ⟨averager_update hu, averager_predict hl⟩

/-- **C140 (`Factored`).** One more than the factors. -/
theorem C140_Factored {F : Framed σ α} {P : Predictor σ α} {u l : ℕ} (hu : UpdateNeeds F P u u) (hl : PredictNeeds F P l l) :
    UpdateNeeds (factored F) (Factored.predictor P) (u + 1) (u + 1) ∧ PredictNeeds (factored F) (Factored.predictor P) (l + 1) (l + 1) :=
  ⟨factored_update hu, factored_predict hl⟩

/-- **C140 (copies).** A copy of an `Averager` or a `Factored` with at least one part needs two calls more than a copy of a part, and one of a `CTW` two more
than a copy of the base model; a copy of a `CTW_KT` needs two: copying is not deeper for deeper trees, since the nodes below the root are shared. -/
theorem C140_copies {F : Framed σ α} {P : Predictor σ α} {c : ℕ} (hc : CopyNeeds F P c c) :
    (∀ s : Averager σ, s.models ≠ [] → Between (c + 2) (c + 2) (fun k => (averager F).copy k s) ((Averager.predictor P).copy s)) ∧
    (∀ s : Factored σ, s.factors ≠ [] → Between (c + 2) (c + 2) (fun k => (factored F).copy k s) ((Factored.predictor P).copy s)) ∧
    (∀ {G : Framed σ Bool} {Q : Predictor σ Bool} (_ : CopyNeeds G Q c c) (_ : 1 ≤ c) (new : ℕ → Calls σ) (fresh : σ)
      (shared : List Bool → CTWNode σ Bool → Bool) (ctx : List Bool → List Bool) (depth : ℕ),
      CopyNeeds (ctw G new shared depth) (CTW.predictor Q fresh ctx) (c + 2) (c + 2)) ∧
    ∀ (shared : List Bool → KNode → Bool) (depth : ℕ), CopyNeeds (ctwKT shared depth) (KNode.predictor depth) 2 2 := by
  refine ⟨fun s hne => by have := averager_copy hc s; rwa [if_neg hne] at this, factored_copy hc, ?_, fun shared depth n => (Between.pure n).frame.frame⟩
  intro G Q hq h1 new fresh shared ctx depth
  have := ctw_copy (new := new) (fresh := fresh) (shared := shared) hq ctx depth
  rwa [max_eq_left h1] at this

/-- A copy of an `Averager` of two `KT` models needs three calls. -/
example (m n : KT ℕ) (x y z : ℝ) :
    Between 3 3 (fun k => (averager (simple KT.predictor)).copy k ⟨[(m, x), (n, y)], z⟩) ((Averager.predictor KT.predictor).copy ⟨[(m, x), (n, y)], z⟩) :=
  (C140_copies (C140_estimators (α := ℕ)).1.2.2).1 _ (by simp)

/-- **C140 (`CTW`).** An update of a `CTW` of depth at least one makes exactly as many nested calls as its depth, those of an update of the base model, and two:
whatever the tree has seen, which nodes are missing and which are shared.  (A new base model and a copy of one need no more than an update.) -/
theorem C140_CTW {F : Framed σ Bool} {P : Predictor σ Bool} {new : ℕ → Calls σ} {fresh : σ} {u c f : ℕ} (hu : UpdateNeeds F P u u)
    (hn : Needs f new (.ok fresh)) (hc : CopyNeeds F P c c) (h1 : 2 ≤ u) (h2 : f ≤ u) (h3 : c ≤ u)
    (shared : List Bool → CTWNode σ Bool → Bool) (hs : ∀ cs n, shared cs n = true → P.copy n.base = .ok n.base) (depth : ℕ) (hd : 1 ≤ depth) :
    UpdateNeeds (ctw F new shared depth) (CTW.predictor P fresh (CTW.mkcontext depth false)) (depth + u + 2) (depth + u + 2) := by
  intro n a h w
  have := ctw_update hu hn hc hs h1 h2 h3 depth n a h w
  rwa [mkcontext_len hd] at this

/-- `KTBinary()` (model.py:127-129). -/
noncomputable def Frames.newKTBinary (k : ℕ) : Calls KTBinary := frame k fun _ => pure (KTBinary.init none)

/-- **C140 (`CTW` over `KTBinary`).** An update of a `CTW` of depth at least one with the default base models succeeds exactly if there is room for `depth + 4`
calls; otherwise it raises `RecursionError`.  This does not depend on what it has seen. -/
theorem C140_CTW_KTBinary (shared : List Bool → CTWNode KTBinary Bool → Bool) (depth : ℕ) (hd : 1 ≤ depth) (n n' : CTWNode KTBinary Bool) (a : Bool)
    (h : List Bool) (w r : ℝ)
    (hok : (CTW.predictor KTBinary.predictor (KTBinary.init none) (CTW.mkcontext depth false)).update n a h w = .ok (r, n')) (k : ℕ) :
    (ctw (simple KTBinary.predictor) newKTBinary shared depth).update k n a h w = if depth + 4 ≤ k then .ok (r, n') else .error .recursion := by
  have e := (C140_estimators (α := Bool)).2.1
  have := C140_CTW e.1 (Between.pure (KTBinary.init none)).frame e.2.2 le_rfl (by omega) (by omega) shared (fun _ _ _ => rfl) depth hd n a h w
  rw [hok] at this
  exact this.iff k

open scoped Classical in
/-- **C140 (predictions of `CTW`).** A prediction may create nodes, and then needs one more call than otherwise. -/
theorem C140_CTW_predict (shared : List Bool → CTWNode KTBinary Bool → Bool) (depth : ℕ) (hd : 1 ≤ depth) (n n' : CTWNode KTBinary Bool) (a : Bool)
    (h : List Bool) (r : ℝ)
    (hok : (CTW.predictor KTBinary.predictor (KTBinary.init none) (CTW.mkcontext depth false)).logPredict n a h = .ok (r, n')) (k : ℕ) :
    (ctw (simple KTBinary.predictor) newKTBinary shared depth).logPredict k n a h =
      if depth + (if Present (CTW.mkcontext depth false h).reverse n then 3 else 4) ≤ k then .ok (r, n') else .error .recursion := by
  have e := (C140_estimators (α := Bool)).2.1
  have := ctw_predict (shared := shared) e.2.1 (Between.pure (KTBinary.init none)).frame depth n a h
  rw [hok, mkcontext_len hd] at this
  have := this.iff k
  rw [show depth + (if Present (CTW.mkcontext depth false h).reverse n then 3 else 4) =
    depth + 2 + (if Present (CTW.mkcontext depth false h).reverse n then 1 else max 1 (max (0 + 1) 2)) by split <;> simp]
  exact this

/-- **C140 (`CTW_KT`).** Updates of a `CTW_KT` of depth at least one succeed exactly if there is room for `depth + 3` calls, and predictions for `depth + 2`. -/
theorem C140_CTW_KT (shared : List Bool → KNode → Bool) (depth : ℕ) (hd : 1 ≤ depth) :
    UpdateNeeds (ctwKT shared depth) (KNode.predictor depth) (depth + 3) (depth + 3) ∧
    PredictNeeds (ctwKT shared depth) (KNode.predictor depth) (depth + 2) (depth + 2) := by
  constructor
  · intro n a h w
    have := ctwKT_update (shared := shared) depth n a h w
    rwa [mkcontext_len hd] at this
  · intro n a h
    have := ctwKT_predict (shared := shared) depth n a h
    rwa [mkcontext_len hd] at this

/-- **C140 (depth zero).** A `CTW` of depth zero has the whole history as its context, so that its updates make as many nested calls as the history is long, and
four: with any limit, updates raise `RecursionError` when the history is long enough. -/
theorem C140_CTW_zero (shared : List Bool → CTWNode KTBinary Bool → Bool) (n n' : CTWNode KTBinary Bool) (a : Bool) (h : List Bool) (w r : ℝ)
    (hok : (CTW.predictor KTBinary.predictor (KTBinary.init none) (CTW.mkcontext 0 false)).update n a h w = .ok (r, n')) (k : ℕ) :
    (ctw (simple KTBinary.predictor) newKTBinary shared 0).update k n a h w = if h.length + 4 ≤ k then .ok (r, n') else .error .recursion := by
  have e := (C140_estimators (α := Bool)).2.1
  have := ctw_update (shared := shared) e.1 (Between.pure (KTBinary.init none)).frame e.2.2 (fun _ _ _ => rfl) le_rfl (by omega) (by omega) 0 n a h w
  rw [hok, mkcontext_zero] at this
  exact this.iff k

/-- **C140 (`PTW`).** After any number of symbols, the next update of a `PTW` makes exactly as many nested calls as an update of its base model, the number of ones
in the binary notation of the number of complete blocks of `2 ^ m` symbols so far, and two. -/
theorem C140_PTW {F : Framed σ α} {P : Predictor σ α} {new : ℕ → Calls σ} {fresh : σ} {u f : ℕ} (hu : UpdateNeeds F P u u) (h1 : 1 ≤ u)
    (hn : Needs f new (.ok fresh)) (h2 : f ≤ u) (m : ℕ) (xs : List (Obs α)) (r0 : ℝ) (s : PTW σ)
    (hr : (PTW.predictor P fresh m).run (PTW.init fresh m) xs = .ok (r0, s)) (o : Obs α) (r : ℝ) (s' : PTW σ)
    (hok : (PTW.predictor P fresh m).update s o.sym o.hist o.weight = .ok (r, s')) (k : ℕ) :
    (ptw F new m).update k s o.sym o.hist o.weight = if ones (xs.length / 2 ^ m) + u + 2 ≤ k then .ok (r, s') else .error .recursion := by
  have hrun := CTWNode.run_snoc_ok hr hok
  have hcount := C129_PTW_count fresh m (xs ++ [o]) (by simp) _ s' hrun
  rw [List.length_append, List.length_singleton, Nat.add_sub_cancel] at hcount
  have ha : s'.tree.bases.length = after s.tree := by
    obtain ⟨n, hn, he⟩ := bind_eq_ok.mp (show s.update P (.ok fresh) m o.sym o.hist o.weight = _ from hok)
    cases he
    exact after_eq hn
  have := ptw_update (h0 := m) hu h1 hn h2 s o.sym o.hist o.weight
  rw [hok, ← ha, hcount] at this
  rw [show ones (xs.length / 2 ^ m) + u + 2 = ones (xs.length / 2 ^ m) + 1 + u + 1 by ring]
  exact this.iff k

theorem Frames.ones_le : ∀ (j n : ℕ), n < 2 ^ j → ones n ≤ j
  | 0, n, h => by
    rw [pow_zero, Nat.lt_one_iff] at h
    rw [h]; exact le_of_eq ones_zero
  | j + 1, n, h => by
    rw [pow_succ] at h
    have ih := ones_le j (n / 2) (by omega)
    rcases Nat.even_or_odd' n with ⟨q, rfl | rfl⟩
    · rw [ones_double]; rw [Nat.mul_div_cancel_left _ (by norm_num)] at ih; omega
    · rw [ones_double_add]
      have : (2 * q + 1) / 2 = q := by omega
      rw [this] at ih; omega

/-- **C140 (long sequences).** With room for `j + u + 2` calls, no update of a `PTW` raises `RecursionError` in the first `2 ^ (m + j)` symbols. -/
theorem C140_PTW_enough {F : Framed σ α} {P : Predictor σ α} {new : ℕ → Calls σ} {fresh : σ} {u f : ℕ} (hu : UpdateNeeds F P u u) (h1 : 1 ≤ u)
    (hn : Needs f new (.ok fresh)) (h2 : f ≤ u) (m j : ℕ) (xs : List (Obs α)) (hlen : xs.length < 2 ^ (m + j)) (r0 : ℝ) (s : PTW σ)
    (hr : (PTW.predictor P fresh m).run (PTW.init fresh m) xs = .ok (r0, s)) (o : Obs α) (r : ℝ) (s' : PTW σ)
    (hok : (PTW.predictor P fresh m).update s o.sym o.hist o.weight = .ok (r, s')) (k : ℕ) (hk : j + u + 2 ≤ k) :
    (ptw F new m).update k s o.sym o.hist o.weight = .ok (r, s') := by
  rw [C140_PTW hu h1 hn h2 m xs r0 s hr o r s' hok k, if_pos]
  have := ones_le j (xs.length / 2 ^ m) (by rwa [Nat.div_lt_iff_lt_mul (by positivity), ← pow_add, add_comm j m])
  omega

/-- **C140 (predictions of `PTW`).** A prediction makes at most as many nested calls as an update would, if this is so for the base models. -/
theorem C140_PTW_predict {F : Framed σ α} {P : Predictor σ α} {new : ℕ → Calls σ} {fresh : σ} {u l f : ℕ} (hu : UpdateNeeds F P u u)
    (hl : PredictNeeds F P l l) (h1 : 1 ≤ l) (hlu : l ≤ u)
    (hn : Needs f new (.ok fresh)) (h2 : f ≤ u) (m : ℕ) (xs : List (Obs α)) (r0 : ℝ) (s : PTW σ)
    (hr : (PTW.predictor P fresh m).run (PTW.init fresh m) xs = .ok (r0, s)) (o : Obs α) (r : ℝ) (s' : PTW σ)
    (hok : (PTW.predictor P fresh m).update s o.sym o.hist o.weight = .ok (r, s')) (k : ℕ)
    (hk : (ptw F new m).update k s o.sym o.hist o.weight ≠ .error .recursion) (a : α) (h : List α) :
    (ptw F new m).logPredict k s a h = Calls.lift ((PTW.predictor P fresh m).logPredict s a h) := by
  rw [C140_PTW hu (h1.trans hlu) hn h2 m xs r0 s hr o r s' hok k] at hk
  have hk' : ones (xs.length / 2 ^ m) + u + 2 ≤ k := by
    by_contra hc
    exact hk (if_neg hc)
  have hrun := CTWNode.run_snoc_ok hr hok
  have hcount := C129_PTW_count fresh m (xs ++ [o]) (by simp) _ s' hrun
  rw [List.length_append, List.length_singleton, Nat.add_sub_cancel] at hcount
  have ha : s'.tree.bases.length = after s.tree := by
    obtain ⟨n, hn, he⟩ := bind_eq_ok.mp (show s.update P (.ok fresh) m o.sym o.hist o.weight = _ from hok)
    cases he
    exact after_eq hn
  have hv := visited_le_after s.tree
  exact ((ptwPredictBody_needs hl h1 s a h).frame).enough k (by omega)

theorem Frames.fixed_tree {P : Predictor σ α} {fresh : σ} {m height : ℕ} : ∀ (xs : List (Obs α)) {s s' t : PTW σ} {r : ℝ}, s.tree = t.tree →
    (PTWFixedLength.predictor P fresh m height).run s xs = .ok (r, s') →
    ∃ r' t', (PTW.predictor P fresh m).run t xs = .ok (r', t') ∧ s'.tree = t'.tree
  | [], s, s', t, r, ht, hr => by cases hr; exact ⟨0, t, rfl, ht⟩
  | o :: os, s, s', t, r, ht, hr => by
    obtain ⟨r1, s1, r2, h1, h2, _⟩ := Predictor.run_cons_ok.mp hr
    obtain ⟨n, hn, he⟩ := bind_eq_ok.mp (show PTWFixedLength.update P (.ok fresh) m height s o.sym o.hist o.weight = _ from h1)
    cases he
    rw [ht] at hn
    have h3 : (PTW.predictor P fresh m).update t o.sym o.hist o.weight =
        .ok (n.data.lp + t.adjusted - t.logProb, ⟨n, n.data.lp + t.adjusted, t.adjusted⟩) := by
      show t.update P (.ok fresh) m o.sym o.hist o.weight = _
      unfold PTW.update
      rw [hn]; rfl
    obtain ⟨r', t', h4, h5⟩ := fixed_tree os (s := ⟨n, PTWData.correct n.data.baseLP (height - n.data.height) n.data.lp, s.adj⟩)
      (t := ⟨n, n.data.lp + t.adjusted, t.adjusted⟩) rfl h2
    exact ⟨_, t', Predictor.run_cons_ok.mpr ⟨_, _, _, h3, h4, rfl⟩, h5⟩

/-- **C140 (`PTWFixedLength`).** The same number as for a `PTW`. -/
theorem C140_PTWFixedLength {F : Framed σ α} {P : Predictor σ α} {new : ℕ → Calls σ} {fresh : σ} {u f : ℕ} (hu : UpdateNeeds F P u u) (h1 : 1 ≤ u)
    (hn : Needs f new (.ok fresh)) (h2 : f ≤ u) (m height : ℕ) (xs : List (Obs α)) (r0 : ℝ) (s : PTW σ)
    (hr : (PTWFixedLength.predictor P fresh m height).run (PTW.init fresh m) xs = .ok (r0, s)) (o : Obs α) (r : ℝ) (s' : PTW σ)
    (hok : (PTWFixedLength.predictor P fresh m height).update s o.sym o.hist o.weight = .ok (r, s')) (k : ℕ) :
    (ptwFixed F new m height).update k s o.sym o.hist o.weight = if ones (xs.length / 2 ^ m) + u + 2 ≤ k then .ok (r, s') else .error .recursion := by
  have hrun := CTWNode.run_snoc_ok hr hok
  obtain ⟨r', t', h3, h4⟩ := fixed_tree (xs ++ [o]) rfl hrun
  have hcount := C129_PTW_count fresh m (xs ++ [o]) (by simp) _ t' h3
  rw [List.length_append, List.length_singleton, Nat.add_sub_cancel, ← h4] at hcount
  have ha : s'.tree.bases.length = after s.tree := by
    obtain ⟨n, hn, he⟩ := bind_eq_ok.mp (show PTWFixedLength.update P (.ok fresh) m height s o.sym o.hist o.weight = _ from hok)
    cases he
    exact after_eq hn
  have := ptwFixed_update (h0 := m) hu h1 hn h2 height s o.sym o.hist o.weight
  rw [hok, ← ha, hcount] at this
  rw [show ones (xs.length / 2 ^ m) + u + 2 = ones (xs.length / 2 ^ m) + 1 + u + 1 by ring]
  exact this.iff k

/-- **C140 (forget-me-not).** After any number of symbols, the next update of an `FMN` makes exactly four more nested calls than an update of a model (or of a mixture
of none), and one for each one in the binary notation of the number of complete blocks so far: making the mixtures and storing models does not need more,
if a copy of a model needs fewer calls than an update. -/
theorem C140_FMN {St : Store S σ} {ad : S → σ → S} {Keep : S → σ → Prop} (hSt : St.Lawful ad Keep) {add : LazyAdd S σ} (hadd : AddNeeds St add)
    {F : Framed σ α} {P : Predictor σ α} {u c : ℕ} (hu : UpdateNeeds F P u u) (hc : CopyNeeds F P c c) (h1 : c + 1 ≤ max u 2)
    (I : σ → Prop) (A : List α) (W : ℝ → Prop) (hP : P.UpdateLawful I A W) (hC : P.Copyable I) (fresh : σ) (hf : I fresh)
    (m : ℕ) (xs : List (Obs α)) (hx : ∀ o ∈ xs, o.sym ∈ A ∧ W o.weight) (o : Obs α) (ho : o.sym ∈ A ∧ W o.weight) :
    ∃ s0 r0 s r s', FMN.init St P fresh m = .ok s0 ∧ (FMN.predictor St P m).run s0 xs = .ok (r0, s) ∧
      (FMN.predictor St P m).update s o.sym o.hist o.weight = .ok (r, s') ∧
      ∀ k, (fmn St add F m).update k s o.sym o.hist o.weight =
        if ones (xs.length / 2 ^ m) + max u 2 + 4 ≤ k then .ok (r, s') else .error .recursion := by
  obtain ⟨s0, q, s', e1, e2, _, ss, _, _, e3, _, e4⟩ := Memory.fmn_models hSt I A W hP hC fresh hf m (xs ++ [o])
    (by
      intro x hx'
      rcases List.mem_append.mp hx' with h | h
      · exact hx x h
      · rw [List.mem_singleton] at h; rw [h]; exact ho) (by simp)
  obtain ⟨r0, s, r1, e5, e6, _⟩ := Predictor.run_append_ok.mp e2
  obtain ⟨r, s1, r2, e7, e8, _⟩ := Predictor.run_cons_ok.mp e6
  cases e8
  refine ⟨s0, r0, s, r, s', e1, e5, e7, fun k => ?_⟩
  have hcount := e4.length_eq
  rw [e3, List.length_append, List.length_singleton, Nat.add_sub_cancel] at hcount
  have ha : s'.ptw.tree.bases.length = after s.ptw.tree := by
    have e9 : FMN.update St P m s o.sym o.hist o.weight = .ok (r, s') := e7
    unfold FMN.update at e9
    obtain ⟨x, h2, e9⟩ := bind_eq_ok.mp e9
    obtain ⟨n, h3, h4⟩ := bind_eq_ok.mp h2
    cases h4
    have : s'.ptw.tree = n := by
      dsimp only at e9
      split at e9
      · obtain ⟨st, _, e9⟩ := bind_eq_ok.mp e9
        cases e9; rfl
      · cases e9; rfl
    rw [this]
    exact after_eq h3
  have := fmn_update hadd hu hc h1 m s o.sym o.hist o.weight
  rw [e7, ← ha, ← hcount] at this
  rw [show ones (xs.length / 2 ^ m) + max u 2 + 4 = ones (xs.length / 2 ^ m) + 1 + max u 2 + 3 by ring]
  exact this.iff k

/-- **C140 (forget-me-not over `KTBinary`).** With the default models and either store: an update succeeds exactly if there is room for six calls and one for each
one in the binary notation of the number of complete blocks. -/
theorem C140_FMN_KTBinary (m : ℕ) (xs : List (Obs Bool)) (hx : ∀ o ∈ xs, 0 ≤ o.weight) (o : Obs Bool) (ho : 0 ≤ o.weight) :
    (∃ s0 r0 s r s', FMN.init (LogStore.store KTBinary) KTBinary.predictor (KTBinary.init none) m = .ok s0 ∧
      (FMN.predictor (LogStore.store KTBinary) KTBinary.predictor m).run s0 xs = .ok (r0, s) ∧
      (FMN.predictor (LogStore.store KTBinary) KTBinary.predictor m).update s o.sym o.hist o.weight = .ok (r, s') ∧
      ∀ k, (fmn (LogStore.store KTBinary) logStoreAdd (simple KTBinary.predictor) m).update k s o.sym o.hist o.weight =
        if ones (xs.length / 2 ^ m) + 6 ≤ k then .ok (r, s') else .error .recursion) ∧
    (∃ s0 r0 s r s', FMN.init (LogStoreUniform.store KTBinary) KTBinary.predictor (KTBinary.init none) m = .ok s0 ∧
      (FMN.predictor (LogStoreUniform.store KTBinary) KTBinary.predictor m).run s0 xs = .ok (r0, s) ∧
      (FMN.predictor (LogStoreUniform.store KTBinary) KTBinary.predictor m).update s o.sym o.hist o.weight = .ok (r, s') ∧
      ∀ k, (fmn (LogStoreUniform.store KTBinary) logStoreUniformAdd (simple KTBinary.predictor) m).update k s o.sym o.hist o.weight =
        if ones (xs.length / 2 ^ m) + 6 ≤ k then .ok (r, s') else .error .recursion) := by
  have e := (C140_estimators (α := Bool)).2.1
  have hC : KTBinary.predictor.Copyable (fun s => 0 < s.c0 ∧ 0 < s.c1) := fun s hs => ⟨s, rfl, hs, fun _ => rfl⟩
  have hb : ∀ a : Bool, a ∈ [false, true] := by decide
  exact ⟨C140_FMN (LogStore.lawful _) logStoreAdd_needs e.1 e.2.2 (by omega) _ _ _ KTBinary.lawful.updateLawful hC _ (by norm_num [KTBinary.init]) m xs
      (fun o h => ⟨hb _, hx o h⟩) o ⟨hb _, ho⟩,
    C140_FMN (LogStoreUniform.lawful _) logStoreUniformAdd_needs e.1 e.2.2 (by omega) _ _ _ KTBinary.lawful.updateLawful hC _ (by norm_num [KTBinary.init]) m xs
      (fun o h => ⟨hb _, hx o h⟩) o ⟨hb _, ho⟩⟩

/-- **C140 (a `CTW` that is too deep).** With room for 1000 calls, a `CTW` of depth 996 works and one of depth 997 fails at its first update. -/
theorem C140_limit : ∃ r n',
    (ctw (simple KTBinary.predictor) newKTBinary (fun _ _ => false) 996).update 1000 (CTW.init (KTBinary.init none)) true [] 1 = .ok (r, n') ∧
    (ctw (simple KTBinary.predictor) newKTBinary (fun _ _ => false) 997).update 1000 (CTW.init (KTBinary.init none)) true [] 1 = .error .recursion := by
  have hok : ∀ d, 1 ≤ d → ∃ r n', (CTW.predictor KTBinary.predictor (KTBinary.init none) (CTW.mkcontext d false)).update
      (CTW.init (KTBinary.init none)) true [] 1 = .ok (r, n') := by
    intro d hd
    have hL := CTWNode.updateLawful (fresh := KTBinary.init none) KTBinary.lawful.updateLawful (mkcontext_len hd false)
    obtain ⟨r, n', h, _⟩ := hL.total (CTW.init (KTBinary.init none)) true [] 1 (CTWNode.WF.new (by norm_num [KTBinary.init]) d) (by simp) (by norm_num)
    exact ⟨r, n', h⟩
  obtain ⟨r, n', h⟩ := hok 996 (by norm_num)
  obtain ⟨r2, n2, h2⟩ := hok 997 (by norm_num)
  refine ⟨r, n', ?_, ?_⟩
  · rw [C140_CTW_KTBinary _ 996 (by norm_num) _ _ _ _ _ _ h, if_pos (by norm_num)]
  · rw [C140_CTW_KTBinary _ 997 (by norm_num) _ _ _ _ _ _ h2, if_neg (by norm_num)]

/-- Seven complete blocks have three ones: nine calls. -/
example : ones (29 / 2 ^ 2) + 6 = 9 := by
  have : (29 / 2 ^ 2 : ℕ) = 2 * (2 * (2 * 0 + 1) + 1) + 1 := by norm_num
  rw [this, ones_double_add, ones_double_add, ones_double_add, ones_zero]

/-- A `CTW` of `KTBinary` as the models of an `FMN`: an update of the tree needs more calls than a copy. -/
example (d : ℕ) (hd : 1 ≤ d) :
    UpdateNeeds (ctw (simple KTBinary.predictor) newKTBinary (fun _ _ => true) d) (CTW.predictor KTBinary.predictor (KTBinary.init none) (CTW.mkcontext d false))
      (d + 4) (d + 4) ∧
    CopyNeeds (ctw (simple KTBinary.predictor) newKTBinary (fun _ _ => true) d) (CTW.predictor KTBinary.predictor (KTBinary.init none) (CTW.mkcontext d false))
      3 3 ∧ 3 + 1 ≤ max (d + 4) 2 :=
  have e := (C140_estimators (α := Bool)).2.1
  ⟨C140_CTW e.1 (Between.pure (KTBinary.init none)).frame e.2.2 le_rfl (by omega) (by omega) _ (fun _ _ _ => rfl) d hd, ctw_copy e.2.2 _ d, by omega⟩

end Verif
