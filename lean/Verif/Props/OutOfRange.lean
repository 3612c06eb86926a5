import Verif.Proofs.OutOfRange
import Verif.Proofs.CTWHom
import Verif.Spec.OutOfRange

/-!
# Symbols that are not in the alphabet (C135)

The claim is: `update` and `log_predict` with a symbol that is not in the alphabet raise an exception, and nothing changes.  It holds for
`KT`, and for `SAD` once it has met all of its symbols (C05).  It is false for `KTBinary` and the context trees of `model.py`, where −1 and −2
are taken for 1 and 0, and for `modelfast.CTW_KT`, where one such update makes every later result NaN.
-/

namespace Verif

open Dbl WNode

variable {α : Type}

/-! ## `model.py` -/

/-- `KT` refuses every symbol that is not in its alphabet. -/
theorem C135_KT [DecidableEq α] (s : KT α) (a : α) (ha : a ∉ s.counts.keys) : Refused KT.xpredictor s a .keyError := by
  intro h w
  have hg : s.counts.getE a = .error .keyError := by simp [PyDict.getE, PyDict.get?_eq_none.mpr ha]
  constructor <;> simp [KT.xpredictor, KT.xupdate, KT.logPredict, hg]

namespace OutOfRange

theorem slot_error {i : ℤ} (h : i < -2 ∨ 1 < i) : slot i = .error .indexError := by
  unfold slot LogStoreUniform.pyIndex pyGet
  rcases h with h | h
  · rw [if_neg (by omega), if_neg (by simp; omega)]
  · rw [if_pos (by omega)]
    have : ([false, true] : List Bool)[i.toNat]? = none := List.getElem?_eq_none (by simp; omega)
    rw [this]

theorem slot_takenFor (i : ℤ) : slot (takenFor i) = slot i := by
  unfold takenFor
  split_ifs with h1 h2
  · subst h1; rfl
  · subst h2; rfl
  · rfl

theorem slotOr_takenFor (i : ℤ) : slotOr (takenFor i) = slotOr i := by
  unfold takenFor
  split_ifs with h1 h2
  · subst h1; rfl
  · subst h2; rfl
  · rfl

theorem mkcontext_map {β γ : Type} (f : β → γ) (d : ℕ) (z : β) (h : List β) :
    CTW.mkcontext d (f z) (h.map f) = (CTW.mkcontext d z h).map f := by
  simp [CTW.mkcontext, pyTail, List.map_drop]
  try split_ifs <;> simp

end OutOfRange

open OutOfRange

/-- `KTBinary` and the context trees over it refuse the symbols other than −2, −1, 0 and 1, whatever they have seen.  Missing from the claim: −2
and −1. -/
theorem C135_binary_partial (a : ℤ) (ha : a < -2 ∨ 1 < a) :
    (∀ s, Refused KTBinary.xints s a .indexError) ∧ ∀ depth n, Refused (CTW.xints depth) n a .indexError := by
  refine ⟨fun s h w => ?_, fun depth n h w => ?_⟩
  · constructor <;> simp [KTBinary.xints, slot_error ha]
  · obtain ⟨b, x, y, z, ch⟩ := n
    constructor
    · change CTWNode.xupdate _ _ _ a h w _ _ = _
      cases ((CTW.mkcontext depth 0 h).map slotOr).reverse with
      | nil => simp [CTWNode.xupdate, KTBinary.xints, slot_error ha]
      | cons c cs => simp [CTWNode.xupdate, KTBinary.xints, slot_error ha]
    · change CTWNode.xlogPredict _ _ _ a h _ _ = _
      cases ((CTW.mkcontext depth 0 h).map slotOr).reverse with
      | nil => simp [CTWNode.xlogPredict, KTBinary.xints, slot_error ha]
      | cons c cs => simp [CTWNode.xlogPredict, KTBinary.xints, slot_error ha]

namespace OutOfRange

theorem xints_takenFor (s : KTBinary) (a : ℤ) (h h' : List ℤ) (w : ℝ) :
    KTBinary.xints.update s (takenFor a) h' w = KTBinary.xints.update s a h w ∧
      KTBinary.xints.logPredict s (takenFor a) h' = KTBinary.xints.logPredict s a h := by
  simp only [KTBinary.xints, slot_takenFor]
  constructor <;> cases slot a <;> rfl

theorem xupdate_takenFor (fresh : KTBinary) (valid : ℤ ⊕ Bool → Bool) (a : ℤ) (h h' : List ℤ) (w : ℝ) :
    ∀ (cs : List (ℤ ⊕ Bool)) (n : CTWNode KTBinary (ℤ ⊕ Bool)), n.xupdate KTBinary.xints fresh valid (takenFor a) h' w cs =
      n.xupdate KTBinary.xints fresh valid a h w cs := by
  intro cs
  induction cs with
  | nil => intro n; simp only [CTWNode.xupdate, (xints_takenFor n.base a h h' w).1]
  | cons c cs ih => intro n; simp only [CTWNode.xupdate, (xints_takenFor n.base a h h' w).1, ih]

theorem xlogPredict_takenFor (fresh : KTBinary) (valid : ℤ ⊕ Bool → Bool) (a : ℤ) (h h' : List ℤ) :
    ∀ (cs : List (ℤ ⊕ Bool)) (n : CTWNode KTBinary (ℤ ⊕ Bool)), n.xlogPredict KTBinary.xints fresh valid (takenFor a) h' cs =
      n.xlogPredict KTBinary.xints fresh valid a h cs := by
  intro cs
  induction cs with
  | nil => intro n; simp only [CTWNode.xlogPredict, (xints_takenFor n.base a h h' 0).2]
  | cons c cs ih => intro n; simp only [CTWNode.xlogPredict, (xints_takenFor n.base a h h' 0).2, ih]

theorem outcomes_takenFor {σ : Type} {X : XPredictor σ ℤ} (hu : ∀ s a h w, X.update s (takenFor a) (h.map takenFor) w = X.update s a h w)
    (hp : ∀ s a h, X.logPredict s (takenFor a) (h.map takenFor) = X.logPredict s a h) (cs : List (Predictor.Call ℤ)) :
    ∀ s, X.outcomes s (cs.map (Predictor.Call.map takenFor)) = X.outcomes s cs := by
  induction cs with
  | nil => exact fun _ => rfl
  | cons c cs ih =>
    intro s
    have : X.call s (Predictor.Call.map takenFor c) = X.call s c := by
      cases c with
      | update a h w => exact hu s a h w
      | predict a h => exact hp s a h
    simp only [List.map_cons, XPredictor.outcomes, this, ih]

end OutOfRange

/-- Nobody can tell −1 from 1 and −2 from 0: in whatever calls of `KTBinary`, or of a context tree over it, −1 is replaced by 1 and −2 by 0, as symbol
and in histories, the outcomes are the same. -/
theorem C135_negative (cs : List (Predictor.Call ℤ)) :
    (∀ s, KTBinary.xints.outcomes s (cs.map (Predictor.Call.map takenFor)) = KTBinary.xints.outcomes s cs) ∧
    ∀ depth n, (CTW.xints depth).outcomes n (cs.map (Predictor.Call.map takenFor)) = (CTW.xints depth).outcomes n cs := by
  refine ⟨outcomes_takenFor (fun s a h w => (xints_takenFor s a h _ w).1) (fun s a h => (xints_takenFor s a h _ 0).2) cs, fun depth => ?_⟩
  have hctx : ∀ h : List ℤ, (CTW.mkcontext depth 0 (h.map takenFor)).map slotOr = (CTW.mkcontext depth 0 h).map slotOr := by
    intro h
    rw [show (0 : ℤ) = takenFor 0 from rfl, mkcontext_map, List.map_map, show takenFor 0 = 0 from rfl]
    exact List.map_congr_left fun i _ => slotOr_takenFor i
  refine outcomes_takenFor (fun n a h w => ?_) (fun n a h => ?_) cs
  · change CTWNode.xupdate _ _ _ _ _ _ ((CTW.mkcontext depth 0 (h.map takenFor)).map slotOr).reverse n = _
    rw [hctx, xupdate_takenFor _ _ a h]
    rfl
  · change CTWNode.xlogPredict _ _ _ _ _ ((CTW.mkcontext depth 0 (h.map takenFor)).map slotOr).reverse n = _
    rw [hctx, xlogPredict_takenFor _ _ a h]
    rfl

namespace OutOfRange

theorem slotOr_error {i : ℤ} (h : i < -2 ∨ 1 < i) : slotOr i = .inl i := by
  unfold slotOr
  rw [slot_error h]

theorem xupdate_bad {σ κ β : Type} [DecidableEq κ] (X : XPredictor σ β) (fresh : σ) (valid : κ → Bool) (a : β) (h : List β) (w : ℝ)
    {cs : List κ} (hc : ∃ c ∈ cs, valid c = false) (n : CTWNode σ κ) :
    (∃ e, (n.xupdate X fresh valid a h w cs).1 = .error e) ∧ ∃ e, (n.xlogPredict X fresh valid a h cs).1 = .error e := by
  induction cs generalizing n with
  | nil => simp at hc
  | cons c cs ih =>
    constructor
    · simp only [CTWNode.xupdate]
      rcases hu : X.update n.base a h w with ⟨_ | r, b⟩
      · exact ⟨_, rfl⟩
      simp only
      by_cases hv : valid c = false
      · rw [if_pos hv]; exact ⟨_, rfl⟩
      rw [if_neg hv]
      obtain ⟨e, he⟩ := (ih (by
        obtain ⟨c', h1, h2⟩ := hc
        rcases List.mem_cons.mp h1 with rfl | h1
        · exact absurd h2 hv
        · exact ⟨c', h1, h2⟩) ((n.children c).getD (.new fresh))).1
      rw [he]
      exact ⟨_, rfl⟩
    · simp only [CTWNode.xlogPredict]
      rcases hu : X.logPredict n.base a h with ⟨_ | r, b⟩
      · exact ⟨_, rfl⟩
      simp only
      by_cases hv : valid c = false
      · rw [if_pos hv]; exact ⟨_, rfl⟩
      rw [if_neg hv]
      obtain ⟨e, he⟩ := (ih (by
        obtain ⟨c', h1, h2⟩ := hc
        rcases List.mem_cons.mp h1 with rfl | h1
        · exact absurd h2 hv
        · exact ⟨c', h1, h2⟩) ((n.children c).getD (.new fresh))).2
      rw [he]
      exact ⟨_, rfl⟩

end OutOfRange

/-- Such symbols are refused in histories, too: if one is among the last `depth` symbols, every call of the context tree raises. -/
theorem C135_history (depth : ℕ) (hd : 1 ≤ depth) (n : CTWNode KTBinary (ℤ ⊕ Bool)) (a : ℤ) (h : List ℤ) (w : ℝ)
    (hi : ∃ i ∈ h.drop (h.length - depth), i < -2 ∨ 1 < i) :
    (∃ e, ((CTW.xints depth).update n a h w).1 = .error e) ∧ ∃ e, ((CTW.xints depth).logPredict n a h).1 = .error e := by
  obtain ⟨i, h1, h2⟩ := hi
  refine xupdate_bad KTBinary.xints _ _ a h w ⟨.inl i, ?_, rfl⟩ n
  rw [List.mem_reverse, List.mem_map]
  refine ⟨i, ?_, slotOr_error h2⟩
  unfold CTW.mkcontext pyTail
  rw [if_neg (by omega)]
  exact List.mem_append_right _ h1

/-- But then something has changed: a new context tree of depth 1 that is given a 1 after a 7 has counted the 1 at its root. -/
theorem C135_history_half_updated : (CTW.xints 1).update (.new (KTBinary.init none)) 1 [7] 1 =
    (.error .indexError, .mk ⟨1 / 2, 3 / 2⟩ (Real.log (1 / 2)) 0 0 fun _ => none) := by
  have hs : slotOr 7 = .inl 7 := slotOr_error (by norm_num)
  have h1 : slot 1 = .ok true := rfl
  change CTWNode.xupdate _ _ _ _ _ _ ((CTW.mkcontext 1 0 [(7 : ℤ)]).map slotOr).reverse _ = _
  have hc : CTW.mkcontext 1 0 [(7 : ℤ)] = [7] := by simp [CTW.mkcontext, pyTail]
  rw [hc]
  simp only [List.map_cons, List.map_nil, hs, List.reverse_cons, List.reverse_nil, List.nil_append]
  norm_num [CTWNode.xupdate, CTWNode.new, CTWNode.base, CTWNode.baseLP, CTWNode.childrenLP, CTWNode.lp, CTWNode.children, KTBinary.xints, h1,
    KTBinary.xpredictor, KTBinary.init, KTBinary.logPredict, KTBinary.get, KTBinary.bump, pyDiv, pyLog]

/-- −1 is not refused: a new `KTBinary` returns log 1/2 for it, and counts a 1. -/
theorem C135_negative_accepted :
    KTBinary.xints.update (KTBinary.init none) (-1) [] 1 = (.ok (Real.log (1 / 2)), ⟨1 / 2, 3 / 2⟩) := by
  have h : slot (-1) = .ok true := rfl
  norm_num [KTBinary.xints, h, KTBinary.xpredictor, KTBinary.init, KTBinary.logPredict, KTBinary.get, KTBinary.bump, pyDiv, pyLog]

/-! ## `modelfast.py` -/

namespace OutOfRange

variable {k : ℕ} [NeZero k]

theorem ctx_length (depth : ℕ) (h : List (Fin k)) : (Fast.ctx depth h).reverse.length = depth := by
  simp only [Fast.ctx, CTW.mkcontext, List.length_reverse, List.length_take, List.length_append, List.length_replicate]
  have : depth ≤ depth - h.length + (pyTail h depth).length := by
    unfold pyTail
    split_ifs with h0
    · omega
    · rw [List.length_drop]; omega
  omega

/-- The state of a context tree in exact arithmetic, and the same state in numbers of type `double`. -/
def Embeds : ℕ → CTWNode (Fin k → ℝ) (Fin k) → WNode k → Prop
  | 0, n, m => m.counts = (fun i => fin (n.base i)) ∧ (∀ i, 0 < n.base i) ∧ m.baseLP = fin n.baseLP ∧ m.childrenLP = fin n.childrenLP ∧
      m.lp = fin n.lp
  | d + 1, n, m => m.counts = (fun i => fin (n.base i)) ∧ (∀ i, 0 < n.base i) ∧ m.baseLP = fin n.baseLP ∧
      m.childrenLP = fin n.childrenLP ∧ m.lp = fin n.lp ∧ ∀ c, (n.children c = none ∧ m.children c = none) ∨
        ∃ x y, n.children c = some x ∧ m.children c = some y ∧ Embeds d x y

theorem Embeds.fields {d : ℕ} {n : CTWNode (Fin k → ℝ) (Fin k)} {m : WNode k} (h : Embeds d n m) :
    m.counts = (fun i => fin (n.base i)) ∧ (∀ i, 0 < n.base i) ∧ m.baseLP = fin n.baseLP ∧ m.childrenLP = fin n.childrenLP ∧
      m.lp = fin n.lp := by
  cases d
  · exact h
  · exact ⟨h.1, h.2.1, h.2.2.1, h.2.2.2.1, h.2.2.2.2.1⟩

theorem embeds_new (d : ℕ) : Embeds d (CTWNode.new (Fast.fresh k)) (WNode.new k) := by
  have hk : (0 : ℝ) < k := by exact_mod_cast Nat.pos_of_ne_zero (NeZero.ne k)
  have : ∀ i, 0 < (CTWNode.new (κ := Fin k) (Fast.fresh k)).base i := fun i => by
    change (0 : ℝ) < 1 / k
    positivity
  cases d with
  | zero => exact ⟨rfl, this, rfl, rfl, rfl⟩
  | succ d => exact ⟨rfl, this, rfl, rfl, rfl, fun c => Or.inl ⟨rfl, rfl⟩⟩

theorem Embeds.child {d : ℕ} {n : CTWNode (Fin k → ℝ) (Fin k)} {m : WNode k} (h : Embeds (d + 1) n m) (c : Fin k) :
    Embeds d ((n.children c).getD (CTWNode.new (Fast.fresh k))) ((m.children c).getD (WNode.new k)) := by
  rcases h.2.2.2.2.2 c with ⟨h1, h2⟩ | ⟨x, y, h1, h2, h3⟩
  · rw [h1, h2]; exact embeds_new d
  · rw [h1, h2]; exact h3

theorem baseUpdate_embeds {d : ℕ} {n : CTWNode (Fin k → ℝ) (Fin k)} {m : WNode k} (h : Embeds d n m) (i : Fin k) (w : ℝ) :
    m.baseUpdate i w = some (.mk (fun j => fin (Function.update n.base i (n.base i + w) j)) (fin (n.baseLP + Fast.logRatio n.base i))
      m.childrenLP m.lp m.children) := by
  obtain ⟨h1, h2, h3, h4, h5⟩ := h.fields
  have hs := (h2 i).trans_le (sum_bounds h2 i)
  have hv : ((m.counts i).div m.sumCounts).log = fin (Fast.logRatio n.base i) := by
    rw [sumCounts_fin h1, h1]; exact log_div_fin (h2 i) hs
  have hw : (m.counts i).add (fin w) = fin (n.base i + w) := by rw [h1]; rfl
  have hf : Function.update m.counts i (fin (n.base i + w)) = fun j => fin (Function.update n.base i (n.base i + w) j) := by
    funext j
    by_cases hj : j = i
    · subst hj; simp
    · simp [hj, h1]
  simp only [baseUpdate, read_fin, Option.bind_eq_bind, Option.bind_some, counts_mk, hv, hw, write, i.isLt, dif_pos, baseLP_mk,
    childrenLP_mk, lp_mk, children_mk, Fin.eta, hf]
  rw [h3]
  rfl

theorem update_embeds (i : Fin k) (hi : List (Fin k)) {w : ℝ} (hw : 0 ≤ w) : ∀ (cs : List (Fin k)) (n : CTWNode (Fin k → ℝ) (Fin k))
    (m : WNode k), Embeds cs.length n m → ∃ r n' m', n.update (Fast.kt k) (Fast.fresh k) i hi w cs = .ok (r, n') ∧
      m.update i w cs = some (fin r, m') ∧ Embeds cs.length n' m' := by
  have hpos : ∀ b : Fin k → ℝ, (∀ j, 0 < b j) → ∀ j, 0 < Function.update b i (b i + w) j := by
    intro b hb j
    by_cases hj : j = i
    · subst hj; simp; linarith [hb j]
    · simp [hj, hb]
  intro cs
  induction cs with
  | nil =>
    intro n m h
    obtain ⟨h1, h2, h3, h4, h5⟩ := h.fields
    have e := update_nil (baseUpdate_embeds h i w)
    rw [h5, baseLP_mk, Dbl.sub, Dbl.neg, Dbl.add, ← sub_eq_add_neg] at e
    refine ⟨n.baseLP + Fast.logRatio n.base i - n.lp, _, _, by simp [CTWNode.update, Fast.kt]; rfl, e, ?_⟩
    · exact ⟨rfl, hpos _ h2, rfl, h4, rfl⟩
  | cons c cs ih =>
    intro n m h
    obtain ⟨h1, h2, h3, h4, h5⟩ := h.fields
    obtain ⟨r, x, y, e1, e2, e3⟩ := ih _ _ (h.child c)
    have e := update_cons (baseUpdate_embeds h i w) e2
    simp only [baseLP_mk, childrenLP_mk, h4, h5, log_half, Dbl.add, logsumexp2_fin, Dbl.sub, Dbl.neg, ← sub_eq_add_neg] at e
    refine ⟨log05 + logsumexp2 (n.baseLP + Fast.logRatio n.base i) (n.childrenLP + r) - n.lp, _, _,
      by simp only [CTWNode.update, Fast.kt, ok_bind, pure_eq_ok] at e1 ⊢; rw [e1]; rfl, e, ?_⟩
    · refine ⟨rfl, hpos _ h2, rfl, rfl, rfl, fun c' => ?_⟩
      by_cases hc : c' = c
      · subst hc
        exact Or.inr ⟨x, y, by simp [CTWNode.children], by simp, e3⟩
      · rcases h.2.2.2.2.2 c' with ⟨j1, j2⟩ | ⟨x', y', j1, j2, j3⟩
        · exact Or.inl ⟨by simpa [CTWNode.children, hc] using j1, by simpa [hc] using j2⟩
        · exact Or.inr ⟨x', y', by simpa [CTWNode.children, hc] using j1, by simpa [hc] using j2, j3⟩

theorem logPredict_embeds (i : Fin k) (hi : List (Fin k)) : ∀ (cs : List (Fin k)) (n : CTWNode (Fin k → ℝ) (Fin k))
    (m : WNode k), Embeds cs.length n m → ∃ r n' m', n.logPredict (Fast.kt k) (Fast.fresh k) i hi cs = .ok (r, n') ∧
      m.logPredict i cs = some (fin r, m') ∧ Embeds cs.length n' m' := by
  have hv : ∀ d (n : CTWNode (Fin k → ℝ) (Fin k)) (m : WNode k), Embeds d n m →
      m.baseLP.add ((m.counts i).div m.sumCounts).log = fin (n.baseLP + Fast.logRatio n.base i) := by
    intro d n m h
    obtain ⟨h1, h2, h3, h4, h5⟩ := h.fields
    have hs := (h2 i).trans_le (sum_bounds h2 i)
    rw [sumCounts_fin h1, h1, h3, log_div_fin (h2 i) hs]
    rfl
  intro cs
  induction cs with
  | nil =>
    intro n m h
    obtain ⟨h1, h2, h3, h4, h5⟩ := h.fields
    refine ⟨n.baseLP + Fast.logRatio n.base i - n.lp, n, m, by cases n; simp [CTWNode.logPredict, Fast.kt, CTWNode.base, CTWNode.baseLP, CTWNode.lp, CTWNode.childrenLP, CTWNode.children], ?_, h⟩
    rw [logPredict_nil (read_fin m i), h5, hv _ _ _ h, Dbl.sub, Dbl.neg, Dbl.add, ← sub_eq_add_neg]
  | cons c cs ih =>
    intro n m h
    obtain ⟨h1, h2, h3, h4, h5⟩ := h.fields
    obtain ⟨r, x, y, e1, e2, e3⟩ := ih _ _ (h.child c)
    have e := logPredict_cons (read_fin m i) e2
    rw [hv _ _ _ h] at e
    simp only [h4, h5, log_half, Dbl.add, logsumexp2_fin, Dbl.sub, Dbl.neg, ← sub_eq_add_neg] at e
    refine ⟨log05 + logsumexp2 (n.baseLP + Fast.logRatio n.base i) (n.childrenLP + r) - n.lp, _, _,
      by simp only [CTWNode.logPredict, Fast.kt, ok_bind, pure_eq_ok] at e1 ⊢; rw [e1]; rfl, e, ?_⟩
    · refine ⟨h1, h2, h3, rfl, rfl, fun c' => ?_⟩
      by_cases hc : c' = c
      · subst hc
        exact Or.inr ⟨x, y, by simp [CTWNode.children], by simp, e3⟩
      · rcases h.2.2.2.2.2 c' with ⟨j1, j2⟩ | ⟨x', y', j1, j2, j3⟩
        · exact Or.inl ⟨by simpa [CTWNode.children, hc] using j1, by simpa [hc] using j2⟩
        · exact Or.inr ⟨x', y', by simpa [CTWNode.children, hc] using j1, by simpa [hc] using j2, j3⟩

theorem exact_embeds (depth : ℕ) : ∀ (cs : List (FastCall k)) (n : CTWNode (Fin k → ℝ) (Fin k)) (m : WNode k), Embeds depth n m →
    (∀ c ∈ cs, c.Proper) → ∃ rs, FastCall.exact depth cs n = .ok rs ∧ FastCall.results depth cs m = some (rs.map fin) := by
  intro cs
  induction cs with
  | nil => exact fun _ _ _ _ => ⟨[], rfl, rfl⟩
  | cons c cs ih =>
    intro n m h hc
    have hp := hc c (by simp)
    cases c with
    | update i hi w =>
      obtain ⟨r, n', m', e1, e2, e3⟩ := update_embeds ⟨i, hp.1⟩ hi hp.2 (Fast.ctx depth hi).reverse n m (by rwa [ctx_length])
      rw [ctx_length] at e3
      obtain ⟨rs, j1, j2⟩ := ih n' m' e3 fun c h => hc c (List.mem_cons_of_mem _ h)
      refine ⟨r :: rs, ?_, ?_⟩
      · have : i < k := hp.1
        simp only [FastCall.exact, this, dif_pos, Fast.predictor, CTW.predictor]
        rw [e1]
        simp only [ok_bind, j1, pure_eq_ok]
      · simp only [FastCall.results, FastCall.step]
        rw [e2]
        simp [j2]
    | predict i hi =>
      obtain ⟨r, n', m', e1, e2, e3⟩ := logPredict_embeds ⟨i, hp.1⟩ hi (Fast.ctx depth hi).reverse n m (by rwa [ctx_length])
      rw [ctx_length] at e3
      obtain ⟨rs, j1, j2⟩ := ih n' m' e3 fun c h => hc c (List.mem_cons_of_mem _ h)
      refine ⟨r :: rs, ?_, ?_⟩
      · have : i < k := hp.1
        simp only [FastCall.exact, this, dif_pos, Fast.predictor, CTW.predictor]
        rw [e1]
        simp only [ok_bind, j1, pure_eq_ok]
      · simp only [FastCall.results, FastCall.step]
        rw [e2]
        simp [j2]

/-- Calls in a poisoned tree. -/
theorem results_poisoned (depth : ℕ) : ∀ (cs : List (FastCall k)) (m : WNode k), Sound depth m → Poisoned depth m → (∀ c ∈ cs, c.Proper) →
    FastCall.results depth cs m = some (List.replicate cs.length nan) := by
  intro cs
  induction cs with
  | nil => exact fun _ _ _ _ => rfl
  | cons c cs ih =>
    intro m hs hm hc
    have hp := hc c (by simp)
    obtain ⟨m', h1, h2, h3⟩ : ∃ m', FastCall.step depth m c = some (nan, m') ∧ Sound depth m' ∧ Poisoned depth m' := by
      cases c with
      | update i hi w =>
        obtain ⟨r, m', e1, e2, -, -, e5⟩ := update_sound (le_of_lt hp.1) hp.2 (Fast.ctx depth hi).reverse m (by rwa [ctx_length])
        rw [ctx_length] at e2 e5
        obtain ⟨e6, rfl⟩ := e5 hm
        exact ⟨m', e1, e2, e6⟩
      | predict i hi =>
        obtain ⟨r, m', e1, e2, e5⟩ := logPredict_sound ⟨i, hp.1⟩ (Fast.ctx depth hi).reverse m (by rwa [ctx_length])
        rw [ctx_length] at e2 e5
        obtain ⟨e6, rfl⟩ := e5 hm
        exact ⟨m', e1, e2, e6⟩
    simp only [FastCall.results, h1, Option.bind_eq_bind, Option.bind_some, ih m' h2 h3 fun c h => hc c (List.mem_cons_of_mem _ h)]
    rfl

theorem embeds_sound : ∀ (cs : List (FastCall k)) (depth : ℕ) (m : WNode k), Sound depth m → (∀ c ∈ cs, c.Proper) → ∀ cs',
    ∃ rs m', Sound depth m' ∧ FastCall.results depth cs m = some rs ∧
      FastCall.results depth (cs ++ cs') m = (FastCall.results depth cs' m').map (rs ++ ·) := by
  intro cs
  induction cs with
  | nil => exact fun _ m hs _ cs' => ⟨[], m, hs, rfl, by simp⟩
  | cons c cs ih =>
    intro depth m hs hc cs'
    have hp := hc c (by simp)
    obtain ⟨r, m', h1, h2⟩ : ∃ r m', FastCall.step depth m c = some (r, m') ∧ Sound depth m' := by
      cases c with
      | update i hi w =>
        obtain ⟨r, m', e1, e2, -⟩ := update_sound (le_of_lt hp.1) hp.2 (Fast.ctx depth hi).reverse m (by rwa [ctx_length])
        rw [ctx_length] at e2
        exact ⟨r, m', e1, e2⟩
      | predict i hi =>
        obtain ⟨r, m', e1, e2, -⟩ := logPredict_sound ⟨i, hp.1⟩ (Fast.ctx depth hi).reverse m (by rwa [ctx_length])
        rw [ctx_length] at e2
        exact ⟨r, m', e1, e2⟩
    obtain ⟨rs, m'', j1, j2, j3⟩ := ih depth m' h2 (fun c h => hc c (List.mem_cons_of_mem _ h)) cs'
    refine ⟨r :: rs, m'', j1, ?_, ?_⟩
    · simp only [FastCall.results, h1, Option.bind_eq_bind, Option.bind_some, j2]; rfl
    · simp only [List.cons_append, FastCall.results, h1, Option.bind_eq_bind, Option.bind_some, j3]
      cases FastCall.results depth cs' m'' <;> rfl

end OutOfRange

/-- As long as the symbols are below the size of the alphabet, all results are numbers, those of `Verif.Model.Fast`. -/
theorem C135_fast_partial {k : ℕ} [NeZero k] (depth : ℕ) (cs : List (FastCall k)) (hc : ∀ c ∈ cs, c.Proper) :
    ∃ rs, FastCall.exact depth cs (CTW.init (Fast.fresh k)) = .ok rs ∧ FastCall.results depth cs (WNode.new k) = some (rs.map fin) :=
  exact_embeds depth cs _ _ (embeds_new depth) hc

/-- After one update of a context tree of `modelfast` with the first symbol that is not in the alphabet, which raises no exception, every result is
NaN, whatever happened before and whatever is called later. -/
theorem C135_fast_poisoned {k : ℕ} [NeZero k] (depth : ℕ) (before later : List (FastCall k)) (hb : ∀ c ∈ before, c.Proper)
    (hl : ∀ c ∈ later, c.Proper) (h : List (Fin k)) (w : ℝ) (hw : 0 ≤ w) :
    ∃ rs r, FastCall.results depth before (WNode.new k) = some rs ∧ (r = ninf ∨ r = nan) ∧
      FastCall.results depth (before ++ .update k h w :: later) (WNode.new k) = some (rs ++ r :: List.replicate later.length nan) := by
  obtain ⟨rs, m, h1, h2, h3⟩ := embeds_sound before depth (WNode.new k) (sound_new depth) hb (.update k h w :: later)
  obtain ⟨r, m', e1, e2, -, e4, -⟩ := update_sound (le_refl k) hw (Fast.ctx depth h).reverse m (by rwa [ctx_length])
  rw [ctx_length] at e2 e4
  refine ⟨rs, r, h2, (e4 rfl).2, ?_⟩
  rw [h3]
  simp only [FastCall.results, FastCall.step, e1, Option.bind_eq_bind, Option.bind_some, results_poisoned depth later m' e2 (e4 rfl).1 hl]
  rfl

/-- The hypotheses can be met: an update with 0, one with 2 and a prediction, over the alphabet 0, 1. -/
example : ∃ rs r, FastCall.results 3 [.update 0 [] 1] (WNode.new 2) = some rs ∧ (r = ninf ∨ r = nan) ∧
    FastCall.results 3 [.update 0 [] 1, .update 2 [0] 1, .predict 1 [0, 1]] (WNode.new 2) = some (rs ++ [r, nan]) :=
  C135_fast_poisoned 3 [.update 0 [] 1] [.predict 1 [0, 1]] (by simp [FastCall.Proper, FastCall.sym, FastCall.Weighted])
    (by simp [FastCall.Proper, FastCall.sym, FastCall.Weighted]) [0] 1 zero_le_one

end Verif
