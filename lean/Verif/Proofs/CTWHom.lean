import Verif.Model.Fast
import Verif.Proofs.CTWPure
import Mathlib.Algebra.BigOperators.Fin

/-! Context trees over corresponding base models correspond. -/

namespace Verif

open Predictor

/-- Two results agree: the same exception, or the same value with related states. -/
def CorrRes {σ τ : Type} (R : σ → τ → Prop) : Py (ℝ × σ) → Py (ℝ × τ) → Prop
  | .ok (r, s), .ok (r', s') => r = r' ∧ R s s'
  | .error e, .error e' => e = e'
  | _, _ => False

theorem corrRes_cases {σ τ : Type} {R : σ → τ → Prop} {x : Py (ℝ × σ)} {y : Py (ℝ × τ)} (h : CorrRes R x y) :
    (∃ e, x = .error e ∧ y = .error e) ∨ ∃ r s t, x = .ok (r, s) ∧ y = .ok (r, t) ∧ R s t := by
  cases x with
  | error e =>
    cases y with
    | error e' => left; exact ⟨e, rfl, by rw [show e = e' from h]⟩
    | ok q => exact h.elim
  | ok p =>
    cases y with
    | error e' => exact h.elim
    | ok q =>
      obtain ⟨r, s⟩ := p
      obtain ⟨r', t⟩ := q
      obtain ⟨rfl, h2⟩ := h
      right
      exact ⟨r, s, t, rfl, rfl, h2⟩

/-- Renaming the symbols of a call. -/
def Predictor.Call.map {α β : Type} (e : α → β) : Call α → Call β
  | .update a h w => .update (e a) (h.map e) w
  | .predict a h => .predict (e a) (h.map e)

/-- The weight of a call satisfies `W`. -/
def Predictor.Call.Weight {α : Type} (W : ℝ → Prop) : Call α → Prop
  | .update _ _ w => W w
  | .predict _ _ => True

/-- A simulation between two models, up to renaming of symbols. -/
structure Hom {σ τ α β : Type} (P : Predictor σ α) (Q : Predictor τ β) (e : α → β) (W : ℝ → Prop)
    (R : σ → τ → Prop) : Prop where
  update : ∀ s t a h w, R s t → W w → CorrRes R (P.update s a h w) (Q.update t (e a) (h.map e) w)
  predict : ∀ s t a h, R s t → CorrRes R (P.logPredict s a h) (Q.logPredict t (e a) (h.map e))

theorem Hom.outputs_eq {σ τ α β : Type} {P : Predictor σ α} {Q : Predictor τ β} {e : α → β} {W : ℝ → Prop}
    {R : σ → τ → Prop} (hH : Hom P Q e W R) {s : σ} {t : τ} (h : R s t) (cs : List (Call α))
    (hW : ∀ c ∈ cs, c.Weight W) : P.outputs s cs = Q.outputs t (cs.map (Call.map e)) := by
  induction cs generalizing s t with
  | nil => rfl
  | cons c cs ih =>
    have hs : CorrRes R (P.step s c) (Q.step t (c.map e)) := by
      have hw := hW c (by simp)
      cases c with
      | update a hi w => exact hH.update s t a hi w h hw
      | predict a hi => exact hH.predict s t a hi h
    simp only [List.map_cons, outputs]
    rcases corrRes_cases hs with ⟨e', h1, h2⟩ | ⟨r, s', t', h1, h2, h3⟩
    · rw [h1, h2]
    · rw [h1, h2]
      simp only [ih h3 (fun c hc => hW c (by simp [hc]))]

namespace CTWNode

variable {σ τ κ κ' : Type} [DecidableEq κ] [DecidableEq κ']

/-- Trees of the same shape with corresponding data. -/
inductive TCorr (R : σ → τ → Prop) (f : κ ≃ κ') : CTWNode σ κ → CTWNode τ κ' → Prop
  | mk {n : CTWNode σ κ} {m : CTWNode τ κ'} : R n.base m.base → n.baseLP = m.baseLP →
      n.childrenLP = m.childrenLP → n.lp = m.lp →
      (∀ c, n.children c = none ↔ m.children (f c) = none) →
      (∀ c x y, n.children c = some x → m.children (f c) = some y → TCorr R f x y) → TCorr R f n m

variable {R : σ → τ → Prop} {f : κ ≃ κ'} {fresh : σ} {fresh' : τ}

omit [DecidableEq κ] [DecidableEq κ'] in
theorem tcorr_new (h : R fresh fresh') : TCorr R f (new fresh) (new fresh') := by
  refine .mk h rfl rfl rfl (fun c => ⟨fun _ => rfl, fun _ => rfl⟩) ?_
  intro c x y hx
  simp [new, children] at hx

omit [DecidableEq κ] [DecidableEq κ'] in
theorem TCorr.child (hf : R fresh fresh') {n : CTWNode σ κ} {m : CTWNode τ κ'} (h : TCorr R f n m) (c : κ) :
    TCorr R f ((n.children c).getD (new fresh)) ((m.children (f c)).getD (new fresh')) := by
  obtain ⟨_, _, _, _, h5, h6⟩ := h
  cases hk : n.children c with
  | none =>
    rw [(h5 c).mp hk]
    exact tcorr_new hf
  | some x =>
    cases hn : m.children (f c) with
    | none =>
      rw [(h5 c).mpr hn] at hk
      simp at hk
    | some y => exact h6 c x y hk hn

theorem TCorr.put {n : CTWNode σ κ} {m : CTWNode τ κ'} (h : TCorr R f n m) {b : σ} {b' : τ} (hb : R b b')
    (x y z : ℝ) (c : κ) {ch : CTWNode σ κ} {ch' : CTWNode τ κ'} (hc : TCorr R f ch ch') :
    TCorr R f (CTWNode.mk b x y z (Function.update n.children c (some ch)))
      (CTWNode.mk b' x y z (Function.update m.children (f c) (some ch'))) := by
  obtain ⟨_, _, _, _, h5, h6⟩ := h
  refine .mk hb rfl rfl rfl ?_ ?_
  · intro c'
    by_cases hcc : c' = c
    · subst hcc
      simp
    · have : f c' ≠ f c := fun hh => hcc (f.injective hh)
      simp [Function.update_of_ne hcc, Function.update_of_ne this, h5]
  · intro c' x y h1 h2
    by_cases hcc : c' = c
    · subst hcc
      simp only [CTWNode.children_mk, Function.update_self, Option.some.injEq] at h1 h2
      rw [← h1, ← h2]
      exact hc
    · have : f c' ≠ f c := fun hh => hcc (f.injective hh)
      simp only [CTWNode.children_mk, Function.update_of_ne hcc, Function.update_of_ne this] at h1 h2
      exact h6 c' x y h1 h2

variable {α β : Type} {P : Predictor σ α} {Q : Predictor τ β} {e : α → β} {W : ℝ → Prop}

theorem TCorr.update (hH : Hom P Q e W R) (hf : R fresh fresh') {n : CTWNode σ κ} {m : CTWNode τ κ'}
    (h : TCorr R f n m) (a : α) (hi : List α) {w : ℝ} (hw : W w) (ctx : List κ) :
    CorrRes (TCorr R f) (n.update P fresh a hi w ctx)
      (m.update Q fresh' (e a) (hi.map e) w (ctx.map f)) := by
  induction ctx generalizing n m with
  | nil =>
    have h' := h
    obtain ⟨h1, h2, h3, h4, h5, h6⟩ := h'
    simp only [CTWNode.update, List.map_nil]
    rcases corrRes_cases (hH.update _ _ a hi w h1 hw) with ⟨e', g1, g2⟩ | ⟨r, s, t, g1, g2, g3⟩
    · rw [g1, g2]; simp [CorrRes]
    · rw [g1, g2]
      simp only [ok_bind, pure_eq_ok, CorrRes, h2, h3, h4, true_and]
      exact .mk g3 rfl rfl rfl h5 h6
  | cons c cs ih =>
    have h' := h
    obtain ⟨h1, h2, h3, h4, h5, h6⟩ := h'
    simp only [CTWNode.update, List.map_cons]
    rcases corrRes_cases (hH.update _ _ a hi w h1 hw) with ⟨e', g1, g2⟩ | ⟨r, s, t, g1, g2, g3⟩
    · rw [g1, g2]; simp [CorrRes]
    · rw [g1, g2]
      simp only [ok_bind]
      rcases corrRes_cases (ih (h.child hf c)) with ⟨e', k1, k2⟩ | ⟨r', s', t', k1, k2, k3⟩
      · rw [k1, k2]; simp [CorrRes]
      · rw [k1, k2]
        simp only [ok_bind, pure_eq_ok, CorrRes, h2, h3, h4, true_and]
        exact h.put g3 _ _ _ _ k3

theorem TCorr.logPredict (hH : Hom P Q e W R) (hf : R fresh fresh') {n : CTWNode σ κ} {m : CTWNode τ κ'}
    (h : TCorr R f n m) (a : α) (hi : List α) (ctx : List κ) :
    CorrRes (TCorr R f) (n.logPredict P fresh a hi ctx)
      (m.logPredict Q fresh' (e a) (hi.map e) (ctx.map f)) := by
  induction ctx generalizing n m with
  | nil =>
    have h' := h
    obtain ⟨h1, h2, h3, h4, h5, h6⟩ := h'
    simp only [CTWNode.logPredict, List.map_nil]
    rcases corrRes_cases (hH.predict _ _ a hi h1) with ⟨e', g1, g2⟩ | ⟨r, s, t, g1, g2, g3⟩
    · rw [g1, g2]; simp [CorrRes]
    · rw [g1, g2]
      simp only [ok_bind, pure_eq_ok, CorrRes, h2, h3, h4, true_and]
      exact .mk g3 rfl rfl rfl h5 h6
  | cons c cs ih =>
    have h' := h
    obtain ⟨h1, h2, h3, h4, h5, h6⟩ := h'
    simp only [CTWNode.logPredict, List.map_cons]
    rcases corrRes_cases (hH.predict _ _ a hi h1) with ⟨e', g1, g2⟩ | ⟨r, s, t, g1, g2, g3⟩
    · rw [g1, g2]; simp [CorrRes]
    · rw [g1, g2]
      simp only [ok_bind]
      rcases corrRes_cases (ih (h.child hf c)) with ⟨e', k1, k2⟩ | ⟨r', s', t', k1, k2, k3⟩
      · rw [k1, k2]; simp [CorrRes]
      · rw [k1, k2]
        simp only [ok_bind, pure_eq_ok, CorrRes, h2, h3, h4, true_and]
        exact h.put g3 _ _ _ _ k3

/-- Context trees over corresponding base models and contexts correspond. -/
theorem hom (hH : Hom P Q e W R) (hf : R fresh fresh') {ctx : List α → List κ} {ctx' : List β → List κ'}
    (hctx : ∀ h, ctx' (h.map e) = (ctx h).map f) :
    Hom (CTW.predictor P fresh ctx) (CTW.predictor Q fresh' ctx') e W (TCorr R f) where
  update s t a h w hst hw := by
    simp only [CTW.predictor, hctx, ← List.map_reverse]
    exact hst.update hH hf a h hw _
  predict s t a h hst := by
    simp only [CTW.predictor, hctx, ← List.map_reverse]
    exact hst.logPredict hH hf a h _

end CTWNode

namespace Fast

theorem ctx_eq {k : ℕ} [NeZero k] {depth : ℕ} (hd : 1 ≤ depth) (h : List (Fin k)) :
    ctx depth h = CTW.mkcontext depth 0 h := by
  unfold ctx
  apply List.take_of_length_le
  simp only [CTW.mkcontext, pyTail, List.length_append, List.length_replicate]
  rw [if_neg (by omega), List.length_drop]
  omega

theorem map_mkcontext {α β : Type} (e : α → β) (depth : ℕ) (z : α) (h : List α) :
    CTW.mkcontext depth (e z) (h.map e) = (CTW.mkcontext depth z h).map e := by
  simp only [CTW.mkcontext, pyTail, List.map_append, List.map_replicate, List.length_map]
  split_ifs <;> simp

/-- The counts of a C node and a `KTBinary`. -/
def RBin (s : Fin 2 → ℝ) (t : KTBinary) : Prop := t.c0 = s 0 ∧ t.c1 = s 1 ∧ 0 < s 0 ∧ 0 < s 1

/-- `0` and `1` as Booleans. -/
def bit : Fin 2 ≃ Bool := finTwoEquiv

theorem bit_zero : bit 0 = false := rfl
theorem bit_one : bit 1 = true := rfl

theorem RBin.logRatio {s : Fin 2 → ℝ} {t : KTBinary} (h : RBin s t) (a : Fin 2) :
    t.logPredict (bit a) = .ok (Fast.logRatio s a) := by
  obtain ⟨h0, h1, h2, h3⟩ := h
  rw [KTBinary.logPredict_pos (by rw [h0]; exact h2) (by rw [h1]; exact h3)]
  have hsum : ((List.finRange 2).map s).sum = s 0 + s 1 := by
    simp [List.finRange_succ]
  unfold Fast.logRatio
  rw [hsum, h0, h1]
  fin_cases a
  · simp [bit_zero, KTBinary.get, h0]
  · simp [bit_one, KTBinary.get, h1]

theorem hom_bin : Hom (kt 2) KTBinary.predictor bit (fun w => 0 ≤ w) RBin where
  update s t a h w hst hw := by
    simp only [kt, KTBinary.predictor, KTBinary.update, hst.logRatio, ok_bind, pure_eq_ok, CorrRes, true_and]
    obtain ⟨h0, h1, h2, h3⟩ := hst
    fin_cases a
    · refine ⟨?_, ?_, ?_, ?_⟩ <;> simp [bit_zero, KTBinary.bump, h0, h1, h3]
      linarith
    · refine ⟨?_, ?_, ?_, ?_⟩ <;> simp [bit_one, KTBinary.bump, h0, h1, h2]
      linarith
  predict s t a h hst := by
    simp only [kt, KTBinary.predictor, hst.logRatio, ok_bind, pure_eq_ok, CorrRes, true_and]
    exact hst

theorem fresh_bin : RBin (fresh 2) (KTBinary.init none) := by
  refine ⟨?_, ?_, ?_, ?_⟩ <;> norm_num [KTBinary.init, fresh]

/-- The counts of a C node and a `KT`. -/
def RKT {k : ℕ} (s : Fin k → ℝ) (t : KT (Fin k)) : Prop :=
  t.Good (List.finRange k) ∧ ∀ a, t.counts.get? a = some (s a)

theorem RKT.sum {k : ℕ} {s : Fin k → ℝ} {t : KT (Fin k)} (h : RKT s t) :
    ((List.finRange k).map s).sum = t.sumCounts := by
  rw [h.1.sum, ← h.1.keys]
  apply KT.sum_map_get
  · rw [h.1.keys]; exact List.nodup_finRange k
  · intro a c hc
    have := h.2 a
    rw [hc, Option.some.injEq] at this
    exact this.symm

theorem hom_kt (k : ℕ) : Hom (kt k) KT.predictor id (fun w => 0 ≤ w) RKT where
  update s t a h w hst hw := by
    have hm : a ∈ List.finRange k := List.mem_finRange a
    simp only [kt, KT.predictor, id, hst.1.update hm (hst.2 a) w, CorrRes, Fast.logRatio, hst.sum, true_and]
    refine ⟨hst.1.step hm (hst.2 a) hw, ?_⟩
    intro b
    by_cases hb : b = a
    · subst hb
      simp [PyDict.get?_set_self]
    · rw [PyDict.get?_set_other _ _ hb, Function.update_of_ne hb]
      exact hst.2 b
  predict s t a h hst := by
    have hm : a ∈ List.finRange k := List.mem_finRange a
    simp only [kt, KT.predictor, id, hst.1.logPredict hm (hst.2 a), ok_bind, pure_eq_ok, CorrRes, Fast.logRatio,
      hst.sum, true_and]
    exact hst

theorem fresh_kt (k : ℕ) [NeZero k] (t : KT (Fin k)) (ht : KT.init (List.finRange k) none = .ok t) :
    RKT (fresh k) t := by
  have hne : List.finRange k ≠ [] := by
    intro h
    have := List.length_finRange (n := k)
    rw [h] at this
    exact NeZero.ne k this.symm
  rw [KT.init_default (List.nodup_finRange k) hne, Except.ok.injEq] at ht
  subst ht
  refine ⟨KT.good_default hne, ?_⟩
  intro a
  rw [KT.get?_map _ (List.mem_finRange a)]
  simp [fresh]

end Fast

end Verif
