import Verif.Spec.Failures
import Verif.Proofs.KT
import Verif.Proofs.FMN

/-! Lemmas about failed updates. -/

namespace Verif

open XPredictor

namespace XPredictor

variable {σ α : Type} {X : XPredictor σ α} {Inv : σ → Prop} {err : α → List α → Option PyErr}

/-- A failed update leads to `pend s`, from where updates go on as from `s`. -/
structure Recovers (X : XPredictor σ α) (Inv : σ → Prop) (err : α → List α → Option PyErr) (pend : σ → σ) : Prop where
  fails : ∀ s a h w e, Inv s → 0 ≤ w → err a h = some e → X.update s a h w = (.error e, pend s)
  works : ∀ s a h w, Inv s → 0 ≤ w → err a h = none → ∃ r s', X.update s a h w = (.ok r, s') ∧ Inv s'
  predicts : ∀ s a h, Inv s → Inv (X.logPredict s a h).2
  keeps : ∀ s, Inv s → Inv (pend s)
  again : ∀ s, Inv s → pend (pend s) = pend s
  resumes : ∀ s a h w, Inv s → 0 ≤ w → err a h = none → X.update (pend s) a h w = X.update s a h w

theorem Recovers.after {pend : σ → σ} (hX : Recovers X Inv err pend) {s : σ} (hs : Inv s) (cs : List (Predictor.Call α)) (hw : ∀ x ∈ cs, x.Fair) :
    Inv (X.after s cs) := by
  induction cs generalizing s with
  | nil => exact hs
  | cons c cs ih =>
    rw [XPredictor.after]
    refine ih ?_ fun x hx => hw x (List.mem_cons_of_mem _ hx)
    have hw0 := hw c List.mem_cons_self
    cases c with
    | predict a h => exact hX.predicts s a h hs
    | update a h w =>
      rw [call]
      cases he : err a h with
      | some e => rw [hX.fails s _ _ _ e hs hw0 he]; exact hX.keeps s hs
      | none =>
        obtain ⟨r, s', h1, h2⟩ := hX.works s _ _ _ hs hw0 he
        rw [h1]
        exact h2

theorem Recovers.failSafe {pend : σ → σ} (hX : Recovers X Inv err pend) {s : σ} (hs : Inv s) : FailSafe X s := by
  intro cs c e cs' hw hc hcs he
  have hi := hX.after hs cs fun x hx => hw x (List.mem_append_left _ hx)
  have hw0 := hw c (List.mem_append_right _ List.mem_cons_self)
  generalize X.after s cs = t at hi he ⊢
  cases c with
  | predict a h => exact hc.elim
  | update a h w =>
    rw [call] at he ⊢
    cases hr : err a h with
    | none =>
      obtain ⟨r, s', h1, -⟩ := hX.works _ _ _ _ hi hw0 hr
      rw [h1] at he
      cases he
    | some e' =>
      rw [hX.fails _ _ _ _ e' hi hw0 hr]
      cases cs' with
      | nil => rfl
      | cons c' cs' =>
        have hw1 := hw c' (by simp)
        cases c' with
        | predict a' h' => exact (hcs _ List.mem_cons_self).elim
        | update a' h' w' =>
          simp only [outcomes, call]
          cases hr' : err a' h' with
          | none => rw [hX.resumes t a' h' w' hi hw1 hr']
          | some e'' => rw [hX.fails _ a' h' w' e'' (hX.keeps t hi) hw1 hr', hX.fails t a' h' w' e'' hi hw1 hr', hX.again t hi]

theorem Atomic.recovers (hX : Atomic X Inv err) : Recovers X Inv err id where
  fails := hX.fails
  works := hX.works
  predicts := hX.predicts
  keeps _ h := h
  again _ _ := rfl
  resumes _ _ _ _ _ _ _ := rfl

theorem Atomic.transparent (hX : Atomic X Inv err) {s : σ} (hs : Inv s) : Transparent X s := by
  intro cs c e cs' hw hc he
  have hi := hX.recovers.after hs cs fun x hx => hw x (List.mem_append_left _ hx)
  have hw0 := hw c (List.mem_append_right _ List.mem_cons_self)
  cases c with
  | predict a h => exact hc.elim
  | update a h w =>
    rw [call] at he ⊢
    cases hr : err a h with
    | none =>
      obtain ⟨r, s', h1, -⟩ := hX.works _ _ _ _ hi hw0 hr
      rw [h1] at he
      cases he
    | some e' => rw [hX.fails _ _ _ _ e' hi hw0 hr]

end XPredictor

/-! `KT` -/

namespace KT

variable {α : Type} [DecidableEq α]

theorem xmodels : Models (xpredictor (α := α)) predictor where
  update s a h w := by
    simp only [predictor, xpredictor, KT.update, xupdate]
    cases s.logPredict a with
    | error e => rfl
    | ok r => cases s.counts.getE a <;> rfl
  logPredict s a h := by
    simp only [predictor, xpredictor]
    cases s.logPredict a <;> rfl

theorem xupdate_error (s : KT α) (a : α) (w : ℝ) (e : PyErr) (h : (s.xupdate a w).1 = .error e) : (s.xupdate a w).2 = s := by
  unfold xupdate at h ⊢
  cases e1 : s.logPredict a with
  | error e => rfl
  | ok r =>
    rw [e1] at h
    dsimp only at h ⊢
    cases e2 : s.counts.getE a with
    | error e => rfl
    | ok c => rw [e2] at h; cases h

/-- The exception for a symbol that is not in the alphabet. -/
def err (A : List α) (a : α) (_ : List α) : Option PyErr := if a ∈ A then none else some .keyError

theorem atomic (A : List α) : Atomic (xpredictor (α := α)) (Good A) (err A) where
  fails s a h w e hs hw he := by
    unfold err at he
    split_ifs at he with ha
    obtain rfl := Option.some.inj he
    have hn : s.counts.get? a = none := PyDict.get?_eq_none.2 (by rw [hs.keys]; exact ha)
    simp [xpredictor, xupdate, KT.logPredict, PyDict.getE, hn]
  works s a h w hs hw he := by
    unfold err at he
    split_ifs at he with ha
    obtain ⟨c, hc, -⟩ := hs.get ha
    have h1 : (xpredictor (α := α)).update s a h w = (.ok (Real.log (c / s.sumCounts)), ⟨s.counts.set a (c + w), s.sumCounts + w⟩) := by
      simp only [xpredictor, xupdate, hs.logPredict ha hc]
      rw [PyDict.getE_ok.mpr hc]
    exact ⟨_, _, h1, hs.step ha hc hw⟩
  predicts s a h hs := hs

end KT

namespace KTBinary

theorem xmodels : Models xpredictor predictor where
  update s b h w := by
    simp only [predictor, xpredictor, KTBinary.update]
    cases s.logPredict b <;> rfl
  logPredict s b h := by
    simp only [predictor, xpredictor]
    cases s.logPredict b <;> rfl

end KTBinary

namespace SAD

variable {α : Type} [DecidableEq α]

theorem xmodels : Models (xpredictor (α := α)) predictor where
  update s a h w := by
    simp only [predictor, xpredictor, SAD.update, xupdate]
    cases s.logPredict a with
    | error e => rfl
    | ok r =>
      simp only [ok_bind]
      cases (match s.counts.get? a with
        | some _ => s.counts
        | none => s.counts.set a 0 : PyDict α ℝ).getE a <;> rfl
  logPredict s a h := by
    simp only [predictor, xpredictor]
    cases s.logPredict a <;> rfl

theorem xupdate_error (s : SAD α) (a : α) (w : ℝ) (e : PyErr) (h : (s.xupdate a w).1 = .error e) : (s.xupdate a w).2 = s := by
  unfold xupdate at h ⊢
  cases e1 : s.logPredict a with
  | error e => rfl
  | ok r =>
    rw [e1] at h
    dsimp only at h ⊢
    cases e2 : s.counts.get? a with
    | some c =>
      rw [e2] at h
      simp only [PyDict.getE_ok.mpr e2] at h
      cases h
    | none =>
      rw [e2] at h
      simp only [PyDict.getE_ok.mpr (PyDict.get?_set_self s.counts a 0)] at h
      cases h

end SAD

/-! `Averager` -/

namespace Averager

variable {σ α : Type} {X : XPredictor σ α} {P : Predictor σ α}

theorem updateModels_eq (hX : Models X P) (a : α) (h : List α) (w : ℝ) : ∀ ms : List (σ × ℝ),
    updateModels P a h w ms = (fun _ => (xupdateModels X a h w ms).2) <$> (xupdateModels X a h w ms).1
  | [] => rfl
  | (m, lp) :: ms => by
    rw [updateModels, xupdateModels, hX.update, updateModels_eq hX a h w ms]
    rcases X.update m a h w with ⟨r | r, m'⟩
    · rfl
    · rcases xupdateModels X a h w ms with ⟨r' | r', ms'⟩ <;> rfl

theorem predictModels_eq (hX : Models X P) (a : α) (h : List α) : ∀ ms : List (σ × ℝ),
    predictModels P a h ms = (fun vs => (vs, (xpredictModels X a h ms).2)) <$> (xpredictModels X a h ms).1
  | [] => rfl
  | (m, lp) :: ms => by
    rw [predictModels, xpredictModels, hX.logPredict, predictModels_eq hX a h ms]
    rcases X.logPredict m a h with ⟨r | r, m'⟩
    · rfl
    · rcases xpredictModels X a h ms with ⟨r' | r', ms'⟩ <;> rfl

theorem xmodels (hX : Models X P) : Models (xpredictor X) (predictor P) where
  update s a h w := by
    simp only [predictor, xpredictor, Averager.update, xupdate, updateModels_eq hX]
    rcases xupdateModels X a h w s.models with ⟨r | r, ms⟩
    · rfl
    · simp only [Verif.map_ok, ok_bind]
      cases logsumexp (ms.map Prod.snd) <;> rfl
  logPredict s a h := by
    simp only [predictor, xpredictor, Averager.logPredict, xlogPredict, predictModels_eq hX]
    rcases xpredictModels X a h s.models with ⟨r | vs, ms⟩
    · rfl
    · simp only [Verif.map_ok, ok_bind]
      cases logsumexp vs <;> rfl

/-- There are components and all satisfy `Inv`. -/
def Sound (Inv : σ → Prop) (s : Averager σ) : Prop := s.models ≠ [] ∧ ∀ m ∈ s.models, Inv m.1

theorem xupdateModels_ok {Inv : σ → Prop} {err : α → List α → Option PyErr} (hX : Atomic X Inv err) {a : α} {h : List α} {w : ℝ} (hw : 0 ≤ w)
    (he : err a h = none) : ∀ ms : List (σ × ℝ), (∀ m ∈ ms, Inv m.1) →
      ∃ ms', xupdateModels X a h w ms = (.ok (), ms') ∧ ms'.length = ms.length ∧ ∀ m ∈ ms', Inv m.1
  | [], _ => ⟨[], rfl, rfl, by simp⟩
  | (m, lp) :: ms, hm => by
    obtain ⟨r, m', h1, h2⟩ := hX.works m a h w (hm _ List.mem_cons_self) hw he
    obtain ⟨ms', i1, i2, i3⟩ := xupdateModels_ok hX hw he ms fun x hx => hm x (List.mem_cons_of_mem _ hx)
    refine ⟨(m', lp + r) :: ms', by rw [xupdateModels, h1]; simp only [i1], by simp [i2], ?_⟩
    intro x hx
    rcases List.mem_cons.1 hx with rfl | hx
    · exact h2
    · exact i3 x hx

theorem xpredictModels_ok {Inv : σ → Prop} (hp : ∀ s a h, Inv s → Inv (X.logPredict s a h).2) (a : α) (h : List α) : ∀ ms : List (σ × ℝ),
    (∀ m ∈ ms, Inv m.1) → (xpredictModels X a h ms).2.length = ms.length ∧ ∀ m ∈ (xpredictModels X a h ms).2, Inv m.1
  | [], _ => ⟨rfl, by simp [xpredictModels]⟩
  | (m, lp) :: ms, hm => by
    have h1 := hp m a h (hm _ List.mem_cons_self)
    obtain ⟨i1, i2⟩ := xpredictModels_ok hp a h ms fun x hx => hm x (List.mem_cons_of_mem _ hx)
    rw [xpredictModels]
    generalize X.logPredict m a h = q at h1 ⊢
    obtain ⟨r | r, m'⟩ := q
    · refine ⟨rfl, fun x hx => ?_⟩
      rcases List.mem_cons.1 hx with rfl | hx
      · exact h1
      · exact hm x (List.mem_cons_of_mem _ hx)
    · refine ⟨by simp [i1], fun x hx => ?_⟩
      rcases List.mem_cons.1 hx with rfl | hx
      · exact h1
      · exact i2 x hx

theorem atomic {Inv : σ → Prop} {err : α → List α → Option PyErr} (hX : Atomic X Inv err) : Atomic (xpredictor X) (Sound Inv) err where
  fails s a h w e hs hw he := by
    obtain ⟨ms, lp⟩ := s
    obtain ⟨hne, hall⟩ := hs
    cases ms with
    | nil => exact absurd rfl hne
    | cons p ms =>
      obtain ⟨m, l⟩ := p
      simp only [xpredictor, xupdate, xupdateModels, hX.fails m a h w e (hall _ List.mem_cons_self) hw he]
  works s a h w hs hw he := by
    obtain ⟨ms', i1, i2, i3⟩ := xupdateModels_ok hX hw he s.models hs.2
    have hne : ms' ≠ [] := by
      intro h0
      rw [h0] at i2
      exact hs.1 (List.length_eq_zero_iff.1 i2.symm)
    have hne' : ms'.map Prod.snd ≠ [] := by simpa using hne
    have h1 : (xpredictor X).update s a h w
        = (.ok (Real.log (((ms'.map Prod.snd).map Real.exp).sum) - s.logProb), ⟨ms', Real.log (((ms'.map Prod.snd).map Real.exp).sum)⟩) := by
      simp only [xpredictor, xupdate, i1, logsumexp_eq hne']
    exact ⟨_, _, h1, hne, i3⟩
  predicts s a h hs := by
    obtain ⟨i1, i2⟩ := xpredictModels_ok hX.predicts a h s.models hs.2
    have hne : (xpredictModels X a h s.models).2 ≠ [] := by
      intro h0
      rw [h0] at i1
      exact hs.1 (List.length_eq_zero_iff.1 i1.symm)
    simp only [xpredictor, xlogPredict]
    generalize xpredictModels X a h s.models = q at hne i2 ⊢
    obtain ⟨r | vs, ms⟩ := q
    · exact ⟨hne, i2⟩
    · dsimp only
      cases logsumexp vs <;> exact ⟨hne, i2⟩

end Averager

/-! `CTW` -/

namespace CTWNode

variable {σ κ α : Type} [DecidableEq κ] {X : XPredictor σ α} {P : Predictor σ α} {fresh : σ} {valid : κ → Bool}

theorem update_eq (hX : Models X P) (hv : ∀ c, valid c = true) (a : α) (h : List α) (w : ℝ) : ∀ (cs : List κ) (n : CTWNode σ κ),
    n.update P fresh a h w cs = (fun r => (r, (n.xupdate X fresh valid a h w cs).2)) <$> (n.xupdate X fresh valid a h w cs).1
  | [], n => by
    rw [CTWNode.update, xupdate, hX.update]
    rcases X.update n.base a h w with ⟨r | r, b⟩ <;> rfl
  | c :: cs, n => by
    rw [CTWNode.update, xupdate, hX.update]
    rcases X.update n.base a h w with ⟨r | r, b⟩
    · rfl
    · simp only [Verif.map_ok, ok_bind, hv c, Bool.true_eq_false, if_false]
      rw [update_eq hX hv a h w cs]
      rcases xupdate X fresh valid a h w cs ((n.children c).getD (new fresh)) with ⟨r' | r', q⟩ <;> rfl

theorem logPredict_eq (hX : Models X P) (hv : ∀ c, valid c = true) (a : α) (h : List α) : ∀ (cs : List κ) (n : CTWNode σ κ),
    n.logPredict P fresh a h cs = (fun r => (r, (n.xlogPredict X fresh valid a h cs).2)) <$> (n.xlogPredict X fresh valid a h cs).1
  | [], n => by
    rw [CTWNode.logPredict, xlogPredict, hX.logPredict]
    rcases X.logPredict n.base a h with ⟨r | r, b⟩ <;> rfl
  | c :: cs, n => by
    rw [CTWNode.logPredict, xlogPredict, hX.logPredict]
    rcases X.logPredict n.base a h with ⟨r | r, b⟩
    · rfl
    · simp only [Verif.map_ok, ok_bind, hv c, Bool.true_eq_false, if_false]
      rw [logPredict_eq hX hv a h cs]
      rcases xlogPredict X fresh valid a h cs ((n.children c).getD (new fresh)) with ⟨r' | r', q⟩ <;> rfl

/-- Sound base models in the tree satisfy `Inv`. -/
inductive Sound (Inv : σ → Prop) : CTWNode σ κ → Prop
  | mk {b x y z ch} : Inv b → (∀ (c : κ) (n : CTWNode σ κ), ch c = some n → Sound Inv n) → Sound Inv (.mk b x y z ch)

theorem Sound.base {Inv : σ → Prop} {n : CTWNode σ κ} (h : Sound Inv n) : Inv n.base := by
  cases h with
  | mk h1 _ => exact h1

theorem Sound.child {Inv : σ → Prop} {n : CTWNode σ κ} (h : Sound Inv n) {c : κ} {m : CTWNode σ κ} (hc : n.children c = some m) : Sound Inv m := by
  cases h with
  | mk _ h2 => exact h2 c m hc

theorem xupdate_fails {Inv : σ → Prop} {err : α → List α → Option PyErr} (hX : Atomic X Inv err) {a : α} {h : List α} {w : ℝ} (hw : 0 ≤ w) {e : PyErr}
    (he : err a h = some e) (cs : List κ) (n : CTWNode σ κ) (hn : Sound Inv n) : n.xupdate X fresh valid a h w cs = (.error e, n) := by
  have h1 := hX.fails n.base a h w e hn.base hw he
  obtain ⟨b, x, y, z, ch⟩ := n
  cases cs with
  | nil => rw [xupdate, h1]; rfl
  | cons c cs => rw [xupdate, h1]; rfl

theorem xupdate_works {Inv : σ → Prop} {err : α → List α → Option PyErr} (hX : Atomic X Inv err) (hf : Inv fresh) {a : α} {h : List α} {w : ℝ} (hw : 0 ≤ w)
    (he : err a h = none) : ∀ (cs : List κ), (∀ c ∈ cs, valid c = true) → ∀ n : CTWNode σ κ, Sound Inv n →
      ∃ r n', n.xupdate X fresh valid a h w cs = (.ok r, n') ∧ Sound Inv n'
  | [], _, n, hn => by
    obtain ⟨r, b, h1, h2⟩ := hX.works n.base a h w hn.base hw he
    exact ⟨_, _, by rw [xupdate, h1], .mk h2 fun c m hc => hn.child hc⟩
  | c :: cs, hv, n, hn => by
    obtain ⟨r, b, h1, h2⟩ := hX.works n.base a h w hn.base hw he
    have hc : Sound Inv ((n.children c).getD (new fresh)) := by
      cases e : n.children c with
      | none => exact .mk hf fun _ _ hc => nomatch hc
      | some m => exact hn.child e
    obtain ⟨rc, m, i1, i2⟩ := xupdate_works hX hf hw he cs (fun x hx => hv x (List.mem_cons_of_mem _ hx)) _ hc
    refine ⟨_, _, by rw [xupdate, h1]; simp only [hv c List.mem_cons_self, Bool.true_eq_false, if_false, i1]; rfl, .mk h2 fun c' m' hc' => ?_⟩
    by_cases hcc : c' = c
    · subst hcc
      rw [Function.update_self] at hc'
      obtain rfl := Option.some.inj hc'
      exact i2
    · rw [Function.update_of_ne hcc] at hc'
      exact hn.child hc'

theorem xlogPredict_sound {Inv : σ → Prop} (hp : ∀ s a h, Inv s → Inv (X.logPredict s a h).2) (hf : Inv fresh) (a : α) (h : List α) :
    ∀ (cs : List κ) (n : CTWNode σ κ), Sound Inv n → Sound Inv (n.xlogPredict X fresh valid a h cs).2
  | [], n, hn => by
    have h1 := hp n.base a h hn.base
    rw [xlogPredict]
    generalize X.logPredict n.base a h = q at h1 ⊢
    obtain ⟨r | r, b⟩ := q <;> exact .mk h1 fun c m hc => hn.child hc
  | c :: cs, n, hn => by
    have h1 := hp n.base a h hn.base
    have hc : Sound Inv ((n.children c).getD (new fresh)) := by
      cases e : n.children c with
      | none => exact .mk hf fun _ _ hc => nomatch hc
      | some m => exact hn.child e
    have ih := xlogPredict_sound hp hf a h cs _ hc
    rw [xlogPredict]
    generalize X.logPredict n.base a h = q at h1 ⊢
    obtain ⟨r | r, b⟩ := q
    · exact .mk h1 fun c m hc => hn.child hc
    · dsimp only
      split_ifs
      · exact .mk h1 fun c m hc => hn.child hc
      · have h2 : ∀ c' m', Function.update n.children c (some (xlogPredict X fresh valid a h cs ((n.children c).getD (new fresh))).2) c' = some m' →
            Sound Inv m' := by
          intro c' m' hc'
          by_cases hcc : c' = c
          · subst hcc
            rw [Function.update_self] at hc'
            obtain rfl := Option.some.inj hc'
            exact ih
          · rw [Function.update_of_ne hcc] at hc'
            exact hn.child hc'
        generalize xlogPredict X fresh valid a h cs ((n.children c).getD (new fresh)) = q at h2 ⊢
        obtain ⟨r' | r', q⟩ := q <;> exact .mk h1 h2

end CTWNode

theorem CTW.xmodels {σ κ α : Type} [DecidableEq κ] {X : XPredictor σ α} {P : Predictor σ α} (hX : Models X P) (fresh : σ) (ctx : List α → List κ) :
    Models (CTW.xpredictor X fresh (fun _ => true) ctx) (CTW.predictor P fresh ctx) where
  update n a h w := CTWNode.update_eq hX (fun _ => rfl) a h w _ n
  logPredict n a h := CTWNode.logPredict_eq hX (fun _ => rfl) a h _ n

theorem CTW.atomic {σ κ α : Type} [DecidableEq κ] {X : XPredictor σ α} {Inv : σ → Prop} {err : α → List α → Option PyErr} (hX : Atomic X Inv err)
    {fresh : σ} (hf : Inv fresh) {valid : κ → Bool} {ctx : List α → List κ} (hv : ∀ h, ∀ c ∈ ctx h, valid c = true) :
    Atomic (CTW.xpredictor X fresh valid ctx) (CTWNode.Sound Inv) err where
  fails n a h w e hn hw he := CTWNode.xupdate_fails hX hw he _ n hn
  works n a h w hn hw he := CTWNode.xupdate_works hX hf hw he _ (fun c hc => hv h c (List.mem_reverse.1 hc)) n hn
  predicts n a h hn := CTWNode.xlogPredict_sound hX.predicts hf a h _ n hn

/-! `PTW` -/

namespace PTWNode

variable {σ α : Type} {X : XPredictor σ α} {P : Predictor σ α}

open PTWData

theorem leafUpdate_eq (hX : Models X P) (d : PTWData σ) (a : α) (h : List α) (w : ℝ) :
    leafUpdate P d a h w = (fun _ => (xleaf X d a h w).2) <$> (xleaf X d a h w).1 := by
  simp only [leafUpdate, baseStep, xleaf, hX.update]
  rcases X.update d.base a h w with ⟨r | r, b⟩ <;> rfl

theorem promoted_eq (hX : Models X P) (fresh : Py σ) (h0 : ℕ) (n : PTWNode σ) (a : α) (h : List α) (w : ℝ) :
    promoted P fresh h0 n.data a h w = (fun _ => (xpromoted X fresh h0 n a h w).2) <$> (xpromoted X fresh h0 n a h w).1 := by
  simp only [promoted, xpromoted]
  cases fresh with
  | error e => rfl
  | ok f =>
    simp only [ok_bind, baseStep, hX.update, leafUpdate_eq hX]
    rcases X.update n.data.base a h w with ⟨r | r, b⟩
    · rfl
    · simp only [Verif.map_ok, ok_bind, pure_eq_ok, xcombine]
      rcases xleaf X (PTWData.new f h0) a h w with ⟨r' | r', q⟩ <;> rfl

theorem update_eq (hX : Models X P) (fresh : Py σ) (h0 : ℕ) (a : α) (h : List α) (w : ℝ) : ∀ n : PTWNode σ,
    n.update P fresh h0 a h w = (fun _ => (n.xupdate X fresh h0 a h w).2) <$> (n.xupdate X fresh h0 a h w).1
  | .leaf d => by
    rw [PTWNode.update, xupdate]
    split_ifs
    · exact promoted_eq hX fresh h0 (.leaf d) a h w
    · exact leafUpdate_eq hX d a h w
  | .inner d r => by
    rw [PTWNode.update, xupdate]
    split_ifs
    · exact promoted_eq hX fresh h0 (.inner d r) a h w
    · rw [update_eq hX fresh h0 a h w r]
      simp only [baseStep, hX.update]
      rcases X.update d.base a h w with ⟨q | q, b⟩
      · rfl
      · simp only [Verif.map_ok, ok_bind, pure_eq_ok, xcombine]
        rcases xupdate X fresh h0 a h w r with ⟨r' | r', q'⟩ <;> rfl

theorem logPredict_eq (hX : Models X P) (a : α) (h : List α) : ∀ n : PTWNode σ,
    n.logPredict P a h = (fun r => (r, (n.xlogPredict X a h).2)) <$> (n.xlogPredict X a h).1
  | .leaf d => by
    rw [PTWNode.logPredict, xlogPredict, hX.logPredict]
    rcases X.logPredict d.base a h with ⟨q | q, b⟩
    · rfl
    · simp only [Verif.map_ok, ok_bind]
      split_ifs <;> rfl
  | .inner d r => by
    rw [PTWNode.logPredict, xlogPredict, hX.logPredict]
    rcases X.logPredict d.base a h with ⟨q | q, b⟩
    · rfl
    · simp only [Verif.map_ok, ok_bind]
      split_ifs
      · rfl
      · rw [logPredict_eq hX a h r]
        rcases xlogPredict X a h r with ⟨r' | ⟨r1, r2, r3⟩, q'⟩ <;> rfl

/-- Fit base models satisfy `Inv`, and no node has more symbols than fit in its partition. -/
inductive Fit (Inv : σ → Prop) : PTWNode σ → Prop
  | leaf {d : PTWData σ} : Inv d.base → d.count ≤ 2 ^ d.height → Fit Inv (.leaf d)
  | inner {d : PTWData σ} {r} : Inv d.base → d.count ≤ 2 ^ d.height → Fit Inv r → Fit Inv (.inner d r)

theorem Fit.base {Inv : σ → Prop} {n : PTWNode σ} (h : Fit Inv n) : Inv n.data.base := by
  cases h <;> assumption

theorem Fit.count {Inv : σ → Prop} {n : PTWNode σ} (h : Fit Inv n) : n.data.count ≤ 2 ^ n.data.height := by
  cases h <;> assumption

theorem complete_iff (d : PTWData σ) : d.complete = true ↔ 2 ^ d.height ≤ d.count := by
  unfold PTWData.complete
  rw [decide_eq_true_iff, Nat.shiftRight_eq_div_pow, Nat.div_pos_iff]
  exact ⟨fun h => h.2, fun h => ⟨by positivity, h⟩⟩

/-- The node after a failed update: a complete node has been promoted. -/
def pending (f : σ) (h0 : ℕ) (n : PTWNode σ) : PTWNode σ :=
  if n.data.complete then .inner { n.data with leftLP := n.data.lp, height := n.data.height + 1 } (.leaf (PTWData.new f h0)) else n

theorem pending_pos (f : σ) (h0 : ℕ) {n : PTWNode σ} (h : n.data.complete = true) :
    n.pending f h0 = .inner { n.data with leftLP := n.data.lp, height := n.data.height + 1 } (.leaf (PTWData.new f h0)) := if_pos h

theorem pending_neg (f : σ) (h0 : ℕ) {n : PTWNode σ} (h : ¬n.data.complete = true) : n.pending f h0 = n := if_neg h

theorem xupdate_complete {fresh : Py σ} {h0 : ℕ} {a : α} {h : List α} {w : ℝ} {n : PTWNode σ} (hc : n.data.complete = true) :
    n.xupdate X fresh h0 a h w = n.xpromoted X fresh h0 a h w := by
  cases n <;> exact if_pos hc

theorem xupdate_fails {Inv : σ → Prop} {err : α → List α → Option PyErr} (hX : Atomic X Inv err) {a : α} {h : List α} {w : ℝ} (hw : 0 ≤ w) {e : PyErr}
    (he : err a h = some e) (f : σ) (h0 : ℕ) (n : PTWNode σ) (hn : Fit Inv n) :
    n.xupdate X (.ok f) h0 a h w = (.error e, n.pending f h0) := by
  have h1 := hX.fails n.data.base a h w e hn.base hw he
  by_cases hc : n.data.complete = true
  · rw [xupdate_complete hc, pending_pos f h0 hc]
    simp only [xpromoted, h1]
  · rw [pending_neg f h0 hc]
    cases n with
    | leaf d =>
      simp only [data] at h1 hc
      simp only [xupdate, if_neg hc, xleaf, h1]
    | inner d r =>
      simp only [data] at h1 hc
      simp only [xupdate, if_neg hc, h1]

theorem xleaf_works {Inv : σ → Prop} {err : α → List α → Option PyErr} (hX : Atomic X Inv err) {a : α} {h : List α} {w : ℝ} (hw : 0 ≤ w)
    (he : err a h = none) (d : PTWData σ) (hd : Inv d.base) (hc : d.count < 2 ^ d.height) : ∃ n', xleaf X d a h w = (.ok (), n') ∧ Fit Inv n' := by
  obtain ⟨r, b, h1, h2⟩ := hX.works d.base a h w hd hw he
  have h3 : xleaf X d a h w = (.ok (), .leaf { d with base := b, baseLP := d.baseLP + r, lp := d.baseLP + r, count := d.count + 1 }) := by
    simp only [xleaf, h1]
  exact ⟨_, h3, .leaf h2 hc⟩

theorem combine_all {Inv : σ → Prop} {d : PTWData σ} {r : PTWNode σ} (h1 : Inv d.base) (h2 : d.count < 2 ^ d.height) (h3 : Fit Inv r) :
    Fit Inv (combine d r) := .inner h1 h2 h3

theorem xupdate_works {Inv : σ → Prop} {err : α → List α → Option PyErr} (hX : Atomic X Inv err) {a : α} {h : List α} {w : ℝ} (hw : 0 ≤ w)
    (he : err a h = none) {f : σ} (hf : Inv f) (h0 : ℕ) : ∀ n : PTWNode σ, Fit Inv n →
      ∃ n', n.xupdate X (.ok f) h0 a h w = (.ok (), n') ∧ Fit Inv n' := by
  have hprom : ∀ n : PTWNode σ, Fit Inv n → n.data.complete = true → ∃ n', n.xpromoted X (.ok f) h0 a h w = (.ok (), n') ∧ Fit Inv n' := by
    intro n hn hc
    obtain ⟨r, b, h1, h2⟩ := hX.works n.data.base a h w hn.base hw he
    obtain ⟨q, i1, i2⟩ := xleaf_works hX hw he (PTWData.new f h0) hf (by simp [PTWData.new])
    have i3 : n.xpromoted X (.ok f) h0 a h w = (.ok (), combine { n.data with leftLP := n.data.lp, height := n.data.height + 1, base := b, baseLP := n.data.baseLP + r } q) := by
      simp only [xpromoted, h1, xcombine, i1]
    refine ⟨_, i3, combine_all h2 ?_ i2⟩
    have := hn.count
    have := Nat.one_le_two_pow (n := n.data.height)
    simp only [pow_succ]
    omega
  intro n
  induction n with
  | leaf d =>
    intro hn
    rw [xupdate]
    split_ifs with hc
    · exact hprom _ hn hc
    · exact xleaf_works hX hw he d hn.base (by rw [complete_iff] at hc; omega)
  | inner d r ih =>
    intro hn
    rw [xupdate]
    split_ifs with hc
    · exact hprom _ hn hc
    · obtain ⟨q, b, h1, h2⟩ := hX.works d.base a h w hn.base hw he
      have hr : Fit Inv r := by cases hn; assumption
      obtain ⟨r', i1, i2⟩ := ih hr
      rw [h1]
      simp only [xcombine, i1]
      refine ⟨_, rfl, combine_all h2 ?_ i2⟩
      rw [complete_iff] at hc
      simp only
      omega

theorem pending_all {Inv : σ → Prop} {f : σ} (hf : Inv f) (h0 : ℕ) {n : PTWNode σ} (hn : Fit Inv n) : Fit Inv (n.pending f h0) := by
  by_cases hc : n.data.complete = true
  · rw [pending_pos f h0 hc]
    refine .inner hn.base ?_ (.leaf hf (by simp [PTWData.new]))
    have := hn.count
    change n.data.count ≤ 2 ^ (n.data.height + 1)
    rw [pow_succ]
    omega
  · rw [pending_neg f h0 hc]
    exact hn

theorem pending_complete {Inv : σ → Prop} {f : σ} (h0 : ℕ) {n : PTWNode σ} (hn : Fit Inv n) : (n.pending f h0).data.complete = false := by
  by_cases hc : n.data.complete = true
  · rw [pending_pos f h0 hc, ← Bool.not_eq_true, complete_iff]
    have h1 := hn.count
    have := Nat.one_le_two_pow (n := n.data.height)
    change ¬2 ^ (n.data.height + 1) ≤ n.data.count
    rw [pow_succ]
    omega
  · rw [pending_neg f h0 hc]
    simpa using hc

/-- A failed update of a complete node does what the next update would do first. -/
theorem xupdate_pending {Inv : σ → Prop} {err : α → List α → Option PyErr} (hX : Atomic X Inv err) {a : α} {h : List α} {w : ℝ} (hw : 0 ≤ w)
    (f : σ) (h0 : ℕ) (n : PTWNode σ) (hn : Fit Inv n) (he : err a h = none) :
    (n.pending f h0).xupdate X (.ok f) h0 a h w = n.xupdate X (.ok f) h0 a h w := by
  have hp := pending_complete (f := f) h0 hn
  by_cases hc : n.data.complete = true
  · rw [xupdate_complete hc]
    rw [pending_pos f h0 hc] at hp ⊢
    obtain ⟨r, b, h1, -⟩ := hX.works n.data.base a h w hn.base hw he
    have h2 : xupdate X (.ok f) h0 a h w (.leaf (PTWData.new f h0)) = xleaf X (PTWData.new f h0) a h w := by
      rw [xupdate, if_neg (by simp [PTWData.complete, PTWData.new])]
    have h3 : ∀ (d : PTWData σ) (q : PTWNode σ), d.complete = false → d.base = n.data.base → xupdate X (.ok f) h0 a h w (.inner d q)
        = xcombine { d with base := b, baseLP := d.baseLP + r } (xupdate X (.ok f) h0 a h w q) := by
      intro d q hd hb
      rw [xupdate, if_neg (by simp [hd]), hb, h1]
    refine (h3 _ _ hp rfl).trans ?_
    rw [h2]
    simp only [xpromoted, h1]
    rfl
  · rw [pending_neg f h0 hc]

theorem xlogPredict_data (a : α) (h : List α) (n : PTWNode σ) : (n.xlogPredict X a h).2.data = { n.data with base := (X.logPredict n.data.base a h).2 } := by
  cases n with
  | leaf d =>
    rw [xlogPredict]
    simp only [data]
    rcases X.logPredict d.base a h with ⟨q | q, b⟩
    · rfl
    · dsimp only
      split_ifs <;> rfl
  | inner d r =>
    rw [xlogPredict]
    simp only [data]
    rcases X.logPredict d.base a h with ⟨q | q, b⟩
    · rfl
    · dsimp only
      split_ifs
      · rfl
      · rcases xlogPredict X a h r with ⟨r' | ⟨r1, r2, r3⟩, q'⟩ <;> rfl

theorem xlogPredict_fit {Inv : σ → Prop} (hp : ∀ s a h, Inv s → Inv (X.logPredict s a h).2) (a : α) (h : List α) : ∀ n : PTWNode σ, Fit Inv n →
    Fit Inv (n.xlogPredict X a h).2
  | .leaf d, hn => by
    have h1 := hp d.base a h hn.base
    rw [xlogPredict]
    generalize X.logPredict d.base a h = q at h1 ⊢
    obtain ⟨q | q, b⟩ := q
    · exact .leaf h1 hn.count
    · dsimp only
      split_ifs <;> exact .leaf h1 hn.count
  | .inner d r, hn => by
    have h1 := hp d.base a h hn.base
    have hr : Fit Inv r := by cases hn; assumption
    have ih := xlogPredict_fit hp a h r hr
    rw [xlogPredict]
    generalize X.logPredict d.base a h = q at h1 ⊢
    obtain ⟨q | q, b⟩ := q
    · exact .inner h1 hn.count hr
    · dsimp only
      split_ifs
      · exact .inner h1 hn.count hr
      · generalize xlogPredict X a h r = p at ih ⊢
        obtain ⟨r' | ⟨r1, r2, r3⟩, q'⟩ := p <;> exact .inner h1 hn.count ih

end PTWNode

namespace PTW

variable {σ α : Type} {X : XPredictor σ α} {P : Predictor σ α}

theorem update_eq (hX : Models X P) (fresh : Py σ) (h0 : ℕ) (s : PTW σ) (a : α) (h : List α) (w : ℝ) :
    s.update P fresh h0 a h w = (fun r => (r, (s.xupdate X fresh h0 a h w).2)) <$> (s.xupdate X fresh h0 a h w).1 := by
  simp only [PTW.update, xupdate, PTWNode.update_eq hX]
  rcases s.tree.xupdate X fresh h0 a h w with ⟨r | r, q⟩ <;> rfl

theorem logPredict_eq (hX : Models X P) (s : PTW σ) (a : α) (h : List α) :
    s.logPredict P a h = (fun r => (r, (s.xlogPredict X a h).2)) <$> (s.xlogPredict X a h).1 := by
  simp only [PTW.logPredict, xlogPredict, PTWNode.logPredict_eq hX]
  rcases s.tree.xlogPredict X a h with ⟨r | ⟨r1, r2, r3⟩, q⟩ <;> rfl

theorem xmodels (hX : Models X P) (fresh : σ) (h0 : ℕ) : Models (xpredictor X fresh h0) (predictor P fresh h0) where
  update s a h w := update_eq hX (.ok fresh) h0 s a h w
  logPredict s a h := logPredict_eq hX s a h

/-- The state after a failed update. -/
noncomputable def pending (f : σ) (h0 : ℕ) (s : PTW σ) : PTW σ := ⟨s.tree.pending f h0, s.logProb, s.adjusted⟩

variable {Inv : σ → Prop} {err : α → List α → Option PyErr}

theorem pending_adjusted {f : σ} (h0 : ℕ) {s : PTW σ} (hs : s.tree.Fit Inv) : (s.pending f h0).adjusted = s.adjusted := by
  have h1 : ¬(s.pending f h0).tree.data.complete = true := by
    have := PTWNode.pending_complete (f := f) h0 hs
    simp only [pending, this, Bool.false_eq_true, not_false_eq_true]
  rw [adjusted, if_neg h1]
  rfl

theorem xupdate_fails (hX : Atomic X Inv err) {a : α} {h : List α} {w : ℝ} (hw : 0 ≤ w) {e : PyErr} (he : err a h = some e) (f : σ) (h0 : ℕ) (s : PTW σ)
    (hs : s.tree.Fit Inv) : s.xupdate X (.ok f) h0 a h w = (.error e, s.pending f h0) := by
  simp only [xupdate, PTWNode.xupdate_fails hX hw he f h0 s.tree hs, pending]

theorem xupdate_works (hX : Atomic X Inv err) {a : α} {h : List α} {w : ℝ} (hw : 0 ≤ w) (he : err a h = none) {f : σ} (hf : Inv f) (h0 : ℕ) (s : PTW σ)
    (hs : s.tree.Fit Inv) : ∃ r s', s.xupdate X (.ok f) h0 a h w = (.ok r, s') ∧ s'.tree.Fit Inv := by
  obtain ⟨n, h1, h2⟩ := PTWNode.xupdate_works hX hw he hf h0 s.tree hs
  have h3 : s.xupdate X (.ok f) h0 a h w = (.ok (n.data.lp + s.adjusted - s.logProb), ⟨n, n.data.lp + s.adjusted, s.adjusted⟩) := by
    simp only [xupdate, h1]
  exact ⟨_, _, h3, h2⟩

theorem xupdate_pending (hX : Atomic X Inv err) {a : α} {h : List α} {w : ℝ} (hw : 0 ≤ w) (he : err a h = none) (f : σ) (h0 : ℕ) (s : PTW σ)
    (hs : s.tree.Fit Inv) : (s.pending f h0).xupdate X (.ok f) h0 a h w = s.xupdate X (.ok f) h0 a h w := by
  have h1 := PTWNode.xupdate_pending hX hw f h0 s.tree hs he
  have h2 := pending_adjusted (f := f) h0 hs
  unfold xupdate
  rw [h2]
  simp only [pending, h1]

theorem pending_pending (f : σ) (h0 : ℕ) (s : PTW σ) (hs : s.tree.Fit Inv) : (s.pending f h0).pending f h0 = s.pending f h0 := by
  have h1 := PTWNode.pending_complete (f := f) h0 hs
  have h2 := pending_adjusted (f := f) h0 hs
  conv_lhs => rw [pending]
  rw [h2]
  simp only [pending] at h1 ⊢
  congr 1
  rw [PTWNode.pending, h1]
  simp

theorem recovers (hX : Atomic X Inv err) {f : σ} (hf : Inv f) (h0 : ℕ) : Recovers (xpredictor X f h0) (fun s => s.tree.Fit Inv) err (pending f h0) where
  fails s a h w e hs hw he := xupdate_fails hX hw he f h0 s hs
  works s a h w hs hw he := xupdate_works hX hw he hf h0 s hs
  predicts s a h hs := PTWNode.xlogPredict_fit hX.predicts a h s.tree hs
  keeps s hs := PTWNode.pending_all hf h0 hs
  again s hs := pending_pending f h0 s hs
  resumes s a h w hs hw he := xupdate_pending hX hw he f h0 s hs

end PTW

namespace PTWFixedLength

variable {σ α : Type} {X : XPredictor σ α} {P : Predictor σ α}

theorem xmodels (hX : Models X P) (fresh : σ) (h0 height : ℕ) : Models (xpredictor X fresh h0 height) (predictor P fresh h0 height) where
  update s a h w := by
    simp only [predictor, xpredictor, PTWFixedLength.update, xupdate, PTWNode.update_eq hX]
    rcases s.tree.xupdate X (.ok fresh) h0 a h w with ⟨r | r, q⟩ <;> rfl
  logPredict s a h := by
    simp only [predictor, xpredictor, PTWFixedLength.logPredict, xlogPredict, PTWNode.logPredict_eq hX]
    rcases s.tree.xlogPredict X a h with ⟨r | ⟨r1, r2, r3⟩, q⟩ <;> rfl

variable {Inv : σ → Prop} {err : α → List α → Option PyErr}

/-- The state after a failed update. -/
def pending (f : σ) (h0 : ℕ) (s : PTW σ) : PTW σ := ⟨s.tree.pending f h0, s.logProb, s.adj⟩

theorem recovers (hX : Atomic X Inv err) {f : σ} (hf : Inv f) (h0 height : ℕ) :
    Recovers (xpredictor X f h0 height) (fun s => s.tree.Fit Inv) err (pending f h0) where
  fails s a h w e hs hw he := by simp only [xpredictor, xupdate, PTWNode.xupdate_fails hX hw he f h0 s.tree hs, pending]
  works s a h w hs hw he := by
    obtain ⟨n, h1, h2⟩ := PTWNode.xupdate_works hX hw he hf h0 s.tree hs
    simp only [xpredictor, xupdate, h1]
    exact ⟨_, _, rfl, h2⟩
  predicts s a h hs := PTWNode.xlogPredict_fit hX.predicts a h s.tree hs
  keeps s hs := PTWNode.pending_all hf h0 hs
  again s hs := by
    have h1 := PTWNode.pending_complete (f := f) h0 hs
    rw [pending, pending, PTWNode.pending_neg f h0 (by rw [h1]; simp)]
  resumes s a h w hs hw he := by
    simp only [xpredictor, xupdate, pending, PTWNode.xupdate_pending hX hw f h0 s.tree hs he]

end PTWFixedLength

namespace FMN

variable {S σ α : Type} {St : Store S σ} {P : Predictor σ α} {X : XPredictor σ α}

theorem xmodels (hX : Models X P) (m : ℕ) : Models (xpredictor St P X m) (predictor St P m) where
  update s a h w := by
    simp only [predictor, xpredictor, FMN.update, xupdate, PTW.update_eq (Averager.xmodels hX)]
    rcases s.ptw.xupdate (Averager.xpredictor X) (modelFactory P (St.items s.store)) m a h w with ⟨r | r, q⟩
    · rfl
    · simp only [Verif.map_ok, ok_bind, pure_eq_ok]
      split_ifs
      · cases St.lazyAdd s.store (best P q) <;> rfl
      · rfl
  logPredict s a h := by
    simp only [predictor, xpredictor, FMN.logPredict, xlogPredict, PTW.logPredict_eq (Averager.xmodels hX)]
    rcases s.ptw.xlogPredict (Averager.xpredictor X) a h with ⟨r | r, q⟩ <;> rfl

variable {I : σ → Prop} {err : α → List α → Option PyErr} {add : S → σ → S} {Keep : S → σ → Prop}

/-- The invariant of the states. -/
structure Fit (St : Store S σ) (Keep : S → σ → Prop) (I : σ → Prop) (s : FMN S σ) : Prop where
  tree : s.ptw.tree.Fit (Averager.Sound I)
  keep : ∃ f, Keep s.store f
  all : ∀ x ∈ St.items s.store, I x

theorem modelFactory_sound (hC : P.Copyable I) {ms : List σ} (h : ∀ x ∈ ms, I x) (hne : ms ≠ []) :
    ∃ v, modelFactory P ms = .ok v ∧ Averager.Sound I v := by
  obtain ⟨ys, h1, h2⟩ := copies_ok hC h
  have hne' : ys ≠ [] := by
    rintro rfl
    cases h2
    exact hne rfl
  have hinit : Averager.init ys = .ok _ := Averager.init_ok.mpr ⟨hne', rfl⟩
  refine ⟨_, by simp only [modelFactory, h1, ok_bind]; exact hinit, by simpa using hne', ?_⟩
  intro x hx
  obtain ⟨y, hy, rfl⟩ := List.mem_map.1 hx
  exact forall₂_inv h2 y hy

theorem Fit.factory (hC : P.Copyable I) (hSt : St.Lawful add Keep) {s : FMN S σ} (hs : Fit St Keep I s) :
    ∃ v, modelFactory P (St.items s.store) = .ok v ∧ Averager.Sound I v := by
  obtain ⟨f, hf⟩ := hs.keep
  exact modelFactory_sound hC hs.all (List.ne_nil_of_mem (hSt.mem _ _ hf))

theorem fit_all {Inv : σ → Prop} {n : PTWNode σ} (h : n.Fit Inv) : n.All Inv := by
  induction h with
  | leaf h1 _ => exact h1
  | inner h1 _ _ ih => exact ⟨h1, ih⟩

theorem best_sound (hC : P.Copyable I) {p : PTW (Averager σ)} (h : p.tree.Fit (Averager.Sound I)) : ∃ b, best P p = .ok b ∧ I b := by
  obtain ⟨⟨ms, lp⟩, h1, h2⟩ := PTW.map_ok (fit_all h)
  cases ms with
  | nil => exact absurd rfl h2.1
  | cons x xs =>
    obtain ⟨c, h5, h6, _⟩ := hC _ (h2.2 _ (Averager.maxByKey_mem x xs))
    refine ⟨c, ?_, h6⟩
    simp only [best, h1, ok_bind]
    exact h5

/-- The state after a failed update. -/
noncomputable def pending (St : Store S σ) (P : Predictor σ α) (m : ℕ) (s : FMN S σ) : FMN S σ :=
  match modelFactory P (St.items s.store) with
  | .ok v => { s with ptw := s.ptw.pending v m }
  | .error _ => s

theorem recovers (hX : Atomic X I err) (hC : P.Copyable I) (hSt : St.Lawful add Keep) (m : ℕ) :
    Recovers (xpredictor St P X m) (Fit St Keep I) err (pending St P m) where
  fails s a h w e hs hw he := by
    obtain ⟨v, h1, h2⟩ := hs.factory hC hSt
    simp only [xpredictor, xupdate, h1, pending, PTW.xupdate_fails (Averager.atomic hX) hw he v m s.ptw hs.tree]
  works s a h w hs hw he := by
    obtain ⟨v, h1, h2⟩ := hs.factory hC hSt
    obtain ⟨r, p, h3, h4⟩ := PTW.xupdate_works (Averager.atomic hX) hw he h2 m s.ptw hs.tree
    simp only [xpredictor, xupdate, h1, h3]
    obtain ⟨f, hf⟩ := hs.keep
    split_ifs
    · obtain ⟨b, h5, h6⟩ := best_sound hC h4
      rw [h5, hSt.lazyAdd]
      refine ⟨_, _, rfl, h4, ⟨f, hSt.keep _ _ _ hf⟩, fun x hx => ?_⟩
      rcases hSt.sub _ _ _ hx with hx | rfl
      · exact hs.all x hx
      · exact h6
    · exact ⟨_, _, rfl, h4, ⟨f, hf⟩, hs.all⟩
  predicts s a h hs := ⟨PTWNode.xlogPredict_fit (Averager.atomic hX).predicts a h s.ptw.tree hs.tree, hs.keep, hs.all⟩
  keeps s hs := by
    obtain ⟨v, h1, h2⟩ := hs.factory hC hSt
    simp only [pending, h1]
    exact ⟨PTWNode.pending_all h2 m hs.tree, hs.keep, hs.all⟩
  again s hs := by
    obtain ⟨v, h1, h2⟩ := hs.factory hC hSt
    simp only [pending, h1, PTW.pending_pending v m s.ptw hs.tree]
  resumes s a h w hs hw he := by
    obtain ⟨v, h1, h2⟩ := hs.factory hC hSt
    simp only [pending, h1, xpredictor, xupdate, PTW.xupdate_pending (Averager.atomic hX) hw he v m s.ptw hs.tree]

theorem init_fit (hC : P.Copyable I) (hSt : St.Lawful add Keep) {f : σ} (hf : I f) (m : ℕ) : ∃ s, init St P f m = .ok s ∧ Fit St Keep I s := by
  have h1 := hSt.first f
  obtain ⟨v, h2, h3⟩ := modelFactory_sound (ms := [f]) hC (by simpa using hf) (by simp)
  refine ⟨⟨PTW.init v m, add St.empty f, 0⟩, ?_, .leaf h3 (by simp [PTWData.new]), ⟨f, h1.1⟩, ?_⟩
  · simp only [init, hSt.lazyAdd, ok_bind, h1.2, h2, pure_eq_ok]
  · intro x hx
    rw [h1.2, List.mem_singleton] at hx
    exact hx ▸ hf

end FMN

end Verif
