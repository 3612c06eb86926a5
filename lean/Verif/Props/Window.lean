import Verif.Spec.Window
import Verif.Props.Estimators
import Verif.Props.CTW
import Verif.Props.Order

/-!
# C156: how much of the history has to be kept
-/

namespace Verif

open Predictor Redundancy

namespace WindowProof

variable {α : Type}

theorem mkcontext_reverse {depth : ℕ} (hd : depth ≠ 0) (zero : α) (h : List α) :
    (CTW.mkcontext depth zero h).reverse = (h.reverse ++ List.replicate depth zero).take depth := by
  rw [(C18_mkcontext_partial depth (by omega) zero h).2, List.reverse_drop]
  simp

theorem SameWindow.mkcontext {zero : α} {D depth : ℕ} {h h' : List α} (hw : SameWindow zero D h h') (hd : depth ≠ 0) (hD : depth ≤ D) :
    CTW.mkcontext depth zero h = CTW.mkcontext depth zero h' := by
  have e : ∀ (h : List α) (i : ℕ), i < depth → ((h.reverse ++ List.replicate depth zero).take depth)[i]? = some ((h.reverse[i]?).getD zero) := by
    intro h i hi
    rw [List.getElem?_take_of_lt hi]
    rcases Nat.lt_or_ge i h.reverse.length with hl | hl
    · rw [List.getElem?_append_left hl, List.getElem?_eq_getElem hl]
      rfl
    · rw [List.getElem?_append_right hl, List.getElem?_eq_none hl, List.getElem?_replicate, if_pos (by omega)]
      rfl
  apply List.reverse_injective
  rw [mkcontext_reverse hd, mkcontext_reverse hd]
  apply List.ext_getElem?
  intro i
  rcases Nat.lt_or_ge i depth with hi | hi
  · rw [e h i hi, e h' i hi, hw i (by omega)]
  · rw [List.getElem?_eq_none (by simp; omega), List.getElem?_eq_none (by simp; omega)]

variable {σ : Type} {P : Predictor σ α} {a : α} {h h' : List α} (hu : ∀ s w, P.update s a h w = P.update s a h' w) (hp : ∀ s, P.logPredict s a h = P.logPredict s a h')

include hu in
theorem averager_update (s : Averager σ) (w : ℝ) : Averager.update P s a h w = Averager.update P s a h' w := by
  have e : ∀ l : List (σ × ℝ), Averager.updateModels P a h w l = Averager.updateModels P a h' w l := by
    intro l
    induction l with
    | nil => rfl
    | cons p l ih => simp only [Averager.updateModels, hu, ih]
  simp only [Averager.update, e]

include hp in
theorem averager_predict (s : Averager σ) : Averager.logPredict P s a h = Averager.logPredict P s a h' := by
  have e : ∀ l : List (σ × ℝ), Averager.predictModels P a h l = Averager.predictModels P a h' l := by
    intro l
    induction l with
    | nil => rfl
    | cons p l ih => simp only [Averager.predictModels, hp, ih]
  simp only [Averager.logPredict, e]

include hu in
theorem ctw_update {κ : Type} [DecidableEq κ] (fresh : σ) (w : ℝ) (cs : List κ) (n : CTWNode σ κ) : n.update P fresh a h w cs = n.update P fresh a h' w cs := by
  induction cs generalizing n with
  | nil => simp only [CTWNode.update, hu]
  | cons c cs ih => simp only [CTWNode.update, hu, ih]

include hp in
theorem ctw_predict {κ : Type} [DecidableEq κ] (fresh : σ) (cs : List κ) (n : CTWNode σ κ) : n.logPredict P fresh a h cs = n.logPredict P fresh a h' cs := by
  induction cs generalizing n with
  | nil => simp only [CTWNode.logPredict, hp]
  | cons c cs ih => simp only [CTWNode.logPredict, hp, ih]

include hu in
theorem ptw_update (fresh : Py σ) (m : ℕ) (w : ℝ) (n : PTWNode σ) : n.update P fresh m a h w = n.update P fresh m a h' w := by
  have b : ∀ d : PTWData σ, d.baseStep P a h w = d.baseStep P a h' w := by
    intro d
    simp only [PTWData.baseStep, hu]
  have l : ∀ d : PTWData σ, PTWNode.leafUpdate P d a h w = PTWNode.leafUpdate P d a h' w := by
    intro d
    simp only [PTWNode.leafUpdate, b]
  have p : ∀ d : PTWData σ, PTWNode.promoted P fresh m d a h w = PTWNode.promoted P fresh m d a h' w := by
    intro d
    simp only [PTWNode.promoted, b, l]
  induction n with
  | leaf d => simp only [PTWNode.update, p, l]
  | inner d r ih => simp only [PTWNode.update, p, b, ih]

include hp in
theorem ptw_predict (n : PTWNode σ) : n.logPredict P a h = n.logPredict P a h' := by
  induction n with
  | leaf d => simp only [PTWNode.logPredict, hp]
  | inner d r ih => simp only [PTWNode.logPredict, hp, ih]

end WindowProof

open WindowProof

section

variable {α : Type} [DecidableEq α] {zero : α}

/-- **C156.** A model put together from the classes of model.py other than `Factored` looks no further back than its deepest context tree: on histories whose last `D`
symbols agree every call returns or raises the same and leaves the same state. -/
theorem C156_window {D : ℕ} {σ : Type} {P : Predictor σ α} (hP : Window zero D σ P) : Blind P (SameWindow zero D) := by
  induction hP with
  | user h => exact h
  | kt => exact fun s a h h' w _ => ⟨rfl, rfl⟩
  | sad => exact fun s a h h' w _ => ⟨rfl, rfl⟩
  | averager _ ih =>
    intro s a h h' w hw
    refine ⟨averager_update (fun s w => ?_) s w, averager_predict (fun s => ?_) s⟩
    · simp only [Predictor.either, ((ih s.1) s.2 a h h' w hw).1]
    · simp only [Predictor.either, ((ih s.1) s.2 a h h' 0 hw).2]
  | ctw fresh _ hd hD ih =>
    intro s a h h' w hw
    have e := SameWindow.mkcontext hw hd hD
    refine ⟨?_, ?_⟩
    · simp only [CTW.predictor, e]
      exact ctw_update (fun s w => (ih s a h h' w hw).1) _ w _ _
    · simp only [CTW.predictor, e]
      exact ctw_predict (fun s => (ih s a h h' 0 hw).2) _ _ _
  | ctwBits fresh bit _ hd hD ih =>
    intro s a h h' w hw
    have e := SameWindow.mkcontext hw hd hD
    refine ⟨?_, ?_⟩
    · simp only [CTW.predictor, e]
      exact ctw_update (fun s w => (ih s a h h' w hw).1) _ w _ _
    · simp only [CTW.predictor, e]
      exact ctw_predict (fun s => (ih s a h h' 0 hw).2) _ _ _
  | ptw fresh m _ ih =>
    intro s a h h' w hw
    refine ⟨?_, ?_⟩
    · simp only [PTW.predictor, PTW.update, ptw_update fun s w => (ih s a h h' w hw).1]
    · simp only [PTW.predictor, PTW.logPredict, ptw_predict fun s => (ih s a h h' 0 hw).2]
  | ptwFixed fresh m height _ ih =>
    intro s a h h' w hw
    refine ⟨?_, ?_⟩
    · simp only [PTWFixedLength.predictor, PTWFixedLength.update, ptw_update fun s w => (ih s a h h' w hw).1]
    · simp only [PTWFixedLength.predictor, PTWFixedLength.logPredict, ptw_predict fun s => (ih s a h h' 0 hw).2]
  | fmn St m _ ih =>
    intro s a h h' w hw
    refine ⟨?_, ?_⟩
    · simp only [FMN.predictor, FMN.update, PTW.update]
      rw [ptw_update fun s w => averager_update (fun s w => (ih s a h h' w hw).1) s w]
    · simp only [FMN.predictor, FMN.logPredict, PTW.logPredict]
      rw [ptw_predict fun s => averager_predict (fun s => (ih s a h h' 0 hw).2) s]

/-- A call with the last `K` symbols of its history only: `history[-K:]`. -/
def Predictor.Call.trim (K : ℕ) : Call α → Call α
  | .update a h w => .update a (pyTail h K) w
  | .predict a h => .predict a (pyTail h K)

theorem WindowProof.sameWindow_tail {D K : ℕ} (hK : K ≠ 0) (hD : D ≤ K) (h : List α) : SameWindow zero D (pyTail h K) h := by
  intro i hi
  have e : (pyTail h K).reverse = h.reverse.take K := by
    simp only [pyTail, if_neg hK, List.reverse_drop]
    rw [List.take_eq_take_iff, List.length_reverse]
    omega
  rw [e, List.getElem?_take_of_lt (by omega)]

/-- **C156 (calls).** So in any program it is enough to pass the last `K` symbols of the history, for any `K ≥ 1` that is at least the greatest depth. -/
theorem C156_calls {D : ℕ} {σ : Type} {P : Predictor σ α} (hP : Window zero D σ P) (K : ℕ) (hK : K ≠ 0) (hD : D ≤ K) (s : σ) (cs : List (Call α)) :
    P.outputs s (cs.map (Call.trim K)) = P.outputs s cs := by
  have e : ∀ s c, P.step s (Call.trim K c) = P.step s c := by
    intro s c
    cases c with
    | update a h w => exact (C156_window hP s a _ h w (sameWindow_tail hK hD h)).1
    | predict a h => exact (C156_window hP s a _ h 0 (sameWindow_tail hK hD h)).2
  induction cs generalizing s with
  | nil => rfl
  | cons c cs ih =>
    simp only [List.map_cons, outputs, e]
    split
    · rfl
    · rw [ih]

end

/-- **C156 (no less).** A context tree of depth `D` does tell histories apart that differ in the symbol `D` steps back only. -/
theorem C156_no_less (d : ℕ) : ∃ r n q t q' t',
    (CTW.predictor KTBinary.predictor (KTBinary.init none) (CTW.mkcontext (d + 1) false)).run (CTW.init (KTBinary.init none)) [⟨true, List.replicate (d + 1) false, 1⟩] = .ok (r, n) ∧
    (CTW.predictor KTBinary.predictor (KTBinary.init none) (CTW.mkcontext (d + 1) false)).update n true (false :: List.replicate d false) 1 = .ok (q, t) ∧
    (CTW.predictor KTBinary.predictor (KTBinary.init none) (CTW.mkcontext (d + 1) false)).update n true (true :: List.replicate d false) 1 = .ok (q', t') ∧ q' < q := by
  set P := CTW.predictor KTBinary.predictor (KTBinary.init none) (CTW.mkcontext (d + 1) false) with hP
  have hI : 0 < (KTBinary.init none).c0 ∧ 0 < (KTBinary.init none).c1 := by norm_num [KTBinary.init]
  have ok := C13_CTW_run_succeeds KTBinary.predictor (KTBinary.init none) (CTW.mkcontext (d + 1) false) _ _ _ KTBinary.lawful.updateLawful hI (d + 1)
    (fun h => (C18_mkcontext_partial (d + 1) (by omega) false h).1)
  have run : ∀ h : List Bool, ∃ r n, P.run (CTW.init (KTBinary.init none)) [⟨true, List.replicate (d + 1) false, 1⟩, ⟨true, h, 1⟩] = .ok (r, n) ∧
      Real.exp r = ctwProb (KTBinary.predictor.seqProb (KTBinary.init none)) (d + 1)
        [((CTW.mkcontext (d + 1) false (List.replicate (d + 1) false)).reverse, ⟨true, List.replicate (d + 1) false, 1⟩), ((CTW.mkcontext (d + 1) false h).reverse, ⟨true, h, 1⟩)] := by
    intro h
    obtain ⟨r, n, hr⟩ := ok [⟨true, List.replicate (d + 1) false, 1⟩, ⟨true, h, 1⟩] (by
      intro o ho
      simp only [List.mem_cons, List.not_mem_nil, or_false] at ho
      rcases ho with rfl | rfl <;> simp)
    exact ⟨r, n, hr, C13_CTW_closed_form _ _ _ (d + 1) _ (fun o _ => (C18_mkcontext_partial (d + 1) (by omega) false o.hist).1) r n hr⟩
  have hk : ∀ l : List (Obs Bool), (∀ o ∈ l, o.weight = 1) → KTBinary.predictor.seqProb (KTBinary.init none) l = ktP (zeros l) (ones l) := fun l hl => seqProb_ktP hl
  have k1 : ∀ o : Obs Bool, o.sym = true → o.weight = 1 → KTBinary.predictor.seqProb (KTBinary.init none) [o] = 1 / 2 := by
    intro o h1 h2
    rw [hk _ (by simpa using h2)]
    norm_num [ktP, rise, zeros, ones, h1, Finset.prod_range_succ, Nat.factorial]
  have k2 : ∀ o o' : Obs Bool, o.sym = true → o'.sym = true → o.weight = 1 → o'.weight = 1 → KTBinary.predictor.seqProb (KTBinary.init none) [o, o'] = 3 / 8 := by
    intro o o' h1 h2 h3 h4
    rw [hk _ (by simp [h3, h4])]
    norm_num [ktP, rise, zeros, ones, h1, h2, Finset.prod_range_succ, Nat.factorial]
  have same : ∀ (e : ℕ) (o o' : Obs Bool), o.sym = true → o'.sym = true → o.weight = 1 → o'.weight = 1 →
      ctwProb (KTBinary.predictor.seqProb (KTBinary.init none)) e [(List.replicate e false, o), (List.replicate e false, o')] = 3 / 8 := by
    intro e o o' h1 h2 h3 h4
    induction e with
    | zero => simpa [ctwProb] using k2 o o' h1 h2 h3 h4
    | succ e ih =>
      rw [ctwProb]
      simp only [List.map_cons, List.map_nil, k2 o o' h1 h2 h3 h4, heads, List.replicate_succ]
      simp [subCtx, ih]
      norm_num
  have other : ∀ (e : ℕ) (o o' : Obs Bool), o.sym = true → o'.sym = true → o.weight = 1 → o'.weight = 1 →
      ctwProb (KTBinary.predictor.seqProb (KTBinary.init none)) (e + 1) [(List.replicate (e + 1) false, o), (List.replicate e false ++ [true], o')] < 3 / 8 := by
    intro e o o' h1 h2 h3 h4
    induction e with
    | zero =>
      simp [ctwProb, heads, subCtx, k2 o o' h1 h2 h3 h4, k1 o h1 h3, k1 o' h2 h4]
      norm_num
    | succ e ih =>
      rw [ctwProb]
      simp only [List.map_cons, List.map_nil, k2 o o' h1 h2 h3 h4, heads, List.replicate_succ (n := e + 1), List.replicate_succ (n := e)]
      rw [List.replicate_succ] at ih
      simp [subCtx] at ih ⊢
      linarith
  obtain ⟨r1, n1, h1, e1⟩ := run (false :: List.replicate d false)
  obtain ⟨r2, n2, h2, e2⟩ := run (true :: List.replicate d false)
  obtain ⟨r, n, x, a1, a2, rfl⟩ := run_cons_ok.mp h1
  obtain ⟨r', n', x', b1, b2, rfl⟩ := run_cons_ok.mp h2
  have := a1.symm.trans b1
  rw [Except.ok.injEq, Prod.mk.injEq] at this
  obtain ⟨rfl, rfl⟩ := this
  obtain ⟨q, t, y, a3, a4, rfl⟩ := run_cons_ok.mp a2
  obtain ⟨q', t', y', b3, b4, rfl⟩ := run_cons_ok.mp b2
  simp only [Predictor.run, pure_eq_ok, Except.ok.injEq, Prod.mk.injEq] at a4 b4
  obtain ⟨rfl, rfl⟩ := a4
  obtain ⟨rfl, rfl⟩ := b4
  refine ⟨r + 0, n, q, t, q', t', run_cons_ok.mpr ⟨r, n, 0, a1, rfl, rfl⟩, a3, b3, ?_⟩
  have c1 : CTW.mkcontext (d + 1) false (List.replicate (d + 1) false) = List.replicate (d + 1) false := by
    rw [(C18_mkcontext_partial (d + 1) (by omega) false _).2]
    simp
  have c2 : ∀ b : Bool, CTW.mkcontext (d + 1) false (b :: List.replicate d false) = b :: List.replicate d false := by
    intro b
    simp [CTW.mkcontext, pyTail]
  rw [c1, c2, ← List.replicate_succ, List.reverse_replicate, same (d + 1) _ _ rfl rfl rfl rfl] at e1
  rw [c1, c2, List.reverse_cons, List.reverse_replicate, List.reverse_replicate] at e2
  have lt := other d ⟨true, List.replicate (d + 1) false, 1⟩ ⟨true, true :: List.replicate d false, 1⟩ rfl rfl rfl rfl
  rw [← e2, ← e1, Real.exp_lt_exp] at lt
  linarith

section Factored

variable {σ α : Type} {P : Predictor σ α} {R : List α → List α → Prop}

/-- **C156 (Factored).** A `Factored` of `n` factors also looks at the length of the history, modulo `n`. -/
theorem C156_Factored (hP : Blind P R) (s : Factored σ) (a : α) (h h' : List α) (w : ℝ) (hR : R h h') (hl : h.length % s.factors.length = h'.length % s.factors.length) :
    (Factored.predictor P).update s a h w = (Factored.predictor P).update s a h' w ∧ (Factored.predictor P).logPredict s a h = (Factored.predictor P).logPredict s a h' := by
  refine ⟨?_, ?_⟩
  · simp only [Factored.predictor, Factored.update, Factored.index, hl, fun s => (hP s a h h' 1 hR).1]
  · simp only [Factored.predictor, Factored.logPredict, Factored.index, hl, fun s => (hP s a h h' 1 hR).2]

/-- **C156 (Factored, trimmed).** With histories that are cut to `K` symbols, it uses one factor only. -/
theorem C156_Factored_trimmed (s : Factored σ) (a : α) (h : List α) (w : ℝ) (K : ℕ) (hK : K ≠ 0) (hl : K ≤ h.length) (r : ℝ) (s' : Factored σ)
    (hs : (Factored.predictor P).update s a (pyTail h K) w = .ok (r, s')) : ∃ m m', s.factors[K % s.factors.length]? = some m ∧
      P.update m a (pyTail h K) 1 = .ok (r, m') ∧ s'.factors = s.factors.set (K % s.factors.length) m' := by
  have e : (pyTail h K).length = K := by
    simp only [pyTail, if_neg hK, List.length_drop]
    omega
  simp only [Factored.predictor, Factored.update, Factored.index, e] at hs
  split_ifs at hs with h0
  · simp at hs
  · simp only [ok_bind] at hs
    obtain ⟨m, hm, hs⟩ := bind_eq_ok.mp hs
    obtain ⟨⟨r', m'⟩, hu, hs⟩ := bind_eq_ok.mp hs
    simp only [pure_eq_ok, Except.ok.injEq, Prod.mk.injEq] at hs
    obtain ⟨rfl, rfl⟩ := hs
    refine ⟨m, m', ?_, hu, rfl⟩
    unfold pyGet at hm
    split at hm <;> simp_all

end Factored

/-- An average of context trees of depths three and five can be given the last five symbols. -/
example (cs : List (Call Bool)) (s) : (Averager.predictor (Predictor.either fun b : Bool => if b then
      ({ CTW.predictor KT.predictor (⟨[(false, 1/2), (true, 1/2)], 1⟩ : KT Bool) (CTW.mkcontext 3 false) with copy := CTW.copyDict KT.predictor } : Predictor (CTWNode (KT Bool) Bool) Bool)
      else { CTW.predictor KT.predictor (⟨[(false, 1/2), (true, 1/2)], 1⟩ : KT Bool) (CTW.mkcontext 5 false) with copy := CTW.copyDict KT.predictor })).outputs s (cs.map (Call.trim 5)) =
    (Averager.predictor (Predictor.either fun b : Bool => if b then
      ({ CTW.predictor KT.predictor (⟨[(false, 1/2), (true, 1/2)], 1⟩ : KT Bool) (CTW.mkcontext 3 false) with copy := CTW.copyDict KT.predictor } : Predictor (CTWNode (KT Bool) Bool) Bool)
      else { CTW.predictor KT.predictor (⟨[(false, 1/2), (true, 1/2)], 1⟩ : KT Bool) (CTW.mkcontext 5 false) with copy := CTW.copyDict KT.predictor })).outputs s cs := by
  refine C156_calls (zero := false) (D := 5) (.averager fun b => ?_) 5 (by decide) le_rfl s cs
  cases b
  · exact .ctw _ .kt (by decide) (by decide)
  · exact .ctw _ .kt (by decide) (by decide)

end Verif
