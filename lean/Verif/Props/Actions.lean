import Verif.Model.Either
import Verif.Spec.Actions
import Verif.Props.Compose
import Verif.Props.Minimax
import Verif.Props.Sources
import Verif.Props.Pomdp
import Verif.Props.FMNSources

/-!
# C173: a model of the observations given the actions
-/

namespace Verif

namespace Actions

variable {σ α : Type} {P : Predictor σ α}

theorem update_even {h : List α} (hh : Even h.length) (s : σ) (a : α) (w : ℝ) :
    (Observer.predictor P).update (Observer.init s) a h w = .ok (0, Observer.init s) := by
  have : h.length % 2 = 0 := Nat.even_iff.mp hh
  simp [Observer.predictor, Observer.init, Factored.predictor, Factored.update, Factored.index, this, pyGet, Predictor.eitherOf,
    Dumb.predictor, bind, Except.bind, pure, Except.pure]

theorem update_odd {h : List α} (hh : ¬ Even h.length) (s : σ) (a : α) (w : ℝ) :
    (Observer.predictor P).update (Observer.init s) a h w =
      (P.update s a h 1).map fun x => (x.1, Observer.init x.2) := by
  have : h.length % 2 = 1 := Nat.odd_iff.mp (Nat.not_even_iff_odd.mp hh)
  cases hx : P.update s a h 1 <;>
  simp [Observer.predictor, Observer.init, Factored.predictor, Factored.update, Factored.index, this, pyGet, Predictor.eitherOf,
    bind, Except.bind, pure, Except.pure, hx, Except.map]

theorem logPredict_even {h : List α} (hh : Even h.length) (s : σ) (a : α) :
    (Observer.predictor P).logPredict (Observer.init s) a h = .ok (0, Observer.init s) := by
  have : h.length % 2 = 0 := Nat.even_iff.mp hh
  simp [Observer.predictor, Observer.init, Factored.predictor, Factored.logPredict, Factored.index, this, pyGet, Predictor.eitherOf,
    Dumb.predictor, bind, Except.bind, pure, Except.pure]

theorem logPredict_odd {h : List α} (hh : ¬ Even h.length) (s : σ) (a : α) :
    (Observer.predictor P).logPredict (Observer.init s) a h =
      (P.logPredict s a h).map fun x => (x.1, Observer.init x.2) := by
  have : h.length % 2 = 1 := Nat.odd_iff.mp (Nat.not_even_iff_odd.mp hh)
  cases hx : P.logPredict s a h <;>
  simp [Observer.predictor, Observer.init, Factored.predictor, Factored.logPredict, Factored.index, this, pyGet, Predictor.eitherOf,
    bind, Except.bind, pure, Except.pure, hx, Except.map]

theorem even_concat {h : List α} (hh : Even h.length) (a : α) : ¬ Even (h ++ [a]).length := by
  simp [Nat.even_add_one, hh]

theorem even_concat2 {h : List α} (hh : Even h.length) (a o : α) : Even (h ++ [a, o]).length := by
  simp [Nat.even_add, hh]

theorem loop (w : ℝ) : ∀ (ps : List (α × α)) (s : σ) (h : List α) (rv : ℝ), Even h.length →
    (Observer.predictor P).updateSeqLoop w (Observer.init s) (alternate ps) h rv =
      (P.run s (observed h ps)).map fun x => (rv + x.1, Observer.init x.2, h ++ alternate ps)
  | [], s, h, rv, _ => by
    simp [alternate, observed, Predictor.updateSeqLoop, Predictor.run, pure, Except.pure, Except.map]
  | (a, o) :: ps, s, h, rv, hh => by
    have e : alternate ((a, o) :: ps) = a :: o :: alternate ps := rfl
    rw [e, Predictor.updateSeqLoop, update_even hh]
    simp only [ok_bind]
    rw [Predictor.updateSeqLoop, update_odd (even_concat hh a), observed, Predictor.run]
    cases hx : P.update s o (h ++ [a]) 1 with
    | error x => rfl
    | ok x =>
      obtain ⟨r, s'⟩ := x
      simp only [Except.map, ok_bind]
      rw [show h ++ [a] ++ [o] = h ++ [a, o] by simp, loop w ps s' (h ++ [a, o]) _ (even_concat2 hh a o)]
      cases P.run s' (observed (h ++ [a, o]) ps) with
      | error x => rfl
      | ok x => simp [Except.map, bind, Except.bind, pure, Except.pure, add_assoc]

theorem loop_predict : ∀ (ps : List (α × α)) (s : σ) (h : List α) (rv : ℝ), Even h.length →
    (Observer.predictor P).logPredictSeqLoop (Observer.init s) (alternate ps) h rv =
      (P.predictAll s (observed h ps)).map fun x => (rv + x.1, Observer.init x.2, h ++ alternate ps)
  | [], s, h, rv, _ => by
    simp [alternate, observed, Predictor.logPredictSeqLoop, Predictor.predictAll, pure, Except.pure, Except.map]
  | (a, o) :: ps, s, h, rv, hh => by
    have e : alternate ((a, o) :: ps) = a :: o :: alternate ps := rfl
    rw [e, Predictor.logPredictSeqLoop, logPredict_even hh]
    simp only [ok_bind]
    rw [Predictor.logPredictSeqLoop, logPredict_odd (even_concat hh a), observed, Predictor.predictAll]
    cases hx : P.logPredict s o (h ++ [a]) with
    | error x => rfl
    | ok x =>
      obtain ⟨r, s'⟩ := x
      simp only [Except.map, ok_bind]
      rw [show h ++ [a] ++ [o] = h ++ [a, o] by simp, loop_predict ps s' (h ++ [a, o]) _ (even_concat2 hh a o)]
      cases P.predictAll s' (observed (h ++ [a, o]) ps) with
      | error x => rfl
      | ok x => simp [Except.map, bind, Except.bind, pure, Except.pure, add_assoc]

theorem length_alternate (ps : List (α × α)) : (alternate ps).length = 2 * ps.length := by
  induction ps with
  | nil => rfl
  | cons p ps ih => simp [alternate] at ih ⊢; omega

theorem delTail {ps : List (α × α)} (hne : ps ≠ []) (h : List α) : pyDelTail (h ++ alternate ps) (alternate ps).length = h := by
  have : 0 < ps.length := List.length_pos_iff.mpr hne
  rw [pyDelTail, if_neg (by rw [length_alternate]; omega)]
  simp

theorem play_sum {I : σ → Prop} {A : List α} {W : ℝ → Prop} (hP : P.UpdateLawful I A W) (hW : W 1) (π : List α → α) :
    ∀ (n : ℕ) (s : σ) (h : List α), I s → ((words A n).map fun os => P.seqProb s (observed h (play π h os))).sum = 1
  | 0, s, h, _ => by simp [words, play, observed, Predictor.seqProb, Predictor.run, Predictor.probOf]
  | n + 1, s, h, hs => by
    rw [words, List.map_flatMap, Compose.sum_flatMap, ← hP.sum_probOf hs hW (h ++ [π h])]
    congr 1
    apply List.map_congr_left
    intro a ha
    obtain ⟨r, t, h1, h2⟩ := hP.total s a (h ++ [π h]) 1 hs ha hW
    have h3 := play_sum hP hW π n t (h ++ [π h, a]) h2
    rw [List.map_map, h1, Predictor.probOf_ok]
    calc _ = ((words A n).map fun os => Real.exp r * P.seqProb t (observed (h ++ [π h, a]) (play π (h ++ [π h, a]) os))).sum := by
          congr 1
          apply List.map_congr_left
          intro os hos
          simp only [Function.comp, play, observed, Predictor.seqProb, Predictor.run, h1, ok_bind]
          cases P.run t (observed (h ++ [π h, a]) (play π (h ++ [π h, a]) os)) with
          | error x => simp [Predictor.probOf, bind, Except.bind]
          | ok x => simp [Predictor.probOf, bind, Except.bind, pure, Except.pure, Real.exp_add]
      _ = _ := by rw [List.sum_map_mul_left, h3, mul_one]

end Actions

open Actions Pomdp

variable {σ α : Type}

/-- **C173 (update_seq).** `Factored((Dumb(), m)).update_seq` on a sequence of actions and observations does exactly what calls of
`m.update` for the observations alone do, each with all of the past and the action just taken as history: the same value, the same state
of `m`, and the same exception if there is one.  The actions cost nothing and teach `m` nothing, and the weight is not passed on.  The
history of the caller is as before. -/
theorem C173_update_seq (P : Predictor σ α) (s : σ) (h : List α) (hh : Even h.length) (ps : List (α × α)) (hne : ps ≠ []) (w : ℝ) :
    (Observer.predictor P).updateSeq (Observer.init s) (alternate ps) h w =
      (P.run s (observed h ps)).map fun x => (x.1, Observer.init x.2, h) := by
  rw [Predictor.updateSeq, loop w ps s h 0 hh]
  cases P.run s (observed h ps) with
  | error x => rfl
  | ok x => simp [Except.map, bind, Except.bind, pure, Except.pure, delTail hne]

/-- **C173 (log_predict_seq).** Its `log_predict_seq` adds up what `m.log_predict` returns for the observations. -/
theorem C173_log_predict_seq (P : Predictor σ α) (s : σ) (h : List α) (hh : Even h.length) (ps : List (α × α)) (hne : ps ≠ []) :
    (Observer.predictor P).logPredictSeq (Observer.init s) (alternate ps) h =
      (P.predictAll s (observed h ps)).map fun x => (x.1, Observer.init x.2, h) := by
  rw [Predictor.logPredictSeq, loop_predict ps s h 0 hh]
  cases P.predictAll s (observed h ps) with
  | error x => rfl
  | ok x => simp [Except.map, bind, Except.bind, pure, Except.pure, delTail hne]

/-- **C173 (the actions).** Every action, whether it could be a symbol for `m` or not, has probability one and changes nothing. -/
theorem C173_action (P : Predictor σ α) (s : σ) (h : List α) (hh : Even h.length) (a : α) (w : ℝ) :
    (Observer.predictor P).update (Observer.init s) a h w = .ok (0, Observer.init s) ∧
      (Observer.predictor P).logPredict (Observer.init s) a h = .ok (0, Observer.init s) :=
  ⟨update_even hh s a w, logPredict_even hh s a⟩

/-- **C173 (a distribution given the actions).** When the actions are chosen by any policy that may look at everything so far, the
probabilities that `Factored((Dumb(), m))` reports for all the sequences of `n` observations sum to one, for every `m` put together from
the classes of model.py. -/
theorem C173_distribution [DecidableEq α] {P : Predictor σ α} {s : σ} {A : List α} {cp co : Bool} (hA : A.Nodup) (hA0 : A ≠ [])
    (hb : Built A cp co σ P s) (π : List α → α) (n : ℕ) (hn : n ≠ 0) (h : List α) (hh : Even h.length) (w : ℝ) :
    ((words A n).map fun os =>
      match (Observer.predictor P).updateSeq (Observer.init s) (alternate (play π h os)) h w with
      | .ok (r, _) => Real.exp r
      | .error _ => 0).sum = 1 := by
  rw [← play_sum Compose.fine_update zero_le_one π n s h (Compose.fine hA hA0 hb)]
  congr 1
  apply List.map_congr_left
  intro os hos
  have h1 : play π h os ≠ [] := by
    have := (Minimax.mem_words hos).1
    cases os with
    | nil => exact absurd this.symm hn
    | cons o os => simp [play]
  rw [C173_update_seq P s h hh _ h1 w, Predictor.seqProb]
  cases P.run s (observed h (play π h os)) <;> rfl

/-- **C173 (no copy).** `Factored((Dumb(), m)).copy()` raises `NotImplementedError`, so such a model cannot be the base model of one that
copies. -/
theorem C173_copy (P : Predictor σ α) (s : σ) :
    (Observer.predictor P).copy (Observer.init s) = .error .notImplementedError := rfl

namespace Actions

open Redundancy Pomdp

/-- A rule that is wrong with probability `ε`, as a tree source. -/
noncomputable def ruleTree (f : Bool → Bool → Bool) (ε : ℝ) (d : ℕ) : TreeSource Bool (d + 2) :=
  .split fun a => .split fun b => .leaf (if f a b then 1 - ε else ε)

theorem ruleTree_cons (f : Bool → Bool → Bool) (ε : ℝ) (d : ℕ) (a b : Bool) (c : List Bool) (o : Obs Bool)
    (S : List (List Bool × Obs Bool)) :
    (ruleTree f ε d).prob ((a :: b :: c, o) :: S) = (if f a b = o.sym then 1 - ε else ε) * (ruleTree f ε d).prob S := by
  have key : ∀ a' b', subCtx b' (subCtx a' ((a :: b :: c, o) :: S)) =
      if a = a' ∧ b = b' then (c, o) :: subCtx b' (subCtx a' S) else subCtx b' (subCtx a' S) := by
    intro a' b'
    simp only [subCtx, List.filterMap_cons]
    by_cases h1 : a = a' <;> by_cases h2 : b = b' <;> simp [h1, h2]
  have hc : ∀ (θ : ℝ) (xs : List (Obs Bool)), bernProb θ (o :: xs) = (if o.sym then θ else 1 - θ) * bernProb θ xs :=
    fun θ xs => by simp [bernProb]
  have hθ : (if o.sym then (if f a b then 1 - ε else ε) else 1 - (if f a b then 1 - ε else ε)) =
      if f a b = o.sym then 1 - ε else ε := by
    cases f a b <;> cases o.sym <;> simp
  simp only [ruleTree, TreeSource.prob, Fintype.prod_bool, key]
  rw [← hθ]
  cases a <;> cases b <;> simp only [List.map_cons, hc, and_self, and_true, true_and, and_false, false_and, reduceCtorEq, if_true,
    if_false] <;> ring

theorem ruleTree_price (f : Bool → Bool → Bool) (ε : ℝ) (d : ℕ) (S : List (List Bool × Obs Bool)) (hS : S ≠ []) :
    (ruleTree f ε d).price S ≤ 16 * (S.length : ℝ) ^ 2 := by
  have hn : (1 : ℝ) ≤ S.length := by exact_mod_cast List.length_pos_iff.mpr hS
  have hk : ktPrice S.length = 2 * Real.sqrt S.length := by
    rw [ktPrice, max_eq_right]
    have : 1 ≤ Real.sqrt S.length := Real.one_le_sqrt.mpr hn
    linarith
  have hl : ∀ a b : Bool, ktPrice (subCtx b (subCtx a S)).length ≤ 2 * Real.sqrt S.length := by
    intro a b
    rw [← hk]
    exact ktPrice_mono ((List.length_filterMap_le _ _).trans (List.length_filterMap_le _ _))
  have hp : ∀ a b : Bool, 0 ≤ ktPrice (subCtx b (subCtx a S)).length := fun a b => zero_le_one.trans (one_le_ktPrice _)
  have h0 : 0 ≤ 2 * Real.sqrt S.length := by positivity
  simp only [ruleTree, TreeSource.price, Fintype.prod_bool]
  calc _ ≤ (2 * Real.sqrt S.length * (2 * Real.sqrt S.length)) * (2 * Real.sqrt S.length * (2 * Real.sqrt S.length)) :=
        mul_le_mul (mul_le_mul (hl _ _) (hl _ _) (hp _ _) h0) (mul_le_mul (hl _ _) (hl _ _) (hp _ _) h0)
          (mul_nonneg (hp _ _) (hp _ _)) (mul_nonneg h0 h0)
    _ = 16 * (Real.sqrt S.length ^ 2) ^ 2 := by ring
    _ = _ := by rw [Real.sq_sqrt (by positivity)]

theorem ruleTree_cost (f : Bool → Bool → Bool) (ε : ℝ) (d : ℕ) : (ruleTree f ε d).shape.cost ≤ 7 := by
  cases d <;> simp [ruleTree, TreeSource.shape, Pruning.cost]

theorem context_eq (d : ℕ) (h : List Bool) (a : Bool) :
    ∃ c, (CTW.mkcontext (d + 2) false (h ++ [a])).reverse = a :: h.getLast?.getD false :: c := by
  rw [mkcontext_eq_recent (by omega), recent, List.reverse_drop]
  rcases List.eq_nil_or_concat h with rfl | ⟨l, b, rfl⟩
  · refine ⟨List.replicate d false, ?_⟩
    rw [List.reverse_append, List.reverse_replicate, List.nil_append, List.length_append, List.length_replicate,
      show d + 2 + [a].length - [a].length = d + 2 by simp, List.reverse_singleton, List.singleton_append, List.replicate_succ]
    simp
  · refine ⟨(l.reverse ++ List.replicate (d + 2) false).take d, ?_⟩
    simp

theorem rule_prob (f : Bool → Bool → Bool) {ε : ℝ} (h0 : 0 ≤ ε) (h1 : ε ≤ 1) (d : ℕ) : ∀ (ps : List (Bool × Bool)) (h : List Bool),
    ε ^ mistakes f (h.getLast?.getD false) ps * (1 - ε) ^ ps.length ≤
      (ruleTree f ε d).prob (withCtx (CTW.mkcontext (d + 2) false) (observed h ps))
  | [], h => by
    simp [mistakes, observed, withCtx, ruleTree, TreeSource.prob, subCtx, bernProb]
  | (a, o) :: ps, h => by
    have ih := rule_prob f h0 h1 d ps (h ++ [a, o])
    obtain ⟨c, hc⟩ := context_eq d h a
    have e : withCtx (CTW.mkcontext (d + 2) false) (observed h ((a, o) :: ps)) =
        (a :: h.getLast?.getD false :: c, ⟨o, h ++ [a], 1⟩) ::
          withCtx (CTW.mkcontext (d + 2) false) (observed (h ++ [a, o]) ps) := by
      simp [observed, withCtx, hc]
    rw [e, ruleTree_cons, mistakes, List.length_cons]
    have e2 : (h ++ [a, o]).getLast?.getD false = o := by simp
    rw [e2] at ih
    have hA : 0 ≤ ε ^ mistakes f o ps * (1 - ε) ^ ps.length := mul_nonneg (pow_nonneg h0 _) (pow_nonneg (by linarith) _)
    split_ifs with hf
    · calc _ = (1 - ε) * (ε ^ mistakes f o ps * (1 - ε) ^ ps.length) := by rw [zero_add]; ring
        _ ≤ _ := mul_le_mul_of_nonneg_left ih (by linarith)
    · calc _ = (1 - ε) * (ε * (ε ^ mistakes f o ps * (1 - ε) ^ ps.length)) := by rw [pow_add]; ring
        _ ≤ 1 * (ε * (ε ^ mistakes f o ps * (1 - ε) ^ ps.length)) :=
          mul_le_mul_of_nonneg_right (by linarith) (mul_nonneg h0 hA)
        _ ≤ _ := by rw [one_mul]; exact mul_le_mul_of_nonneg_left ih h0

theorem length_observed {α : Type} : ∀ (ps : List (α × α)) (h : List α), (observed h ps).length = ps.length
  | [], _ => rfl
  | (a, o) :: ps, h => by simp [observed, length_observed ps]

theorem weight_observed {α : Type} : ∀ (ps : List (α × α)) (h : List α), ∀ o ∈ observed h ps, o.weight = 1
  | [], _ => by simp [observed]
  | (a, o) :: ps, h => by
    intro x hx
    rw [observed, List.mem_cons] at hx
    rcases hx with rfl | hx
    · rfl
    · exact weight_observed ps _ x hx

theorem corr_run (d : ℕ) : ∀ (xs : List (Obs Bool)) {k : KNode} {n n' : CTWNode KTBinary Bool} {r : ℝ}, KNode.Corr k n →
    (CTW.predictor KTBinary.predictor (KTBinary.init none) (CTW.mkcontext d false)).run n xs = .ok (r, n') →
    ∃ k', (KNode.predictor d).run k xs = .ok (r, k')
  | [], k, n, n', r, _, h => by
    simp only [Predictor.run, pure_eq_ok, Except.ok.injEq, Prod.mk.injEq] at h
    exact ⟨k, by rw [← h.1]; rfl⟩
  | o :: xs, k, n, n', r, hc, h => by
    rw [Predictor.run_cons_ok] at h
    obtain ⟨r1, m, r2, g1, g2, rfl⟩ := h
    have := hc.update o.sym o.hist o.weight (CTW.mkcontext d false o.hist).reverse
    change CTWNode.update _ _ _ _ _ _ n = _ at g1
    rw [g1] at this
    cases e : KNode.update o.sym o.weight (CTW.mkcontext d false o.hist).reverse k with
    | error x => rw [e] at this; exact this.elim
    | ok p =>
      obtain ⟨r1', k1⟩ := p
      rw [e] at this
      obtain ⟨rfl, h2⟩ := this
      obtain ⟨k', hk⟩ := corr_run d xs h2 g2
      exact ⟨k', Predictor.run_cons_ok.mpr ⟨_, k1, r2, e, hk, rfl⟩⟩

/-- The states of a `CTW_KT` that correspond to a well formed tree. -/
def KGood (d : ℕ) (k : KNode) : Prop :=
  ∃ n, KNode.Corr k n ∧ CTWNode.WF (KTBinary.init none) (fun s : KTBinary => 0 < s.c0 ∧ 0 < s.c1) d n

theorem kgood_new (d : ℕ) : KGood d KNode.new :=
  ⟨_, KNode.corr_new, CTWNode.WF.new (by norm_num [KTBinary.init]) d⟩

theorem knode_lawful {d : ℕ} (hd : 1 ≤ d) : (KNode.predictor d).UpdateLawful (KGood d) [false, true] fun w => 0 ≤ w := by
  have hL := (CTWNode.lawful (fresh := KTBinary.init none) KTBinary.lawful
    (fun h => (C18_mkcontext_partial d hd false h).1)).updateLawful
  have key : ∀ k n a h w r k', KNode.Corr k n → (KNode.predictor d).update k a h w = .ok (r, k') →
      ∃ n', (CTW.predictor KTBinary.predictor (KTBinary.init none) (CTW.mkcontext d false)).update n a h w = .ok (r, n') := by
    intro k n a h w r k' hc e
    have := hc.update a h w (CTW.mkcontext d false h).reverse
    change KNode.update _ _ _ k = _ at e
    rw [e] at this
    change ∃ n', CTWNode.update _ _ _ _ _ _ n = _
    cases e2 : CTWNode.update KTBinary.predictor (KTBinary.init none) a h w (CTW.mkcontext d false h).reverse n with
    | error x => rw [e2] at this; exact this.elim
    | ok q =>
      rw [e2] at this
      exact ⟨q.2, by rw [this.1]⟩
  refine ⟨?_, ?_⟩
  · rintro k a h w ⟨n, hc, hn⟩ ha hw
    obtain ⟨r, n', h1, h2⟩ := hL.total n a h w hn ha hw
    have := hc.update a h w (CTW.mkcontext d false h).reverse
    change CTWNode.update _ _ _ _ _ _ n = _ at h1
    rw [h1] at this
    change ∃ r s', KNode.update _ _ _ k = _ ∧ _
    cases e : KNode.update a w (CTW.mkcontext d false h).reverse k with
    | error x => rw [e] at this; exact this.elim
    | ok q =>
      rw [e] at this
      exact ⟨q.1, q.2, rfl, n', this.2, h2⟩
  · rintro k h w ⟨n, hc, hn⟩ hw f hf
    refine hL.normalised n h w hn hw f fun a ha => ?_
    obtain ⟨k', hk⟩ := hf a ha
    exact key k n a h w _ k' hc hk

theorem knode_copyable (d : ℕ) : (KNode.predictor d).Copyable (KGood d) := by
  intro k hk
  exact ⟨_, rfl, hk, fun _ => rfl⟩

theorem direction_pairs (act : ℕ → Bool) (d : Bool) (n : ℕ) :
    mistakes (fun a prev => if a then prev else !prev) d
      ((List.range n).map fun k => (act k, direction d ((List.range (k + 1)).map act))) = 0 := by
  induction n generalizing act d with
  | zero => rfl
  | succ n ih =>
    rw [List.range_succ_eq_map, List.map_cons, mistakes]
    have hd : ∀ k, direction d ((List.range (k + 1)).map act) =
        direction (if act 0 then d else !d) ((List.range k).map fun j => act (j + 1)) := by
      intro k
      rw [List.range_succ_eq_map, List.map_cons, List.map_map]
      simp only [direction, List.count_cons]
      clear ih
      cases act 0 <;> cases d <;> simp [Nat.even_add_one, Function.comp_def, ← Nat.not_even_iff_odd]
    have h0 : direction d ((List.range (0 + 1)).map act) = if act 0 then d else !d := by
      rw [hd]
      simp [direction]
    have := ih (fun j => act (j + 1)) (if act 0 then d else !d)
    rw [h0, if_pos rfl, List.map_map, zero_add]
    refine Eq.trans (congrArg _ (List.map_congr_left fun k _ => ?_)) this
    simp only [Function.comp, Nat.succ_eq_add_one, hd (k + 1)]

end Actions

/-- **C173 (a rule for the observations).** If a rule says what is observed, from the action and the observation before it, and is wrong
`k` times in `n ≥ 1` observations, then `Factored((Dumb(), CTW_KT(depth)))` of any depth from two on loses at most
`12 + k + (k + 2) log2 n` bits on the `n` observations, whatever the actions and the rule are. -/
theorem C173_rule (f : Bool → Bool → Bool) (ps : List (Bool × Bool)) (hne : ps ≠ []) (depth : ℕ) (hd : 2 ≤ depth) (w : ℝ) :
    ∃ r t, (Observer.predictor (KNode.predictor depth)).updateSeq (Observer.init KNode.new) (alternate ps) [] w =
        .ok (r, Observer.init t, []) ∧
      -r ≤ (12 + mistakes f false ps) * Real.log 2 + (mistakes f false ps + 2) * Real.log ps.length := by
  obtain ⟨d, rfl⟩ : ∃ d, depth = d + 2 := ⟨depth - 2, by omega⟩
  obtain ⟨r, n', hr, -, -⟩ := C13_CTW_default (d + 2) (by omega) (observed [] ps)
    (fun o ho => by rw [weight_observed ps [] o ho]; exact zero_le_one) []
  obtain ⟨t, ht⟩ := corr_run (d + 2) (observed [] ps) KNode.corr_new hr
  refine ⟨r, t, ?_, ?_⟩
  · rw [C173_update_seq _ _ _ (by simp) ps hne w, ht]
    rfl
  have hn : (1 : ℝ) ≤ ps.length := by exact_mod_cast List.length_pos_iff.mpr hne
  set N : ℝ := (ps.length : ℝ) with hN
  set k := mistakes f false ps with hk
  have hε0 : (0 : ℝ) ≤ 1 / (2 * N) := by positivity
  have hε1 : 1 / (2 * N) ≤ 1 := by rw [div_le_one (by linarith)]; linarith
  have h1 := rule_prob f hε0 hε1 d ps []
  have h2 := C52_CTW_redundancy (CTW.mkcontext (d + 2) false) (d + 2) (observed [] ps)
    (fun o _ => (C18_mkcontext_partial (d + 2) (by omega) false o.hist).1) (weight_observed ps []) r n' hr
    (ruleTree f (1 / (2 * N)) d) (by
      intro a b
      show 0 ≤ (if f a b then 1 - 1 / (2 * N) else 1 / (2 * N)) ∧ (if f a b then 1 - 1 / (2 * N) else 1 / (2 * N)) ≤ 1
      split_ifs <;> constructor <;> linarith)
  have h3 := ruleTree_price f (1 / (2 * N)) d (withCtx (CTW.mkcontext (d + 2) false) (observed [] ps)) (by
    intro h
    have := congrArg List.length h
    simp only [withCtx, List.length_map, length_observed, List.length_nil] at this
    exact hne (List.length_eq_zero_iff.mp this))
  have hl : ((withCtx (CTW.mkcontext (d + 2) false) (observed [] ps)).length : ℝ) = N := by
    simp [withCtx, length_observed, hN]
  rw [hl] at h3
  have h4 : (1 : ℝ) / 2 ≤ (1 - 1 / (2 * N)) ^ ps.length := by
    have := one_add_mul_le_pow (a := -(1 / (2 * N))) (by linarith) ps.length
    rw [← hN] at this
    have e : N * -(1 / (2 * N)) = -(1 / 2) := by field_simp
    rw [e] at this
    calc (1 : ℝ) / 2 = 1 + -(1 / 2) := by norm_num
      _ ≤ _ := this
      _ = _ := by rw [sub_eq_add_neg]
  have h5 : (2 : ℝ) ^ (ruleTree f (1 / (2 * N)) d).shape.cost ≤ 2 ^ 7 := pow_le_pow_right₀ (by norm_num) (ruleTree_cost _ _ _)
  have h6 : (1 / (2 * N)) ^ k * (1 / 2) ≤ 2 ^ 7 * (16 * N ^ 2) * Real.exp r := by
    calc _ ≤ (1 / (2 * N)) ^ k * (1 - 1 / (2 * N)) ^ ps.length := mul_le_mul_of_nonneg_left h4 (by positivity)
      _ ≤ _ := h1.trans h2
      _ ≤ _ := by
        have := TreeSource.price_pos (ruleTree f (1 / (2 * N)) d) (withCtx (CTW.mkcontext (d + 2) false) (observed [] ps))
        exact mul_le_mul_of_nonneg_right (mul_le_mul h5 h3 this.le (by positivity)) (Real.exp_pos r).le
  have hNpos : 0 < N := by linarith
  have h7 := Real.log_le_log (by positivity) h6
  have e12 : (2 : ℝ) ^ 7 * (16 * N ^ 2) = 2 ^ 11 * N ^ 2 := by ring
  rw [e12, Real.log_mul (by positivity) (by norm_num), Real.log_mul (by positivity) (Real.exp_pos r).ne', Real.log_exp,
    Real.log_mul (by positivity) (by positivity), Real.log_pow, Real.log_pow, Real.log_pow, one_div, Real.log_inv,
    Real.log_mul (by norm_num) hNpos.ne', one_div, Real.log_inv] at h7
  push_cast at h7
  linarith

/-- **C173 (FMN on the observations).** `Factored((Dumb(), FMN(lambda: CTW_KT(depth), m)))` loses at most what `Factored((Dumb(),
CTW_KT(depth)))` loses, one bit, `log2 (3 / 2)` for each level of its partitions and the logarithm of the greatest number of stored models. -/
theorem C173_FMN (ps : List (Bool × Bool)) (hne : ps ≠ []) (depth : ℕ) (hd : 1 ≤ depth) (m : ℕ) (w : ℝ) :
    ∃ s0 r t r' t', FMN.init (LogStore.store KNode) (KNode.predictor depth) KNode.new m = .ok s0 ∧
      (Observer.predictor (FMN.predictor (LogStore.store KNode) (KNode.predictor depth) m)).updateSeq (Observer.init s0) (alternate ps) [] w =
        .ok (r, Observer.init t, []) ∧
      (Observer.predictor (KNode.predictor depth)).updateSeq (Observer.init KNode.new) (alternate ps) [] w =
        .ok (r', Observer.init t', []) ∧
      -r ≤ -r' + Real.log 2 + levelsFor m ps.length * Real.log (3 / 2) + Real.log (storeSize m ps.length) := by
  have hx : ∀ o ∈ observed [] ps, o.sym ∈ [false, true] ∧ 0 ≤ o.weight := fun o ho =>
    ⟨by cases o.sym <;> simp, by rw [weight_observed ps [] o ho]; exact zero_le_one⟩
  obtain ⟨s0, r, s, h0, hr, -⟩ := C35_FMN_store_size (KNode.predictor depth) (KGood depth) [false, true] (fun w => 0 ≤ w) (knode_lawful hd)
    (knode_copyable depth) KNode.new (kgood_new depth) m (observed [] ps) hx
  obtain ⟨r', t', hr', -⟩ := (knode_lawful hd).run_ok (kgood_new depth) hx
  refine ⟨s0, r, s, r', t', h0, ?_, ?_, ?_⟩
  · rw [C173_update_seq _ _ _ (by simp) ps hne w, hr]
    rfl
  · rw [C173_update_seq _ _ _ (by simp) ps hne w, hr']
    rfl
  have h1 := C119_FMN_fresh (KNode.predictor depth) (KGood depth) [false, true] (fun w => 0 ≤ w) (knode_lawful hd)
    (knode_copyable depth) KNode.new (kgood_new depth) m (observed [] ps) hx s0 s r h0 hr .whole
  simp only [TPart.segments, List.map_cons, List.map_nil, List.prod_singleton, TPart.size, pow_one, length_observed] at h1
  rw [Predictor.seqProb_of_run hr'] at h1
  have hc : ∀ k, (TPart.whole : TPart k).cost ≤ 1 := by
    intro k
    cases k <;> simp [TPart.cost]
  have h2 : ∀ k, (2 : ℝ) ^ (TPart.whole : TPart k).cost ≤ 2 := fun k =>
    (pow_le_pow_right₀ (by norm_num) (hc k)).trans_eq (pow_one 2)
  have hs : (0 : ℝ) < storeSize m ps.length := by exact_mod_cast storeSize_pos m ps.length
  have h3 : Real.exp r' ≤ (3/2 : ℝ) ^ levelsFor m ps.length * 2 * storeSize m ps.length * Real.exp r := by
    refine h1.trans ?_
    gcongr
    exact h2 _
  have h4 := Real.log_le_log (Real.exp_pos r') h3
  rw [Real.log_exp, Real.log_mul (by positivity) (Real.exp_pos r).ne', Real.log_mul (by positivity) hs.ne',
    Real.log_mul (by positivity) (by norm_num), Real.log_pow, Real.log_exp] at h4
  linarith

/-- **C173 (the hallway).** On `n ≥ 1` actions and observations of `pomdp.Hallway`, with any probability of going forward and any random
numbers, `Factored((Dumb(), CTW_KT(depth)))` of any depth from two on loses at most `13 + 3 log2 n` bits.  It learns that the observation is
the one before, or after a turn the other one; so the loss per observation goes to zero. -/
theorem C173_hallway (p : ℝ) (u : ℕ → ℝ) (n : ℕ) (hn : 1 ≤ n) (depth : ℕ) (hd : 2 ≤ depth) (w : ℝ) :
    ∃ r t, (Observer.predictor (KNode.predictor depth)).updateSeq (Observer.init KNode.new)
        (Pomdp.outputs (2 * n) u .start (.newHallway p)) [] w = .ok (r, Observer.init t, []) ∧
      -r ≤ 13 * Real.log 2 + 3 * Real.log n := by
  set ps := (List.range n).map fun k => (C87_act p u k, direction true ((List.range (k + 1)).map (C87_act p u))) with hps
  have e : Pomdp.outputs (2 * n) u .start (.newHallway p) = alternate ps := by
    rw [C87_hallway, hps, alternate, List.flatMap_map]
  have hne : ps ≠ [] := by
    intro h
    have := congrArg List.length h
    simp [hps] at this
    omega
  obtain ⟨r, t, h1, h2⟩ := C173_rule (fun a prev => if a then prev else !prev) ps hne depth hd w
  refine ⟨r, t, by rw [e]; exact h1, h2.trans ?_⟩
  have hm : mistakes (fun a prev => if a then prev else !prev) false ps ≤ 1 := by
    have h0 := direction_pairs (C87_act p u) true n
    rw [← hps] at h0
    cases hc : ps with
    | nil => exact absurd hc hne
    | cons q qs =>
      obtain ⟨a, o⟩ := q
      rw [hc, mistakes] at h0
      rw [mistakes]
      split_ifs <;> omega
  have hl : (ps.length : ℝ) = n := by simp [hps]
  rw [hl]
  have hm' : (mistakes (fun a prev => if a then prev else !prev) false ps : ℝ) ≤ 1 := by exact_mod_cast hm
  have := Real.log_pos (show (1 : ℝ) < 2 by norm_num)
  have := Real.log_nonneg (show (1 : ℝ) ≤ n by exact_mod_cast hn)
  nlinarith

/-- Three steps: forward, turn, forward.  The rule of the hallway is wrong for the first observation only, because the context is padded
with zeros while the hallway starts with `True`. -/
example : mistakes (fun a prev => if a then prev else !prev) false [(true, true), (false, false), (true, false)] = 1 ∧
    alternate [(true, true), (false, false), (true, false)] = [true, true, false, false, true, false] ∧
    play (fun h => h.length == 0) [] [true, false, false] = [(true, true), (false, false), (false, false)] := by decide

/-- `C173_update_seq` on one action and one observation. -/
example : (Observer.predictor (Dumb.predictor : Predictor Unit Bool)).updateSeq (Observer.init ()) (alternate [(true, false)]) [] 3 =
    .ok (0, Observer.init (), []) := by
  rw [C173_update_seq _ _ _ (by simp) _ (by simp)]
  simp [observed, Predictor.run, Dumb.predictor, bind, Except.bind, pure, Except.pure, Except.map]

end Verif
