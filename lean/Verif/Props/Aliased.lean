import Verif.Model.Aliased
import Verif.Proofs.AveragerLawful
import Verif.Proofs.CTWLawful
import Verif.Props.Copy
import Verif.Props.Mixtures

/-!
# C154: objects that are used more than once
-/

namespace Verif

open Predictor

namespace AvgObj

variable {ι σ α : Type} [DecidableEq ι] {P : Predictor σ α}

/-- The states and weights of the models. -/
def view (d : PyDict ι ℝ) (H : ι → σ) : List (σ × ℝ) := d.map fun p => (H p.1, p.2)

/-- The mixture with the states of its models in place of the objects. -/
def toAverager (v : AvgObj ι) (H : ι → σ) : Averager σ := ⟨view v.models H, v.logProb⟩

omit [DecidableEq ι] in
theorem view_snd (d : PyDict ι ℝ) (H : ι → σ) : (view d H).map Prod.snd = d.values := by
  simp [view, PyDict.values, Function.comp_def]

theorem view_update {d : PyDict ι ℝ} {H : ι → σ} {m : ι} {s : σ} (hm : m ∉ d.keys) : view d (Function.update H m s) = view d H := by
  apply List.map_congr_left
  intro p hp
  have : p.1 ≠ m := by
    rintro rfl
    exact hm (List.mem_map.2 ⟨p, hp, rfl⟩)
  rw [Function.update_of_ne this]

theorem updateModels_sim (a : α) (h : List α) (w : ℝ) : ∀ {d : PyDict ι ℝ} (H : ι → σ), d.keys.Nodup →
    match Averager.updateModels P a h w (view d H) with
    | .ok ms => ∃ d' H', updateModels P a h w d H = .ok (d', H') ∧ ms = view d' H' ∧ d'.keys = d.keys ∧ ∀ i ∉ d.keys, H' i = H i
    | .error e => updateModels P a h w d H = .error e
  | [], H, _ => ⟨[], H, rfl, rfl, rfl, fun _ _ => rfl⟩
  | (m, lp) :: d, H, hd => by
    simp only [PyDict.keys_cons, List.nodup_cons] at hd
    change match Averager.updateModels P a h w ((H m, lp) :: view d H) with
      | .ok ms => _
      | .error e => _
    simp only [Averager.updateModels, updateModels]
    cases hu : P.update (H m) a h w with
    | error e => rfl
    | ok q =>
      obtain ⟨r, s⟩ := q
      have ih := updateModels_sim a h w (Function.update H m s) hd.2
      rw [view_update hd.1] at ih
      simp only [ok_bind]
      cases hr : Averager.updateModels P a h w (view d H) with
      | error e =>
        rw [hr] at ih
        simp only at ih
        simp [ih, bind, Except.bind]
      | ok ms =>
        rw [hr] at ih
        obtain ⟨d', H', g1, g2, g3, g4⟩ := ih
        simp only [g1, ok_bind, pure_eq_ok]
        refine ⟨_, _, rfl, ?_, by simp [g3], ?_⟩
        · have : H' m = s := by rw [g4 m hd.1, Function.update_self]
          simp only [view, List.map_cons, this]
          rw [g2]
          rfl
        · intro i hi
          simp only [PyDict.keys_cons, List.mem_cons, not_or] at hi
          rw [g4 i hi.2, Function.update_of_ne hi.1]

theorem predictModels_sim (a : α) (h : List α) : ∀ {d : PyDict ι ℝ} (H : ι → σ), d.keys.Nodup →
    match Averager.predictModels P a h (view d H) with
    | .ok (vs, ms) => ∃ H', predictModels P a h d H = .ok (vs, H') ∧ ms = view d H' ∧ ∀ i ∉ d.keys, H' i = H i
    | .error e => predictModels P a h d H = .error e
  | [], H, _ => ⟨H, rfl, rfl, fun _ _ => rfl⟩
  | (m, lp) :: d, H, hd => by
    simp only [PyDict.keys_cons, List.nodup_cons] at hd
    change match Averager.predictModels P a h ((H m, lp) :: view d H) with
      | .ok (vs, ms) => _
      | .error e => _
    simp only [Averager.predictModels, predictModels]
    cases hu : P.logPredict (H m) a h with
    | error e => rfl
    | ok q =>
      obtain ⟨r, s⟩ := q
      have ih := predictModels_sim a h (Function.update H m s) hd.2
      rw [view_update hd.1] at ih
      simp only [ok_bind]
      cases hr : Averager.predictModels P a h (view d H) with
      | error e =>
        rw [hr] at ih
        simp only at ih
        simp [ih, bind, Except.bind]
      | ok ms =>
        rw [hr] at ih
        obtain ⟨H', g1, g2, g4⟩ := ih
        simp only [g1, ok_bind, pure_eq_ok]
        refine ⟨_, rfl, ?_, ?_⟩
        · have : H' m = s := by rw [g4 m hd.1, Function.update_self]
          simp only [view, List.map_cons, this]
          rw [g2]
          rfl
        · intro i hi
          simp only [PyDict.keys_cons, List.mem_cons, not_or] at hi
          rw [g4 i hi.2, Function.update_of_ne hi.1]

theorem update_sim (v : AvgObj ι) (H : ι → σ) (hd : v.models.keys.Nodup) (a : α) (h : List α) (w : ℝ) :
    match Averager.update P (toAverager v H) a h w with
    | .ok (r, s) => ∃ v' H', update P v H a h w = .ok (r, v', H') ∧ s = toAverager v' H' ∧ v'.models.keys = v.models.keys ∧
        ∀ i ∉ v.models.keys, H' i = H i
    | .error e => update P v H a h w = .error e := by
  have h0 := updateModels_sim (P := P) a h w H hd
  simp only [Averager.update, update, toAverager]
  cases hr : Averager.updateModels P a h w (view v.models H) with
  | error e =>
    rw [hr] at h0
    simp only at h0
    simp [h0, bind, Except.bind]
  | ok ms =>
    rw [hr] at h0
    obtain ⟨d', H', g1, rfl, g3, g4⟩ := h0
    simp only [g1, ok_bind, view_snd]
    cases hl : logsumexp d'.values with
    | error e => rfl
    | ok lp => exact ⟨⟨d', lp⟩, H', rfl, rfl, g3, g4⟩

theorem logPredict_sim (v : AvgObj ι) (H : ι → σ) (hd : v.models.keys.Nodup) (a : α) (h : List α) :
    match Averager.logPredict P (toAverager v H) a h with
    | .ok (r, s) => ∃ H', logPredict P v H a h = .ok (r, v, H') ∧ s = toAverager v H' ∧ ∀ i ∉ v.models.keys, H' i = H i
    | .error e => logPredict P v H a h = .error e := by
  have h0 := predictModels_sim (P := P) a h H hd
  simp only [Averager.logPredict, logPredict, toAverager]
  cases hr : Averager.predictModels P a h (view v.models H) with
  | error e =>
    rw [hr] at h0
    simp only at h0
    simp [h0, bind, Except.bind]
  | ok ms =>
    rw [hr] at h0
    obtain ⟨H', g1, g2, g4⟩ := h0
    simp only [g1, ok_bind]
    cases hl : logsumexp ms.1 with
    | error e => rfl
    | ok lp => exact ⟨H', rfl, by rw [g2], g4⟩

/-! ## Construction -/

theorem foldl_set (l : ℝ) : ∀ (ms : List ι) (d : PyDict ι ℝ), d.keys.Nodup → (∀ p ∈ d, p.2 = l) →
    (ms.foldl (fun d m => d.set m l) d).keys.Nodup ∧ (∀ p ∈ ms.foldl (fun d m => d.set m l) d, p.2 = l) ∧
      ∀ i, i ∈ (ms.foldl (fun d m => d.set m l) d).keys ↔ i ∈ ms ∨ i ∈ d.keys
  | [], d, h1, h2 => ⟨h1, h2, by simp⟩
  | m :: ms, d, h1, h2 => by
    obtain ⟨g1, g2, g3⟩ := foldl_set l ms (d.set m l) (PyDict.nodup_keys_set h1) (fun p hp => by
      rcases PyDict.mem_set hp with rfl | hp
      · rfl
      · exact h2 p hp)
    refine ⟨g1, g2, fun i => ?_⟩
    rw [List.foldl_cons, g3, PyDict.mem_keys_set, List.mem_cons]
    tauto

theorem init_ok {ms : List ι} (hne : ms ≠ []) : ∃ ks : List ι, ks.Nodup ∧ ks.toFinset = ms.toFinset ∧ ks ≠ [] ∧
    init ms = .ok ⟨ks.map fun i => (i, Real.log (1 / (ms.length : ℝ))), 0⟩ := by
  have hp : 0 < (ms.length : ℝ) := by
    have := List.length_pos_iff.mpr hne
    exact_mod_cast this
  obtain ⟨g1, g2, g3⟩ := foldl_set (Real.log (1 / (ms.length : ℝ))) ms [] (by simp) (by simp)
  refine ⟨(ms.foldl (fun d m => PyDict.set d m (Real.log (1 / (ms.length : ℝ)))) []).keys, g1, ?_, ?_, ?_⟩
  · ext i
    rw [List.mem_toFinset, List.mem_toFinset, g3]
    simp
  · obtain ⟨i, is, rfl⟩ := List.exists_cons_of_ne_nil hne
    exact List.ne_nil_of_mem ((g3 i).2 (Or.inl (by simp)))
  · have hq : pyDiv 1 (ms.length : ℝ) = .ok (1 / (ms.length : ℝ)) := by rw [pyDiv_eq_ok]; exact ⟨hp.ne', rfl⟩
    have hl : pyLog (1 / (ms.length : ℝ)) = .ok (Real.log (1 / (ms.length : ℝ))) := by rw [pyLog_eq_ok]; exact ⟨by positivity, rfl⟩
    simp only [init, hq, hl, ok_bind, pure_eq_ok, Except.ok.injEq, AvgObj.mk.injEq, and_true]
    rw [PyDict.keys, List.map_map]
    conv_lhs => rw [← List.map_id (ms.foldl (fun d m => PyDict.set d m (Real.log (1 / (ms.length : ℝ)))) [])]
    apply List.map_congr_left
    intro p hp
    simp only [id, Function.comp]
    rw [← g2 p hp]

/-- The mixture that reports conditional probabilities from the beginning. -/
theorem inv_shift {ks : List ι} {n : ℕ} (hne : ks ≠ []) (hn : 0 < n) (H : ι → σ) :
    Averager.Inv ⟨view (ks.map fun i => (i, Real.log (1 / (n : ℝ)))) H, Real.log (ks.length / n)⟩ := by
  have hn' : (0 : ℝ) < n := by exact_mod_cast hn
  have hk : (0 : ℝ) < ks.length := by exact_mod_cast List.length_pos_iff.mpr hne
  refine ⟨by simpa [view] using hne, ?_⟩
  simp only [view_snd, PyDict.values, List.map_map]
  rw [Real.exp_log (by positivity), List.eq_replicate_iff (l := ks.map _) (n := ks.length) (a := (1 / (n : ℝ))) |>.2 ?_]
  · rw [List.sum_replicate, nsmul_eq_mul]
    ring
  · refine ⟨by simp, ?_⟩
    intro b hb
    obtain ⟨i, -, rfl⟩ := List.mem_map.1 hb
    simp only [Function.comp]
    exact Real.exp_log (by positivity)

theorem update_shift {ms : List (σ × ℝ)} (c : ℝ) {a : α} {h : List α} {w r : ℝ} {s : Averager σ}
    (hu : Averager.update P ⟨ms, c⟩ a h w = .ok (r, s)) : Averager.update P ⟨ms, 0⟩ a h w = .ok (r + c, s) := by
  simp only [Averager.update, bind_eq_ok, pure_eq_ok, Except.ok.injEq, Prod.mk.injEq] at hu ⊢
  obtain ⟨ms', h1, lp, h2, rfl, rfl⟩ := hu
  exact ⟨ms', h1, lp, h2, by ring, rfl⟩

theorem logPredict_shift {ms : List (σ × ℝ)} (c : ℝ) {a : α} {h : List α} {r : ℝ} {s : Averager σ}
    (hu : Averager.logPredict P ⟨ms, c⟩ a h = .ok (r, s)) : ∃ t, Averager.logPredict P ⟨ms, 0⟩ a h = .ok (r + c, t) := by
  simp only [Averager.logPredict, bind_eq_ok, pure_eq_ok, Except.ok.injEq, Prod.mk.injEq, Prod.exists] at hu ⊢
  obtain ⟨vs, ms', h1, lp, h2, rfl, rfl⟩ := hu
  exact ⟨_, vs, ms', h1, lp, h2, by ring, rfl⟩

theorem run_sim : ∀ (xs : List (Obs α)) {v : AvgObj ι} {H : ι → σ} {r : ℝ} {s : Averager σ}, v.models.keys.Nodup →
    (Averager.predictor P).run (toAverager v H) xs = .ok (r, s) →
    ∃ v' H', (predictor P).run (v, H) xs = .ok (r, v', H') ∧ s = toAverager v' H' ∧ v'.models.keys = v.models.keys ∧
      ∀ i ∉ v.models.keys, H' i = H i
  | [], v, H, r, s, _, hr => by
    simp only [run, pure_eq_ok, Except.ok.injEq, Prod.mk.injEq] at hr
    obtain ⟨rfl, rfl⟩ := hr
    exact ⟨v, H, rfl, rfl, rfl, fun _ _ => rfl⟩
  | o :: xs, v, H, r, s, hd, hr => by
    obtain ⟨r1, s1, r2, h1, h2, rfl⟩ := run_cons_ok.1 hr
    have h3 := update_sim (P := P) v H hd o.sym o.hist o.weight
    rw [show Averager.update P (toAverager v H) o.sym o.hist o.weight = .ok (r1, s1) from h1] at h3
    obtain ⟨v1, H1, g1, rfl, g3, g4⟩ := h3
    obtain ⟨v', H', f1, f2, f3, f4⟩ := run_sim xs (by rw [g3]; exact hd) h2
    refine ⟨v', H', run_cons_ok.2 ⟨r1, (v1, H1), r2, g1, f1, rfl⟩, f2, f3.trans g3, fun i hi => ?_⟩
    rw [f4 i (by rwa [g3]), g4 i hi]

theorem foldl_set_keys (l : ℝ) : ∀ (ms : List ι) (d : PyDict ι ℝ), ms.Nodup → (∀ m ∈ ms, m ∉ d.keys) →
    (ms.foldl (fun d m => d.set m l) d).keys = d.keys ++ ms
  | [], d, _, _ => by simp
  | m :: ms, d, h1, h2 => by
    rw [List.nodup_cons] at h1
    have hm := h2 m (by simp)
    rw [List.foldl_cons, foldl_set_keys l ms _ h1.2, PyDict.keys_set_of_not_mem _ hm]
    · simp
    · intro x hx
      rw [PyDict.keys_set_of_not_mem _ hm, List.mem_append, List.mem_singleton, not_or]
      exact ⟨h2 x (by simp [hx]), fun e => h1.1 (e ▸ hx)⟩

theorem init_nodup {ms : List ι} (hd : ms.Nodup) {v : AvgObj ι} (h : init ms = .ok v) : v.models.keys = ms := by
  simp only [init, bind_eq_ok, pure_eq_ok, Except.ok.injEq] at h
  obtain ⟨q, -, l, -, rfl⟩ := h
  simpa using foldl_set_keys l ms [] hd (by simp)

theorem outputs_sim : ∀ (cs : List (Call α)) {v : AvgObj ι} {H : ι → σ}, v.models.keys.Nodup →
    (predictor P).outputs (v, H) cs = (Averager.predictor P).outputs (toAverager v H) cs
  | [], _, _, _ => rfl
  | .update a h w :: cs, v, H, hd => by
    have h0 := update_sim (P := P) v H hd a h w
    simp only [outputs, step, predictor, Averager.predictor]
    cases hu : Averager.update P (toAverager v H) a h w with
    | error e =>
      rw [hu] at h0
      simp only at h0
      simp [h0]
    | ok q =>
      rw [hu] at h0
      obtain ⟨v', H', g1, g2, g3, -⟩ := h0
      simp only [g1]
      rw [g2]
      congr 1
      exact outputs_sim cs (by rw [g3]; exact hd)
  | .predict a h :: cs, v, H, hd => by
    have h0 := logPredict_sim (P := P) v H hd a h
    simp only [outputs, step, predictor, Averager.predictor]
    cases hu : Averager.logPredict P (toAverager v H) a h with
    | error e =>
      rw [hu] at h0
      simp only at h0
      simp [h0]
    | ok q =>
      rw [hu] at h0
      obtain ⟨H', g1, g2, -⟩ := h0
      simp only [g1]
      rw [g2]
      congr 1
      exact outputs_sim cs hd

end AvgObj

variable {ι κ σ α : Type} [DecidableEq ι] [DecidableEq κ] (P : Predictor σ α)

/-- **C154 (an object for every entry).** If the list has no object twice, then `Averager` over objects is the `Averager` of C08 over their
states: every sequence of calls has the same results. -/
theorem C154_distinct (ms : List ι) (hne : ms ≠ []) (hd : ms.Nodup) (H : ι → σ) :
    ∃ v s, AvgObj.init ms = .ok v ∧ Averager.init (ms.map H) = .ok s ∧
      ∀ cs, (AvgObj.predictor P).outputs (v, H) cs = (Averager.predictor P).outputs s cs := by
  obtain ⟨ks, h1, h2, h3, h4⟩ := AvgObj.init_ok hne
  have h5 := AvgObj.init_nodup hd h4
  have h6 : ks = ms := by simpa [PyDict.keys, Function.comp_def] using h5
  subst h6
  refine ⟨_, _, h4, Averager.init_ok.2 ⟨by simpa using hne, rfl⟩, fun cs => ?_⟩
  rw [AvgObj.outputs_sim cs (by rw [h5]; exact hd)]
  congr 1
  simp [AvgObj.toAverager, AvgObj.view, Function.comp_def]

/-- **C154 (an object that occurs more often).** In a list of `n` entries, an object that occurs more often than once counts once, but the
weights are those for `n` objects.  So the probability of every sequence that is not empty is the sum over the different objects, divided
by the number of entries. -/
theorem C154_repeated {I : σ → Prop} {A : List α} {W : ℝ → Prop} (hP : P.UpdateLawful I A W) (ms : List ι) (hne : ms ≠ []) (H : ι → σ)
    (hH : ∀ i, I (H i)) (xs : List (Obs α)) (hx : ∀ o ∈ xs, o.sym ∈ A ∧ W o.weight) (hxs : xs ≠ []) :
    ∃ v r u, AvgObj.init ms = .ok v ∧ (AvgObj.predictor P).run (v, H) xs = .ok (r, u) ∧
      Real.exp r = (∑ i ∈ ms.toFinset, P.seqProb (H i) xs) / ms.length := by
  obtain ⟨ks, h1, h2, h3, h4⟩ := AvgObj.init_ok hne
  have hn : 0 < ms.length := List.length_pos_iff.2 hne
  have hn' : (0 : ℝ) < ms.length := by exact_mod_cast hn
  have hi := AvgObj.inv_shift (σ := σ) h3 hn H
  set d : PyDict ι ℝ := ks.map fun i => (i, Real.log (1 / (ms.length : ℝ))) with hdef
  have hk : d.keys = ks := by simp [hdef, PyDict.keys, Function.comp_def]
  have hover : Averager.Over I ⟨AvgObj.view d H, Real.log (ks.length / ms.length)⟩ := by
    refine ⟨hi, ?_⟩
    intro p hp
    obtain ⟨q, -, rfl⟩ := List.mem_map.1 hp
    exact hH q.1
  obtain ⟨r, s, hr, -⟩ := (Averager.updateLawful hP).run_ok hover hx
  obtain ⟨f, hf, hinv⟩ := Averager.run_ok hi hr
  have hr0 : (Averager.predictor P).run ⟨AvgObj.view d H, 0⟩ xs = .ok (r + Real.log (ks.length / ms.length), s) := by
    obtain ⟨o, xs, rfl⟩ := List.exists_cons_of_ne_nil hxs
    obtain ⟨r1, s1, r2, g1, g2, rfl⟩ := run_cons_ok.1 hr
    exact run_cons_ok.2 ⟨_, s1, r2, AvgObj.update_shift _ g1, g2, by ring⟩
  obtain ⟨v', H', g1, -⟩ := AvgObj.run_sim (v := ⟨d, 0⟩) xs (by rw [hk]; exact h1) hr0
  refine ⟨_, _, _, h4, g1, ?_⟩
  rw [hf, sub_add_cancel, hinv.sum]
  have : (s.models.map Prod.snd).map Real.exp = ks.map fun i => P.seqProb (H i) xs / ms.length := by
    have e : (AvgObj.view d H) = ks.map fun i => (H i, Real.log (1 / (ms.length : ℝ))) := by simp [AvgObj.view, hdef, Function.comp_def]
    simp only [e] at f
    clear hr hf hinv hr0 g1 hover hi e h4 hk hdef h1 h2 h3
    rw [List.map_map]
    generalize s.models = l at f
    induction ks generalizing l with
    | nil => cases f; rfl
    | cons i ks ih =>
      rw [List.map_cons] at f
      cases f with
      | @cons _ q _ l hq f =>
        rw [List.map_cons, List.map_cons, ih _ f]
        congr 1
        simp only at hq
        rw [seqProb_of_run hq, Function.comp, Real.exp_sub, Real.exp_log (by positivity)]
        field_simp
  rw [this, ← h2, List.sum_toFinset _ h1]
  simp only [div_eq_mul_inv, List.sum_map_mul_right]


/-- **C154 (the first call).** The probabilities of the first `update`, and of every prediction before it, sum to the number of different
objects divided by the number of entries. -/
theorem C154_first {I : σ → Prop} {A : List α} {W : ℝ → Prop} (hP : P.Lawful I A W) (ms : List ι) (hne : ms ≠ []) (H : ι → σ)
    (hH : ∀ i, I (H i)) :
    ∃ v, AvgObj.init ms = .ok v ∧ ∀ h w, W w →
      (A.map fun a => probOf ((AvgObj.predictor P).update (v, H) a h w)).sum = ms.toFinset.card / ms.length ∧
      (A.map fun a => probOf ((AvgObj.predictor P).logPredict (v, H) a h)).sum = ms.toFinset.card / ms.length := by
  obtain ⟨ks, h1, h2, h3, h4⟩ := AvgObj.init_ok hne
  have hn : 0 < ms.length := List.length_pos_iff.2 hne
  have hn' : (0 : ℝ) < ms.length := by exact_mod_cast hn
  have hk' : (0 : ℝ) < ks.length := by exact_mod_cast List.length_pos_iff.mpr h3
  have hi := AvgObj.inv_shift (σ := σ) h3 hn H
  set d : PyDict ι ℝ := ks.map fun i => (i, Real.log (1 / (ms.length : ℝ))) with hdef
  have hk : d.keys = ks := by simp [hdef, PyDict.keys, Function.comp_def]
  have hcard : (ms.toFinset.card : ℝ) = ks.length := by rw [← h2, List.toFinset_card_of_nodup h1]
  have hover : Averager.Over I ⟨AvgObj.view d H, Real.log (ks.length / ms.length)⟩ := by
    refine ⟨hi, ?_⟩
    intro p hp
    obtain ⟨q, -, rfl⟩ := List.mem_map.1 hp
    exact hH q.1
  have hL := Averager.lawful hP
  refine ⟨_, h4, fun h w hw => ⟨?_, ?_⟩⟩
  · have e := hL.updateLawful.sum_probOf hover hw h
    have : (A.map fun a => probOf ((AvgObj.predictor P).update (⟨d, 0⟩, H) a h w)) = A.map fun a =>
        probOf ((Averager.predictor P).update ⟨AvgObj.view d H, Real.log (ks.length / ms.length)⟩ a h w) * (ks.length / ms.length) := by
      apply List.map_congr_left
      intro a ha
      obtain ⟨r, s, hu, -⟩ := hL.update_ok _ a h w hover ha hw
      have h5 := AvgObj.update_sim (P := P) ⟨d, 0⟩ H (by rw [hk]; exact h1) a h w
      rw [show Averager.update P (AvgObj.toAverager ⟨d, 0⟩ H) a h w = _ from AvgObj.update_shift _ hu] at h5
      obtain ⟨v', H', g1, -⟩ := h5
      rw [show (AvgObj.predictor P).update (⟨d, 0⟩, H) a h w = _ from g1, hu, probOf_ok, probOf_ok, Real.exp_add, Real.exp_log (by positivity)]
    rw [this, List.sum_map_mul_right, e, one_mul, hcard]
  · have e := hL.normalised _ h hover
    have : (A.map fun a => probOf ((AvgObj.predictor P).logPredict (⟨d, 0⟩, H) a h)) = A.map fun a =>
        probOf ((Averager.predictor P).logPredict ⟨AvgObj.view d H, Real.log (ks.length / ms.length)⟩ a h) * (ks.length / ms.length) := by
      apply List.map_congr_left
      intro a ha
      obtain ⟨r, s, hu, -⟩ := hL.predict_ok _ a h hover ha
      have h5 := AvgObj.logPredict_sim (P := P) ⟨d, 0⟩ H (by rw [hk]; exact h1) a h
      obtain ⟨t, ht⟩ := AvgObj.logPredict_shift _ hu
      rw [show Averager.logPredict P (AvgObj.toAverager ⟨d, 0⟩ H) a h = _ from ht] at h5
      obtain ⟨H', g1, -⟩ := h5
      rw [show (AvgObj.predictor P).logPredict (⟨d, 0⟩, H) a h = _ from g1, hu, probOf_ok, probOf_ok, Real.exp_add, Real.exp_log (by positivity)]
    rw [this, List.sum_map_mul_right, e, one_mul, hcard]

/-- **C154 (exactly).** They sum to one exactly if no object occurs twice. -/
theorem C154_exactly {I : σ → Prop} {A : List α} {W : ℝ → Prop} (hP : P.Lawful I A W) (ms : List ι) (hne : ms ≠ []) (H : ι → σ)
    (hH : ∀ i, I (H i)) (v : AvgObj ι) (hv : AvgObj.init ms = .ok v) (h : List α) (w : ℝ) (hw : W w) :
    (A.map fun a => probOf ((AvgObj.predictor P).update (v, H) a h w)).sum = 1 ↔ ms.Nodup := by
  obtain ⟨v', h1, h2⟩ := C154_first P hP ms hne H hH
  rw [hv, Except.ok.injEq] at h1
  subst h1
  have hn : (0 : ℝ) < ms.length := by exact_mod_cast List.length_pos_iff.2 hne
  rw [(h2 h w hw).1, div_eq_one_iff_eq hn.ne', Nat.cast_inj, List.card_toFinset]
  constructor
  · intro e
    rw [← (List.dedup_sublist ms).eq_of_length e]
    exact List.nodup_dedup ms
  · intro hd
    rw [hd.dedup]

namespace World

variable {P} {I : σ → Prop} {A : List α} {W : ℝ → Prop}

/-- What is kept by all calls: the objects are good models, and the weights of the mixtures in `D` sum to their probabilities. -/
structure Good (I : σ → Prop) (D : κ → Prop) (x : World ι κ σ) : Prop where
  heap : ∀ i, I (x.heap i)
  keys : ∀ j, (x.mix j).models.keys.Nodup
  ne : ∀ j, (x.mix j).models ≠ []
  sum : ∀ j, D j → Real.exp (x.mix j).logProb = ((x.mix j).models.values.map Real.exp).sum

/-- A call with symbols of the alphabet. -/
def Fits (A : List α) (W : ℝ → Prop) : WorldCall ι κ α → Prop
  | .update _ a _ w => a ∈ A ∧ W w
  | .predict _ a _ => a ∈ A
  | .mixUpdate _ a _ w => a ∈ A ∧ W w
  | .mixPredict _ a _ => a ∈ A

/-- A call that updates the mixture `j`. -/
def Starts (j : κ) : WorldCall ι κ α → Prop
  | .mixUpdate j' _ _ _ => j' = j
  | _ => False

variable {D : κ → Prop} {x : World ι κ σ}

theorem Good.over (hx : Good I D x) {j : κ} (hj : D j) : Averager.Over I ((x.mix j).toAverager x.heap) := by
  refine ⟨⟨?_, ?_⟩, ?_⟩
  · simpa [AvgObj.toAverager, AvgObj.view] using hx.ne j
  · simp only [AvgObj.toAverager, AvgObj.view_snd]
    exact hx.sum j hj
  · intro p hp
    obtain ⟨q, -, rfl⟩ := List.mem_map.1 hp
    exact hx.heap q.1

/-- With the logarithm of the sum of its weights, any mixture is one. -/
theorem Good.overShift (hx : Good I D x) (j : κ) :
    Averager.Over I ⟨AvgObj.view (x.mix j).models x.heap, Real.log (((AvgObj.view (x.mix j).models x.heap).map Prod.snd).map Real.exp).sum⟩ := by
  have hne : AvgObj.view (x.mix j).models x.heap ≠ [] := by simpa [AvgObj.view] using hx.ne j
  refine ⟨⟨hne, Averager.exp_log_sum hne⟩, ?_⟩
  intro p hp
  obtain ⟨q, -, rfl⟩ := List.mem_map.1 hp
  exact hx.heap q.1

theorem update_any {ms : List (σ × ℝ)} (c c' : ℝ) {a : α} {h : List α} {w r : ℝ} {s : Averager σ}
    (hu : Averager.update P ⟨ms, c⟩ a h w = .ok (r, s)) : Averager.update P ⟨ms, c'⟩ a h w = .ok (r + c - c', s) := by
  simp only [Averager.update, bind_eq_ok, pure_eq_ok, Except.ok.injEq, Prod.mk.injEq] at hu ⊢
  obtain ⟨ms', h1, lp, h2, rfl, rfl⟩ := hu
  exact ⟨ms', h1, lp, h2, by ring, rfl⟩

theorem logPredict_any {ms : List (σ × ℝ)} (c c' : ℝ) {a : α} {h : List α} {r : ℝ} {s : Averager σ}
    (hu : Averager.logPredict P ⟨ms, c⟩ a h = .ok (r, s)) : Averager.logPredict P ⟨ms, c'⟩ a h = .ok (r + c - c', ⟨s.models, c'⟩) := by
  simp only [Averager.logPredict, bind_eq_ok, pure_eq_ok, Except.ok.injEq, Prod.mk.injEq, Prod.exists] at hu ⊢
  obtain ⟨vs, ms', h1, lp, h2, rfl, rfl⟩ := hu
  exact ⟨vs, ms', h1, lp, h2, by ring, rfl⟩

omit [DecidableEq κ] in
theorem heap_good {d d' : PyDict ι ℝ} {H H' : ι → σ} (hd : d'.keys = d.keys) (hH : ∀ i, I (H i)) (h1 : ∀ p ∈ AvgObj.view d' H', I p.1)
    (h2 : ∀ i ∉ d.keys, H' i = H i) (i : ι) : I (H' i) := by
  by_cases hi : i ∈ d.keys
  · rw [← hd] at hi
    obtain ⟨p, hp, rfl⟩ := List.mem_map.1 hi
    exact h1 (H' p.1, p.2) (List.mem_map.2 ⟨p, hp, rfl⟩)
  · rw [h2 i hi]
    exact hH i

theorem Good.step (hP : P.Lawful I A W) (hx : Good I D x) (c : WorldCall ι κ α) (hc : Fits A W c) :
    ∃ r x', x.step P c = .ok (r, x') ∧ Good I (fun j => D j ∨ Starts j c) x' := by
  cases c with
  | update i a h w =>
    obtain ⟨r, s, h1, h2⟩ := hP.update_ok _ a h w (hx.heap i) hc.1 hc.2
    refine ⟨r, ⟨Function.update x.heap i s, x.mix⟩, by simp [World.step, h1], ⟨fun k => ?_, hx.keys, hx.ne, fun j hj => hx.sum j (hj.resolve_right id)⟩⟩
    by_cases hk : k = i
    · subst hk; simpa using h2
    · simpa [Function.update_of_ne hk] using hx.heap k
  | predict i a h =>
    obtain ⟨r, s, h1, h2⟩ := hP.predict_ok _ a h (hx.heap i) hc
    refine ⟨r, ⟨Function.update x.heap i s, x.mix⟩, by simp [World.step, h1], ⟨fun k => ?_, hx.keys, hx.ne, fun j hj => hx.sum j (hj.resolve_right id)⟩⟩
    by_cases hk : k = i
    · subst hk; simpa using h2
    · simpa [Function.update_of_ne hk] using hx.heap k
  | mixUpdate j a h w =>
    obtain ⟨r, s, h1, h2⟩ := (Averager.lawful hP).update_ok _ a h w (hx.overShift j) hc.1 hc.2
    have h3 := update_any _ (x.mix j).logProb h1
    have h4 := AvgObj.update_sim (P := P) (x.mix j) x.heap (hx.keys j) a h w
    rw [show Averager.update P ((x.mix j).toAverager x.heap) a h w = _ from h3] at h4
    obtain ⟨v', H', g1, rfl, g3, g4⟩ := h4
    have hne : v'.models ≠ [] := by simpa [AvgObj.toAverager, AvgObj.view] using h2.inv.ne
    have hsum := h2.inv.sum
    simp only [AvgObj.toAverager, AvgObj.view_snd] at hsum
    refine ⟨_, ⟨H', Function.update x.mix j v'⟩, by simp only [World.step, g1, ok_bind, pure_eq_ok]; rfl, ⟨heap_good g3 hx.heap h2.all g4, fun k => ?_, fun k => ?_, fun k hk => ?_⟩⟩
    all_goals
      by_cases e : k = j
      · subst e
        simp only [Function.update_self]
        first | exact hne | exact hsum | (rw [g3]; exact hx.keys k)
      · simp only [Function.update_of_ne e]
        first | exact hx.ne k | exact hx.keys k | exact hx.sum k (hk.resolve_right fun h => e h.symm)
  | mixPredict j a h =>
    obtain ⟨r, s, h1, h2⟩ := (Averager.lawful hP).predict_ok _ a h (hx.overShift j) hc
    have h3 := logPredict_any _ (x.mix j).logProb h1
    have h4 := AvgObj.logPredict_sim (P := P) (x.mix j) x.heap (hx.keys j) a h
    rw [show Averager.logPredict P ((x.mix j).toAverager x.heap) a h = _ from h3] at h4
    obtain ⟨H', g1, g2, g4⟩ := h4
    have hall := h2.all
    rw [show s.models = AvgObj.view (x.mix j).models H' from congrArg Averager.models g2] at hall
    refine ⟨_, ⟨H', Function.update x.mix j (x.mix j)⟩, by simp only [World.step, g1, ok_bind, pure_eq_ok]; rfl, ⟨heap_good rfl hx.heap hall g4, ?_, ?_, ?_⟩⟩
    all_goals simp only [Function.update_eq_self]
    · exact hx.keys
    · exact hx.ne
    · exact fun k hk => hx.sum k (hk.resolve_right id)

theorem Good.steps (hP : P.Lawful I A W) : ∀ (cs : List (WorldCall ι κ α)) {D : κ → Prop} {x : World ι κ σ}, Good I D x → (∀ c ∈ cs, Fits A W c) →
    ∃ x', x.steps P cs = .ok x' ∧ Good I (fun j => D j ∨ ∃ c ∈ cs, Starts j c) x'
  | [], D, x, hx, _ => ⟨x, rfl, hx.heap, hx.keys, hx.ne, fun j hj => hx.sum j (by simpa using hj)⟩
  | c :: cs, D, x, hx, hc => by
    obtain ⟨r, x1, h1, h2⟩ := hx.step hP c (hc c (by simp))
    obtain ⟨x2, h3, h4⟩ := Good.steps hP cs h2 (fun c h => hc c (by simp [h]))
    refine ⟨x2, by simp [World.steps, h1, h3], h4.heap, h4.keys, h4.ne, fun j hj => h4.sum j ?_⟩
    simpa [or_assoc] using hj

end World

/-- **C154 (objects used by others).** Objects may be parts of any number of mixtures and be used directly at the same time.  Whatever calls
are made, none raises, and for every mixture that was given no object twice, or has been updated at least once, predictions agree with
updates and sum to one. -/
theorem C154_shared {I : σ → Prop} {A : List α} {W : ℝ → Prop} (hP : P.Lawful I A W) (ms : κ → List ι) (hne : ∀ j, ms j ≠ []) (H : ι → σ)
    (hH : ∀ i, I (H i)) (v : κ → AvgObj ι) (hv : ∀ j, AvgObj.init (ms j) = .ok (v j)) (cs : List (WorldCall ι κ α))
    (hc : ∀ c ∈ cs, World.Fits A W c) :
    ∃ x, World.steps P ⟨H, v⟩ cs = .ok x ∧ ∀ j, (ms j).Nodup ∨ (∃ c ∈ cs, World.Starts j c) → ∀ h,
      (∀ a ∈ A, ∀ w, W w → ∃ q y z, x.step P (.mixPredict j a h) = .ok (q, y) ∧ x.step P (.mixUpdate j a h w) = .ok (q, z)) ∧
      (A.map fun a => probOf (x.step P (.mixPredict j a h))).sum = 1 := by
  have hg : World.Good I (fun j => (ms j).Nodup) (⟨H, v⟩ : World ι κ σ) := by
    refine ⟨hH, fun j => ?_, fun j => ?_, fun j hj => ?_⟩ <;>
    · obtain ⟨ks, h1, h2, h3, h4⟩ := AvgObj.init_ok (hne j)
      rw [hv j, Except.ok.injEq] at h4
      simp only [h4]
      first
      | simpa [PyDict.keys, Function.comp_def] using h1
      | simpa using h3
      | have hn : 0 < (ms j).length := List.length_pos_iff.2 (hne j)
        have hk : ks.length = (ms j).length := by
          rw [← List.toFinset_card_of_nodup h1, h2, List.toFinset_card_of_nodup hj]
        have := (AvgObj.inv_shift (σ := σ) h3 hn H).sum
        simp only [AvgObj.view_snd] at this
        rw [← this, hk, div_self (by exact_mod_cast hn.ne'), Real.log_one]
  obtain ⟨x, h1, h2⟩ := hg.steps hP cs hc
  have hL := Averager.lawful hP
  refine ⟨x, h1, fun j hj h => ?_⟩
  have ho := h2.over hj
  have key : ∀ a ∈ A, ∃ q t y, Averager.logPredict P ((x.mix j).toAverager x.heap) a h = .ok (q, t) ∧ x.step P (.mixPredict j a h) = .ok (q, y) := by
    intro a ha
    obtain ⟨q, t, g1, -⟩ := hL.predict_ok _ a h ho ha
    have g2 := AvgObj.logPredict_sim (P := P) (x.mix j) x.heap (h2.keys j) a h
    rw [show Averager.logPredict P ((x.mix j).toAverager x.heap) a h = _ from g1] at g2
    obtain ⟨H', g3, -⟩ := g2
    exact ⟨q, t, _, g1, by simp only [World.step, g3, ok_bind, pure_eq_ok]; rfl⟩
  refine ⟨fun a ha w hw => ?_, ?_⟩
  · obtain ⟨q, t, y, k1, k2⟩ := key a ha
    obtain ⟨r, s, g1, -⟩ := hL.update_ok _ a h w ho ha hw
    obtain ⟨t', g2⟩ := hL.coherent _ a h w ho ha hw r s g1
    rw [show (Averager.predictor P).logPredict ((x.mix j).toAverager x.heap) a h = _ from k1, Except.ok.injEq, Prod.mk.injEq] at g2
    obtain ⟨rfl, -⟩ := g2
    have g3 := AvgObj.update_sim (P := P) (x.mix j) x.heap (h2.keys j) a h w
    rw [show Averager.update P ((x.mix j).toAverager x.heap) a h w = _ from g1] at g3
    obtain ⟨v', H', g4, -⟩ := g3
    exact ⟨q, y, _, k2, by simp only [World.step, g4, ok_bind, pure_eq_ok]; rfl⟩
  · rw [← hL.normalised _ h ho]
    congr 1
    apply List.map_congr_left
    intro a ha
    obtain ⟨q, t, y, k1, k2⟩ := key a ha
    rw [k2, show (Averager.predictor P).logPredict ((x.mix j).toAverager x.heap) a h = _ from k1, probOf_ok, probOf_ok]

/-! ## Factored -/

/-- The same call with a weight of one. -/
def Predictor.Call.unweighted : Call α → Call α
  | .update a h _ => .update a h 1
  | .predict a h => .predict a h

/-- **C154 (one object as all factors).** `Factored([m] * k)` answers all calls as `m` alone would, with weights of one. -/
theorem C154_factored_one (i : ι) (k : ℕ) (hk : k ≠ 0) (H : ι → σ) (cs : List (Call α)) :
    (FactoredObj.predictor P (List.replicate k i)).outputs H cs = P.outputs (H i) (cs.map Call.unweighted) := by
  have hf : ∀ h : List α, FactoredObj.factor (List.replicate k i) h = .ok i := by
    intro h
    have : h.length % k < k := Nat.mod_lt _ (by omega)
    simp [FactoredObj.factor, hk, pyGet, this]
  induction cs generalizing H with
  | nil => rfl
  | cons c cs ih =>
    cases c with
    | update a h w =>
      simp only [outputs, step, FactoredObj.predictor, FactoredObj.update, hf, ok_bind, List.map_cons, Call.unweighted]
      cases hu : P.update (H i) a h 1 with
      | error e => rfl
      | ok q =>
        simp only [ok_bind, pure_eq_ok]
        have := ih (Function.update H i q.2)
        rw [Function.update_self] at this
        rw [← this]
        rfl
    | predict a h =>
      simp only [outputs, step, FactoredObj.predictor, FactoredObj.logPredict, hf, ok_bind, List.map_cons, Call.unweighted]
      cases hu : P.logPredict (H i) a h with
      | error e => rfl
      | ok q =>
        simp only [ok_bind, pure_eq_ok]
        have := ih (Function.update H i q.2)
        rw [Function.update_self] at this
        rw [← this]
        rfl

namespace FactoredObj

variable {P}

/-- The factors of a copy answer as the objects. -/
def Like (P : Predictor σ α) (fs : List ι) (H : ι → σ) (c : Factored σ) : Prop :=
  c.factors.length = fs.length ∧ ∀ j (h : j < fs.length) (h' : j < c.factors.length), Indist P (H fs[j]) c.factors[j]

theorem Like.set {fs : List ι} (hd : fs.Nodup) {H : ι → σ} {c : Factored σ} (hl : Like P fs H c) {j : ℕ} (hj : j < fs.length) {s t : σ}
    (h : Indist P s t) : Like P fs (Function.update H fs[j] s) ⟨c.factors.set j t⟩ := by
  refine ⟨by simpa using hl.1, fun k h1 h2 => ?_⟩
  simp only [List.length_set] at h2
  by_cases e : k = j
  · subst e
    simpa using h
  · rw [Function.update_of_ne (by rw [Ne, hd.getElem_inj_iff]; exact e)]
    simp only [List.getElem_set_ne (Ne.symm e)]
    exact hl.2 k h1 h2

theorem outputs_like {fs : List ι} (hd : fs.Nodup) : ∀ (cs : List (Call α)) {H : ι → σ} {c : Factored σ}, Like P fs H c →
    (Factored.predictor P).outputs c cs = (predictor P fs).outputs H cs
  | [], _, _, _ => rfl
  | .update a h w :: cs, H, c, hl => by
    simp only [outputs, step, predictor, update, factor, Factored.predictor, Factored.update, Factored.index, hl.1]
    by_cases h0 : fs.length = 0
    · simp [h0, bind, Except.bind]
    · have hj : h.length % fs.length < fs.length := Nat.mod_lt _ (by omega)
      have hj' : h.length % fs.length < c.factors.length := by rw [hl.1]; exact hj
      simp only [h0, if_false, ok_bind, pyGet, List.getElem?_eq_getElem hj, List.getElem?_eq_getElem hj']
      rcases sameResult_ok ((indist_bisimulation P _ _ (hl.2 _ hj hj')).1 a h 1) with ⟨e, g1, g2⟩ | ⟨r, s, t, g1, g2, g3⟩
      · simp [g1, g2, bind, Except.bind]
      · simp only [g1, g2, ok_bind, pure_eq_ok]
        exact congrArg _ (outputs_like hd cs (hl.set hd hj g3))
  | .predict a h :: cs, H, c, hl => by
    simp only [outputs, step, predictor, logPredict, factor, Factored.predictor, Factored.logPredict, Factored.index, hl.1]
    by_cases h0 : fs.length = 0
    · simp [h0, bind, Except.bind]
    · have hj : h.length % fs.length < fs.length := Nat.mod_lt _ (by omega)
      have hj' : h.length % fs.length < c.factors.length := by rw [hl.1]; exact hj
      simp only [h0, if_false, ok_bind, pyGet, List.getElem?_eq_getElem hj, List.getElem?_eq_getElem hj']
      rcases sameResult_ok ((indist_bisimulation P _ _ (hl.2 _ hj hj')).2 a h) with ⟨e, g1, g2⟩ | ⟨r, s, t, g1, g2, g3⟩
      · simp [g1, g2, bind, Except.bind]
      · simp only [g1, g2, ok_bind, pure_eq_ok]
        exact congrArg _ (outputs_like hd cs (hl.set hd hj g3))

theorem mapM_like (hP : P.FaithfulCopy fun _ => True) (H : ι → σ) : ∀ fs : List ι, ∃ ms, (fs.mapM fun i => P.copy (H i)) = .ok ms ∧
    Like P fs H ⟨ms⟩
  | [] => ⟨[], rfl, rfl, by simp⟩
  | i :: fs => by
    obtain ⟨t, h1, -, h2⟩ := hP (H i) trivial
    obtain ⟨ms, h3, h4, h5⟩ := mapM_like hP H fs
    refine ⟨t :: ms, by simp [h1, h3], by simpa using h4, fun j g1 g2 => ?_⟩
    cases j with
    | zero => exact h2
    | succ j => exact h5 j (by simpa using g1) (by simpa using g2)

end FactoredObj

/-- **C154 (copies of a product).** If no object is a factor twice, then a copy of `Factored` answers as its original. -/
theorem C154_factored_copy_distinct (hP : P.FaithfulCopy fun _ => True) (fs : List ι) (hd : fs.Nodup) (H : ι → σ) :
    ∃ c, FactoredObj.copy P fs H = .ok c ∧ ∀ cs, (Factored.predictor P).outputs c cs = (FactoredObj.predictor P fs).outputs H cs := by
  obtain ⟨ms, h1, h2⟩ := FactoredObj.mapM_like hP H fs
  exact ⟨⟨ms⟩, by simp [FactoredObj.copy, h1], fun cs => FactoredObj.outputs_like hd cs h2⟩

/-- **C154 (copies of a product with a shared factor).** A copy of `Factored([m, m])` has two factors: what the first learns, the second does
not know, and the copy answers differently from the original. -/
theorem C154_factored_copy_shared :
    ∃ (k : KT ℕ) (c : Factored (KT ℕ)), KT.init [0, 1] none = .ok k ∧ FactoredObj.copy KT.predictor [(), ()] (fun _ => k) = .ok c ∧
      (FactoredObj.predictor KT.predictor [(), ()]).outputs (fun _ => k) [.update 0 [] 1, .predict 0 [0]] = [.ok (Real.log (1 / 2)), .ok (Real.log (3 / 4))] ∧
      (Factored.predictor KT.predictor).outputs c [.update 0 [] 1, .predict 0 [0]] = [.ok (Real.log (1 / 2)), .ok (Real.log (1 / 2))] := by
  have hk := KT.init_default (A := [0, 1]) (by simp) (by simp)
  refine ⟨_, _, hk, rfl, ?_, ?_⟩
  · simp [outputs, step, FactoredObj.predictor, FactoredObj.update, FactoredObj.logPredict, FactoredObj.factor, pyGet, KT.predictor, KT.update,
      KT.logPredict, PyDict.getE, PyDict.get?, PyDict.set, pyDiv, pyLog]
    norm_num
  · simp [outputs, step, Factored.predictor, Factored.update, Factored.logPredict, Factored.index, pyGet, KT.predictor, KT.update,
      KT.logPredict, PyDict.getE, PyDict.get?, PyDict.set, pyDiv, pyLog]

/-- `m = KT([0, 1]); Averager([m, m])`: the probabilities of the first symbol sum to one half. -/
example (k : KT ℕ) (hk : KT.init [0, 1] none = .ok k) : ∃ v, AvgObj.init [(), ()] = .ok v ∧
    ([0, 1].map fun a => probOf ((AvgObj.predictor KT.predictor).update (v, fun _ => k) a [] 1)).sum = 1 / 2 := by
  have h0 := KT.init_default (A := [0, 1]) (by simp) (by simp)
  rw [hk, Except.ok.injEq] at h0
  obtain ⟨v, h1, h2⟩ := C154_first KT.predictor (KT.lawfulFull (A := [0, 1]) (by simp) (by simp)) [(), ()] (by simp) (fun _ => k)
    (fun _ => h0 ▸ KT.good_default (by simp))
  refine ⟨v, h1, ?_⟩
  rw [(h2 [] 1 zero_le_one).1]
  simp

/-- Three objects; one mixture over the first two, one over the last two, one over all with the first twice.  All calls are possible, and after
an update of the third mixture all three predict with probabilities that sum to one. -/
example (k : KT ℕ) (hk : KT.init [0, 1] none = .ok k) (v : Fin 3 → AvgObj (Fin 3))
    (hv : ∀ j, AvgObj.init (![[0, 1], [1, 2], [0, 1, 2, 0]] j) = .ok (v j)) :
    ∃ x, World.steps KT.predictor ⟨fun _ => k, v⟩ [.mixUpdate 0 0 [] 1, .update 1 1 [] 1, .mixUpdate 2 0 [] 1] = .ok x ∧
      ∀ j, ([0, 1].map fun a => probOf (x.step KT.predictor (.mixPredict j a []))).sum = 1 := by
  have h0 := KT.init_default (A := [0, 1]) (by simp) (by simp)
  rw [hk, Except.ok.injEq] at h0
  obtain ⟨x, h1, h2⟩ := C154_shared KT.predictor (KT.lawfulFull (A := [0, 1]) (by simp) (by simp)) ![[0, 1], [1, 2], [0, 1, 2, 0]]
    (by intro j; fin_cases j <;> simp) (fun _ => k) (fun _ => h0 ▸ KT.good_default (by simp)) v hv
    [.mixUpdate 0 0 [] 1, .update 1 1 [] 1, .mixUpdate 2 0 [] 1] (by simp [World.Fits])
  refine ⟨x, h1, fun j => (h2 j ?_ []).2⟩
  fin_cases j
  · left; decide
  · left; decide
  · right; simp [World.Starts]

end Verif
