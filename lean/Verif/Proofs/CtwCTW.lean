import Verif.Proofs.CtwPTW
import Verif.Proofs.CTWHom

/-! `ctw.CTW` simulates `model.CTW`. -/

set_option linter.unusedSectionVars false

namespace Verif

open Predictor

namespace CCTWNode

variable {σ κ α : Type} [DecidableEq κ] {Q : ProbSeq σ α} {fresh : σ}

@[simp] theorem base_mk (b : σ) (x : ℝ) (ks : List κ) (ch : κ → Option (CCTWNode σ κ)) : (mk b x ks ch).base = b := rfl
@[simp] theorem lp_mk (b : σ) (x : ℝ) (ks : List κ) (ch : κ → Option (CCTWNode σ κ)) : (mk b x ks ch).lp = x := rfl
@[simp] theorem keys_mk (b : σ) (x : ℝ) (ks : List κ) (ch : κ → Option (CCTWNode σ κ)) : (mk b x ks ch).keys = ks := rfl
@[simp] theorem children_mk (b : σ) (x : ℝ) (ks : List κ) (ch : κ → Option (CCTWNode σ κ)) :
    (mk b x ks ch).children = ch := rfl

/-- A node of depth `d` and the `model.CTW` node that it corresponds to. -/
def Rel (Q : ProbSeq σ α) : ℕ → CCTWNode σ κ → CTWNode σ κ → Prop
  | 0, n, m => m.base = n.base ∧ m.baseLP = Q.lp n.base ∧ m.lp = n.lp ∧ n.lp = Q.lp n.base
  | d + 1, n, m => m.base = n.base ∧ m.baseLP = Q.lp n.base ∧ m.lp = n.lp ∧
      m.childrenLP = sumLP n.keys n.children ∧ n.keys.Nodup ∧ (∀ c, c ∈ n.keys ↔ n.children c ≠ none) ∧
      ∀ c, (n.children c = none ∧ m.children c = none) ∨
        ∃ x y, n.children c = some x ∧ m.children c = some y ∧ Rel Q d x y

theorem Rel.new (hf : Q.lp fresh = 0) (d : ℕ) : Rel Q d (new fresh : CCTWNode σ κ) (CTWNode.new fresh) := by
  cases d with
  | zero => exact ⟨rfl, hf.symm, rfl, hf.symm⟩
  | succ d => exact ⟨rfl, hf.symm, rfl, rfl, List.nodup_nil, by simp [CCTWNode.new], fun c => .inl ⟨rfl, rfl⟩⟩

theorem Rel.lp {d : ℕ} {n : CCTWNode σ κ} {m : CTWNode σ κ} (h : Rel Q d n m) : m.lp = n.lp := by
  cases d with
  | zero => exact h.2.2.1
  | succ d => exact h.2.2.1

theorem Rel.base {d : ℕ} {n : CCTWNode σ κ} {m : CTWNode σ κ} (h : Rel Q d n m) : m.base = n.base := by
  cases d with
  | zero => exact h.1
  | succ d => exact h.1

theorem mem_touch (ks : List κ) (c x : κ) : x ∈ touch ks c ↔ x = c ∨ x ∈ ks := by
  unfold touch
  split_ifs with h
  · constructor
    · exact .inr
    · rintro (rfl | h') <;> assumption
  · simp [or_comm]

theorem nodup_touch {ks : List κ} (h : ks.Nodup) (c : κ) : (touch ks c).Nodup := by
  unfold touch
  split_ifs with hc
  · exact h
  · rw [List.nodup_append]
    refine ⟨h, by simp, ?_⟩
    rintro a ha b hb rfl
    simp only [List.mem_singleton] at hb
    exact hc (hb ▸ ha)

/-- Replacing one child changes the sum by the change of its value. -/
theorem sumLP_touch {ks : List κ} (hk : ks.Nodup) {ch : κ → Option (CCTWNode σ κ)} (hm : ∀ c, c ∈ ks ↔ ch c ≠ none)
    (fresh : σ) (c : κ) (x : CCTWNode σ κ) :
    sumLP (touch ks c) (Function.update ch c (some x)) = sumLP ks ch + (x.lp - ((ch c).getD (new fresh)).lp) := by
  have hsame : ∀ l : List κ, c ∉ l → sumLP l (Function.update ch c (some x)) = sumLP l ch := by
    intro l hl
    unfold sumLP
    congr 1
    apply List.map_congr_left
    intro k hk
    have : k ≠ c := by rintro rfl; exact hl hk
    rw [Function.update_of_ne this]
  have happ : ∀ (l l' : List κ) (f : κ → Option (CCTWNode σ κ)), sumLP (l ++ l') f = sumLP l f + sumLP l' f := by
    intro l l' f
    unfold sumLP
    rw [List.map_append, List.sum_append]
  have hone : ∀ (f : κ → Option (CCTWNode σ κ)) (y : CCTWNode σ κ), f c = some y → sumLP [c] f = y.lp := by
    intro f y hf
    simp [sumLP, hf]
  have hnew : ((new fresh : CCTWNode σ κ)).lp = 0 := rfl
  unfold touch
  split_ifs with hc
  · obtain ⟨y, hy⟩ := Option.ne_none_iff_exists'.mp ((hm c).mp hc)
    obtain ⟨l1, l2, rfl⟩ := List.append_of_mem hc
    rw [List.nodup_append] at hk
    obtain ⟨_, h2, h3⟩ := hk
    have n1 : c ∉ l1 := fun h => h3 c h c (by simp) rfl
    have n2 : c ∉ l2 := (List.nodup_cons.mp h2).1
    rw [show l1 ++ c :: l2 = l1 ++ ([c] ++ l2) by simp, happ, happ, happ, happ, hsame _ n1, hsame _ n2,
      hone (Function.update ch c (some x)) x (by simp), hone ch y hy, hy]
    simp only [Option.getD_some]
    ring
  · have : ch c = none := by
      by_contra h
      exact hc ((hm c).mpr h)
    rw [happ, hsame _ hc, hone (Function.update ch c (some x)) x (by simp), this, Option.getD_none, hnew]
    ring

/-- Corresponding nodes after one child has been replaced. -/
theorem Rel.put {d : ℕ} {n : CCTWNode σ κ} {m : CTWNode σ κ} (h : Rel Q (d + 1) n m) (c : κ) {x : CCTWNode σ κ}
    {y : CTWNode σ κ} (hxy : Rel Q d x y) (b : σ) (l clp : ℝ)
    (hcl : clp = sumLP (touch n.keys c) (Function.update n.children c (some x))) :
    Rel Q (d + 1) (.mk b l (touch n.keys c) (Function.update n.children c (some x)))
      (.mk b (Q.lp b) clp l (Function.update m.children c (some y))) := by
  obtain ⟨_, _, _, _, h5, h6, h7⟩ := h
  refine ⟨rfl, rfl, rfl, hcl, nodup_touch h5 c, ?_, ?_⟩
  · intro k
    simp only [keys_mk, children_mk, mem_touch, h6]
    by_cases hk : k = c
    · subst hk; simp
    · simp [hk]
  · intro k
    simp only [children_mk, CTWNode.children_mk]
    by_cases hk : k = c
    · subst hk
      exact .inr ⟨x, y, by simp, by simp, hxy⟩
    · simp only [Function.update_of_ne hk]
      exact h7 k

theorem Rel.child (hf : Q.lp fresh = 0) {d : ℕ} {n : CCTWNode σ κ} {m : CTWNode σ κ} (h : Rel Q (d + 1) n m) (c : κ) :
    Rel Q d ((n.children c).getD (.new fresh)) ((m.children c).getD (.new fresh)) := by
  rcases h.2.2.2.2.2.2 c with ⟨h1, h2⟩ | ⟨x, y, h1, h2, h3⟩
  · rw [h1, h2]
    exact Rel.new hf d
  · rw [h1, h2]
    exact h3

theorem Rel.update (hQ : Q.Tracks) (hf : Q.lp fresh = 0) (a : α) (h : List α) (w : ℝ) {cs : List κ}
    {n : CCTWNode σ κ} {m : CTWNode σ κ} (hr : Rel Q cs.length n m) :
    CorrRes (Rel Q cs.length) ((n.update Q fresh a w cs.length cs).map fun n' => (n'.lp - n.lp, n'))
      (m.update Q.toPredictor fresh a h w cs) := by
  induction cs generalizing n m with
  | nil =>
    obtain ⟨h1, h2, h3, h4⟩ := hr
    simp only [List.length_nil, CCTWNode.update, CTWNode.update, ProbSeq.toPredictor, h1]
    cases hu : Q.update n.base a w with
    | error e => exact rfl
    | ok v =>
      obtain ⟨r, b⟩ := v
      have hl := hQ _ _ _ _ _ hu
      refine ⟨?_, rfl, ?_, ?_, ?_⟩ <;> simp [h2, h3, hl]
  | cons c cs ih =>
    have hch := ih (hr.child hf c)
    have hr0 := hr
    obtain ⟨h1, h2, h3, h4, h5, h6, h7⟩ := hr
    simp only [List.length_cons, CCTWNode.update, CTWNode.update, ProbSeq.toPredictor, h1]
    change CorrRes _ _ (Q.update n.base a w >>= _)
    cases hu : Q.update n.base a w with
    | error e => exact rfl
    | ok v =>
      obtain ⟨r, b⟩ := v
      have hl := hQ _ _ _ _ _ hu
      simp only [ok_bind]
      change CorrRes _ _ (((m.children c).getD (.new fresh)).update Q.toPredictor fresh a h w cs >>= _)
      cases hcu : ((n.children c).getD (.new fresh)).update Q fresh a w cs.length cs with
      | error e =>
        rw [hcu] at hch
        cases hmu : ((m.children c).getD (.new fresh)).update Q.toPredictor fresh a h w cs with
        | error e' => rw [hmu] at hch; exact hch
        | ok v => rw [hmu] at hch; exact hch.elim
      | ok x =>
        rw [hcu] at hch
        cases hmu : ((m.children c).getD (.new fresh)).update Q.toPredictor fresh a h w cs with
        | error e' => rw [hmu] at hch; exact hch.elim
        | ok v =>
          obtain ⟨rc, y⟩ := v
          rw [hmu] at hch
          obtain ⟨g1, g2⟩ := hch
          have hsum := sumLP_touch h5 h6 fresh c x
          have hclp : m.childrenLP + rc = sumLP (touch n.keys c) (Function.update n.children c (some x)) := by
            rw [hsum, h4, ← g1]
          simp only [ok_bind, logsumexp_two, pure_eq_ok, Except.map, CorrRes, lp_mk]
          rw [hclp, h2, ← hl, h3]
          exact ⟨rfl, hr0.put c g2 b _ _ rfl⟩

theorem Rel.logPredict (hL : ∀ s a r t, Q.logPredict s a = .ok (r, t) → Q.lp t = Q.lp s) (hf : Q.lp fresh = 0) (a : α)
    (h : List α) {cs : List κ} {n : CCTWNode σ κ} {m : CTWNode σ κ} (hr : Rel Q cs.length n m) :
    CorrRes (fun n' m' => Rel Q cs.length n' m' ∧ n'.lp = n.lp) (n.logPredict Q fresh a cs.length cs)
      (m.logPredict Q.toPredictor fresh a h cs) := by
  induction cs generalizing n m with
  | nil =>
    obtain ⟨h1, h2, h3, h4⟩ := hr
    simp only [List.length_nil, CCTWNode.logPredict, CTWNode.logPredict, ProbSeq.toPredictor, h1]
    cases hu : Q.logPredict n.base a with
    | error e => exact rfl
    | ok v =>
      obtain ⟨r, b⟩ := v
      have hl := hL _ _ _ _ hu
      refine ⟨?_, ⟨rfl, ?_, ?_, ?_⟩, rfl⟩ <;> simp [h2, h3, h4, hl]
  | cons c cs ih =>
    have hch := ih (hr.child hf c)
    have hr0 := hr
    obtain ⟨h1, h2, h3, h4, h5, h6, h7⟩ := hr
    simp only [List.length_cons, CCTWNode.logPredict, CTWNode.logPredict, ProbSeq.toPredictor, h1]
    change CorrRes _ _ (Q.logPredict n.base a >>= _)
    cases hu : Q.logPredict n.base a with
    | error e => exact rfl
    | ok v =>
      obtain ⟨r, b⟩ := v
      have hl := hL _ _ _ _ hu
      simp only [ok_bind]
      change CorrRes _ _ (((m.children c).getD (.new fresh)).logPredict Q.toPredictor fresh a h cs >>= _)
      cases hcu : ((n.children c).getD (.new fresh)).logPredict Q fresh a cs.length cs with
      | error e =>
        rw [hcu] at hch
        cases hmu : ((m.children c).getD (.new fresh)).logPredict Q.toPredictor fresh a h cs with
        | error e' => rw [hmu] at hch; exact hch
        | ok v => rw [hmu] at hch; exact hch.elim
      | ok v =>
        obtain ⟨rc', x⟩ := v
        rw [hcu] at hch
        cases hmu : ((m.children c).getD (.new fresh)).logPredict Q.toPredictor fresh a h cs with
        | error e' => rw [hmu] at hch; exact hch.elim
        | ok v =>
          obtain ⟨rc, y⟩ := v
          rw [hmu] at hch
          obtain ⟨g1, g2, g3⟩ := hch
          have hsum := sumLP_touch h5 h6 fresh c x
          rw [g3, sub_self, add_zero] at hsum
          simp only [ok_bind, logsumexp_two, pure_eq_ok, CorrRes]
          rw [h4, h2, hl, h3, g1]
          refine ⟨rfl, ?_, rfl⟩
          have := hr0.put c g2 b n.lp (sumLP n.keys n.children) hsum.symm
          rwa [hl] at this

/-- At depth 0 the context is ignored. -/
theorem update_zero (a : α) (w : ℝ) (cs : List κ) (n : CCTWNode σ κ) :
    n.update Q fresh a w 0 cs = n.update Q fresh a w 0 [] := by cases cs <;> rfl

theorem logPredict_zero (a : α) (cs : List κ) (n : CCTWNode σ κ) :
    n.logPredict Q fresh a 0 cs = n.logPredict Q fresh a 0 [] := by cases cs <;> rfl

end CCTWNode

/-- The last `d` symbols of `h`, padded on the left with `zero`. -/
def recent {α : Type} (d : ℕ) (zero : α) (h : List α) : List α := (List.replicate d zero ++ h).drop h.length

theorem recent_length {α : Type} (d : ℕ) (zero : α) (h : List α) : (recent d zero h).length = d := by
  simp [recent]

theorem mkcontext_eq_recent {α : Type} {d : ℕ} (hd : d ≠ 0) (zero : α) (x : List α) :
    CTW.mkcontext d zero x = recent d zero x := by
  simp only [CTW.mkcontext, pyTail, if_neg hd, recent, List.drop_append, List.drop_replicate, List.length_replicate]

/-- The calls with the histories replaced by the symbols of the earlier updates. -/
def withHistory {α : Type} : List α → List (Call α) → List (Call α)
  | _, [] => []
  | h, .update a _ w :: cs => .update a h w :: withHistory (h ++ [a]) cs
  | h, .predict a _ :: cs => .predict a h :: withHistory h cs

/-- The observations with the histories replaced by the symbols of the earlier ones. -/
def addHist {α : Type} : List α → List (Obs α) → List (Obs α)
  | _, [] => []
  | h, o :: os => ⟨o.sym, h, o.weight⟩ :: addHist (h ++ [o.sym]) os

namespace CCTW

variable {σ α : Type} [DecidableEq α] {Q : ProbSeq σ α} {fresh : σ} {d : ℕ} {zero : α}

theorem corr_update (hQ : Q.Tracks) (hf : Q.lp fresh = 0) {s : CCTW σ α} {m : CTWNode σ α}
    (hr : CCTWNode.Rel Q d s.tree m) (a : α) (w : ℝ) :
    CorrRes (fun s' m' => CCTWNode.Rel Q d s'.tree m' ∧ s'.history = s.history ++ [a])
      (s.update Q fresh d zero a w)
      ((CTW.predictor Q.toPredictor fresh (recent d zero)).update m a s.history w) := by
  have key : CorrRes (CCTWNode.Rel Q d) ((s.tree.update Q fresh a w d (CTW.mkcontext d zero s.history).reverse).map
      fun n' => (n'.lp - s.tree.lp, n')) (m.update Q.toPredictor fresh a s.history w (recent d zero s.history).reverse) := by
    have hl : (recent d zero s.history).reverse.length = d := by simp [recent_length]
    by_cases hd : d = 0
    · subst hd
      rw [CCTWNode.update_zero]
      have : (recent 0 zero s.history).reverse = [] := List.length_eq_zero_iff.mp hl
      rw [this]
      exact CCTWNode.Rel.update hQ hf a s.history w (cs := []) hr
    · rw [mkcontext_eq_recent hd]
      have := CCTWNode.Rel.update hQ hf a s.history w (cs := (recent d zero s.history).reverse) (n := s.tree) (m := m)
        (by rw [hl]; exact hr)
      rwa [hl] at this
  simp only [CCTW.update, CTW.predictor]
  cases h1 : s.tree.update Q fresh a w d (CTW.mkcontext d zero s.history).reverse with
  | error e =>
    rw [h1] at key
    cases h2 : m.update Q.toPredictor fresh a s.history w (recent d zero s.history).reverse with
    | error e' => rw [h2] at key; exact key
    | ok v => rw [h2] at key; exact key.elim
  | ok n =>
    rw [h1] at key
    cases h2 : m.update Q.toPredictor fresh a s.history w (recent d zero s.history).reverse with
    | error e' => rw [h2] at key; exact key.elim
    | ok v =>
      rw [h2] at key
      exact ⟨key.1, key.2, rfl⟩

theorem corr_predict (hL : ∀ s a r t, Q.logPredict s a = .ok (r, t) → Q.lp t = Q.lp s) (hf : Q.lp fresh = 0)
    {s : CCTW σ α} {m : CTWNode σ α} (hr : CCTWNode.Rel Q d s.tree m) (a : α) :
    CorrRes (fun s' m' => CCTWNode.Rel Q d s'.tree m' ∧ s'.history = s.history ∧ s'.tree.lp = s.tree.lp)
      (s.logPredict Q fresh d zero a)
      ((CTW.predictor Q.toPredictor fresh (recent d zero)).logPredict m a s.history) := by
  have key : CorrRes (fun n' m' => CCTWNode.Rel Q d n' m' ∧ n'.lp = s.tree.lp)
      (s.tree.logPredict Q fresh a d (CTW.mkcontext d zero s.history).reverse)
      (m.logPredict Q.toPredictor fresh a s.history (recent d zero s.history).reverse) := by
    have hl : (recent d zero s.history).reverse.length = d := by simp [recent_length]
    by_cases hd : d = 0
    · subst hd
      rw [CCTWNode.logPredict_zero]
      have : (recent 0 zero s.history).reverse = [] := List.length_eq_zero_iff.mp hl
      rw [this]
      exact CCTWNode.Rel.logPredict hL hf a s.history (cs := []) hr
    · rw [mkcontext_eq_recent hd]
      have := CCTWNode.Rel.logPredict hL hf a s.history (cs := (recent d zero s.history).reverse) (n := s.tree) (m := m)
        (by rw [hl]; exact hr)
      rwa [hl] at this
  simp only [CCTW.logPredict, CTW.predictor]
  cases h1 : s.tree.logPredict Q fresh a d (CTW.mkcontext d zero s.history).reverse with
  | error e =>
    rw [h1] at key
    cases h2 : m.logPredict Q.toPredictor fresh a s.history (recent d zero s.history).reverse with
    | error e' => rw [h2] at key; exact key
    | ok v => rw [h2] at key; exact key.elim
  | ok v =>
    rw [h1] at key
    cases h2 : m.logPredict Q.toPredictor fresh a s.history (recent d zero s.history).reverse with
    | error e' => rw [h2] at key; exact key.elim
    | ok v =>
      rw [h2] at key
      exact ⟨key.1, key.2.1, rfl, key.2.2⟩

/-- The same answers to every sequence of calls. -/
theorem outputs_eq (hQ : Q.Tracks) (hL : ∀ s a r t, Q.logPredict s a = .ok (r, t) → Q.lp t = Q.lp s)
    (hf : Q.lp fresh = 0) {s : CCTW σ α} {m : CTWNode σ α} (hr : CCTWNode.Rel Q d s.tree m) (cs : List (Call α)) :
    (probSeq Q fresh d zero).toPredictor.outputs s cs =
      (CTW.predictor Q.toPredictor fresh (recent d zero)).outputs m (withHistory s.history cs) := by
  induction cs generalizing s m with
  | nil => rfl
  | cons c cs ih =>
    cases c with
    | update a h w =>
      simp only [withHistory, outputs, step]
      have e0 : (probSeq Q fresh d zero).toPredictor.update s a h w = s.update Q fresh d zero a w := rfl
      rw [e0]
      rcases corrRes_cases (corr_update (zero := zero) hQ hf hr a w) with ⟨e, h1, h2⟩ | ⟨r, s', m', h1, h2, h3, h4⟩
      · rw [h1, h2]
      · rw [h1, h2]
        simp only [ih h3, h4]
    | predict a h =>
      simp only [withHistory, outputs, step]
      have e0 : (probSeq Q fresh d zero).toPredictor.logPredict s a h = s.logPredict Q fresh d zero a := rfl
      rw [e0]
      rcases corrRes_cases (corr_predict (zero := zero) hL hf hr a) with ⟨e, h1, h2⟩ | ⟨r, s', m', h1, h2, h3, h4, _⟩
      · rw [h1, h2]
      · rw [h1, h2]
        simp only [ih h3, h4]

/-- Runs correspond. -/
theorem run_corr (hQ : Q.Tracks) (hf : Q.lp fresh = 0) {s : CCTW σ α} {m : CTWNode σ α}
    (hr : CCTWNode.Rel Q d s.tree m) (xs : List (Obs α)) :
    CorrRes (fun s' m' => CCTWNode.Rel Q d s'.tree m' ∧ s'.history = s.history ++ xs.map Obs.sym)
      ((probSeq Q fresh d zero).toPredictor.run s xs)
      ((CTW.predictor Q.toPredictor fresh (recent d zero)).run m (addHist s.history xs)) := by
  induction xs generalizing s m with
  | nil => exact ⟨rfl, hr, by simp⟩
  | cons o xs ih =>
    simp only [addHist, Predictor.run]
    change CorrRes _ (s.update Q fresh d zero o.sym o.weight >>= _) _
    rcases corrRes_cases (corr_update (zero := zero) hQ hf hr o.sym o.weight) with
      ⟨e, h1, h2⟩ | ⟨r, s', m', h1, h2, h3, h4⟩
    · rw [h1, h2]; exact rfl
    · rw [h1, h2]
      simp only [ok_bind]
      rw [← h4]
      rcases corrRes_cases (ih h3) with ⟨e, h5, h6⟩ | ⟨r2, s2, m2, h5, h6, h7, h8⟩
      · rw [h5, h6]; exact rfl
      · rw [h5, h6]
        exact ⟨rfl, h7, by rw [h8, h4]; simp⟩

/-- What a lawful base model gives. -/
theorem lawful {I : σ → Prop} {A : List α} {W : ℝ → Prop} (hQ : Q.Tracks)
    (hL : ∀ s a r t, Q.logPredict s a = .ok (r, t) → Q.lp t = Q.lp s) (hf : Q.lp fresh = 0)
    (hP : Q.toPredictor.Lawful I A W) :
    (probSeq Q fresh d zero).toPredictor.Lawful
      (fun s => ∃ m, CCTWNode.Rel Q d s.tree m ∧ CTWNode.WF fresh I d m) A W := by
  have hM := CTWNode.lawful (fresh := fresh) hP (ctx := recent d zero) (recent_length d zero)
  refine ⟨?_, ?_, ?_, ?_⟩
  · rintro s a h w ⟨m, hr, hm⟩ ha hw
    obtain ⟨r, m', h1, h2⟩ := hM.update_ok m a s.history w hm ha hw
    rcases corrRes_cases (corr_update (zero := zero) hQ hf hr a w) with ⟨e, _, g⟩ | ⟨r', s', m2, g1, g2, g3, _⟩
    · rw [h1] at g; simp at g
    · rw [h1] at g2
      simp only [Except.ok.injEq, Prod.mk.injEq] at g2
      obtain ⟨rfl, rfl⟩ := g2
      exact ⟨r, s', g1, _, g3, h2⟩
  · rintro s a h ⟨m, hr, hm⟩ ha
    obtain ⟨r, m', h1, h2⟩ := hM.predict_ok m a s.history hm ha
    rcases corrRes_cases (corr_predict (zero := zero) hL hf hr a) with ⟨e, _, g⟩ | ⟨r', s', m2, g1, g2, g3, _⟩
    · rw [h1] at g; simp at g
    · rw [h1] at g2
      simp only [Except.ok.injEq, Prod.mk.injEq] at g2
      obtain ⟨rfl, rfl⟩ := g2
      exact ⟨r, s', g1, _, g3, h2⟩
  · rintro s a h w ⟨m, hr, hm⟩ ha hw r s' hu
    have hu' : s.update Q fresh d zero a w = .ok (r, s') := hu
    rcases corrRes_cases (corr_update (zero := zero) hQ hf hr a w) with ⟨e, g, _⟩ | ⟨r', s2, m2, g1, g2, g3, _⟩
    · rw [hu'] at g; simp at g
    · rw [hu'] at g1
      simp only [Except.ok.injEq, Prod.mk.injEq] at g1
      obtain ⟨rfl, rfl⟩ := g1
      obtain ⟨t, ht⟩ := hM.coherent m a s.history w hm ha hw _ _ g2
      rcases corrRes_cases (corr_predict (zero := zero) hL hf hr a) with ⟨e, _, k⟩ | ⟨r3, s3, m3, k1, k2, _⟩
      · rw [ht] at k; simp at k
      · rw [ht] at k2
        simp only [Except.ok.injEq, Prod.mk.injEq] at k2
        exact ⟨s3, by rw [k2.1]; exact k1⟩
  · rintro s h ⟨m, hr, hm⟩
    rw [← hM.normalised m s.history hm]
    congr 1
    apply List.map_congr_left
    intro a _
    change probOf (s.logPredict Q fresh d zero a) = _
    rcases corrRes_cases (corr_predict (zero := zero) hL hf hr a) with ⟨e, k1, k2⟩ | ⟨r3, s3, m3, k1, k2, _⟩
    · rw [k1, k2]; rfl
    · rw [k1, k2]; rfl

theorem tracks : (probSeq Q fresh d zero).Tracks := by
  intro s a w r s' hu
  simp only [probSeq, CCTW.update, bind_eq_ok, pure_eq_ok, Except.ok.injEq, Prod.mk.injEq] at hu
  obtain ⟨t, _, rfl, rfl⟩ := hu
  simp only [probSeq]
  ring

end CCTW

end Verif
