import Verif.Model.CtwFMN
import Verif.Proofs.CtwBase
import Verif.Proofs.FMN

/-! `ctw.FMN`. -/

namespace Verif

open Predictor PTWNode

theorem Averager.total {σ α : Type} {P : Predictor σ α} {I : σ → Prop} {A : List α} {W : ℝ → Prop} (hP : P.Total I A W) :
    (Averager.predictor P).Total (Averager.Over I) A W := by
  intro s a h w hs ha hw
  obtain ⟨r, s', hu⟩ := Averager.update_total hs.inv (P := P) (a := a) (h := h) (w := w) (fun p hp => by
    obtain ⟨r, t, h1, _⟩ := hP p.1 a h w (hs.all p hp) ha hw
    exact ⟨r, t, h1⟩)
  refine ⟨r, s', hu, hs.inv.update hu, ?_⟩
  refine Averager.forall₂_all ((Averager.update_ok hs.inv.ne).mp hu).1 hs.all ?_
  intro p q hp hq
  obtain ⟨r, t, h1, h2⟩ := hP p.1 a h w hp ha hw
  rw [h1] at hq
  simp only [Except.ok.injEq, Prod.mk.injEq] at hq
  exact hq.2 ▸ h2

theorem Predictor.Total.run_ok {σ α : Type} {P : Predictor σ α} {I : σ → Prop} {A : List α} {W : ℝ → Prop}
    (hP : P.Total I A W) {s : σ} (hs : I s) {xs : List (Obs α)} (hx : GoodObs A W xs) :
    ∃ r s', P.run s xs = .ok (r, s') ∧ I s' := by
  induction xs generalizing s with
  | nil => exact ⟨0, s, rfl, hs⟩
  | cons o xs ih =>
    obtain ⟨h1, h2⟩ := hx o (by simp)
    obtain ⟨r, s', h3, h4⟩ := hP s o.sym o.hist o.weight hs h1 h2
    obtain ⟨r2, s2, h5, h6⟩ := ih h4 (fun p hp => hx p (by simp [hp]))
    exact ⟨r + r2, s2, run_cons_ok.mpr ⟨r, s', r2, h3, h5, rfl⟩, h6⟩

namespace CAverager

variable {σ α : Type} {Q : ProbSeq σ α} {I : σ → Prop} {A : List α} {W : ℝ → Prop}

/-- A well-formed `ctw.Averager` all of whose components satisfy `I`. -/
def Over (Q : ProbSeq σ α) (I : σ → Prop) (s : CAverager σ) : Prop := Averager.Over I (abs Q s)

theorem total (hQ : Q.Tracks) (hL : ∀ s a r t, Q.logPredict s a = .ok (r, t) → Q.lp t = Q.lp s)
    (hP : Q.toPredictor.Total I A W) : (probSeq Q).toPredictor.Total (Over Q I) A W := by
  intro s a h w hs ha hw
  obtain ⟨r, t, h1, h2⟩ := Averager.total hP _ a h w hs ha hw
  have := (hom hQ hL).update s _ a h w rfl trivial
  rw [List.map_id, id_eq] at this
  rcases corrRes_cases this with ⟨e, _, g⟩ | ⟨r', s', t', g1, g2, rfl⟩
  · rw [h1] at g; simp at g
  · rw [h1] at g2
    simp only [Except.ok.injEq, Prod.mk.injEq] at g2
    obtain ⟨rfl, rfl⟩ := g2
    exact ⟨r, s', g1, h2⟩

theorem lawful (hQ : Q.Tracks) (hL : ∀ s a r t, Q.logPredict s a = .ok (r, t) → Q.lp t = Q.lp s)
    (hP : Q.toPredictor.Lawful I A W) : (probSeq Q).toPredictor.Lawful (Over Q I) A W := by
  have hH := hom hQ hL
  have := Hom.lawful (W := W) ⟨fun s t a h w hst _ => hH.update s t a h w hst trivial, hH.predict⟩ (Averager.lawful hP)
  have e : (fun s => ∃ t, t = abs Q s ∧ Averager.Over I t) = Over Q I := by
    funext s
    simp [Over]
  rwa [e] at this

theorem predictModels_again (hL : ∀ s a r t, Q.logPredict s a = .ok (r, t) → Q.lp t = Q.lp s) (hst : CPNode.Stable Q I) {a : α} {ms ms' : List σ} {vs : List ℝ} (hm : ∀ m ∈ ms, I m)
    (h : predictModels Q a ms = .ok (vs, ms')) : ∃ ms'', predictModels Q a ms' = .ok (vs, ms'') := by
  induction ms generalizing vs ms' with
  | nil =>
    simp only [predictModels, pure_eq_ok, Except.ok.injEq, Prod.mk.injEq] at h
    obtain ⟨rfl, rfl⟩ := h
    exact ⟨[], rfl⟩
  | cons m ms ih =>
    simp only [predictModels, bind_eq_ok, pure_eq_ok, Except.ok.injEq, Prod.mk.injEq, Prod.exists] at h
    obtain ⟨r, m', h1, vs', ms2, h2, rfl, rfl⟩ := h
    obtain ⟨ms3, h3⟩ := ih (fun x hx => hm x (by simp [hx])) h2
    obtain ⟨k1, u, k2⟩ := hst m a r m' (hm m (by simp)) h1
    refine ⟨u :: ms3, ?_⟩
    simp only [predictModels, k2, h3, ok_bind, pure_eq_ok, hL m' a r u k2]

theorem stable (hL : ∀ s a r t, Q.logPredict s a = .ok (r, t) → Q.lp t = Q.lp s) (hst : CPNode.Stable Q I) : CPNode.Stable (probSeq Q) (Over Q I) := by
  intro s a r t hs h
  refine ⟨predict_lp h, ?_⟩
  change CAverager.logPredict Q s a = _ at h
  simp only [logPredict, bind_eq_ok, pure_eq_ok, Except.ok.injEq, Prod.mk.injEq, Prod.exists] at h
  obtain ⟨vs, ms, h1, l, h2, rfl, rfl⟩ := h
  obtain ⟨ms2, h3⟩ := predictModels_again hL hst (fun m hm => hs.all (m, s.log1n + Q.lp m) (List.mem_map.mpr ⟨m, hm, rfl⟩)) h1
  refine ⟨{ s with models := ms2 }, ?_⟩
  change CAverager.logPredict Q _ a = _
  simp only [logPredict, h3, h2, ok_bind, pure_eq_ok]

theorem over_init (hset : ∀ s x, Q.lp (Q.setLP s x) = x) (hI0 : ∀ s, I s → I (Q.setLP s 0)) {ms : List σ}
    (hm : ∀ m ∈ ms, I m) (hne : ms ≠ []) :
    ∃ v, init Q ms = .ok v ∧ Over Q I v ∧ (probSeq Q).lp v = 0 := by
  have h0 := init_ok (Q := Q) (ms := ms).mpr ⟨hne, rfl⟩
  refine ⟨_, h0, ?_, rfl⟩
  refine Averager.over_init (ms := ms.map fun m => Q.setLP m 0) ?_ (init_abs hset h0)
  intro m hm'
  obtain ⟨x, hx, rfl⟩ := List.mem_map.mp hm'
  exact hI0 x (hm x hx)

/-- The mixture that a new `ctw.Averager` computes, on sequences that its components accept. -/
theorem seqProb_init (hQ : Q.Tracks) (hL : ∀ s a r t, Q.logPredict s a = .ok (r, t) → Q.lp t = Q.lp s)
    (hset : ∀ s x, Q.lp (Q.setLP s x) = x) (hI0 : ∀ s, I s → I (Q.setLP s 0)) (hP : Q.toPredictor.Total I A W)
    {ms : List σ} (hm : ∀ m ∈ ms, I m) {v : CAverager σ} (hv : init Q ms = .ok v) {ys : List (Obs α)}
    (hy : GoodObs A W ys) :
    (probSeq Q).toPredictor.seqProb v ys = (ms.map fun m => Q.toPredictor.seqProb (Q.setLP m 0) ys).sum / ms.length := by
  have hne : ms ≠ [] := (init_ok.mp hv).1
  obtain ⟨v', h1, h2, _⟩ := over_init hset hI0 hm hne
  rw [hv] at h1
  simp only [Except.ok.injEq] at h1
  subst h1
  obtain ⟨r, s, hr, _⟩ := (total hQ hL hP).run_ok h2 hy
  obtain ⟨s1, g1, _, g3⟩ := C08_Averager_mixture Q.toPredictor (ms.map fun m => Q.setLP m 0) (by simpa using hne) ys
  rw [init_abs hset hv] at g1
  simp only [Except.ok.injEq] at g1
  subst g1
  rcases corrRes_cases ((hom hQ hL).run rfl ys (fun _ _ => trivial)) with ⟨e, h4, _⟩ | ⟨r', s', t, h4, h5, _⟩
  · rw [hr] at h4; simp at h4
  · rw [hr] at h4
    simp only [Except.ok.injEq, Prod.mk.injEq] at h4
    obtain ⟨rfl, rfl⟩ := h4
    rw [seqProb_of_run hr, (g3 r t h5).1]
    simp [List.map_map, Function.comp_def]

theorem map_ok {s : CAverager σ} (h : Over Q I s) : ∃ b, CAverager.map Q s = .ok b ∧ I b := by
  obtain ⟨ms, l, lp⟩ := s
  cases ms with
  | nil => exact absurd rfl h.inv.ne
  | cons x xs =>
    refine ⟨_, rfl, ?_⟩
    have h1 := Averager.maxByKey_mem (x, Q.lp x) (xs.map fun m => (m, Q.lp m))
    have h2 : ∃ m ∈ x :: xs, Averager.maxByKey (x, Q.lp x) (xs.map fun m => (m, Q.lp m)) = (m, Q.lp m) := by
      rcases List.mem_cons.mp h1 with h1 | h1
      · exact ⟨x, by simp, h1⟩
      · obtain ⟨m, hm, he⟩ := List.mem_map.mp h1
        exact ⟨m, by simp [hm], he.symm⟩
    obtain ⟨m, hm, he⟩ := h2
    rw [he]
    exact h.all (m, l + Q.lp m) (List.mem_map.mpr ⟨m, hm, rfl⟩)

end CAverager

theorem CPNode.mapNodes_ne {σ α : Type} (Q : ProbSeq σ α) (n : CPNode σ) (l : ℝ) : n.mapNodes Q l ≠ [] := by
  cases n <;> simp [mapNodes]

theorem CPNode.mapNodes_all {σ α : Type} {Q : ProbSeq σ α} {I : σ → Prop} {n : CPNode σ} (h : All I (n.abs Q)) (l : ℝ) :
    ∀ p ∈ n.mapNodes Q l, I p.1 := by
  induction n generalizing l with
  | leaf d =>
    intro p hp
    simp only [mapNodes, List.mem_singleton] at hp
    subst hp
    exact h
  | inner d r ih =>
    intro p hp
    simp only [mapNodes, List.mem_cons] at hp
    rcases hp with rfl | hp
    · exact h.1
    · exact ih h.2 _ p hp

theorem CPTW.map_ok {σ α : Type} {Q : ProbSeq σ α} {I : σ → Prop} {s : CPTW σ} (h : All I (s.tree.abs Q)) :
    ∃ b, s.map Q = .ok b ∧ I b := by
  unfold CPTW.map
  cases hm : s.tree.mapNodes Q 0 with
  | nil => exact absurd hm (CPNode.mapNodes_ne _ _ _)
  | cons x xs =>
    refine ⟨_, rfl, CPNode.mapNodes_all h 0 _ ?_⟩
    rw [hm]
    exact Averager.maxByKey_mem x xs

theorem CPTW.Inv.congr {σ α : Type} {Q : ProbSeq σ α} {fr gr : ℕ → σ} {height : ℕ} {s : CPTW σ} {xs : List (Obs α)}
    (hi : CPTW.Inv Q fr height s xs) (h : ∀ i ≤ xs.length, fr i = gr i) : CPTW.Inv Q gr height s xs where
  wf := hi.wf
  rep := hi.rep.congr (by simpa using h)
  lp := by
    rw [hi.lp]
    refine PTWNode.ptwProb_congr (blockProb_nil _ _) (blockProb_nil _ _) _ _ _ fun i ys hi' => ?_
    exact blockProb_congr h i ys (by omega)
  length := hi.length

/-- `log_predict` of a node depends on the factory only through the prediction of a new base model. -/
theorem CPNode.logPredict_fresh {σ α : Type} {Q : ProbSeq σ α} {f f' : σ} {a : α} {r : ℝ} {u u' : σ}
    (h : Q.logPredict f a = .ok (r, u)) (h' : Q.logPredict f' a = .ok (r, u')) (n : CPNode σ) :
    n.logPredict Q f a = n.logPredict Q f' a := by
  have hs : ∀ (d : CPData σ) (x : ℝ), splitPredict Q f d a x = splitPredict Q f' d a x := by
    intro d x
    simp only [splitPredict, h, h', ok_bind]
  induction n with
  | leaf d => simp only [logPredict, hs]
  | inner d r ih => simp only [logPredict, hs, ih]

/-- A segment that is not empty starts within the sequence. -/
theorem TPart.segments_start {β : Type} {m k : ℕ} (T : TPart k) (t : ℕ) (ys : List β) :
    ∀ q ∈ T.segments m t ys, q.2 ≠ [] → t ≤ q.1 ∧ q.1 + q.2.length ≤ t + ys.length := by
  induction T generalizing t ys with
  | whole =>
    intro q hq _
    simp only [TPart.segments, List.mem_singleton] at hq
    subst hq
    exact ⟨le_rfl, le_rfl⟩
  | @split k l r ihl ihr =>
    intro q hq hne
    simp only [TPart.segments, List.mem_append] at hq
    rcases hq with hq | hq
    · have := ihl t _ q hq hne
      rw [List.length_take] at this
      omega
    · have := ihr (t + 2 ^ (m + k)) (ys.drop (2 ^ (m + k))) q hq hne
      rw [List.length_drop] at this
      generalize 2 ^ (m + k) = p at this
      have := List.length_pos_iff.mpr hne
      omega

namespace CFMN

variable {S σ α : Type} {Q : ProbSeq σ α} {I : σ → Prop} {A : List α} {W : ℝ → Prop} {St : Store S σ} {add : S → σ → S}
  {Keep : S → σ → Prop} {ord : ℕ → List σ → List σ} {height : ℕ} {f : σ}

/-- What `FMN` needs of its base model: `log_prob` accumulates, can be assigned, and is kept by `log_predict`; the states
`I` accept the symbols, also after `log_prob` has been set to zero. -/
structure Base (Q : ProbSeq σ α) (I : σ → Prop) (A : List α) (W : ℝ → Prop) : Prop where
  tracks : Q.Tracks
  keep : ∀ s a r t, Q.logPredict s a = .ok (r, t) → Q.lp t = Q.lp s
  set : ∀ s x, Q.lp (Q.setLP s x) = x
  zero : ∀ s, I s → I (Q.setLP s 0)
  total : Q.toPredictor.Total I A W

/-- What holds in every state, apart from the history. -/
structure Good (Q : ProbSeq σ α) (St : Store S σ) (Keep : S → σ → Prop) (I : σ → Prop) (f : σ) (s : CFMN S σ) : Prop where
  tree : All (CAverager.Over Q I) (s.ptw.tree.abs (CAverager.probSeq Q))
  keep : Keep s.store f
  all : ∀ x ∈ St.items s.store, I x

theorem base_ok (hB : Base Q I A W) {o : List σ → List σ} (ho : ∀ l, (o l).Perm l) {st : S}
    (hall : ∀ x ∈ St.items st, I x) (hne : St.items st ≠ []) :
    ∃ v, base St Q o st = .ok v ∧ CAverager.Over Q I v ∧ (CAverager.probSeq Q).lp v = 0 := by
  refine CAverager.over_init hB.set hB.zero (fun m hm => hall m ((ho _).mem_iff.mp hm)) ?_
  intro h0
  have := (ho (St.items st)).length_eq
  rw [h0] at this
  exact hne (List.eq_nil_of_length_eq_zero this.symm)

/-- The predictor of a block is the mean of the stored models, each with its `log_prob` set to zero. -/
theorem base_seqProb (hB : Base Q I A W) {o : List σ → List σ} (ho : ∀ l, (o l).Perm l) {st : S}
    (hall : ∀ x ∈ St.items st, I x) {v : CAverager σ} (hv : base St Q o st = .ok v) {ys : List (Obs α)}
    (hy : GoodObs A W ys) :
    (CAverager.probSeq Q).toPredictor.seqProb v ys =
      ((St.items st).map fun m => Q.toPredictor.seqProb (Q.setLP m 0) ys).sum / (St.items st).length := by
  rw [CAverager.seqProb_init hB.tracks hB.keep hB.set hB.zero hB.total
    (fun m hm => hall m ((ho _).mem_iff.mp hm)) hv hy, (ho _).length_eq, ((ho _).map _).sum_eq]

theorem init_ok (hB : Base Q I A W) (hSt : St.Lawful add Keep) {o : List σ → List σ} (ho : ∀ l, (o l).Perm l) (hf : I f) :
    ∃ v, base St Q o (add St.empty f) = .ok v ∧ CAverager.Over Q I v ∧ (CAverager.probSeq Q).lp v = 0 ∧
      init St Q o f = .ok ⟨CPTW.init v, add St.empty f⟩ ∧ Good Q St Keep I f ⟨CPTW.init v, add St.empty f⟩ := by
  have h1 := hSt.first f
  have hall : ∀ x ∈ St.items (add St.empty f), I x := by
    rw [h1.2]; simpa using hf
  obtain ⟨v, h2, h3, h4⟩ := base_ok hB ho hall (by rw [h1.2]; simp)
  refine ⟨v, h2, h3, h4, ?_, ?_, h1.1, hall⟩
  · simp only [init, hSt.lazyAdd, ok_bind, h2, pure_eq_ok]
  · simpa [CPTW.init, CPNode.abs, CPNode.absD, CPData.new, All] using h3

/-- The run so far: `fr t` is what `Base()` returns after `t` observations, and `ms` are the models added since the
start. -/
structure Hist (Q : ProbSeq σ α) (St : Store S σ) (add : S → σ → S) (Keep : S → σ → Prop) (I : σ → Prop)
    (ord : ℕ → List σ → List σ) (height : ℕ)
    (f : σ) (s0 : CFMN S σ) (fr : ℕ → CAverager σ) (ms : List σ) (xs : List (Obs α)) (r : ℝ) (s : CFMN S σ) : Prop where
  run : (probSeq St Q ord ord height).toPredictor.run s0 xs = .ok (r, s)
  ptw : CPTW.Inv (CAverager.probSeq Q) fr height s.ptw xs
  total : r = s.ptw.logProb
  good : Good Q St Keep I f s
  factory : ∀ t ≤ xs.length, ∃ r' s', (probSeq St Q ord ord height).toPredictor.run s0 (xs.take t) = .ok (r', s') ∧
    Good Q St Keep I f s' ∧ base St Q (ord t) s'.store = .ok (fr t)
  over : ∀ t, CAverager.Over Q I (fr t)
  new : ∀ t, (CAverager.probSeq Q).lp (fr t) = 0
  store : s.store = (f :: ms).foldl add St.empty
  count : ms.length = xs.length
  models : ∀ (i : ℕ) (hi : i < ms.length), ∃ r' s' m,
    (probSeq St Q ord ord height).toPredictor.run s0 (xs.take (i + 1)) = .ok (r', s') ∧
    s'.ptw.map (CAverager.probSeq Q) = .ok m ∧ m.map Q = .ok ms[i]

theorem hist_init (hB : Base Q I A W) (hSt : St.Lawful add Keep) (ho : ∀ t l, (ord t l).Perm l) (hf : I f) :
    ∃ s0 fr, init St Q (ord 0) f = .ok s0 ∧ Hist Q St add Keep I ord height f s0 fr [] [] 0 s0 := by
  obtain ⟨v, h1, h2, h3, h4, h5⟩ := init_ok hB hSt (ho 0) hf
  refine ⟨_, fun _ => v, h4, rfl, CPTW.inv_init h3, rfl, h5, ?_, fun _ => h2, fun _ => h3, rfl, rfl, ?_⟩
  · intro t ht
    have : t = 0 := by simpa using ht
    subst this
    exact ⟨0, _, by simp [Predictor.run], h5, h1⟩
  · intro i hi
    simp at hi

theorem hist_step (hB : Base Q I A W) (hSt : St.Lawful add Keep) (ho : ∀ t l, (ord t l).Perm l)
    {s0 s : CFMN S σ} {fr : ℕ → CAverager σ} {ms : List σ} {xs : List (Obs α)} {r : ℝ}
    (hh : Hist Q St add Keep I ord height f s0 fr ms xs r s) {o : Obs α} (ha : o.sym ∈ A) (hw : W o.weight) :
    (xs.length < 2 ^ height → ∃ q s' fr' ms', update St Q ord height s o.sym o.weight = .ok (q, s') ∧
      s.ptw.update (CAverager.probSeq Q) (fr xs.length) height o.sym o.weight = .ok (q, s'.ptw) ∧
      Hist Q St add Keep I ord height f s0 fr' ms' (xs ++ [o]) (r + q) s') ∧
    (xs.length = 2 ^ height → update St Q ord height s o.sym o.weight = .error .assertionError) := by
  obtain ⟨r', s', h1, _, h2⟩ := hh.factory xs.length le_rfl
  rw [List.take_length, hh.run] at h1
  simp only [Except.ok.injEq, Prod.mk.injEq] at h1
  obtain ⟨rfl, rfl⟩ := h1
  have ht := hh.ptw.t_eq
  obtain ⟨t1, t2⟩ := hh.ptw.total CAverager.tracks hh.new (CAverager.total hB.tracks hB.keep hB.total) hh.over hh.good.tree
    ha hw
  constructor
  swap
  · intro hl
    simp only [update, ht, h2, ok_bind, t2 hl]
    rfl
  intro hl
  obtain ⟨q, p, g1, g2⟩ := t1 hl
  obtain ⟨m, g3, g4⟩ := CPTW.map_ok g2
  obtain ⟨b, g5, g6⟩ := CAverager.map_ok g4
  have hup : update St Q ord height s o.sym o.weight = .ok (q, ⟨p, add s.store b⟩) := by
    simp only [update, ht, h2, g1, g3, g5, hSt.lazyAdd, ok_bind, pure_eq_ok]
  have hgood : Good Q St Keep I f ⟨p, add s.store b⟩ := by
    refine ⟨g2, hSt.keep _ _ _ hh.good.keep, ?_⟩
    intro x hx
    rcases hSt.sub _ _ _ hx with hx | rfl
    · exact hh.good.all x hx
    · exact g6
  obtain ⟨v, e1, e2, e3⟩ := base_ok hB (ho (xs.length + 1)) hgood.all (List.ne_nil_of_mem (hSt.mem _ _ hgood.keep))
  have hrun : (probSeq St Q ord ord height).toPredictor.run s0 (xs ++ [o]) = .ok (r + q, ⟨p, add s.store b⟩) :=
    CTWNode.run_snoc_ok hh.run hup
  have hcongr : ∀ i ≤ xs.length, fr i = Function.update fr (xs.length + 1) v i := by
    intro i hi
    rw [Function.update_of_ne (by omega)]
  have hnew : ∀ t, (CAverager.probSeq Q).lp (Function.update fr (xs.length + 1) v t) = 0 := by
    intro t
    by_cases ht : t = xs.length + 1
    · subst ht; rw [Function.update_self]; exact e3
    · rw [Function.update_of_ne ht]; exact hh.new t
  have hptw := ((hh.ptw.congr hcongr).update (o := o) (r := q) (s' := p) CAverager.tracks hnew (by
    rw [← hcongr _ le_rfl]; exact g1))
  refine ⟨q, ⟨p, add s.store b⟩, Function.update fr (xs.length + 1) v, ms ++ [b], hup, g1, hrun, hptw.1, ?_, hgood, ?_, ?_,
    hnew, ?_, by simp [hh.count], ?_⟩
  · rw [hh.total, hptw.2.1]; ring
  · intro t ht
    rw [List.length_append, List.length_singleton] at ht
    rcases Nat.lt_or_ge xs.length t with hlt | hle
    · have : t = xs.length + 1 := by omega
      subst this
      refine ⟨r + q, _, ?_, hgood, ?_⟩
      · rw [List.take_of_length_le (by simp)]
        exact hrun
      · rw [Function.update_self]
        exact e1
    · obtain ⟨r1, s1, k1, k3, k2⟩ := hh.factory t hle
      refine ⟨r1, s1, ?_, k3, ?_⟩
      · rw [List.take_append_of_le_length hle]; exact k1
      · rw [← hcongr t hle]; exact k2
  · intro t
    by_cases ht : t = xs.length + 1
    · subst ht; rw [Function.update_self]; exact e2
    · rw [Function.update_of_ne ht]; exact hh.over t
  · rw [hh.store, ← List.cons_append, List.foldl_append]; rfl
  · intro i hi
    have hcount := hh.count
    by_cases hlt : i < ms.length
    · obtain ⟨r1, s1, m1, k1, k2, k3⟩ := hh.models i hlt
      refine ⟨r1, s1, m1, ?_, k2, ?_⟩
      · rw [List.take_append_of_le_length (by omega)]
        exact k1
      · rw [k3, List.getElem_append_left hlt]
    · rw [List.length_append, List.length_singleton] at hi
      have hi' : i = ms.length := by omega
      subst hi'
      refine ⟨r + q, ⟨p, add s.store b⟩, m, ?_, g3, ?_⟩
      · rw [List.take_of_length_le (by simp [hcount])]
        exact hrun
      · rw [g5]; simp

theorem hist_run (hB : Base Q I A W) (hSt : St.Lawful add Keep) (ho : ∀ t l, (ord t l).Perm l) (hf : I f)
    {xs : List (Obs α)} (hx : GoodObs A W xs) (hl : xs.length ≤ 2 ^ height) :
    ∃ s0 r s fr ms, init St Q (ord 0) f = .ok s0 ∧ Hist Q St add Keep I ord height f s0 fr ms xs r s := by
  induction xs using List.reverseRecOn with
  | nil =>
    obtain ⟨s0, fr, h1, h2⟩ := hist_init (height := height) hB hSt ho hf
    exact ⟨s0, 0, s0, fr, [], h1, h2⟩
  | append_singleton xs o ih =>
    rw [List.length_append, List.length_singleton] at hl
    obtain ⟨s0, r, s, fr, ms, g1, g3⟩ := ih (fun x hx' => hx x (by simp [hx'])) (by omega)
    have ho' := hx o (by simp)
    obtain ⟨q, s', fr', ms', _, _, k3⟩ := (hist_step hB hSt ho g3 ho'.1 ho'.2).1 (by omega)
    exact ⟨s0, r + q, s', fr', ms', g1, k3⟩

end CFMN

end Verif
