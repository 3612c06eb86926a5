import Verif.Proofs.Frames
import Verif.Proofs.Memory

/-! The numbers of nested calls of the methods of models. -/

namespace Verif

namespace Frames

variable {S σ α : Type} {F : Framed σ α} {P : Predictor σ α} {lo hi : ℕ}

theorem simple_predict (P : Predictor σ α) : PredictNeeds (simple P) P 1 1 := fun _ _ _ => (Between.lift _).frame

theorem simple_copy (P : Predictor σ α) : CopyNeeds (simple P) P 1 1 := fun _ => (Between.lift _).frame

/-- The update of a model that calls `log_predict` first, and raises what this raises. -/
theorem simple_update (P : Predictor σ α) (hP : ∀ s a h w e, P.logPredict s a h = .error e → P.update s a h w = .error e) :
    UpdateNeeds (simple P) P 2 2 := by
  intro s a h w
  have h1 := ((Between.lift (P.logPredict s a h)).frame.bind (g := fun _ _ => Calls.lift (P.update s a h w)) (q := fun _ => P.update s a h w)
    (fun _ _ => Between.lift _)).frame
  have h2 : (P.logPredict s a h >>= fun _ => P.update s a h w) = P.update s a h w := by
    cases h3 : P.logPredict s a h with
    | error e => rw [hP s a h w e h3]; rfl
    | ok x => rfl
  rw [h2] at h1
  exact h1

/-! ### `Averager` -/

theorem updateModels_needs (hu : UpdateNeeds F P lo hi) (a : α) (h : List α) (w : ℝ) :
    ∀ ms : List (σ × ℝ), Between (if ms = [] then 0 else lo) hi (fun k => updateModels F k a h w ms) (Averager.updateModels P a h w ms)
  | [] => (Between.pure _).weaken (by simp) (Nat.zero_le _)
  | (m, lp) :: rest => by
    have h1 := (hu m a h w).bind (g := fun x k => updateModels F k a h w rest >>= fun rest' => pure ((x.2, lp + x.1) :: rest'))
      (q := fun x => Averager.updateModels P a h w rest >>= fun rest' => pure ((x.2, lp + x.1) :: rest'))
      (fun x _ => (updateModels_needs hu a h w rest).map _)
    refine h1.weaken ?_ (by simp)
    rw [if_neg (by simp)]
    exact le_max_left _ _

theorem averager_update (hu : UpdateNeeds F P lo hi) :
    UpdateNeeds (averager F) (Averager.predictor P) (max lo 2 + 1) (max hi 2 + 1) := by
  intro s a h w
  refine Between.frame ?_
  by_cases hm : s.models = []
  · have h0 : (do
        let ms ← Averager.updateModels P a h w s.models
        let lp ← logsumexp (ms.map Prod.snd)
        pure (lp - s.logProb, (⟨ms, lp⟩ : Averager σ))) = (.error .valueError : Py (ℝ × Averager σ)) := by
      rw [hm]; rfl
    have h1 := (updateModels_needs hu a h w s.models).bind
      (g := fun ms k => lse k (ms.map Prod.snd) >>= fun lp => pure (lp - s.logProb, (⟨ms, lp⟩ : Averager σ)))
      (q := fun ms => logsumexp (ms.map Prod.snd) >>= fun lp => pure (lp - s.logProb, (⟨ms, lp⟩ : Averager σ)))
      (fun ms _ => (lse_between (ms.map Prod.snd)).map _)
    refine ⟨fun k hk => h1.enough k hk, ?_, h1.either⟩
    intro k _ b hb
    have hb' := hb
    change (do
        let ms ← Averager.updateModels P a h w s.models
        let lp ← logsumexp (ms.map Prod.snd)
        pure (lp - s.logProb, (⟨ms, lp⟩ : Averager σ))) = _ at hb'
    rw [h0] at hb'
    cases hb'
  · have h1 := (updateModels_needs hu a h w s.models).bind
      (g := fun ms k => lse k (ms.map Prod.snd) >>= fun lp => pure (lp - s.logProb, (⟨ms, lp⟩ : Averager σ)))
      (q := fun ms => logsumexp (ms.map Prod.snd) >>= fun lp => pure (lp - s.logProb, (⟨ms, lp⟩ : Averager σ)))
      (fun ms hms => (lse_needs (ms.map Prod.snd) (by
        have := Memory.updateModels_length hms
        intro h0
        rw [List.map_eq_nil_iff] at h0
        rw [h0] at this
        exact hm (List.length_eq_zero_iff.mp this.symm))).map _)
    rw [if_neg hm] at h1
    exact h1

theorem predictModels_needs (hl : PredictNeeds F P lo hi) (a : α) (h : List α) :
    ∀ ms : List (σ × ℝ), Between (if ms = [] then 0 else lo) hi (fun k => predictModels F k a h ms) (Averager.predictModels P a h ms)
  | [] => (Between.pure _).weaken (by simp) (Nat.zero_le _)
  | (m, lp) :: rest => by
    have h1 := (hl m a h).bind (g := fun x k => predictModels F k a h rest >>= fun y => pure ((x.1 + lp) :: y.1, (x.2, lp) :: y.2))
      (q := fun x => Averager.predictModels P a h rest >>= fun y => pure ((x.1 + lp) :: y.1, (x.2, lp) :: y.2))
      (fun x _ => (predictModels_needs hl a h rest).map _)
    refine h1.weaken ?_ (by simp)
    rw [if_neg (by simp)]
    exact le_max_left _ _

theorem copyFactors_needs (hc : CopyNeeds F P lo hi) : ∀ ms : List σ,
    Between (if ms = [] then 0 else lo) hi (fun k => copyFactors F k ms) (ms.mapM P.copy)
  | [] => (Between.pure _).weaken (by simp) (Nat.zero_le _)
  | m :: rest => by
    rw [List.mapM_cons]
    have h1 := (hc m).bind (g := fun m' k => copyFactors F k rest >>= fun rest' => pure (m' :: rest'))
      (q := fun m' => rest.mapM P.copy >>= fun rest' => pure (m' :: rest'))
      (fun m' _ => (copyFactors_needs hc rest).map _)
    refine h1.weaken ?_ (by simp)
    rw [if_neg (by simp)]
    exact le_max_left _ _

theorem factored_copy (hc : CopyNeeds F P lo hi) (s : Factored σ) (hne : s.factors ≠ []) :
    Between (lo + 2) (hi + 2) (fun k => (factored F).copy k s) ((Factored.predictor P).copy s) := by
  have h := copyFactors_needs hc s.factors
  rw [if_neg hne] at h
  exact (h.frame.map fun fs => (⟨fs⟩ : Factored σ)).frame

theorem predictModels_length {a : α} {h : List α} : ∀ {ms : List (σ × ℝ)} {y : List ℝ × List (σ × ℝ)},
    Averager.predictModels P a h ms = .ok y → y.1.length = ms.length
  | [], y, hy => by cases hy; rfl
  | (m, lp) :: rest, y, hy => by
    obtain ⟨x, _, h2⟩ := bind_eq_ok.mp hy
    obtain ⟨z, h3, h4⟩ := bind_eq_ok.mp h2
    cases h4
    simp [predictModels_length h3]

theorem averager_predict (hl : PredictNeeds F P lo hi) :
    PredictNeeds (averager F) (Averager.predictor P) (max (lo + 1) 2 + 1) (max (hi + 1) 2 + 1) := by
  intro s a h
  refine Between.frame ?_
  have h0 := (predictModels_needs hl a h s.models).frame
  have h1 := h0.bind
    (g := fun y k => lse k y.1 >>= fun lp => pure (lp - s.logProb, (⟨y.2, s.logProb⟩ : Averager σ)))
    (q := fun y => logsumexp y.1 >>= fun lp => pure (lp - s.logProb, (⟨y.2, s.logProb⟩ : Averager σ)))
    (fun y _ => (lse_between y.1).map _)
  by_cases hm : s.models = []
  · skip
    refine ⟨fun k hk => h1.enough k hk, ?_, h1.either⟩
    intro k _ b hb
    have hb' : (Averager.predictModels P a h s.models >>= fun y => logsumexp y.1 >>= fun lp => pure (lp - s.logProb, (⟨y.2, s.logProb⟩ : Averager σ))) = _ := hb
    rw [hm] at hb'
    cases hb'
  · have h2 := h0.bind
      (g := fun y k => lse k y.1 >>= fun lp => pure (lp - s.logProb, (⟨y.2, s.logProb⟩ : Averager σ)))
      (q := fun y => logsumexp y.1 >>= fun lp => pure (lp - s.logProb, (⟨y.2, s.logProb⟩ : Averager σ)))
      (fun y hy => (lse_needs y.1 (by
        have := predictModels_length hy
        intro h0
        rw [h0] at this
        exact hm (List.length_eq_zero_iff.mp this.symm))).map _)
    rw [if_neg hm] at h2
    exact h2

theorem copyModels_needs (hc : CopyNeeds F P lo hi) :
    ∀ ms : List (σ × ℝ), Between (if ms = [] then 0 else lo) hi (fun k => copyModels F k ms) (Averager.copyModels P ms)
  | [] => (Between.pure _).weaken (by simp) (Nat.zero_le _)
  | (m, lp) :: rest => by
    have h1 := (hc m).bind (g := fun m' k => copyModels F k rest >>= fun rest' => pure ((m', lp) :: rest'))
      (q := fun m' => Averager.copyModels P rest >>= fun rest' => pure ((m', lp) :: rest'))
      (fun x _ => (copyModels_needs hc rest).map _)
    refine h1.weaken ?_ (by simp)
    rw [if_neg (by simp)]
    exact le_max_left _ _

/-- An `Averager` without components needs two calls for a copy. -/
theorem averager_copy (hc : CopyNeeds F P lo hi) (s : Averager σ) :
    Between ((if s.models = [] then 0 else lo) + 2) (hi + 2) (fun k => (averager F).copy k s) ((Averager.predictor P).copy s) :=
  ((copyModels_needs hc s.models).frame.map _).frame

/-! ### `Factored` -/

theorem factored_update (hu : UpdateNeeds F P lo hi) : UpdateNeeds (factored F) (Factored.predictor P) (lo + 1) (hi + 1) := by
  intro s a h w
  refine Between.frame ?_
  have h1 := (Between.lift (s.index h)).bind
    (g := fun i k => Calls.lift (pyGet s.factors i) >>= fun m => F.update k m a h 1 >>= fun x => pure (x.1, (⟨s.factors.set i x.2⟩ : Factored σ)))
    (q := fun i => pyGet s.factors i >>= fun m => P.update m a h 1 >>= fun x => pure (x.1, (⟨s.factors.set i x.2⟩ : Factored σ)))
    (fun i _ => (Between.lift (pyGet s.factors i)).bind
      (g := fun m k => F.update k m a h 1 >>= fun x => pure (x.1, (⟨s.factors.set i x.2⟩ : Factored σ)))
      (q := fun m => P.update m a h 1 >>= fun x => pure (x.1, (⟨s.factors.set i x.2⟩ : Factored σ)))
      (fun m _ => (hu m a h 1).map _))
  simp only [Nat.zero_max] at h1
  exact h1

theorem factored_predict (hl : PredictNeeds F P lo hi) : PredictNeeds (factored F) (Factored.predictor P) (lo + 1) (hi + 1) := by
  intro s a h
  refine Between.frame ?_
  have h1 := (Between.lift (s.index h)).bind
    (g := fun i k => Calls.lift (pyGet s.factors i) >>= fun m => F.logPredict k m a h >>= fun x => pure (x.1, (⟨s.factors.set i x.2⟩ : Factored σ)))
    (q := fun i => pyGet s.factors i >>= fun m => P.logPredict m a h >>= fun x => pure (x.1, (⟨s.factors.set i x.2⟩ : Factored σ)))
    (fun i _ => (Between.lift (pyGet s.factors i)).bind
      (g := fun m k => F.logPredict k m a h >>= fun x => pure (x.1, (⟨s.factors.set i x.2⟩ : Factored σ)))
      (q := fun m => P.logPredict m a h >>= fun x => pure (x.1, (⟨s.factors.set i x.2⟩ : Factored σ)))
      (fun m _ => (hl m a h).map _))
  simp only [Nat.zero_max] at h1
  exact h1

/-! ### `CTW` -/

section ctw

variable {new : ℕ → Calls σ} {fresh : σ} {shared : List Bool → CTWNode σ Bool → Bool} {clo chi flo fhi : ℕ}

theorem ctwNew_needs (hn : Between flo fhi new (.ok fresh)) :
    Between (max flo 2 + 1) (max fhi 2 + 1) (fun k => ctwNew new k) (.ok (CTWNode.new fresh)) := by
  refine Between.frame ?_
  exact hn.bind (g := fun b j => frame j fun i => frame i fun _ => pure (CTWNode.new b)) (q := fun b => .ok (CTWNode.new b))
    (fun b _ => (Between.pure _).frame.frame)

theorem ctwCopy_needs (hc : CopyNeeds F P clo chi) (n : CTWNode σ Bool) :
    Between (max clo 1 + 1) (max chi 1 + 1) (fun k => ctwCopy F k n)
      (P.copy n.base >>= fun b => .ok (.mk b n.baseLP n.childrenLP n.lp n.children)) := by
  refine Between.frame ?_
  exact (hc n.base).bind (g := fun b j => frame j fun _ => pure (CTWNode.mk b n.baseLP n.childrenLP n.lp n.children))
    (q := fun b => .ok (.mk b n.baseLP n.childrenLP n.lp n.children))
    (fun b _ => (Between.pure _).frame)

theorem ctwChild_needs (hn : Between flo fhi new (.ok fresh)) (hc : CopyNeeds F P clo chi)
    (hs : ∀ cs n, shared cs n = true → P.copy n.base = .ok n.base) (cs : List Bool) (o : Option (CTWNode σ Bool)) :
    Between 0 (max (max fhi 2) (max chi 1) + 1) (fun k => ctwChild F new shared k cs o) (.ok (o.getD (CTWNode.new fresh))) := by
  cases o with
  | none => exact (ctwNew_needs hn).weaken (Nat.zero_le _) (by omega)
  | some c =>
    show Between _ _ (fun k => if shared cs c then ctwCopy F k c else pure c) _
    cases hsh : shared cs c with
    | true =>
      have h1 := ctwCopy_needs hc c
      rw [hs cs c hsh] at h1
      simp only [if_true]
      cases c
      exact h1.weaken (Nat.zero_le _) (by omega)
    | false => exact (Between.pure c).weaken (Nat.zero_le _) (by omega)

theorem ctwUpdate_needs (hu : UpdateNeeds F P lo hi) (hn : Between flo fhi new (.ok fresh)) (hc : CopyNeeds F P clo chi)
    (hs : ∀ cs n, shared cs n = true → P.copy n.base = .ok n.base) (h1 : 2 ≤ hi) (h2 : fhi ≤ hi) (h3 : chi ≤ hi) (a : α) (h : List α) (w : ℝ) :
    ∀ (cs : List Bool) (n : CTWNode σ Bool), Between (cs.length + lo + 1) (cs.length + hi + 1) (fun k => ctwUpdate F new shared a h w k cs n)
      (n.update P fresh a h w cs)
  | [], n => by
    simp only [List.length_nil, Nat.zero_add]
    exact ((hu n.base a h w).map _).frame
  | c :: cs, n => by
    have ih := fun m => ctwUpdate_needs hu hn hc hs h1 h2 h3 a h w cs m
    have hb := ((hu n.base a h w).bind
      (g := fun x j => ctwChild F new shared j cs (n.children c) >>= fun child => ctwUpdate F new shared a h w j cs child >>= fun y =>
        lse2 j (n.baseLP + x.1) (n.childrenLP + y.1) >>= fun z => pure (log05 + z - n.lp,
          CTWNode.mk x.2 (n.baseLP + x.1) (n.childrenLP + y.1) (log05 + z) (Function.update n.children c (some y.2))))
      (q := fun x => (.ok ((n.children c).getD (CTWNode.new fresh)) : Py (CTWNode σ Bool)) >>= fun child => child.update P fresh a h w cs >>= fun y =>
        (.ok (logsumexp2 (n.baseLP + x.1) (n.childrenLP + y.1)) : Py ℝ) >>= fun z => pure (log05 + z - n.lp,
          CTWNode.mk x.2 (n.baseLP + x.1) (n.childrenLP + y.1) (log05 + z) (Function.update n.children c (some y.2))))
      (fun x _ => (ctwChild_needs hn hc hs cs (n.children c)).bind
        (g := fun child j => ctwUpdate F new shared a h w j cs child >>= fun y =>
          lse2 j (n.baseLP + x.1) (n.childrenLP + y.1) >>= fun z => pure (log05 + z - n.lp,
            CTWNode.mk x.2 (n.baseLP + x.1) (n.childrenLP + y.1) (log05 + z) (Function.update n.children c (some y.2))))
        (q := fun child => child.update P fresh a h w cs >>= fun y =>
          (.ok (logsumexp2 (n.baseLP + x.1) (n.childrenLP + y.1)) : Py ℝ) >>= fun z => pure (log05 + z - n.lp,
            CTWNode.mk x.2 (n.baseLP + x.1) (n.childrenLP + y.1) (log05 + z) (Function.update n.children c (some y.2))))
        (fun child _ => (ih child).bind
          (g := fun y j => lse2 j (n.baseLP + x.1) (n.childrenLP + y.1) >>= fun z => pure (log05 + z - n.lp,
            CTWNode.mk x.2 (n.baseLP + x.1) (n.childrenLP + y.1) (log05 + z) (Function.update n.children c (some y.2))))
          (q := fun y => (.ok (logsumexp2 (n.baseLP + x.1) (n.childrenLP + y.1)) : Py ℝ) >>= fun z => pure (log05 + z - n.lp,
            CTWNode.mk x.2 (n.baseLP + x.1) (n.childrenLP + y.1) (log05 + z) (Function.update n.children c (some y.2))))
          (fun y _ => (lse2_needs _ _).map _)))).frame
    refine Between.weaken (lo := max lo (max 0 (max (cs.length + lo + 1) 1)) + 1)
      (hi := max hi (max (max (max fhi 2) (max chi 1) + 1) (max (cs.length + hi + 1) 1)) + 1) hb ?_ ?_
    · rw [List.length_cons]; omega
    · rw [List.length_cons]; omega

open scoped Classical in
theorem ctwPredict_needs {l f : ℕ} (hl : PredictNeeds F P l l) (hn : Between f f new (.ok fresh)) (a : α) (h : List α) :
    ∀ (cs : List Bool) (n : CTWNode σ Bool),
      Needs (cs.length + 1 + (if Present cs n then l else max l (max f 2))) (fun k => ctwPredict F new a h k cs n) (n.logPredict P fresh a h cs)
  | [], n => by
    rw [if_pos (show Present [] n from trivial)]
    have h1 := ((hl n.base a h).map (fun x => (n.baseLP + x.1 - n.lp, CTWNode.mk x.2 n.baseLP n.childrenLP n.lp n.children))).frame
    exact h1.weaken (by rw [List.length_nil]; omega) (by rw [List.length_nil]; omega)
  | c :: cs, n => by
    have ih := fun m => ctwPredict_needs hl hn a h cs m
    set child0 := (n.children c).getD (CTWNode.new fresh) with hch
    set N := if n.children c = none then max f 2 + 1 else 0 with hN
    have hcn : Between N N (fun j => ctwGet new j (n.children c)) (.ok child0) := by
      rw [hN, hch]
      cases n.children c with
      | none => rw [if_pos rfl]; exact ctwNew_needs hn
      | some m => rw [if_neg (by simp)]; exact Between.pure m
    have hb := ((hl n.base a h).bind
      (g := fun x j => ctwGet new j (n.children c) >>= fun child => ctwPredict F new a h j cs child >>= fun y =>
        lse2 j (n.baseLP + x.1) (n.childrenLP + y.1) >>= fun z => pure (log05 + z - n.lp,
          CTWNode.mk x.2 n.baseLP n.childrenLP n.lp (Function.update n.children c (some y.2))))
      (q := fun x => (.ok child0 : Py (CTWNode σ Bool)) >>= fun child => child.logPredict P fresh a h cs >>= fun y =>
        (.ok (logsumexp2 (n.baseLP + x.1) (n.childrenLP + y.1)) : Py ℝ) >>= fun z => pure (log05 + z - n.lp,
          CTWNode.mk x.2 n.baseLP n.childrenLP n.lp (Function.update n.children c (some y.2))))
      (fun x _ => hcn.bind
        (lo2 := max (cs.length + 1 + (if Present cs child0 then l else max l (max f 2))) 1)
        (hi2 := max (cs.length + 1 + (if Present cs child0 then l else max l (max f 2))) 1)
        (g := fun child j => ctwPredict F new a h j cs child >>= fun y =>
          lse2 j (n.baseLP + x.1) (n.childrenLP + y.1) >>= fun z => pure (log05 + z - n.lp,
            CTWNode.mk x.2 n.baseLP n.childrenLP n.lp (Function.update n.children c (some y.2))))
        (q := fun child => child.logPredict P fresh a h cs >>= fun y =>
          (.ok (logsumexp2 (n.baseLP + x.1) (n.childrenLP + y.1)) : Py ℝ) >>= fun z => pure (log05 + z - n.lp,
            CTWNode.mk x.2 n.baseLP n.childrenLP n.lp (Function.update n.children c (some y.2))))
        (fun child hchild => by
          cases hchild
          exact (ih child0).bind
            (g := fun y j => lse2 j (n.baseLP + x.1) (n.childrenLP + y.1) >>= fun z => pure (log05 + z - n.lp,
              CTWNode.mk x.2 n.baseLP n.childrenLP n.lp (Function.update n.children c (some y.2))))
            (q := fun y => (.ok (logsumexp2 (n.baseLP + x.1) (n.childrenLP + y.1)) : Py ℝ) >>= fun z => pure (log05 + z - n.lp,
              CTWNode.mk x.2 n.baseLP n.childrenLP n.lp (Function.update n.children c (some y.2))))
            (fun y _ => (lse2_needs _ _).map _)))).frame
    have hnum : max l (max N (max (cs.length + 1 + (if Present cs child0 then l else max l (max f 2))) 1)) + 1 =
        (c :: cs).length + 1 + (if Present (c :: cs) n then l else max l (max f 2)) := by
      rw [List.length_cons]
      cases hcc : n.children c with
      | none =>
        have e1 : N = max f 2 + 1 := by rw [hN, if_pos hcc]
        have e2 : ¬ Present (c :: cs) n := by rintro ⟨m, hm, _⟩; rw [hcc] at hm; cases hm
        have e0 : child0 = CTWNode.new fresh := by rw [hch, hcc]; rfl
        rw [e1, e0, if_neg e2]
        cases cs with
        | nil => rw [if_pos (show Present [] _ from trivial), List.length_nil]; omega
        | cons c' cs' =>
          have e3 : ¬ Present (c' :: cs') (CTWNode.new fresh : CTWNode σ Bool) := by rintro ⟨m, hm, _⟩; cases hm
          rw [if_neg e3]; omega
      | some m =>
        have e1 : N = 0 := by rw [hN, if_neg (by rw [hcc]; simp)]
        have e0 : child0 = m := by rw [hch, hcc]; rfl
        have e2 : Present (c :: cs) n ↔ Present cs m := by
          constructor
          · rintro ⟨m', hm, hp⟩; rw [hcc] at hm; cases hm; exact hp
          · exact fun hp => ⟨m, hcc, hp⟩
        rw [e1, e0]
        by_cases hp : Present cs m
        · rw [if_pos hp, if_pos (e2.mpr hp)]; omega
        · rw [if_neg hp, if_neg (fun h => hp (e2.mp h))]; omega
    rw [← hnum]
    exact hb

end ctw

end Frames

end Verif
