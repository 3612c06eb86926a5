import Verif.Proofs.FramesTrees

/-! The numbers of nested calls of the methods of `FMN`, and of `log_predict` of `PTW`. -/

namespace Verif

namespace Frames

variable {S σ α : Type} {lo hi clo chi : ℕ} {F : Framed σ α} {P : Predictor σ α}

/-- A model store whose `lazy_add` makes at most one more nested call than its argument, and a few of its own. -/
def AddNeeds (St : Store S σ) (add : LazyAdd S σ) : Prop :=
  ∀ (s : S) (x : ℕ → Calls σ) (r : Py σ) (a b : ℕ), Between a b x r → Between 0 (max b 2 + 1) (fun k => add k s x) (St.lazyAdd s r)

theorem logStoreAdd_needs : AddNeeds (LogStore.store σ) logStoreAdd := by
  intro s x r a b hx
  have hlen : Between 0 1 (fun i => lenCall s i) (.ok ()) := by
    unfold lenCall
    cases s.isEmpty with
    | true => exact (Between.pure ()).weaken le_rfl (by omega)
    | false => exact ((Between.pure ()).frame).weaken (by omega) le_rfl
  have hb := (hx.bind
    (g := fun v j => frame j fun i => lenCall s i >>= fun _ => pure (s.add v))
    (q := fun v => .ok (s.add v)) (lo2 := 0 + 1) (hi2 := 1 + 1)
    (fun v _ => (hlen.map (fun _ => s.add v)).frame)).frame
  exact Between.weaken hb (by omega) (by omega)

theorem logStoreUniformAdd_needs : AddNeeds (LogStoreUniform.store σ) logStoreUniformAdd := by
  intro s x r a b hx
  by_cases h0 : s.numToSkip ≠ 0
  · have e1 : (LogStoreUniform.store σ).lazyAdd s r = .ok { s with numToSkip := s.numToSkip - 1 } := by
      show (if s.numToSkip ≠ 0 then _ else _) = _
      rw [if_pos h0]; rfl
    have e2 : (fun k => logStoreUniformAdd k s x) = fun k => frame k fun _ => pure { s with numToSkip := s.numToSkip - 1 } := by
      funext k
      show (frame k fun j => if s.numToSkip ≠ 0 then _ else _) = _
      simp only [if_pos h0]
    rw [e1, e2]
    exact (Between.pure _).frame.weaken (by omega) (by omega)
  · have e1 : (LogStoreUniform.store σ).lazyAdd s r = r >>= fun v => pure (s.add v) := by
      show (if s.numToSkip ≠ 0 then _ else _) = _
      rw [if_neg h0]
    have e2 : (fun k => logStoreUniformAdd k s x) = fun k => frame k fun j => x j >>= fun v => pure (s.add v) := by
      funext k
      show (frame k fun j => if s.numToSkip ≠ 0 then _ else _) = _
      simp only [if_neg h0]
    rw [e1, e2]
    exact (hx.map (fun v => s.add v)).frame.weaken (by omega) (by omega)

theorem copies_needs (hc : CopyNeeds F P clo chi) :
    ∀ ms : List σ, Between 1 (max chi 1) (fun k => copies F k ms) (FMN.copies P ms)
  | [] => (Between.pure _).frame.weaken (by omega) (by omega)
  | x :: xs => by
    have hb := ((Between.pure ()).frame).bind
      (g := fun _ k => F.copy k x >>= fun y => copies F k xs >>= fun ys => pure (y :: ys))
      (q := fun _ => P.copy x >>= fun y => FMN.copies P xs >>= fun ys => pure (y :: ys))
      (fun _ _ => (hc x).bind (g := fun y k => copies F k xs >>= fun ys => pure (y :: ys)) (q := fun y => FMN.copies P xs >>= fun ys => pure (y :: ys))
        (fun y _ => (copies_needs hc xs).map _))
    exact Between.weaken hb (by omega) (by omega)

theorem modelFactory_needs (hc : CopyNeeds F P clo chi) (ms : List σ) :
    Between 0 (max chi 1 + 2) (fun k => modelFactory F ms k) (FMN.modelFactory P ms) := by
  have hi : ∀ ys : List σ, Between 0 2 (fun j => frame j fun i => Calls.lift (Averager.init ys) >>= fun v => frame i fun _ => pure v)
      (Averager.init ys) := by
    intro ys
    have h1 := ((Between.lift (Averager.init ys)).bind (g := fun v i => frame i fun _ => pure v) (q := fun v => .ok v)
      (fun v _ => (Between.pure v).frame)).frame
    have e : (Averager.init ys >>= fun v => (.ok v : Py (Averager σ))) = Averager.init ys := by
      cases Averager.init ys <;> rfl
    rw [e] at h1
    exact Between.weaken h1 (by omega) (by omega)
  have hb := (((copies_needs hc ms).frame).bind
    (g := fun ys j => frame j fun i => Calls.lift (Averager.init ys) >>= fun v => frame i fun _ => pure v)
    (q := fun ys => Averager.init ys)
    (fun ys _ => hi ys)).frame
  exact Between.weaken hb (by omega) (by omega)

theorem ptwMap_needs (s : PTW σ) : Between 2 2 (fun k => ptwMap k s) s.map := by
  have : Between 0 0 (fun _ => (match s.tree.mapNodes 0 with
    | [] => .error (.raised .valueError)
    | x :: xs => pure (Averager.maxByKey x xs).1 : Calls σ)) s.map := by
    unfold PTW.map
    cases s.tree.mapNodes 0 with
    | nil => exact Between.lift (.error .valueError)
    | cons x xs => exact Between.pure _
  exact this.frame.frame

theorem averagerMap_needs (s : Averager σ) : Between 1 2 (fun k => averagerMap k s) s.map := by
  unfold averagerMap Averager.map
  cases s.models with
  | nil => exact (Between.lift (.error .valueError)).frame.weaken (by omega) (by omega)
  | cons x xs => exact (Between.pure _).frame.frame.weaken (by omega) (by omega)

theorem best_needs (hc : CopyNeeds F P clo chi) (p : PTW (Averager σ)) : Between 0 (max chi 2 + 1) (fun k => best F p k) (FMN.best P p) := by
  have hb := ((ptwMap_needs p).bind (g := fun a j => averagerMap j a >>= fun b => F.copy j b) (q := fun a => a.map >>= fun b => P.copy b)
    (fun a _ => (averagerMap_needs a).bind (g := fun b j => F.copy j b) (q := fun b => P.copy b) (fun b _ => hc b))).frame
  exact Between.weaken hb (by omega) (by omega)

theorem fmn_update {St : Store S σ} {add : LazyAdd S σ} (hadd : AddNeeds St add) (hu : UpdateNeeds F P lo hi) (hc : CopyNeeds F P clo chi)
    (h1 : chi + 1 ≤ max hi 2) (m : ℕ) (s : FMN S σ) (a : α) (h : List α) (w : ℝ) :
    Between (after s.ptw.tree + max lo 2 + 3) (after s.ptw.tree + max hi 2 + 3) (fun k => (fmn St add F m).update k s a h w)
      ((FMN.predictor St P m).update s a h w) := by
  have hp := (ptwBody_needs (h0 := m) (averager_update hu) (by omega) (modelFactory_needs hc (St.items s.store)) (by omega) s.ptw a h w).frame
  have hb := (Between.bind hp
    (g := fun x j => saved add F m j s x.2 >>= fun st =>
      pure (x.1, (⟨x.2, st, s.t + 1⟩ : FMN S σ)))
    (q := fun x => (if (s.t + 1) % 2 ^ m = 0 then St.lazyAdd s.store (FMN.best P x.2) else pure s.store) >>= fun st =>
      pure (x.1, (⟨x.2, st, s.t + 1⟩ : FMN S σ)))
    (lo2 := 0) (hi2 := max chi 2 + 2)
    (fun x _ => by
      refine Between.map ?_ (fun st => (x.1, (⟨x.2, st, s.t + 1⟩ : FMN S σ)))
      unfold saved
      by_cases ht : (s.t + 1) % 2 ^ m = 0
      · simp only [if_pos ht]
        exact (hadd s.store _ _ _ _ (best_needs hc x.2)).weaken le_rfl (by omega)
      · simp only [if_neg ht]
        exact (Between.pure s.store).weaken le_rfl (by omega))).frame
  have he : (s.ptw.update (Averager.predictor P) (FMN.modelFactory P (St.items s.store)) m a h w >>= fun x =>
      (if (s.t + 1) % 2 ^ m = 0 then St.lazyAdd s.store (FMN.best P x.2) else pure s.store) >>= fun st =>
        (pure (x.1, (⟨x.2, st, s.t + 1⟩ : FMN S σ)) : Py _)) = (FMN.predictor St P m).update s a h w := by
    show _ = FMN.update St P m s a h w
    unfold FMN.update
    congr 1
    funext x
    split <;> rfl
  rw [he] at hb
  have := after_pos s.ptw.tree
  exact Between.weaken hb (by omega) (by omega)

/-! ### Predictions of `PTW` -/

/-- The number of nodes that `log_predict` visits: it stops at a complete node. -/
def visited : PTWNode σ → ℕ
  | .leaf _ => 1
  | .inner d r => if d.complete then 1 else visited r + 1

theorem visited_le_after : ∀ n : PTWNode σ, visited n ≤ after n
  | .leaf d => by
    show 1 ≤ _
    exact after_pos _
  | .inner d r => by
    have := visited_le_after r
    show (if d.complete then 1 else visited r + 1) ≤ (if d.complete then 2 else after r + 1)
    split <;> omega

theorem visited_pos : ∀ n : PTWNode σ, 1 ≤ visited n
  | .leaf _ => le_rfl
  | .inner d r => by
    show 1 ≤ if d.complete then 1 else visited r + 1
    split <;> omega

theorem ptwPredict_needs (hl : PredictNeeds F P lo hi) (h1 : 1 ≤ hi) (a : α) (h : List α) :
    ∀ n : PTWNode σ, Between (visited n + lo) (visited n + hi) (fun k => ptwPredict F a h k n) (n.logPredict P a h)
  | .leaf d => by
    have hc : ∀ x : ℝ × σ, Between 0 1
        (fun j => complete j d >>= fun c => if c then lse2 j (d.baseLP + x.1) d.lp >>= fun z =>
            pure ((log05 + z, d.baseLP + x.1, d.height + 1), PTWNode.leaf { d with base := x.2 })
          else pure ((d.baseLP + x.1, d.baseLP + x.1, d.height), PTWNode.leaf { d with base := x.2 }))
        (if d.complete then .ok ((log05 + logsumexp2 (d.baseLP + x.1) d.lp, d.baseLP + x.1, d.height + 1), PTWNode.leaf { d with base := x.2 })
          else .ok ((d.baseLP + x.1, d.baseLP + x.1, d.height), PTWNode.leaf { d with base := x.2 })) := by
      intro x
      have h2 := (complete_needs d).bind
        (g := fun c j => if c then lse2 j (d.baseLP + x.1) d.lp >>= fun z =>
            pure ((log05 + z, d.baseLP + x.1, d.height + 1), PTWNode.leaf { d with base := x.2 })
          else pure ((d.baseLP + x.1, d.baseLP + x.1, d.height), PTWNode.leaf { d with base := x.2 }))
        (q := fun c => if c then .ok ((log05 + logsumexp2 (d.baseLP + x.1) d.lp, d.baseLP + x.1, d.height + 1), PTWNode.leaf { d with base := x.2 })
          else .ok ((d.baseLP + x.1, d.baseLP + x.1, d.height), PTWNode.leaf { d with base := x.2 }))
        (lo2 := 0) (hi2 := 1)
        (fun c _ => by
          cases c with
          | true =>
            have h3 := (lse2_needs (d.baseLP + x.1) d.lp).map
              (fun z => ((log05 + z, d.baseLP + x.1, d.height + 1), PTWNode.leaf { d with base := x.2 }))
            exact h3.weaken (by omega) le_rfl
          | false => exact (Between.pure _).weaken le_rfl (by omega))
      exact h2.weaken (by omega) (by omega)
    have hb := ((hl d.base a h).bind
      (g := fun x j => complete j d >>= fun c => if c then lse2 j (d.baseLP + x.1) d.lp >>= fun z =>
          pure ((log05 + z, d.baseLP + x.1, d.height + 1), PTWNode.leaf { d with base := x.2 })
        else pure ((d.baseLP + x.1, d.baseLP + x.1, d.height), PTWNode.leaf { d with base := x.2 }))
      (q := fun x => if d.complete then .ok ((log05 + logsumexp2 (d.baseLP + x.1) d.lp, d.baseLP + x.1, d.height + 1), PTWNode.leaf { d with base := x.2 })
        else .ok ((d.baseLP + x.1, d.baseLP + x.1, d.height), PTWNode.leaf { d with base := x.2 }))
      (fun x _ => hc x)).frame
    exact Between.weaken hb (by show 1 + lo ≤ _; omega) (by show _ ≤ 1 + hi; omega)
  | .inner d r => by
    have ih := ptwPredict_needs hl h1 a h r
    have hv := visited_pos r
    have e : visited (.inner d r) = if d.complete then 1 else visited r + 1 := rfl
    have hc : ∀ x : ℝ × σ, Between (if d.complete then 0 else visited r + lo) (if d.complete then 1 else visited r + hi)
        (fun j => complete j d >>= fun c => if c then lse2 j (d.baseLP + x.1) d.lp >>= fun z =>
            pure ((log05 + z, d.baseLP + x.1, d.height + 1), PTWNode.inner { d with base := x.2 } r)
          else ptwPredict F a h j r >>= fun y => correct j y.1.2.1 (d.height - y.1.2.2 - 1) y.1.1 >>= fun rlp =>
            lse2 j (d.baseLP + x.1) (d.leftLP + rlp) >>= fun z =>
            pure ((log05 + z, d.baseLP + x.1, d.height), PTWNode.inner { d with base := x.2 } y.2))
        (if d.complete then .ok ((log05 + logsumexp2 (d.baseLP + x.1) d.lp, d.baseLP + x.1, d.height + 1), PTWNode.inner { d with base := x.2 } r)
          else r.logPredict P a h >>= fun y =>
            .ok ((log05 + logsumexp2 (d.baseLP + x.1) (d.leftLP + PTWData.correct y.1.2.1 (d.height - y.1.2.2 - 1) y.1.1), d.baseLP + x.1, d.height),
              PTWNode.inner { d with base := x.2 } y.2)) := by
      intro x
      have h2 := (complete_needs d).bind
        (g := fun c j => if c then lse2 j (d.baseLP + x.1) d.lp >>= fun z =>
            pure ((log05 + z, d.baseLP + x.1, d.height + 1), PTWNode.inner { d with base := x.2 } r)
          else ptwPredict F a h j r >>= fun y => correct j y.1.2.1 (d.height - y.1.2.2 - 1) y.1.1 >>= fun rlp =>
            lse2 j (d.baseLP + x.1) (d.leftLP + rlp) >>= fun z =>
            pure ((log05 + z, d.baseLP + x.1, d.height), PTWNode.inner { d with base := x.2 } y.2))
        (q := fun c => if c then .ok ((log05 + logsumexp2 (d.baseLP + x.1) d.lp, d.baseLP + x.1, d.height + 1), PTWNode.inner { d with base := x.2 } r)
          else r.logPredict P a h >>= fun y =>
            .ok ((log05 + logsumexp2 (d.baseLP + x.1) (d.leftLP + PTWData.correct y.1.2.1 (d.height - y.1.2.2 - 1) y.1.1), d.baseLP + x.1, d.height),
              PTWNode.inner { d with base := x.2 } y.2))
        (lo2 := if d.complete then 0 else visited r + lo) (hi2 := if d.complete then 1 else visited r + hi)
        (fun c hc => by
          cases hc
          cases d.complete with
          | true =>
            have h3 := (lse2_needs (d.baseLP + x.1) d.lp).map
              (fun z => ((log05 + z, d.baseLP + x.1, d.height + 1), PTWNode.inner { d with base := x.2 } r))
            exact h3.weaken (by simp) (by simp)
          | false =>
            have h3 := ih.bind
              (g := fun y j => correct j y.1.2.1 (d.height - y.1.2.2 - 1) y.1.1 >>= fun rlp =>
                lse2 j (d.baseLP + x.1) (d.leftLP + rlp) >>= fun z =>
                pure ((log05 + z, d.baseLP + x.1, d.height), PTWNode.inner { d with base := x.2 } y.2))
              (q := fun y => .ok ((log05 + logsumexp2 (d.baseLP + x.1) (d.leftLP + PTWData.correct y.1.2.1 (d.height - y.1.2.2 - 1) y.1.1),
                d.baseLP + x.1, d.height), PTWNode.inner { d with base := x.2 } y.2))
              (lo2 := max 0 1) (hi2 := max 1 1)
              (fun y _ => (correct_needs y.1.2.1 (d.height - y.1.2.2 - 1) y.1.1).bind
                (g := fun rlp j => lse2 j (d.baseLP + x.1) (d.leftLP + rlp) >>= fun z =>
                  pure ((log05 + z, d.baseLP + x.1, d.height), PTWNode.inner { d with base := x.2 } y.2))
                (q := fun rlp => .ok ((log05 + logsumexp2 (d.baseLP + x.1) (d.leftLP + rlp), d.baseLP + x.1, d.height),
                  PTWNode.inner { d with base := x.2 } y.2))
                (fun rlp _ => (lse2_needs (d.baseLP + x.1) (d.leftLP + rlp)).map
                  (fun z => ((log05 + z, d.baseLP + x.1, d.height), PTWNode.inner { d with base := x.2 } y.2))))
            refine Between.weaken h3 ?_ ?_
            · simp
            · simp only [Bool.false_eq_true, if_false]; omega)
      exact h2.weaken (by split <;> omega) (by split <;> omega)
    have hb := ((hl d.base a h).bind
      (g := fun x j => complete j d >>= fun c => if c then lse2 j (d.baseLP + x.1) d.lp >>= fun z =>
            pure ((log05 + z, d.baseLP + x.1, d.height + 1), PTWNode.inner { d with base := x.2 } r)
          else ptwPredict F a h j r >>= fun y => correct j y.1.2.1 (d.height - y.1.2.2 - 1) y.1.1 >>= fun rlp =>
            lse2 j (d.baseLP + x.1) (d.leftLP + rlp) >>= fun z =>
            pure ((log05 + z, d.baseLP + x.1, d.height), PTWNode.inner { d with base := x.2 } y.2))
      (q := fun x => if d.complete then .ok ((log05 + logsumexp2 (d.baseLP + x.1) d.lp, d.baseLP + x.1, d.height + 1), PTWNode.inner { d with base := x.2 } r)
          else r.logPredict P a h >>= fun y =>
            .ok ((log05 + logsumexp2 (d.baseLP + x.1) (d.leftLP + PTWData.correct y.1.2.1 (d.height - y.1.2.2 - 1) y.1.1), d.baseLP + x.1, d.height),
              PTWNode.inner { d with base := x.2 } y.2))
      (fun x _ => hc x)).frame
    have he : (P.logPredict d.base a h >>= fun x => if d.complete then
          (.ok ((log05 + logsumexp2 (d.baseLP + x.1) d.lp, d.baseLP + x.1, d.height + 1), PTWNode.inner { d with base := x.2 } r) : Py _)
        else r.logPredict P a h >>= fun y =>
          .ok ((log05 + logsumexp2 (d.baseLP + x.1) (d.leftLP + PTWData.correct y.1.2.1 (d.height - y.1.2.2 - 1) y.1.1), d.baseLP + x.1, d.height),
            PTWNode.inner { d with base := x.2 } y.2)) = PTWNode.logPredict P a h (.inner d r) := rfl
    rw [he] at hb
    rw [e]
    generalize visited r = q at *
    refine Between.weaken hb ?_ ?_ <;> split <;> omega

theorem ptwPredictBody_needs (hl : PredictNeeds F P lo hi) (h1 : 1 ≤ hi) (s : PTW σ) (a : α) (h : List α) :
    Between (visited s.tree + lo) (visited s.tree + hi) (fun k => ptwPredictBody F k s a h) (s.logPredict P a h) := by
  have hb := (adjusted_needs s).bind
    (g := fun adj k => ptwPredict F a h k s.tree >>= fun y => pure (y.1.1 + adj - s.logProb, (⟨y.2, s.logProb, s.adj⟩ : PTW σ)))
    (q := fun adj => s.tree.logPredict P a h >>= fun y => pure (y.1.1 + adj - s.logProb, (⟨y.2, s.logProb, s.adj⟩ : PTW σ)))
    (fun adj _ => (ptwPredict_needs hl h1 a h s.tree).map _)
  have := visited_pos s.tree
  exact Between.weaken hb (by omega) (by omega)

end Frames

end Verif
