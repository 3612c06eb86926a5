import Verif.Proofs.FramesModels

/-! The numbers of nested calls of the methods of `CTW`, `CTW_KT`, `PTW` and `FMN`. -/

namespace Verif

namespace Frames

variable {S σ α : Type} {lo hi : ℕ}

section ctw

variable {F : Framed σ Bool} {P : Predictor σ Bool} {new : ℕ → Calls σ} {fresh : σ} {shared : List Bool → CTWNode σ Bool → Bool} {clo chi flo fhi : ℕ}

theorem ctw_update (hu : UpdateNeeds F P lo hi) (hn : Between flo fhi new (.ok fresh)) (hc : CopyNeeds F P clo chi)
    (hs : ∀ cs n, shared cs n = true → P.copy n.base = .ok n.base) (h1 : 2 ≤ hi) (h2 : fhi ≤ hi) (h3 : chi ≤ hi) (depth : ℕ)
    (n : CTWNode σ Bool) (a : Bool) (h : List Bool) (w : ℝ) :
    Between ((CTW.mkcontext depth false h).length + lo + 2) ((CTW.mkcontext depth false h).length + hi + 2)
      (fun k => (ctw F new shared depth).update k n a h w) ((CTW.predictor P fresh (CTW.mkcontext depth false)).update n a h w) := by
  refine Between.frame ?_
  have h4 := ((Between.pure (CTW.mkcontext depth false h)).frame).bind
    (g := fun ctx j => ctwUpdate F new shared a h w j ctx.reverse n) (q := fun ctx => n.update P fresh a h w ctx.reverse)
    (lo2 := (CTW.mkcontext depth false h).length + lo + 1) (hi2 := (CTW.mkcontext depth false h).length + hi + 1)
    (fun ctx hctx => by
      cases hctx
      have := ctwUpdate_needs hu hn hc hs h1 h2 h3 a h w (CTW.mkcontext depth false h).reverse n
      rwa [List.length_reverse] at this)
  exact h4.weaken (by omega) (by omega)

open scoped Classical in
theorem ctw_predict {l f : ℕ} (hl : PredictNeeds F P l l) (hn : Between f f new (.ok fresh)) (depth : ℕ)
    (n : CTWNode σ Bool) (a : Bool) (h : List Bool) :
    Needs ((CTW.mkcontext depth false h).length + 2 +
        (if Present (CTW.mkcontext depth false h).reverse n then l else max l (max f 2)))
      (fun k => (ctw F new shared depth).logPredict k n a h) ((CTW.predictor P fresh (CTW.mkcontext depth false)).logPredict n a h) := by
  set N := (if Present (CTW.mkcontext depth false h).reverse n then l else max l (max f 2)) with hN
  have h4 := (((Between.pure (CTW.mkcontext depth false h)).frame).bind
    (g := fun ctx j => ctwPredict F new a h j ctx.reverse n) (q := fun ctx => n.logPredict P fresh a h ctx.reverse)
    (lo2 := (CTW.mkcontext depth false h).length + 1 + N) (hi2 := (CTW.mkcontext depth false h).length + 1 + N)
    (fun ctx hctx => by
      cases hctx
      have := ctwPredict_needs hl hn a h (CTW.mkcontext depth false h).reverse n
      rw [List.length_reverse] at this
      exact this)).frame
  exact h4.weaken (by omega) (by omega)

theorem ctw_copy (hc : CopyNeeds F P clo chi) (ctx : List Bool → List Bool) (depth : ℕ) :
    CopyNeeds (ctw F new shared depth) (CTW.predictor P fresh ctx) (max clo 1 + 2) (max chi 1 + 2) :=
  fun n => (ctwCopy_needs hc n).frame

end ctw

section ctwKT

variable {shared : List Bool → KNode → Bool}

theorem kChild_needs (cs : List Bool) (o : Option KNode) : Between 0 1 (fun k => kChild shared k cs o) (.ok (o.getD KNode.new)) := by
  cases o with
  | none => exact (Between.pure _).frame.weaken (by omega) le_rfl
  | some c =>
    show Between _ _ (fun k => if shared cs c then frame k fun _ => pure c else pure c) _
    cases shared cs c with
    | true => exact (Between.pure _).frame.weaken (by omega) le_rfl
    | false => exact (Between.pure _).weaken le_rfl (by omega)

theorem kGet_needs (o : Option KNode) : Between 0 1 (fun k => kGet k o) (.ok (o.getD KNode.new)) := by
  cases o with
  | none => exact (Between.pure _).frame.weaken (by omega) le_rfl
  | some c => exact (Between.pure _).weaken le_rfl (by omega)

theorem kUpdate_needs (a : Bool) (w : ℝ) : ∀ (cs : List Bool) (n : KNode),
    Needs (cs.length + 2) (fun k => kUpdate shared a w k cs n) (n.update a w cs)
  | [], n => ((Between.lift (KNode.logRatio n.counts a)).frame.map _).frame
  | c :: cs, n => by
    have hb := (((Between.lift (KNode.logRatio n.counts a)).frame).bind
      (g := fun l j => kChild shared j cs (n.children c) >>= fun child => kUpdate shared a w j cs child >>= fun y =>
        lse2 j (n.baseLP + l) (n.childrenLP + y.1) >>= fun z => pure (log05 + z - n.lp,
          KNode.mk (n.counts.bump a w) (n.baseLP + l) (n.childrenLP + y.1) (log05 + z) (Function.update n.children c (some y.2))))
      (q := fun l => (.ok ((n.children c).getD KNode.new) : Py KNode) >>= fun child => child.update a w cs >>= fun y =>
        (.ok (logsumexp2 (n.baseLP + l) (n.childrenLP + y.1)) : Py ℝ) >>= fun z => pure (log05 + z - n.lp,
          KNode.mk (n.counts.bump a w) (n.baseLP + l) (n.childrenLP + y.1) (log05 + z) (Function.update n.children c (some y.2))))
      (fun l _ => (kChild_needs cs (n.children c)).bind
        (g := fun child j => kUpdate shared a w j cs child >>= fun y =>
          lse2 j (n.baseLP + l) (n.childrenLP + y.1) >>= fun z => pure (log05 + z - n.lp,
            KNode.mk (n.counts.bump a w) (n.baseLP + l) (n.childrenLP + y.1) (log05 + z) (Function.update n.children c (some y.2))))
        (q := fun child => child.update a w cs >>= fun y =>
          (.ok (logsumexp2 (n.baseLP + l) (n.childrenLP + y.1)) : Py ℝ) >>= fun z => pure (log05 + z - n.lp,
            KNode.mk (n.counts.bump a w) (n.baseLP + l) (n.childrenLP + y.1) (log05 + z) (Function.update n.children c (some y.2))))
        (fun child _ => (kUpdate_needs a w cs child).bind
          (g := fun y j => lse2 j (n.baseLP + l) (n.childrenLP + y.1) >>= fun z => pure (log05 + z - n.lp,
            KNode.mk (n.counts.bump a w) (n.baseLP + l) (n.childrenLP + y.1) (log05 + z) (Function.update n.children c (some y.2))))
          (q := fun y => (.ok (logsumexp2 (n.baseLP + l) (n.childrenLP + y.1)) : Py ℝ) >>= fun z => pure (log05 + z - n.lp,
            KNode.mk (n.counts.bump a w) (n.baseLP + l) (n.childrenLP + y.1) (log05 + z) (Function.update n.children c (some y.2))))
          (fun y _ => (lse2_needs _ _).map _)))).frame
    refine Between.weaken (lo := max (0 + 1) (max 0 (max (cs.length + 2) 1)) + 1) (hi := max (0 + 1) (max 1 (max (cs.length + 2) 1)) + 1) hb ?_ ?_ <;>
      rw [List.length_cons] <;> omega

theorem kPredict_needs (a : Bool) : ∀ (cs : List Bool) (n : KNode),
    Needs (cs.length + 1) (fun k => kPredict a k cs n) (n.logPredict a cs)
  | [], n => ((Between.lift (KNode.logRatio n.counts a)).map _).frame
  | c :: cs, n => by
    have hb := ((Between.lift (KNode.logRatio n.counts a)).bind
      (g := fun l j => kGet j (n.children c) >>= fun child => kPredict a j cs child >>= fun y =>
        lse2 j (n.baseLP + l) (n.childrenLP + y.1) >>= fun z => pure (log05 + z - n.lp,
          KNode.mk n.counts n.baseLP n.childrenLP n.lp (Function.update n.children c (some y.2))))
      (q := fun l => (.ok ((n.children c).getD KNode.new) : Py KNode) >>= fun child => child.logPredict a cs >>= fun y =>
        (.ok (logsumexp2 (n.baseLP + l) (n.childrenLP + y.1)) : Py ℝ) >>= fun z => pure (log05 + z - n.lp,
          KNode.mk n.counts n.baseLP n.childrenLP n.lp (Function.update n.children c (some y.2))))
      (fun l _ => (kGet_needs (n.children c)).bind
        (g := fun child j => kPredict a j cs child >>= fun y =>
          lse2 j (n.baseLP + l) (n.childrenLP + y.1) >>= fun z => pure (log05 + z - n.lp,
            KNode.mk n.counts n.baseLP n.childrenLP n.lp (Function.update n.children c (some y.2))))
        (q := fun child => child.logPredict a cs >>= fun y =>
          (.ok (logsumexp2 (n.baseLP + l) (n.childrenLP + y.1)) : Py ℝ) >>= fun z => pure (log05 + z - n.lp,
            KNode.mk n.counts n.baseLP n.childrenLP n.lp (Function.update n.children c (some y.2))))
        (fun child _ => (kPredict_needs a cs child).bind
          (g := fun y j => lse2 j (n.baseLP + l) (n.childrenLP + y.1) >>= fun z => pure (log05 + z - n.lp,
            KNode.mk n.counts n.baseLP n.childrenLP n.lp (Function.update n.children c (some y.2))))
          (q := fun y => (.ok (logsumexp2 (n.baseLP + l) (n.childrenLP + y.1)) : Py ℝ) >>= fun z => pure (log05 + z - n.lp,
            KNode.mk n.counts n.baseLP n.childrenLP n.lp (Function.update n.children c (some y.2))))
          (fun y _ => (lse2_needs _ _).map _)))).frame
    refine Between.weaken (lo := max 0 (max 0 (max (cs.length + 1) 1)) + 1) (hi := max 0 (max 1 (max (cs.length + 1) 1)) + 1) hb ?_ ?_ <;>
      rw [List.length_cons] <;> omega

theorem ctwKT_update (depth : ℕ) (n : KNode) (a : Bool) (h : List Bool) (w : ℝ) :
    Needs ((CTW.mkcontext depth false h).length + 3) (fun k => (ctwKT shared depth).update k n a h w) ((KNode.predictor depth).update n a h w) := by
  have h4 := (((Between.pure (CTW.mkcontext depth false h)).frame).bind
    (g := fun ctx j => kUpdate shared a w j ctx.reverse n) (q := fun ctx => n.update a w ctx.reverse)
    (lo2 := (CTW.mkcontext depth false h).length + 2) (hi2 := (CTW.mkcontext depth false h).length + 2)
    (fun ctx hctx => by
      cases hctx
      have := kUpdate_needs (shared := shared) a w (CTW.mkcontext depth false h).reverse n
      rwa [List.length_reverse] at this)).frame
  exact h4.weaken (by omega) (by omega)

theorem ctwKT_predict (depth : ℕ) (n : KNode) (a : Bool) (h : List Bool) :
    Needs ((CTW.mkcontext depth false h).length + 2) (fun k => (ctwKT shared depth).logPredict k n a h) ((KNode.predictor depth).logPredict n a h) := by
  have h4 := (((Between.pure (CTW.mkcontext depth false h)).frame).bind
    (g := fun ctx j => kPredict a j ctx.reverse n) (q := fun ctx => n.logPredict a ctx.reverse)
    (lo2 := (CTW.mkcontext depth false h).length + 1) (hi2 := (CTW.mkcontext depth false h).length + 1)
    (fun ctx hctx => by
      cases hctx
      have := kPredict_needs a (CTW.mkcontext depth false h).reverse n
      rwa [List.length_reverse] at this)).frame
  exact h4.weaken (by omega) (by omega)

theorem ctwKT_copy (depth : ℕ) : CopyNeeds (ctwKT shared depth) (KNode.predictor depth) 2 2 := fun n => (Between.pure n).frame.frame

end ctwKT

/-! ### `PTW` -/

section ptw

variable {F : Framed σ α} {P : Predictor σ α} {new : ℕ → Calls σ} {fresh : Py σ} {flo fhi h0 : ℕ}

/-- The number of nodes after the next update. -/
def after : PTWNode σ → ℕ
  | .leaf d => if d.complete then 2 else 1
  | .inner d r => if d.complete then 2 else after r + 1

theorem after_pos : ∀ n : PTWNode σ, 1 ≤ after n
  | .leaf d => by unfold after; split <;> omega
  | .inner d r => by unfold after; split <;> omega

theorem bases_combine (d : PTWData σ) (r : PTWNode σ) : (PTWNode.combine d r).bases.length = r.bases.length + 1 := rfl

theorem bases_promoted {d : PTWData σ} {a : α} {h : List α} {w : ℝ} {n' : PTWNode σ} (hn : PTWNode.promoted P fresh h0 d a h w = .ok n') :
    n'.bases.length = 2 := by
  unfold PTWNode.promoted at hn
  obtain ⟨f, _, hn⟩ := bind_eq_ok.mp hn
  obtain ⟨d1, _, hn⟩ := bind_eq_ok.mp hn
  obtain ⟨r, hr, hn⟩ := bind_eq_ok.mp hn
  obtain ⟨d2, _, hr⟩ := bind_eq_ok.mp hr
  cases hr; cases hn; rfl

theorem bases_leafUpdate {d : PTWData σ} {a : α} {h : List α} {w : ℝ} {n' : PTWNode σ} (hn : PTWNode.leafUpdate P d a h w = .ok n') :
    n'.bases.length = 1 := by
  obtain ⟨d2, _, hr⟩ := bind_eq_ok.mp hn
  cases hr; rfl

theorem after_eq {a : α} {h : List α} {w : ℝ} : ∀ {n n' : PTWNode σ}, n.update P fresh h0 a h w = .ok n' → n'.bases.length = after n
  | .leaf d, n', hn => by
    unfold PTWNode.update at hn
    unfold after
    split at hn
    · rw [if_pos ‹_›]; exact bases_promoted hn
    · rw [if_neg ‹_›]; exact bases_leafUpdate hn
  | .inner d r, n', hn => by
    unfold PTWNode.update at hn
    unfold after
    split at hn
    · rw [if_pos ‹_›]; exact bases_promoted hn
    · rw [if_neg ‹_›]
      obtain ⟨d1, _, hn⟩ := bind_eq_ok.mp hn
      obtain ⟨r', hr, hn⟩ := bind_eq_ok.mp hn
      cases hn
      rw [bases_combine, after_eq hr]

theorem correct_needs (base : ℝ) : ∀ (n : ℕ) (x : ℝ), Between 0 1 (fun k => correct k base n x) (.ok (PTWData.correct base n x))
  | 0, x => (Between.pure x).weaken le_rfl (by omega)
  | n + 1, x => by
    have := (lse2_needs base x).bind (g := fun z k => correct k base n (log05 + z)) (q := fun z => .ok (PTWData.correct base n (log05 + z)))
      (fun z _ => correct_needs base n _)
    exact this.weaken (by omega) (by omega)

theorem baseStep_needs (hu : UpdateNeeds F P lo hi) (d : PTWData σ) (a : α) (h : List α) (w : ℝ) :
    Between lo hi (fun k => baseStep F k d a h w) (d.baseStep P a h w) := (hu d.base a h w).map _

theorem combine_needs (d : PTWData σ) (r : PTWNode σ) : Between 0 1 (fun k => combine k d r) (.ok (PTWNode.combine d r)) := by
  have := (correct_needs r.data.baseLP (d.height - r.data.height - 1) r.data.lp).bind
    (g := fun rlp k => lse2 k d.baseLP (d.leftLP + rlp) >>= fun z => pure (PTWNode.inner { d with lp := log05 + z, count := d.count + 1 } r))
    (q := fun rlp => (.ok (logsumexp2 d.baseLP (d.leftLP + rlp)) : Py ℝ) >>= fun z =>
      pure (PTWNode.inner { d with lp := log05 + z, count := d.count + 1 } r))
    (fun rlp _ => (lse2_needs _ _).map _)
  exact this.weaken (by omega) (by omega)

theorem leafBody_needs (hu : UpdateNeeds F P lo hi) (d : PTWData σ) (a : α) (h : List α) (w : ℝ) :
    Between lo hi (fun k => leafBody F k d a h w) (PTWNode.leafUpdate P d a h w) := (baseStep_needs hu d a h w).map _

theorem complete_needs (d : PTWData σ) : Between 1 1 (fun k => complete k d) (.ok d.complete) := (Between.pure _).frame

theorem promotedBody_needs (hu : UpdateNeeds F P lo hi) (h1 : 1 ≤ hi) (hn : Between flo fhi new fresh) (h2 : fhi ≤ hi)
    (d : PTWData σ) (a : α) (h : List α) (w : ℝ) :
    Between (lo + 1) (hi + 1) (fun k => promotedBody F new h0 k d a h w) (PTWNode.promoted P fresh h0 d a h w) := by
  have hnew : Between 0 (hi + 1) (fun k => ptwNew new h0 k) (fresh >>= fun b => .ok (PTWData.new b h0)) :=
    ((hn.bind (g := fun b j => frame j fun _ => pure (PTWData.new b h0)) (q := fun b => .ok (PTWData.new b h0))
      (fun b _ => (Between.pure _).frame)).frame).weaken (by omega) (by omega)
  have hleaf : ∀ f : PTWData σ, Between (lo + 1) (hi + 1) (fun k => frame k fun j => complete j f >>= fun _ => leafBody F j f a h w)
      (PTWNode.leafUpdate P f a h w) := by
    intro f
    have := ((complete_needs f).bind (g := fun _ j => leafBody F j f a h w) (q := fun _ => PTWNode.leafUpdate P f a h w)
      (fun _ _ => leafBody_needs hu f a h w)).frame
    exact Between.weaken this (by omega) (by omega)
  have hb := hnew.bind
    (g := fun f k => baseStep F k { d with leftLP := d.lp, height := d.height + 1 } a h w >>= fun d1 =>
      (frame k fun j => complete j f >>= fun _ => leafBody F j f a h w) >>= fun r => combine k d1 r)
    (q := fun f => PTWData.baseStep P { d with leftLP := d.lp, height := d.height + 1 } a h w >>= fun d1 =>
      PTWNode.leafUpdate P f a h w >>= fun r => .ok (PTWNode.combine d1 r))
    (fun f _ => (baseStep_needs hu _ a h w).bind
      (g := fun d1 k => (frame k fun j => complete j f >>= fun _ => leafBody F j f a h w) >>= fun r => combine k d1 r)
      (q := fun d1 => PTWNode.leafUpdate P f a h w >>= fun r => .ok (PTWNode.combine d1 r))
      (fun d1 _ => (hleaf f).bind (g := fun r k => combine k d1 r) (q := fun r => .ok (PTWNode.combine d1 r))
        (fun r _ => combine_needs d1 r)))
  have he : ((fresh >>= fun b => (.ok (PTWData.new b h0) : Py (PTWData σ))) >>= fun f =>
      PTWData.baseStep P { d with leftLP := d.lp, height := d.height + 1 } a h w >>= fun d1 =>
      PTWNode.leafUpdate P f a h w >>= fun r => (.ok (PTWNode.combine d1 r) : Py (PTWNode σ))) = PTWNode.promoted P fresh h0 d a h w := by
    cases fresh <;> rfl
  rw [he] at hb
  refine Between.weaken (lo := max 0 (max lo (max (lo + 1) 0))) (hi := max (hi + 1) (max hi (max (hi + 1) 1))) hb ?_ ?_ <;> omega

theorem ptwUpdate_needs (hu : UpdateNeeds F P lo hi) (h1 : 1 ≤ hi) (hn : Between flo fhi new fresh) (h2 : fhi ≤ hi) (a : α) (h : List α) (w : ℝ) :
    ∀ n : PTWNode σ, Between (after n + lo) (after n + hi) (fun k => ptwUpdate F new h0 a h w k n) (n.update P fresh h0 a h w)
  | .leaf d => by
    have hb := ((complete_needs d).bind
      (g := fun c j => if c then promotedBody F new h0 j d a h w else leafBody F j d a h w)
      (q := fun c => if c then PTWNode.promoted P fresh h0 d a h w else PTWNode.leafUpdate P d a h w)
      (lo2 := if d.complete then lo + 1 else lo) (hi2 := if d.complete then hi + 1 else hi)
      (fun c hc => by
        cases hc
        cases d.complete with
        | true => exact promotedBody_needs hu h1 hn h2 d a h w
        | false => exact leafBody_needs hu d a h w)).frame
    refine Between.weaken hb ?_ ?_ <;> unfold after <;> split <;> omega
  | .inner d r => by
    have hb := ((complete_needs d).bind
      (g := fun c j => if c then promotedBody F new h0 j d a h w else baseStep F j d a h w >>= fun d1 => ptwUpdate F new h0 a h w j r >>= fun r' =>
        combine j d1 r')
      (q := fun c => if c then PTWNode.promoted P fresh h0 d a h w else d.baseStep P a h w >>= fun d1 => r.update P fresh h0 a h w >>= fun r' =>
        .ok (PTWNode.combine d1 r'))
      (lo2 := if d.complete then lo + 1 else max lo (max (after r + lo) 0)) (hi2 := if d.complete then hi + 1 else max hi (max (after r + hi) 1))
      (fun c hc => by
        cases hc
        cases d.complete with
        | true => exact promotedBody_needs hu h1 hn h2 d a h w
        | false =>
          exact (baseStep_needs hu d a h w).bind
            (g := fun d1 j => ptwUpdate F new h0 a h w j r >>= fun r' => combine j d1 r')
            (q := fun d1 => r.update P fresh h0 a h w >>= fun r' => .ok (PTWNode.combine d1 r'))
            (fun d1 _ => (ptwUpdate_needs hu h1 hn h2 a h w r).bind (g := fun r' j => combine j d1 r') (q := fun r' => .ok (PTWNode.combine d1 r'))
              (fun r' _ => combine_needs d1 r')))).frame
    have hp := after_pos r
    have e : after (.inner d r) = if d.complete then 2 else after r + 1 := rfl
    rw [e]
    generalize after r = q at *
    refine Between.weaken hb ?_ ?_ <;> split <;> omega

theorem adjusted_needs (s : PTW σ) : Between 1 1 (fun k => adjusted k s) (.ok s.adjusted) := by
  have hb := (complete_needs s.tree.data).bind
    (g := fun c k => if c then lse2 k s.tree.data.baseLP s.tree.data.lp >>= fun z => pure (s.adj + (s.tree.data.lp - (log05 + z))) else pure s.adj)
    (q := fun c => if c then .ok (s.adj + (s.tree.data.lp - (log05 + logsumexp2 s.tree.data.baseLP s.tree.data.lp))) else .ok s.adj)
    (lo2 := 0) (hi2 := 1)
    (fun c _ => by
      cases c with
      | true => exact ((lse2_needs _ _).map (fun z => s.adj + (s.tree.data.lp - (log05 + z)))).weaken (by omega) le_rfl
      | false => exact (Between.pure s.adj).weaken le_rfl (by omega))
  have he : (((.ok s.tree.data.complete : Py Bool)) >>= fun c => if c then
      (.ok (s.adj + (s.tree.data.lp - (log05 + logsumexp2 s.tree.data.baseLP s.tree.data.lp))) : Py ℝ) else .ok s.adj) = .ok s.adjusted := by
    rw [ok_bind]
    unfold PTW.adjusted
    split <;> rfl
  rw [he] at hb
  exact hb

theorem ptwBody_needs (hu : UpdateNeeds F P lo hi) (h1 : 1 ≤ hi) (hn : Between flo fhi new fresh) (h2 : fhi ≤ hi)
    (s : PTW σ) (a : α) (h : List α) (w : ℝ) :
    Between (after s.tree + lo) (after s.tree + hi) (fun k => ptwBody F new h0 k s a h w) (s.update P fresh h0 a h w) := by
  have hb := (adjusted_needs s).bind
    (g := fun adj k => ptwUpdate F new h0 a h w k s.tree >>= fun n => pure (n.data.lp + adj - s.logProb, (⟨n, n.data.lp + adj, adj⟩ : PTW σ)))
    (q := fun adj => s.tree.update P fresh h0 a h w >>= fun n => pure (n.data.lp + adj - s.logProb, (⟨n, n.data.lp + adj, adj⟩ : PTW σ)))
    (fun adj _ => (ptwUpdate_needs hu h1 hn h2 a h w s.tree).map _)
  have := after_pos s.tree
  exact Between.weaken hb (by omega) (by omega)

theorem ptw_update (hu : UpdateNeeds F P lo hi) (h1 : 1 ≤ hi) {f : σ} (hn : Between flo fhi new (.ok f)) (h2 : fhi ≤ hi)
    (s : PTW σ) (a : α) (h : List α) (w : ℝ) :
    Between (after s.tree + lo + 1) (after s.tree + hi + 1) (fun k => (ptw F new h0).update k s a h w) ((PTW.predictor P f h0).update s a h w) :=
  (ptwBody_needs hu h1 hn h2 s a h w).frame

theorem ptwFixed_update (hu : UpdateNeeds F P lo hi) (h1 : 1 ≤ hi) {f : σ} (hn : Between flo fhi new (.ok f)) (h2 : fhi ≤ hi) (height : ℕ)
    (s : PTW σ) (a : α) (h : List α) (w : ℝ) :
    Between (after s.tree + lo + 1) (after s.tree + hi + 1) (fun k => (ptwFixed F new h0 height).update k s a h w)
      ((PTWFixedLength.predictor P f h0 height).update s a h w) := by
  have hb := ((ptwUpdate_needs hu h1 hn h2 a h w s.tree (h0 := h0)).bind
    (g := fun n j => correct j n.data.baseLP (height - n.data.height) n.data.lp >>= fun lp => pure (lp - s.logProb, (⟨n, lp, s.adj⟩ : PTW σ)))
    (q := fun n => (.ok (PTWData.correct n.data.baseLP (height - n.data.height) n.data.lp) : Py ℝ) >>= fun lp =>
      pure (lp - s.logProb, (⟨n, lp, s.adj⟩ : PTW σ)))
    (fun n _ => (correct_needs _ _ _).map _)).frame
  have := after_pos s.tree
  exact Between.weaken hb (by omega) (by omega)

end ptw

end Frames

end Verif
