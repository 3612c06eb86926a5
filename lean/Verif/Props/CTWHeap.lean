import Verif.Proofs.CTWHeapSession
import Verif.Proofs.CTWHom
import Verif.Props.CTW

/-!
# C20-C22: copies of context trees, memory safety of the C code, and its agreement with the Python code
-/

namespace Verif

open Predictor

section Copies

variable {σ α : Type} {k : ℕ}

/-- **C20.** Any program that creates, copies, updates, queries and destroys context-tree models gets from shared
nodes exactly the values (and the same first exception) that it would get if every model had its own tree and
every copy were a deep copy.  The hypothesis on the base model says that predicting does not change it, as is the
case for `KT`, `KTBinary`, `SAD` and the C counts. -/
theorem C20_copies_independent (P : Predictor σ α) (hP : ∀ s a h r t, P.logPredict s a h = .ok (r, t) → t = s)
    (fresh : σ) (D : ℕ) (ops : List (HOp α k)) (hop : ∀ c, HOp.new c ∈ ops → ∀ h, (c h).length ≤ D) :
    (Session.run P fresh (D + 1) Session.start ops).1 = (Trees.run P fresh [] ops).1 ∧
    ∀ e, (Trees.run P fresh [] ops).2 = .error e →
      (Session.run P fresh (D + 1) Session.start ops).2 = .error (.py e) := by
  obtain ⟨h1, h2, _⟩ := Session.run_rel (fresh := fresh) P hP ops hop (Session.rel_start D)
  exact ⟨h1, h2⟩

/-- The estimators meet the hypothesis of `C20_copies_independent`. -/
theorem C20_base_models {β : Type} [DecidableEq β] :
    (∀ s a h r t, (KT.predictor : Predictor (KT β) β).logPredict s a h = .ok (r, t) → t = s) ∧
    (∀ s a h r t, KTBinary.predictor.logPredict s a h = .ok (r, t) → t = s) ∧
    (∀ s a h r t, (SAD.predictor : Predictor (SAD β) β).logPredict s a h = .ok (r, t) → t = s) ∧
    (∀ s a h r t, (Fast.kt k).logPredict s a h = .ok (r, t) → t = s) := by
  refine ⟨?_, ?_, ?_, ?_⟩
  · intro s a h r t hr
    simp only [KT.predictor, bind_eq_ok, pure_eq_ok, Except.ok.injEq, Prod.mk.injEq] at hr
    obtain ⟨x, -, -, rfl⟩ := hr
    rfl
  · intro s a h r t hr
    simp only [KTBinary.predictor, bind_eq_ok, pure_eq_ok, Except.ok.injEq, Prod.mk.injEq] at hr
    obtain ⟨x, -, -, rfl⟩ := hr
    rfl
  · intro s a h r t hr
    simp only [SAD.predictor, bind_eq_ok, pure_eq_ok, Except.ok.injEq, Prod.mk.injEq] at hr
    obtain ⟨x, -, -, rfl⟩ := hr
    rfl
  · intro s a h r t hr
    simp only [Fast.kt, Except.ok.injEq, Prod.mk.injEq] at hr
    exact hr.2.symm

/-- **C21 (general).** Whatever the base model, no such program accesses a node that is not allocated, decrements a
zero reference count, or recurses deeper than the depth of the tree while freeing; and whenever it has not raised an
exception of the base model, the allocated nodes are exactly those reachable from the existing models. -/
theorem C21_memory_safe (P : Predictor σ α) (hP : ∀ s a h r t, P.logPredict s a h = .ok (r, t) → t = s)
    (fresh : σ) (D : ℕ) (ops : List (HOp α k)) (hop : ∀ c, HOp.new c ∈ ops → ∀ h, (c h).length ≤ D) :
    match (Session.run P fresh (D + 1) Session.start ops).2 with
    | .error e => ∃ e', e = .py e'
    | .ok S => (∀ a, S.heap.mem a ≠ none ↔ S.Reachable a) ∧
        ((∀ o ∈ S.models, o = none) → ∀ a, S.heap.mem a = none) := by
  obtain ⟨_, h2, h3⟩ := Session.run_rel (fresh := fresh) P hP ops hop (Session.rel_start D)
  cases hT : (Trees.run P fresh ([] : Trees σ α k) ops).2 with
  | error e =>
    rw [h2 e hT]
    exact ⟨e, rfl⟩
  | ok vs =>
    obtain ⟨S, rk, hS, hR⟩ := h3 vs hT
    rw [hS]
    have hreach : ∀ a n, S.heap.mem a = some n → S.Reachable a := by
      intro a n ha
      have := hR.inv.reach ha
      clear ha
      induction this with
      | root h => exact .root h
      | step h1 h2 ih =>
        rename_i a b c
        simp only [Heap.slot] at h2
        cases hm : S.heap.mem a with
        | none => simp [hm] at h2
        | some m =>
          simp only [hm] at h2
          exact .child ih hm h2
    have hback : ∀ a, S.Reachable a → ∃ n, S.heap.mem a = some n := by
      intro a ha
      induction ha with
      | root h => exact hR.inv.hand _ h
      | child _ h2 h3 _ => exact (hR.inv.edge _ _ _ _ h2 h3).1
    have hiff : ∀ a, S.heap.mem a ≠ none ↔ S.Reachable a := by
      intro a
      constructor
      · intro h
        obtain ⟨n, hn⟩ := Option.ne_none_iff_exists'.mp h
        exact hreach a n hn
      · intro h
        obtain ⟨n, hn⟩ := hback a h
        simp [hn]
    refine ⟨hiff, ?_⟩
    intro hno a
    by_contra hne
    have hr := (hiff a).mp hne
    have hroots : S.roots = [] := by
      simp only [Session.roots, List.filterMap_eq_nil_iff]
      intro o ho
      rw [hno o ho]
      rfl
    clear hne
    induction hr with
    | root h => rw [hroots] at h; simp at h
    | child _ _ _ ih => exact ih

end Copies

section C

variable {α : Type} {k : ℕ}

/-- Over a base model that never raises, a tree never raises. -/
private theorem ctw_total {σ κ : Type} [DecidableEq κ] {P : Predictor σ α} {fresh : σ}
    (hu : ∀ s a h w, ∃ r t, P.update s a h w = .ok (r, t))
    (hp : ∀ s a h, ∃ r t, P.logPredict s a h = .ok (r, t)) (a : α) (h : List α) (w : ℝ) (cs : List κ) :
    ∀ n : CTWNode σ κ, (∃ r t, n.update P fresh a h w cs = .ok (r, t)) ∧
      ∃ r t, n.logPredict P fresh a h cs = .ok (r, t) := by
  induction cs with
  | nil =>
    intro n
    obtain ⟨r, t, h1⟩ := hu n.base a h w
    obtain ⟨r', t', h2⟩ := hp n.base a h
    constructor
    · simp only [CTWNode.update, h1, ok_bind, pure_eq_ok]
      exact ⟨_, _, rfl⟩
    · simp only [CTWNode.logPredict, h2, ok_bind, pure_eq_ok]
      exact ⟨_, _, rfl⟩
  | cons c cs ih =>
    intro n
    obtain ⟨r, t, h1⟩ := hu n.base a h w
    obtain ⟨r', t', h2⟩ := hp n.base a h
    obtain ⟨⟨x, y, h3⟩, x', y', h4⟩ := ih ((n.children c).getD (CTWNode.new fresh))
    constructor
    · simp only [CTWNode.update, h1, h3, ok_bind, pure_eq_ok]
      exact ⟨_, _, rfl⟩
    · simp only [CTWNode.logPredict, h2, h4, ok_bind, pure_eq_ok]
      exact ⟨_, _, rfl⟩

private theorem trees_total {σ : Type} {P : Predictor σ α} {fresh : σ}
    (hu : ∀ s a h w, ∃ r t, P.update s a h w = .ok (r, t))
    (hp : ∀ s a h, ∃ r t, P.logPredict s a h = .ok (r, t)) (ops : List (HOp α k)) :
    ∀ vs : Trees σ α k, ∃ vs', (Trees.run P fresh vs ops).2 = .ok vs' := by
  induction ops with
  | nil => exact fun vs => ⟨vs, rfl⟩
  | cons op ops ih =>
    intro vs
    have : ∃ o vs', Trees.step P fresh vs op = .ok (o, vs') := by
      cases op with
      | new c => exact ⟨_, _, rfl⟩
      | copy i =>
        simp only [Trees.step]
        split <;> exact ⟨_, _, rfl⟩
      | update i a h w =>
        simp only [Trees.step]
        split
        · rename_i ctx T _
          obtain ⟨r, t, h1⟩ := (ctw_total (fresh := fresh) hu hp a h w (ctx h).reverse T).1
          simp only [CTW.predictor, h1, ok_bind, pure_eq_ok]
          exact ⟨_, _, rfl⟩
        · exact ⟨_, _, rfl⟩
      | predict i a h =>
        simp only [Trees.step]
        split
        · rename_i ctx T _
          obtain ⟨r, t, h1⟩ := (ctw_total (fresh := fresh) hu hp a h 1 (ctx h).reverse T).2
          simp only [CTW.predictor, h1, ok_bind, pure_eq_ok]
          exact ⟨_, _, rfl⟩
        · exact ⟨_, _, rfl⟩
      | destroy i =>
        simp only [Trees.step]
        split <;> exact ⟨_, _, rfl⟩
    obtain ⟨o, vs', h1⟩ := this
    obtain ⟨vs'', h2⟩ := ih vs'
    exact ⟨vs'', by simp only [Trees.run, h1, h2]⟩

/-- **C21 (C code).** With the C counts as base model, every program over models of any depths up to `D` runs to its
end, and in the end (hence at every point, programs being arbitrary) the allocated nodes are exactly those reachable
from existing models; so once all models are destroyed nothing is allocated. -/
theorem C21_C_code_safe (k D : ℕ) [NeZero k] (ops : List (HOp (Fin k) k))
    (hop : ∀ c, HOp.new c ∈ ops → ∃ depth ≤ D, c = Fast.ctx depth) :
    ∃ S, (Session.run (Fast.kt k) (Fast.fresh k) (D + 1) Session.start ops).2 = .ok S ∧
      (∀ a, S.heap.mem a ≠ none ↔ S.Reachable a) ∧
      ((∀ o ∈ S.models, o = none) → ∀ a, S.heap.mem a = none) := by
  have hlen : ∀ c, HOp.new c ∈ ops → ∀ h, (c h).length ≤ D := by
    intro c hc h
    obtain ⟨d, hd, rfl⟩ := hop c hc
    simp only [Fast.ctx, List.length_take]
    omega
  have hP := (C20_base_models (k := k) (β := Bool)).2.2.2
  have hs := C21_memory_safe (Fast.kt k) hP (Fast.fresh k) D ops hlen
  obtain ⟨_, _, h3⟩ := Session.run_rel (fresh := Fast.fresh k) (Fast.kt k) hP ops hlen (Session.rel_start D)
  obtain ⟨vs, hvs⟩ := trees_total (P := Fast.kt k) (fresh := Fast.fresh k) (fun s a h w => ⟨_, _, rfl⟩)
    (fun s a h => ⟨_, _, rfl⟩) ops ([] : Trees (Fin k → ℝ) (Fin k) k)
  obtain ⟨S, _, hS, _⟩ := h3 vs hvs
  rw [hS] at hs
  exact ⟨S, hS, hs⟩

/-- A program that shares nodes, meeting the hypotheses of the theorems above: build a model, copy it, update the
original and the copy of the copy, destroy in another order. -/
example : let ops : List (HOp (Fin 2) 2) :=
      [.new (Fast.ctx 3), .update 0 1 [] 1, .copy 0, .predict 1 0 [1], .copy 1, .update 0 0 [1] 1,
        .update 2 1 [1] 2, .destroy 0, .predict 1 1 [1], .destroy 2, .destroy 1]
    ∀ c, HOp.new c ∈ ops → ∃ depth ≤ 3, c = Fast.ctx depth := by
  intro ops c hc
  simp only [ops, List.mem_cons, HOp.new.injEq, reduceCtorEq, List.not_mem_nil, or_false] at hc
  exact ⟨3, le_refl 3, hc⟩

/-- Sharing really happens: after `copy` the child of the original has reference count 2. -/
example : ∃ S n m, (Session.run (Fast.kt 2) (Fast.fresh 2) 2 Session.start
      [.new (Fast.ctx 1), .predict 0 0 [], .copy 0]).2 = .ok S ∧
    S.heap.mem 0 = some n ∧ n.children 0 = some 1 ∧ S.heap.mem 1 = some m ∧ m.rc = 2 := by
  simp [Session.run, Session.step, Session.start, Heap.alloc, Heap.empty, Heap.newNode, Heap.logPredict, Heap.get,
    Heap.set, Fast.kt, Fast.ctx, CTW.mkcontext, pyTail, Heap.peekChild, Heap.copyNode, Heap.incChildren, liftPy,
    List.finRange_succ, Function.update_apply]

/-- **C22.** For depth at least 1 and non-negative weights, `modelfast.CTW_KT(depth)` and `model.CTW_KT(depth)` return
the same values for every sequence of calls (`0` and `1` on the left are `false` and `true` on the right). -/
theorem C22_fast_eq_python (depth : ℕ) (hd : 1 ≤ depth) (cs : List (Call (Fin 2)))
    (hw : ∀ a h w, Call.update a h w ∈ cs → 0 ≤ w) :
    (Fast.predictor 2 depth).outputs (CTW.init (Fast.fresh 2)) cs =
      (KNode.predictor depth).outputs KNode.new (cs.map (Call.map finTwoEquiv)) := by
  rw [C19_CTW_KT_eq_CTW]
  refine (CTWNode.hom (f := Fast.bit) Fast.hom_bin Fast.fresh_bin ?_).outputs_eq (CTWNode.tcorr_new Fast.fresh_bin)
    cs ?_
  · intro h
    rw [Fast.ctx_eq hd, ← Fast.bit_zero, Fast.map_mkcontext]
  · intro c hc
    cases c with
    | update a h w => exact hw a h w hc
    | predict a h => trivial

/-- **C22 (larger alphabets).** `modelfast.CTW_KT(depth, k)` agrees with `CTW` over `KT(range(k))` with the same
context function. -/
theorem C22_fast_eq_python_alphabet (k depth : ℕ) [NeZero k] (hd : 1 ≤ depth) (t : KT (Fin k))
    (ht : KT.init (List.finRange k) none = .ok t) (cs : List (Call (Fin k)))
    (hw : ∀ a h w, Call.update a h w ∈ cs → 0 ≤ w) :
    (Fast.predictor k depth).outputs (CTW.init (Fast.fresh k)) cs =
      (CTW.predictor KT.predictor t (CTW.mkcontext depth 0)).outputs (CTW.init t) cs := by
  have hmap : cs.map (Call.map (id : Fin k → Fin k)) = cs := by
    have : (Call.map id : Call (Fin k) → Call (Fin k)) = id := by
      funext c
      cases c <;> simp [Call.map]
    rw [this, List.map_id]
  have h := (CTWNode.hom (f := Equiv.refl (Fin k)) (ctx := Fast.ctx depth) (ctx' := CTW.mkcontext depth 0)
    (Fast.hom_kt k) (Fast.fresh_kt k t ht) ?_).outputs_eq (CTWNode.tcorr_new (Fast.fresh_kt k t ht)) cs ?_
  · rw [hmap] at h
    exact h
  · intro h
    rw [Fast.ctx_eq hd]
    simp
  · intro c hc
    cases c with
    | update a h w => exact hw a h w hc
    | predict a h => trivial

/-- The hypothesis of `C22_fast_eq_python_alphabet` is met: `KT(range(k))` can be built. -/
example : ∃ t, KT.init (List.finRange 3) none = .ok t :=
  ⟨_, KT.init_default (List.nodup_finRange 3) (by decide)⟩

/-- **C22 (depth 0).** At depth 0 the two disagree: after one update with `0`, the C code predicts `0` with
probability 3/4 and the Python code with probability 7/8. -/
theorem C22_depth_zero_disagree :
    (Fast.predictor 2 0).outputs (CTW.init (Fast.fresh 2)) [.update 0 [] 1, .predict 0 [0]] =
      [.ok (Real.log (1/2)), .ok (Real.log (3/4))] ∧
    (KNode.predictor 0).outputs KNode.new [.update false [] 1, .predict false [false]] =
      [.ok (Real.log (1/2)), .ok (Real.log (7/8))] := by
  constructor
  · have hc : ∀ h, Fast.ctx (k := 2) 0 h = [] := fun h => by simp [Fast.ctx]
    have h1 : Fast.logRatio (Fast.fresh 2) 0 = Real.log (1/2) := by
      norm_num [Fast.logRatio, Fast.fresh, List.finRange_succ]
    have h2 : Fast.logRatio (Function.update (Fast.fresh 2) 0 (Fast.fresh 2 0 + 1)) 0 = Real.log (3/4) := by
      norm_num [Fast.logRatio, Fast.fresh, List.finRange_succ]
    simp only [outputs, step, Fast.predictor, CTW.predictor, hc, List.reverse_nil, CTWNode.update, CTW.init,
      CTWNode.new, CTWNode.base_mk, Fast.kt, h1, ok_bind, pure_eq_ok, CTWNode.baseLP_mk, CTWNode.lp_mk,
      CTWNode.logPredict, h2]
    simp
  · rw [C19_CTW_KT_eq_CTW]
    have hu : KTBinary.predictor.update (KTBinary.init none) false [] 1 =
        .ok (Real.log (1/2), ⟨3/2, 1/2⟩) := by
      norm_num [KTBinary.predictor, KTBinary.update, KTBinary.logPredict, KTBinary.init, KTBinary.get, pyDiv, pyLog,
        KTBinary.bump]
    have hp0 : KTBinary.predictor.logPredict (KTBinary.init none) false [false] =
        .ok (Real.log (1/2), KTBinary.init none) := by
      norm_num [KTBinary.predictor, KTBinary.logPredict, KTBinary.init, KTBinary.get, pyDiv, pyLog]
    have hpf : KTBinary.predictor.logPredict ⟨3/2, 1/2⟩ false [false] = .ok (Real.log (3/4), ⟨3/2, 1/2⟩) := by
      norm_num [KTBinary.predictor, KTBinary.logPredict, KTBinary.get, pyDiv, pyLog]
    simp only [outputs, step, CTW.predictor, C18_depth_zero_context, List.reverse_nil, List.reverse_cons,
      List.nil_append, CTWNode.update, CTW.init, CTWNode.new, CTWNode.base_mk, hu, ok_bind, pure_eq_ok,
      CTWNode.baseLP_mk, CTWNode.lp_mk, CTWNode.logPredict, CTWNode.children_mk, Option.getD_none, hp0, hpf,
      CTWNode.childrenLP_mk]
    refine congrArg₂ List.cons (by simp) (congrArg₂ List.cons (congrArg Except.ok ?_) rfl)
    apply Real.exp_injective
    rw [Real.exp_sub, exp_half_lse2]
    simp only [Real.exp_add, Real.exp_sub, Real.exp_zero]
    rw [Real.exp_log (by norm_num), Real.exp_log (by norm_num), Real.exp_log (by norm_num)]
    norm_num

end C

end Verif
