import Verif.Proofs.CTWHeapWrapSession
import Verif.Props.CTWHeap

/-!
# C141: the reference counts of the C code

Nodes shared between copies are counted by an `unsigned int`.  The count of a node never exceeds the number of models
that exist, so it cannot wrap while fewer than `2 ^ 32` models exist; with `2 ^ 32` models it wraps, and copies are
then no longer independent.
-/

namespace Verif

open Predictor Heap

section General

variable {σ α : Type} {k : ℕ}

/-- **C141 (counts).** In any program, the reference count of every node is at most the number of models that
exist. -/
theorem C141_count_le_models (P : Predictor σ α) (hP : ∀ s a h r t, P.logPredict s a h = .ok (r, t) → t = s)
    (fresh : σ) (D : ℕ) (ops : List (HOp α k)) (hop : ∀ c, HOp.new c ∈ ops → ∀ h, (c h).length ≤ D)
    (S : Session σ α k) (hS : (Session.run P fresh (D + 1) Session.start ops).2 = .ok S) (a : ℕ) (n : HNode σ k)
    (ha : S.heap.mem a = some n) : n.rc ≤ S.models.countP (fun o => o.isSome) := by
  obtain ⟨_, h2, h3⟩ := Session.run_rel (fresh := fresh) P hP ops hop (Session.rel_start D)
  cases hT : (Trees.run P fresh ([] : Trees σ α k) ops).2 with
  | error e =>
    rw [h2 e hT] at hS
    cases hS
  | ok vs =>
    obtain ⟨S', rk, hS', hR⟩ := h3 vs hT
    rw [hS, Except.ok.injEq] at hS'
    subst hS'
    obtain ⟨path, hp⟩ := Session.run_placed P hP ops hop (Session.rel_start (fresh := fresh) D) Session.placed_start S hS
    refine le_trans (hp.bound hR.inv ha) (le_of_eq ?_)
    unfold Session.roots
    generalize S.models = l
    induction l with
    | nil => rfl
    | cons o l ih => cases o <;> simp [ih]

/-- **C141 (no wrapping).** A program in which fewer than `M` models exist at any time behaves, with counts of `M`
values, exactly as with unlimited counts. -/
theorem C141_no_wrap (M : ℕ) (P : Predictor σ α) (hP : ∀ s a h r t, P.logPredict s a h = .ok (r, t) → t = s)
    (fresh : σ) (D : ℕ) (ops : List (HOp α k)) (hop : ∀ c, HOp.new c ∈ ops → ∀ h, (c h).length ≤ D)
    (hM : Trees.Fewer M P fresh ops) :
    Session.wrun M P fresh (D + 1) Session.start ops = Session.run P fresh (D + 1) Session.start ops :=
  Session.wrun_eq P hP ops hop (Session.rel_start D) Session.placed_start hM

/-- **C141 (C code).** While fewer than `2 ^ 32` models exist, programs that use `modelfast` get the values that
they would get if every model had its own tree, never touch memory that is not allocated, and leave nothing
allocated when all models are gone. -/
theorem C141_C_code (k D : ℕ) [NeZero k] (ops : List (HOp (Fin k) k))
    (hop : ∀ c, HOp.new c ∈ ops → ∃ depth ≤ D, c = Fast.ctx depth)
    (hM : Trees.Fewer (2 ^ 32) (Fast.kt k) (Fast.fresh k) ops) :
    (Session.wrun (2 ^ 32) (Fast.kt k) (Fast.fresh k) (D + 1) Session.start ops).1
      = (Trees.run (Fast.kt k) (Fast.fresh k) [] ops).1 ∧
    ∃ S, (Session.wrun (2 ^ 32) (Fast.kt k) (Fast.fresh k) (D + 1) Session.start ops).2 = .ok S ∧
      (∀ a, S.heap.mem a ≠ none ↔ S.Reachable a) ∧
      ((∀ o ∈ S.models, o = none) → ∀ a, S.heap.mem a = none) := by
  have hlen : ∀ c, HOp.new c ∈ ops → ∀ h, (c h).length ≤ D := by
    intro c hc h
    obtain ⟨d, hd, rfl⟩ := hop c hc
    simp only [Fast.ctx, List.length_take]
    omega
  have hP := (C20_base_models (k := k) (β := Bool)).2.2.2
  rw [C141_no_wrap (2 ^ 32) _ hP _ D ops hlen hM]
  exact ⟨(C20_copies_independent _ hP _ D ops hlen).1, C21_C_code_safe k D ops hop⟩

/-- The number of models grows only by creating and copying. -/
theorem Trees.live_le (P : Predictor σ α) (fresh : σ) (ops : List (HOp α k)) (vs vs' : Trees σ α k)
    (h : (Trees.run P fresh vs ops).2 = .ok vs') :
    vs'.live ≤ vs.live + ops.countP HOp.adds := by
  have hset : ∀ (vs : Trees σ α k) (i : ℕ) p o, vs[i]? = some (some p) → Trees.live (vs.set i o) ≤ vs.live := by
    intro vs i p o hi
    induction vs generalizing i with
    | nil => simp at hi
    | cons q vs ih =>
      cases i with
      | zero =>
        rw [List.getElem?_cons_zero, Option.some.injEq] at hi
        subst hi
        cases o <;> simp [Trees.live, List.countP_cons]
      | succ i =>
        rw [List.getElem?_cons_succ] at hi
        have := ih i hi
        simp only [Trees.live, List.set_cons_succ, List.countP_cons] at this ⊢
        omega
  induction ops generalizing vs with
  | nil =>
    simp only [Trees.run, Except.ok.injEq] at h
    subst h
    simp
  | cons op ops ih =>
    simp only [Trees.run] at h
    cases hs : Trees.step P fresh vs op with
    | error e => simp [hs] at h
    | ok q =>
      obtain ⟨o, vs1⟩ := q
      simp only [hs] at h
      have h1 := ih vs1 h
      refine le_trans h1 ?_
      rw [List.countP_cons]
      have : vs1.live ≤ vs.live + (if op.adds = true then 1 else 0) := by
        cases op with
        | new c =>
          simp only [Trees.step, Except.ok.injEq, Prod.mk.injEq] at hs
          obtain ⟨-, rfl⟩ := hs
          simp [Trees.live, List.countP_append, HOp.adds]
        | copy i =>
          simp only [Trees.step] at hs
          split at hs <;> simp only [Except.ok.injEq, Prod.mk.injEq] at hs <;> obtain ⟨-, rfl⟩ := hs
          · simp [Trees.live, List.countP_append, HOp.adds]
          · simp
        | update i a h w =>
          simp only [Trees.step] at hs
          split at hs
          · rename_i hi
            simp only [bind_eq_ok, Prod.exists, pure_eq_ok, Except.ok.injEq, Prod.mk.injEq] at hs
            obtain ⟨_, _, _, -, rfl⟩ := hs
            exact hset _ _ _ _ hi
          · simp only [Except.ok.injEq, Prod.mk.injEq] at hs
            obtain ⟨-, rfl⟩ := hs
            exact le_rfl
        | predict i a h =>
          simp only [Trees.step] at hs
          split at hs
          · rename_i hi
            simp only [bind_eq_ok, Prod.exists, pure_eq_ok, Except.ok.injEq, Prod.mk.injEq] at hs
            obtain ⟨_, _, _, -, rfl⟩ := hs
            exact hset _ _ _ _ hi
          · simp only [Except.ok.injEq, Prod.mk.injEq] at hs
            obtain ⟨-, rfl⟩ := hs
            exact le_rfl
        | destroy i =>
          simp only [Trees.step] at hs
          split at hs
          · rename_i hi
            simp only [Except.ok.injEq, Prod.mk.injEq] at hs
            obtain ⟨-, rfl⟩ := hs
            exact hset _ _ _ _ hi
          · simp only [Except.ok.injEq, Prod.mk.injEq] at hs
            obtain ⟨-, rfl⟩ := hs
            exact le_rfl
      omega

/-- A program that creates and copies fewer than `M` times meets the hypothesis of `C141_no_wrap`. -/
theorem C141_few_models (M : ℕ) (P : Predictor σ α) (fresh : σ) (ops : List (HOp α k))
    (h : ops.countP HOp.adds < M) :
    Trees.Fewer M P fresh ops := by
  intro ops1 vs hpre hr
  have h1 := Trees.live_le P fresh ops1 [] vs hr
  have h2 := hpre.sublist.countP_le (p := HOp.adds)
  have h3 : Trees.live ([] : Trees σ α k) = 0 := rfl
  omega

/-- A program that shares and frees nodes, within the limit. -/
example : Trees.Fewer (2 ^ 32) (Fast.kt 2) (Fast.fresh 2) [.new (Fast.ctx 3), .update 0 1 [] 1, .copy 0,
    .update 1 0 [1] 1, .destroy 0, .predict 1 1 [1, 0]] :=
  C141_few_models _ _ _ _ (by simp [List.countP_cons, HOp.adds])

end General

section Wrapping

/-- The roots of the models below: nothing has been seen, and the child for symbol `0` is the node at address `1`. -/
noncomputable def wrapRoot : HNode (Fin 2 → ℝ) 2 :=
  ⟨Fast.fresh 2, 0, 0, 0, Function.update (fun _ => none) 0 (some 1), 1⟩

/-- A model of depth 1 that has been asked for a prediction, and `j` copies of it. -/
noncomputable def wrapState (M j : ℕ) : Session (Fin 2 → ℝ) (Fin 2) 2 :=
  ⟨⟨fun a => if a = 1 then some { (newNode (Fast.fresh 2) : HNode (Fin 2 → ℝ) 2) with rc := (1 + j) % M }
      else if a < j + 2 then some wrapRoot else none, j + 2⟩,
    some (Fast.ctx 1, 0) :: (List.range j).map (fun i => some (Fast.ctx 1, i + 2))⟩

private theorem fresh_ratio (a : Fin 2) : Fast.logRatio (Fast.fresh 2) a = Real.log (1 / 2) := by
  simp only [Fast.logRatio, Fast.fresh, List.finRange_succ, List.finRange_zero, List.map_cons, List.map_nil,
    List.sum_cons, List.sum_nil]
  norm_num

private theorem wrap_start (M : ℕ) (hM : 2 ≤ M) : Session.wrun M (Fast.kt 2) (Fast.fresh 2) 2 Session.start
    [.new (Fast.ctx 1), .predict 0 1 []] = ([none, some (Real.log (1 / 2))], .ok (wrapState M 0)) := by
  have h1 : Session.wstep M (Fast.kt 2) (Fast.fresh 2) 2 Session.start (.new (Fast.ctx 1)) = .ok (none,
      ⟨Heap.empty.alloc (newNode (Fast.fresh 2)), [some (Fast.ctx 1, 0)]⟩) := rfl
  have hctx : (Fast.ctx 1 ([] : List (Fin 2))).reverse = [0] := by
    simp [Fast.ctx, CTW.mkcontext, pyTail]
  have h2 : Session.wstep M (Fast.kt 2) (Fast.fresh 2) 2
      ⟨Heap.empty.alloc (newNode (Fast.fresh 2)), [some (Fast.ctx 1, 0)]⟩ (.predict 0 1 []) =
      .ok (some (Real.log (1 / 2)), wrapState M 0) := by
    simp only [Session.wstep, List.getElem?_cons_zero, hctx]
    simp only [Heap.logPredict, Heap.get, Heap.set, Heap.alloc, Heap.empty, Heap.newNode, Fast.kt, liftPy,
      Heap.peekChild, ok_bind, pure_eq_ok, Function.update_self, fresh_ratio, zero_add, sub_zero]
    simp [logsumexp2_self, fresh_ratio, wrapState, wrapRoot]
    funext a
    have h1 : 1 % M = 1 := Nat.mod_eq_of_lt hM
    rcases Nat.lt_trichotomy a 1 with ha | ha | ha
    · have : a = 0 := by omega
      subst this
      simp
    · subst ha
      simp [newNode, h1]
    · rw [Function.update_of_ne (by omega), Function.update_of_ne (by omega), Function.update_of_ne (by omega),
        Function.update_of_ne (by omega), if_neg (by omega), if_neg (by omega)]
  simp only [Session.wrun, h1, h2]

private theorem wrap_copy (M j : ℕ) : Session.wstep M (Fast.kt 2) (Fast.fresh 2) 2 (wrapState M j) (.copy 0)
    = .ok (none, wrapState M (j + 1)) := by
  have hg : (wrapState M j).heap.get 0 = .ok wrapRoot := by simp [wrapState, Heap.get]
  have hi : WHeap.incChildren M wrapRoot (List.finRange 2) ((wrapState M j).heap.alloc { wrapRoot with rc := 1 }) =
      .ok (wrapState M (j + 1)).heap := by
    have h1 : ((wrapState M j).heap.alloc { wrapRoot with rc := 1 }).get 1 =
        .ok { (newNode (Fast.fresh 2) : HNode (Fin 2 → ℝ) 2) with rc := (1 + j) % M } := by
      simp only [Heap.get, Heap.alloc, wrapState]
      rw [Function.update_of_ne (by omega)]
      simp
    have h2 : wrapRoot.children 0 = some 1 := by simp [wrapRoot]
    have h3 : wrapRoot.children 1 = none := by simp [wrapRoot]
    simp only [List.finRange_succ, List.finRange_zero, List.map_nil, List.map_cons, WHeap.incChildren, h2,
      Fin.succ_zero_eq_one, h3, h1, ok_bind, pure_eq_ok]
    congr 1
    simp only [wrapState, Heap.set, Heap.alloc, WHeap.succ]
    congr 1
    funext a
    by_cases ha : a = 1
    · subst ha
      simp [Nat.add_assoc]
    · rw [Function.update_of_ne ha, if_neg ha]
      by_cases hb : a = j + 2
      · subst hb
        rw [Function.update_self, if_pos (by omega)]
        rfl
      · rw [Function.update_of_ne hb, if_neg ha]
        by_cases hc : a < j + 2
        · rw [if_pos hc, if_pos (by omega)]
        · rw [if_neg hc, if_neg (by omega)]
  simp only [Session.wstep, WHeap.copyNode, hg, ok_bind]
  have hm : (wrapState M j).models[0]? = some (some (Fast.ctx 1, 0)) := rfl
  simp only [hm, hg, ok_bind, hi, pure_eq_ok]
  congr 2
  simp [wrapState, List.range_succ]

private theorem wrap_copies (M j i : ℕ) : Session.wrun M (Fast.kt 2) (Fast.fresh 2) 2 (wrapState M i)
    (List.replicate j (.copy 0)) = (List.replicate j none, .ok (wrapState M (i + j))) := by
  induction j generalizing i with
  | zero => rfl
  | succ j ih =>
    rw [List.replicate_succ]
    simp only [Session.wrun, wrap_copy, ih]
    rw [List.replicate_succ, show i + 1 + j = i + (j + 1) by omega]

private theorem wrun_append {σ α : Type} {k : ℕ} (M : ℕ) (P : Predictor σ α) (fresh : σ) (f : ℕ)
    (S S' : Session σ α k) (ops1 ops2 : List (HOp α k)) (l : List (Option ℝ))
    (h : Session.wrun M P fresh f S ops1 = (l, .ok S')) :
    Session.wrun M P fresh f S (ops1 ++ ops2) =
      (l ++ (Session.wrun M P fresh f S' ops2).1, (Session.wrun M P fresh f S' ops2).2) := by
  induction ops1 generalizing S l with
  | nil =>
    simp only [Session.wrun, Prod.mk.injEq, Except.ok.injEq] at h
    obtain ⟨rfl, rfl⟩ := h
    rfl
  | cons op ops1 ih =>
    simp only [Session.wrun, List.cons_append] at h ⊢
    cases hs : Session.wstep M P fresh f S op with
    | error e => simp [hs] at h
    | ok q =>
      obtain ⟨o, S1⟩ := q
      simp only [hs, Prod.mk.injEq] at h ⊢
      obtain ⟨rfl, h2⟩ := h
      rw [ih S1 _ (Prod.ext rfl h2)]
      exact ⟨rfl, rfl⟩

/-- The program up to the copies. -/
private theorem wrap_prefix (M j : ℕ) (hM : 2 ≤ M) (ops : List (HOp (Fin 2) 2)) :
    Session.wrun M (Fast.kt 2) (Fast.fresh 2) 2 Session.start
      ([.new (Fast.ctx 1), .predict 0 1 []] ++ List.replicate j (.copy 0) ++ ops) =
    ([none, some (Real.log (1 / 2))] ++ List.replicate j none ++
      (Session.wrun M (Fast.kt 2) (Fast.fresh 2) 2 (wrapState M j) ops).1,
      (Session.wrun M (Fast.kt 2) (Fast.fresh 2) 2 (wrapState M j) ops).2) := by
  have h := wrun_append M _ _ 2 _ _ _ (List.replicate j (.copy 0)) _ (wrap_start M hM)
  rw [wrap_copies M j 0, zero_add] at h
  rw [wrun_append M _ _ 2 _ _ _ ops _ h]

/-- The trees that the program would have without sharing. -/
private theorem trees_copies (P : Predictor (Fin 2 → ℝ) (Fin 2)) (fresh : Fin 2 → ℝ) (p) (j i : ℕ)
    (ops : List (HOp (Fin 2) 2)) :
    Trees.run P fresh (List.replicate (i + 1) (some p)) (List.replicate j (.copy 0) ++ ops) =
    (List.replicate j none ++ (Trees.run P fresh (List.replicate (i + j + 1) (some p)) ops).1,
      (Trees.run P fresh (List.replicate (i + j + 1) (some p)) ops).2) := by
  induction j generalizing i with
  | zero => rfl
  | succ j ih =>
    have h1 : Trees.step P fresh (List.replicate (i + 1) (some p)) (.copy 0) =
        .ok (none, List.replicate (i + 1 + 1) (some p)) := by
      have h0 : (List.replicate (i + 1) (some p))[0]? = some (some p) := by simp
      simp only [Trees.step, h0]
      rw [List.replicate_succ' (n := i + 1)]
    rw [List.replicate_succ (n := j) (a := HOp.copy 0), List.cons_append]
    simp only [Trees.run, h1]
    rw [ih (i + 1), List.replicate_succ (n := j) (a := none), show i + 1 + j + 1 = i + (j + 1) + 1 by omega]
    rfl

private theorem ctx_one : (Fast.ctx 1 ([] : List (Fin 2))).reverse = [0] := by
  simp [Fast.ctx, CTW.mkcontext, pyTail]

/-- Updating the model at address `0` when the count of the shared child has wrapped to `0`. -/
private theorem wrap_update (M : ℕ) (H : Heap (Fin 2 → ℝ) 2) (h0 : H.mem 0 = some wrapRoot)
    (h1 : H.mem 1 = some { (newNode (Fast.fresh 2) : HNode (Fin 2 → ℝ) 2) with rc := 0 })
    (h2 : H.mem 2 = some wrapRoot) : ∃ H', WHeap.update M (Fast.kt 2) (Fast.fresh 2) 1 [] 1 [0] 0 H =
      .ok (Real.log (1 / 2), H') ∧ H'.mem 2 = some wrapRoot ∧ H'.mem 1 =
        some ⟨Function.update (Fast.fresh 2) 1 (3 / 2), Real.log (1 / 2), 0, Real.log (1 / 2), fun _ => none, 0⟩ := by
  have hf : Fast.fresh 2 1 + 1 = 3 / 2 := by
    simp only [Fast.fresh]
    norm_num
  have hr : Real.log (1 / 2) = -Real.log 2 := by rw [one_div, Real.log_inv]
  simp [WHeap.update, WHeap.ownChild, Heap.get, h0, h1, h2, Heap.set, wrapRoot, liftPy, Fast.kt, newNode, fresh_ratio,
    logsumexp2_self, hr, hf]

/-- The value that the copy at address `2` then returns. -/
private theorem wrap_predict (H : Heap (Fin 2 → ℝ) 2) (h2 : H.mem 2 = some wrapRoot) (h1 : H.mem 1 =
    some ⟨Function.update (Fast.fresh 2) 1 (3 / 2), Real.log (1 / 2), 0, Real.log (1 / 2), fun _ => none, 0⟩) :
    ∃ H', H.logPredict (Fast.kt 2) (Fast.fresh 2) 1 [] [0] 2 = .ok (Real.log (5 / 8), H') := by
  have hr : Fast.logRatio (Function.update (Fast.fresh 2) 1 (3 / 2)) 1 = Real.log (3 / 4) := by
    simp [Fast.logRatio, Fast.fresh, List.finRange_succ, Function.update]
    norm_num
  have hmix : log05 + logsumexp2 (Real.log (1 / 2)) (Real.log (3 / 4)) = Real.log (5 / 8) := by
    rw [logsumexp2_eq, Real.exp_log (by norm_num), Real.exp_log (by norm_num), log05,
      ← Real.log_mul (by norm_num) (by norm_num)]
    norm_num
  have he : Real.log (1 / 2) = -Real.log 2 := by rw [one_div, Real.log_inv]
  rw [he] at h1 hmix
  simp [Heap.logPredict, Heap.peekChild, Heap.get, h1, h2, Heap.set, wrapRoot, liftPy, Fast.kt, fresh_ratio, hr, hmix,
    he]

/-- The program: a model of depth 1, a prediction, `j` copies, then `ops`. -/
def wrapProgram (j : ℕ) (ops : List (HOp (Fin 2) 2)) : List (HOp (Fin 2) 2) :=
  [.new (Fast.ctx 1), .predict 0 1 []] ++ List.replicate j (.copy 0) ++ ops

/-- **C141 (violation).** Whatever the size of the counts: with `M` models (and never more) the count of a shared node
reaches `0`, the node is no longer copied before an update, and a symbol shown to the original changes the prediction
of its copy, from `1 / 2` to `5 / 8`. -/
theorem C141_wrapped_count_mixes (M : ℕ) (hM : 2 ≤ M) :
    let ops := wrapProgram (M - 1) [.update 0 1 [] 1, .predict 1 1 []]
    Trees.Fewer (M + 1) (Fast.kt 2) (Fast.fresh 2) ops ∧
    (Trees.run (Fast.kt 2) (Fast.fresh 2) [] ops).1.getLast? = some (some (Real.log (1 / 2))) ∧
    (Session.wrun M (Fast.kt 2) (Fast.fresh 2) 2 Session.start ops).1.getLast? = some (some (Real.log (5 / 8))) := by
  refine ⟨C141_few_models _ _ _ _ ?_, ?_, ?_⟩
  · simp [wrapProgram, List.countP_append, List.countP_cons, HOp.adds, List.countP_replicate]
    omega
  · have hpred : ∀ T, (CTW.predictor (Fast.kt 2) (Fast.fresh 2) (Fast.ctx 1)).logPredict T 1 [] =
        T.logPredict (Fast.kt 2) (Fast.fresh 2) 1 [] [0] := by
      intro T
      simp only [CTW.predictor, ctx_one]
    have hupd : ∀ T, ∃ r T', (CTW.predictor (Fast.kt 2) (Fast.fresh 2) (Fast.ctx 1)).update T 1 [] 1 = .ok (r, T') := by
      intro T
      simp [CTW.predictor, ctx_one, CTWNode.update, Fast.kt]
    have hr := fresh_ratio 1
    have he : Real.log (1 / 2) = -Real.log 2 := by rw [one_div, Real.log_inv]
    obtain ⟨T, p1, T'', p2⟩ : ∃ T, (CTW.init (Fast.fresh 2) : CTWNode (Fin 2 → ℝ) (Fin 2)).logPredict (Fast.kt 2)
        (Fast.fresh 2) 1 [] [0] = .ok (Real.log (1 / 2), T) ∧
        ∃ T'', T.logPredict (Fast.kt 2) (Fast.fresh 2) 1 [] [0] = .ok (Real.log (1 / 2), T'') := by
      simp [CTWNode.logPredict, CTW.init, CTWNode.new, Fast.kt, hr, he, logsumexp2_self]
    obtain ⟨r, T', p3⟩ := hupd T
    have s2 : Trees.step (Fast.kt 2) (Fast.fresh 2) [some (Fast.ctx 1, CTW.init (Fast.fresh 2))] (.predict 0 1 []) =
        .ok (some (Real.log (1 / 2)), List.replicate (0 + 1) (some (Fast.ctx 1, T))) := by
      simp only [Trees.step, List.getElem?_cons_zero, hpred, p1, ok_bind, pure_eq_ok]
      rfl
    have hM1 : 0 + (M - 1) + 1 = M - 2 + 1 + 1 := by omega
    have hrun : Trees.run (Fast.kt 2) (Fast.fresh 2) [] (wrapProgram (M - 1) [.update 0 1 [] 1, .predict 1 1 []]) =
        (none :: some (Real.log (1 / 2)) :: (Trees.run (Fast.kt 2) (Fast.fresh 2)
          (List.replicate (0 + 1) (some (Fast.ctx 1, T))) (List.replicate (M - 1) (.copy 0) ++
            [.update 0 1 [] 1, .predict 1 1 []])).1, (Trees.run (Fast.kt 2) (Fast.fresh 2)
          (List.replicate (0 + 1) (some (Fast.ctx 1, T))) (List.replicate (M - 1) (.copy 0) ++
            [.update 0 1 [] 1, .predict 1 1 []])).2) := by
      rw [wrapProgram, List.append_assoc, List.cons_append, List.cons_append, List.nil_append]
      rw [Trees.run]
      simp only [Trees.step, List.nil_append]
      rw [Trees.run, s2]
    rw [hrun, trees_copies, hM1]
    simp only [Trees.run, Trees.step, List.replicate_succ, List.getElem?_cons_zero, p3, ok_bind, pure_eq_ok,
      List.set_cons_zero, List.getElem?_cons_succ, hpred, p2]
    rw [← List.cons_append, ← List.cons_append, List.getLast?_append]
    rfl
  · have h0 : (wrapState M (M - 1)).heap.mem 0 = some wrapRoot := by simp [wrapState]
    have h1 : (wrapState M (M - 1)).heap.mem 1 =
        some { (newNode (Fast.fresh 2) : HNode (Fin 2 → ℝ) 2) with rc := 0 } := by
      simp [wrapState, show 1 + (M - 1) = M by omega]
    have h2 : (wrapState M (M - 1)).heap.mem 2 = some wrapRoot := by
      simp [wrapState]
      omega
    have hm0 : (wrapState M (M - 1)).models[0]? = some (some (Fast.ctx 1, 0)) := rfl
    have hm1 : (wrapState M (M - 1)).models[1]? = some (some (Fast.ctx 1, 2)) := by
      simp only [wrapState, List.getElem?_cons_succ, List.getElem?_map]
      rw [List.getElem?_range (by omega)]
      rfl
    obtain ⟨H1, e1, g2, g1⟩ := wrap_update M _ h0 h1 h2
    obtain ⟨H2, e2⟩ := wrap_predict H1 g2 g1
    rw [wrapProgram, wrap_prefix M _ hM]
    simp only [Session.wrun, Session.wstep, hm0, ctx_one, e1, ok_bind, pure_eq_ok, hm1, e2]
    rw [List.getLast?_append]
    rfl

/-- **C141 (violation).** With one model more, the count of a node that all models share is `1`: destroying one model
frees the node, and the next model that is used reads freed memory. -/
theorem C141_wrapped_count_frees (M : ℕ) (hM : 2 ≤ M) :
    let ops := wrapProgram M [.destroy 0, .predict 1 1 []]
    Trees.Fewer (M + 2) (Fast.kt 2) (Fast.fresh 2) ops ∧
    (Session.wrun M (Fast.kt 2) (Fast.fresh 2) 2 Session.start ops).2 = .error .badAccess := by
  refine ⟨C141_few_models _ _ _ _ ?_, ?_⟩
  · simp [wrapProgram, List.countP_append, List.countP_cons, HOp.adds, List.countP_replicate]
  · have hp : WHeap.pred M 1 = 0 := by
      unfold WHeap.pred
      rw [show 1 + (M - 1) = M by omega, Nat.mod_self]
    have h11 : (1 + M) % M = 1 := by
      rw [Nat.add_mod_right]
      exact Nat.mod_eq_of_lt hM
    have h0 : (wrapState M M).heap.mem 0 = some wrapRoot := by simp [wrapState]
    have h1 : (wrapState M M).heap.mem 1 = some (newNode (Fast.fresh 2)) := by
      simp [wrapState, h11, newNode]
    have h2 : (wrapState M M).heap.mem 2 = some wrapRoot := by
      simp [wrapState]
      omega
    have hm0 : (wrapState M M).models[0]? = some (some (Fast.ctx 1, 0)) := rfl
    have hm1 : ((wrapState M M).models.set 0 none)[1]? = some (some (Fast.ctx 1, 2)) := by
      simp only [wrapState, List.set_cons_zero, List.getElem?_cons_succ, List.getElem?_map]
      rw [List.getElem?_range (by omega)]
      rfl
    obtain ⟨H', e1, g1, g2⟩ : ∃ H', WHeap.free M 2 0 (wrapState M M).heap = .ok H' ∧ H'.mem 1 = none ∧
        H'.mem 2 = some wrapRoot := by
      generalize (wrapState M M).heap = H at h0 h1 h2
      simp [WHeap.free, WHeap.freeChildren, Heap.get, Heap.set, Heap.erase, h0, h1, h2, wrapRoot, hp, newNode,
        List.finRange_succ]
    have e2 : H'.logPredict (Fast.kt 2) (Fast.fresh 2) 1 [] [0] 2 = .error .badAccess := by
      simp [Heap.logPredict, Heap.peekChild, Heap.get, Heap.set, g1, g2, wrapRoot, liftPy, Fast.kt]
    rw [wrapProgram, wrap_prefix M _ hM]
    simp only [Session.wrun, Session.wstep, hm0, ctx_one, e1, ok_bind, pure_eq_ok, hm1, e2, error_bind]

end Wrapping

end Verif
