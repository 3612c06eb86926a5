import Verif.Proofs.ThreadsAlone
import Verif.Proofs.LogSumExp
import Verif.Spec.Threads
import Verif.Spec.CTWHeap
import Verif.Model.KT

/-!
# Context trees in different threads (C134)

Context trees that share no node can be used in different threads: however the steps of the threads alternate, each thread gets what it
would have got alone (`C134_unshared_partial`, `C134_own_models_partial`).  The full statement, that this also holds for a model and its
copy, is false: they share their nodes, and updates or copies at the same time mix them up (`C134_update_race`, `C134_copy_race`).
-/

namespace Verif

open Threads

variable {σ α : Type} {k : ℕ}

namespace Threads

theorem within_reach {s : Mem σ k} {roots : List ℕ} {addr : ℕ → ℕ} (hfree : ∀ n, s.mem (addr n) = none) :
    Closed ({x | Reach s roots x} ∪ Set.range addr) s := by
  rintro x (hx | ⟨n, rfl⟩) m hm
  · exact fun c y hy => Or.inl (.child x y m c hx hm hy)
  · rw [hfree] at hm
    cases hm

theorem Interleaving.sequential {S β γ : Type} (p : Prog S β) (q : Prog S γ) (s : S) :
    Interleaving p q s (p.run s).1 (q.run (p.run s).2).1 (q.run (p.run s).2).2 := by
  induction p generalizing s with
  | act f g ih => exact .left f g q s _ _ _ (ih s (f s))
  | done r =>
    induction q generalizing s with
    | act f g ih => exact .right (.done r) f g s _ _ _ (ih s (f s))
    | done r' => exact .done r r' s

/-- Follow a schedule: `false` is a step of the first program. -/
def follow {S β γ : Type} : List Bool → Prog S β → Prog S γ → S → Option (HM β × HM γ × S)
  | [], .done a, .done b, s => some (a, b, s)
  | false :: l, .act f g, q, s => follow l (g s) q (f s)
  | true :: l, p, .act f g, s => follow l p (g s) (f s)
  | _, _, _, _ => none

theorem Interleaving.of_follow {S β γ : Type} (l : List Bool) : ∀ {p : Prog S β} {q : Prog S γ} {s s' : S} {a : HM β} {b : HM γ},
    follow l p q s = some (a, b, s') → Interleaving p q s a b s' := by
  induction l with
  | nil =>
    intro p q s s' a b h
    cases p <;> cases q <;> simp [follow] at h
    obtain ⟨rfl, rfl, rfl⟩ := h
    exact .done _ _ _
  | cons x l ih =>
    intro p q s s' a b h
    cases x with
    | false =>
      cases p with
      | done r => simp [follow] at h
      | act f g => exact .left f g q s a b s' (ih (by simpa [follow] using h))
    | true =>
      cases q with
      | done r => cases p <;> simp [follow] at h
      | act f g => exact .right p f g s a b s' (ih (by cases p <;> simpa [follow] using h))

end Threads

/-- Two threads that have no node in common: whatever the schedule, each gets the values that it gets when it runs alone. -/
theorem C134_unshared_partial (P₁ P₂ : Predictor σ α) (fresh₁ fresh₂ : σ) (addr₁ addr₂ : ℕ → ℕ) (ops₁ ops₂ : List (HOp α k))
    (models₁ models₂ : List ((List α → List (Fin k)) × ℕ)) (s s' : Mem σ k) (r₁ r₂ : HM (List (Option ℝ)))
    (haddr : ∀ m n, addr₁ m ≠ addr₂ n) (hfree₁ : ∀ n, s.mem (addr₁ n) = none) (hfree₂ : ∀ n, s.mem (addr₂ n) = none)
    (hthere₁ : ∀ x, Reach s (models₁.map (·.2)) x → s.mem x ≠ none) (hthere₂ : ∀ x, Reach s (models₂.map (·.2)) x → s.mem x ≠ none)
    (hshare : ∀ x, Reach s (models₁.map (·.2)) x → ¬ Reach s (models₂.map (·.2)) x)
    (h : Interleaving (thread addr₁ false P₁ fresh₁ ops₁ models₁) (thread addr₂ true P₂ fresh₂ ops₂ models₂) s r₁ r₂ s') :
    r₁ = ((thread addr₁ false P₁ fresh₁ ops₁ models₁).run s).1 ∧ r₂ = ((thread addr₂ true P₂ fresh₂ ops₂ models₂).run s).1 := by
  have hdis : Disjoint ({x | Reach s (models₁.map (·.2)) x} ∪ Set.range addr₁) ({x | Reach s (models₂.map (·.2)) x} ∪ Set.range addr₂) := by
    rw [Set.disjoint_left]
    rintro x (hx | ⟨n, rfl⟩) (hy | ⟨m, hm⟩)
    · exact hshare x hx hy
    · exact hthere₁ x hx (hm ▸ hfree₂ m)
    · exact hthere₂ _ hy (hfree₁ n)
    · exact haddr n m hm.symm
  obtain ⟨h1, h2, -⟩ := h.alone hdis
    (Within.thread (fun n => Or.inr ⟨n, rfl⟩) P₁ fresh₁ ops₁ fun m hm => Or.inl (.root _ (List.mem_map_of_mem hm)))
    (Within.thread (fun n => Or.inr ⟨n, rfl⟩) P₂ fresh₂ ops₂ fun m hm => Or.inl (.root _ (List.mem_map_of_mem hm)))
    (within_reach hfree₁) (within_reach hfree₂) ⟨fun _ _ => rfl, rfl⟩ ⟨fun _ _ => rfl, rfl⟩
  exact ⟨h1.symm, h2.symm⟩

/-- What separate trees return, as one value. -/
noncomputable def Threads.expected (P : Predictor σ α) (fresh : σ) (ops : List (HOp α k)) : HM (List (Option ℝ)) :=
  match Trees.run P fresh [] ops with
  | (rs, .ok _) => .ok rs
  | (_, .error e) => .error (.py e)

/-- Two threads that only use models which they created or copied themselves: whatever the schedule, every call returns what it
returns with separate trees. -/
theorem C134_own_models_partial (P₁ P₂ : Predictor σ α) (h₁ : ∀ s a h r t, P₁.logPredict s a h = .ok (r, t) → t = s)
    (h₂ : ∀ s a h r t, P₂.logPredict s a h = .ok (r, t) → t = s) (fresh₁ fresh₂ : σ) (addr₁ addr₂ : ℕ → ℕ)
    (hinj₁ : Function.Injective addr₁) (hinj₂ : Function.Injective addr₂) (haddr : ∀ m n, addr₁ m ≠ addr₂ n) (D : ℕ)
    (ops₁ ops₂ : List (HOp α k)) (hop₁ : ∀ c, HOp.new c ∈ ops₁ → ∀ h, (c h).length ≤ D)
    (hop₂ : ∀ c, HOp.new c ∈ ops₂ → ∀ h, (c h).length ≤ D) (hdes₁ : ∀ i, HOp.destroy i ∉ ops₁) (hdes₂ : ∀ i, HOp.destroy i ∉ ops₂)
    (s' : Mem σ k) (r₁ r₂ : HM (List (Option ℝ)))
    (h : Interleaving (thread addr₁ false P₁ fresh₁ ops₁ []) (thread addr₂ true P₂ fresh₂ ops₂ []) ⟨fun _ => none, fun _ => 0⟩ r₁ r₂ s') :
    r₁ = expected P₁ fresh₁ ops₁ ∧ r₂ = expected P₂ fresh₂ ops₂ := by
  have hno : ∀ x, ¬ Reach (⟨fun _ => none, fun _ => 0⟩ : Mem σ k) [] x := by
    intro x hx
    induction hx with
    | root x hx => simp at hx
    | child x y n c _ _ _ ih => exact ih
  obtain ⟨e1, e2⟩ := C134_unshared_partial P₁ P₂ fresh₁ fresh₂ addr₁ addr₂ ops₁ ops₂ [] [] _ s' r₁ r₂ haddr (fun _ => rfl) (fun _ => rfl)
    (fun x hx => absurd hx (hno x)) (fun x hx => absurd hx (hno x)) (fun x hx => absurd hx (hno x)) h
  have hsees : ∀ (addr : ℕ → ℕ) (t : Bool), Sees addr t (⟨fun _ => none, fun _ => 0⟩ : Mem σ k) (Session.start : Session σ α k).heap :=
    fun addr t => ⟨fun n => by simp [Session.start, Heap.empty], by simp [Session.start, Heap.empty]⟩
  refine ⟨e1.trans ?_, e2.trans ?_⟩
  · exact thread_link hinj₁ P₁ h₁ fresh₁ D ops₁ hop₁ hdes₁ (Session.rel_start D) (by simp [Session.start]) (hsees _ _)
  · exact thread_link hinj₂ P₂ h₂ fresh₂ D ops₂ hop₂ hdes₂ (Session.rel_start D) (by simp [Session.start]) (hsees _ _)

/-- Two threads that each train a model and a copy of it: the hypotheses hold, and some schedule gives results. -/
example : ∃ r₁ r₂ s', Interleaving
    (thread (k := 1) (2 * ·) false KTBinary.predictor (.init none) [.new fun _ => [0, 0], .update 0 true [] 1, .copy 0, .update 1 false [true] 1] [])
    (thread (k := 1) (2 * · + 1) true KTBinary.predictor (.init none) [.new fun _ => [0], .predict 0 true []] []) (⟨fun _ => none, fun _ => 0⟩ : Mem KTBinary 1)
    r₁ r₂ s' ∧ r₁ = expected (k := 1) KTBinary.predictor (.init none) [.new fun _ => [0, 0], .update 0 true [] 1, .copy 0, .update 1 false [true] 1] ∧
      r₂ = expected (k := 1) KTBinary.predictor (.init none) [.new fun _ => [0], .predict 0 true []] := by
  have hkt : ∀ s a h r t, KTBinary.predictor.logPredict s a h = .ok (r, t) → t = s := by
    intro s a h r t e
    simp only [KTBinary.predictor, bind_eq_ok, pure_eq_ok, Except.ok.injEq, Prod.mk.injEq] at e
    obtain ⟨_, _, _, rfl⟩ := e
    rfl
  have h := Interleaving.sequential
    (thread (k := 1) (2 * ·) false KTBinary.predictor (.init none) [.new fun _ => [0, 0], .update 0 true [] 1, .copy 0, .update 1 false [true] 1] [])
    (thread (k := 1) (2 * · + 1) true KTBinary.predictor (.init none) [.new fun _ => [0], .predict 0 true []] []) (⟨fun _ => none, fun _ => 0⟩ : Mem KTBinary 1)
  refine ⟨_, _, _, h, ?_⟩
  refine C134_own_models_partial KTBinary.predictor KTBinary.predictor hkt hkt _ _ (2 * ·) (2 * · + 1) (fun a b hab => ?_) (fun a b hab => ?_)
    (fun m n => ?_) 2 _ _ ?_ ?_ (by simp) (by simp) _ _ _ h
  · simp only at hab
    omega
  · simp only at hab
    omega
  · omega
  · intro c hc
    simp only [List.mem_cons, HOp.new.injEq, reduceCtorEq, List.not_mem_nil, or_false] at hc
    subst hc
    simp
  · intro c hc
    simp only [List.mem_cons, HOp.new.injEq, reduceCtorEq, List.not_mem_nil, or_false] at hc
    subst hc
    simp

namespace Threads.Race

/-- One context symbol, always the same. -/
def ctx : List Bool → List (Fin 1) := fun _ => [0]

/-- A model has seen `true` once, and has been copied; nodes are at even addresses. -/
noncomputable def before : Mem KTBinary 1 :=
  ((thread (2 * ·) false KTBinary.predictor (.init none) [.new ctx, .update 0 true [] 1, .copy 0] []).run ⟨fun _ => none, fun _ => 0⟩).2

theorem kt (a b : ℝ) (ha : 0 < a) (hb : 0 < b) :
    KTBinary.predictor.update ⟨a, b⟩ true [] 1 = .ok (Real.log (b / (a + b)), ⟨a, b + 1⟩) := by
  have h1 : a + b ≠ 0 := by positivity
  have h2 : 0 < b / (a + b) := by positivity
  simp [KTBinary.predictor, KTBinary.update, KTBinary.logPredict, KTBinary.get, KTBinary.bump, pyDiv, pyLog, h1, h2]

section rules

variable {β γ δ : Type}

theorem assoc (p : Prog (Mem σ k) β) (g : β → Prog (Mem σ k) γ) (g' : γ → Prog (Mem σ k) δ) :
    ((p >>= g) >>= g') = (p >>= fun b => g b >>= g') := by
  change (p.bind g).bind g' = p.bind fun b => (g b).bind g'
  induction p with
  | done r => cases r <;> rfl
  | act f g0 ih =>
    change Prog.act f (fun s => ((g0 s).bind g).bind g') = Prog.act f fun s => (g0 s).bind fun b => (g b).bind g'
    congr 1
    funext s
    exact ih s

theorem done_bind (b : β) (g : β → Prog (Mem σ k) γ) : ((pure b : Prog (Mem σ k) β) >>= g) = g b := rfl

theorem call_bind (b : β) (g : β → Prog (Mem σ k) γ) : ((call (.ok b) : Prog (Mem σ k) β) >>= g) = g b := rfl

theorem run_pure (b : β) (s : Mem σ k) : (pure b : Prog (Mem σ k) β).run s = (.ok b, s) := rfl

theorem run_rd_bind {m : ℕ → Option (HNode σ k)} {nx : Bool → ℕ} {x : ℕ} {n : HNode σ k} (h : m x = some n) (f : HNode σ k → β)
    (g : β → Prog (Mem σ k) γ) : (rd x f >>= g).run ⟨m, nx⟩ = (g (f n)).run ⟨m, nx⟩ := by
  rw [run_bind]
  simp [rd, Prog.run, h]

theorem run_wr_bind {m : ℕ → Option (HNode σ k)} {nx : Bool → ℕ} {x : ℕ} {n : HNode σ k} (h : m x = some n) (f : HNode σ k → HNode σ k)
    (g : Unit → Prog (Mem σ k) γ) : (wr x f >>= g).run ⟨m, nx⟩ = (g ()).run ⟨Function.update m x (some (f n)), nx⟩ := by
  rw [run_bind]
  simp [wr, Prog.run, h]

theorem run_mk_bind {m : ℕ → Option (HNode σ k)} {nx : Bool → ℕ} {addr : ℕ → ℕ} {t : Bool} (n : HNode σ k) (g : ℕ → Prog (Mem σ k) γ) :
    (mk addr t n >>= g).run ⟨m, nx⟩ =
      (g (addr (nx t))).run ⟨Function.update m (addr (nx t)) (some n), Function.update nx t (nx t + 1)⟩ := by
  rw [run_bind]
  simp [mk, Prog.run]

theorem follow_pure (b : β) (c : γ) (s : Mem σ k) :
    follow [] (pure b : Prog (Mem σ k) β) (pure c : Prog (Mem σ k) γ) s = some (.ok b, .ok c, s) := rfl

theorem left_rd {m : ℕ → Option (HNode σ k)} {nx : Bool → ℕ} {x : ℕ} {n : HNode σ k} (h : m x = some n) (f : HNode σ k → β) (l : List Bool)
    (g : β → Prog (Mem σ k) γ) (q : Prog (Mem σ k) δ) :
    follow (false :: l) (rd x f >>= g) q ⟨m, nx⟩ = follow l (g (f n)) q ⟨m, nx⟩ := by
  change follow l ((match m x with | some n => _ | none => _ : Prog (Mem σ k) β).bind g) q ⟨m, nx⟩ = _
  rw [h]
  rfl

theorem right_rd {m : ℕ → Option (HNode σ k)} {nx : Bool → ℕ} {x : ℕ} {n : HNode σ k} (h : m x = some n) (f : HNode σ k → β) (l : List Bool)
    (g : β → Prog (Mem σ k) γ) (p : Prog (Mem σ k) δ) :
    follow (true :: l) p (rd x f >>= g) ⟨m, nx⟩ = follow l p (g (f n)) ⟨m, nx⟩ := by
  have : follow (true :: l) p (rd x f >>= g) ⟨m, nx⟩ =
      follow l p ((match m x with | some n => .done (.ok (f n)) | none => .done (.error .badAccess) : Prog (Mem σ k) β).bind g) ⟨m, nx⟩ := by
    cases p <;> rfl
  rw [this, h]
  rfl

theorem left_wr {m : ℕ → Option (HNode σ k)} {nx : Bool → ℕ} {x : ℕ} {n : HNode σ k} (h : m x = some n) (f : HNode σ k → HNode σ k)
    (l : List Bool) (g : Unit → Prog (Mem σ k) γ) (q : Prog (Mem σ k) δ) :
    follow (false :: l) (wr x f >>= g) q ⟨m, nx⟩ = follow l (g ()) q ⟨Function.update m x (some (f n)), nx⟩ := by
  have : follow (false :: l) (wr x f >>= g) q ⟨m, nx⟩ =
      follow l ((match m x with | some _ => .done (.ok ()) | none => .done (.error .badAccess) : Prog (Mem σ k) Unit).bind g) q
        (match m x with | some n => ⟨Function.update m x (some (f n)), nx⟩ | none => ⟨m, nx⟩) := rfl
  rw [this, h]
  rfl

theorem right_wr {m : ℕ → Option (HNode σ k)} {nx : Bool → ℕ} {x : ℕ} {n : HNode σ k} (h : m x = some n) (f : HNode σ k → HNode σ k)
    (l : List Bool) (g : Unit → Prog (Mem σ k) γ) (p : Prog (Mem σ k) δ) :
    follow (true :: l) p (wr x f >>= g) ⟨m, nx⟩ = follow l p (g ()) ⟨Function.update m x (some (f n)), nx⟩ := by
  have : follow (true :: l) p (wr x f >>= g) ⟨m, nx⟩ =
      follow l p ((match m x with | some _ => .done (.ok ()) | none => .done (.error .badAccess) : Prog (Mem σ k) Unit).bind g)
        (match m x with | some n => ⟨Function.update m x (some (f n)), nx⟩ | none => ⟨m, nx⟩) := by
    cases p <;> rfl
  rw [this, h]
  rfl

theorem left_mk {m : ℕ → Option (HNode σ k)} {nx : Bool → ℕ} {addr : ℕ → ℕ} {t : Bool} (n : HNode σ k) (l : List Bool)
    (g : ℕ → Prog (Mem σ k) γ) (q : Prog (Mem σ k) δ) :
    follow (false :: l) (mk addr t n >>= g) q ⟨m, nx⟩ =
      follow l (g (addr (nx t))) q ⟨Function.update m (addr (nx t)) (some n), Function.update nx t (nx t + 1)⟩ := rfl

theorem right_mk {m : ℕ → Option (HNode σ k)} {nx : Bool → ℕ} {addr : ℕ → ℕ} {t : Bool} (n : HNode σ k) (l : List Bool)
    (g : ℕ → Prog (Mem σ k) γ) (p : Prog (Mem σ k) δ) :
    follow (true :: l) p (mk addr t n >>= g) ⟨m, nx⟩ =
      follow l p (g (addr (nx t))) ⟨Function.update m (addr (nx t)) (some n), Function.update nx t (nx t + 1)⟩ := by
  cases p <;> rfl

end rules

theorem kt_predict (a b : ℝ) (ha : 0 < a) (hb : 0 < b) :
    KTBinary.predictor.logPredict ⟨a, b⟩ true [] = .ok (Real.log (b / (a + b)), ⟨a, b⟩) := by
  have h1 : a + b ≠ 0 := by positivity
  have h2 : 0 < b / (a + b) := by positivity
  simp [KTBinary.predictor, KTBinary.logPredict, KTBinary.get, pyDiv, pyLog, h1, h2]

theorem kt1 : KTBinary.predictor.update ⟨1 / 2, 1 / 2⟩ true [] 1 = .ok (Real.log (1 / 2), ⟨1 / 2, 3 / 2⟩) := by
  have h := kt (1 / 2) (1 / 2) (by norm_num) (by norm_num)
  norm_num at h ⊢
  exact h

theorem kt2 : KTBinary.predictor.update ⟨1 / 2, 3 / 2⟩ true [] 1 = .ok (Real.log (3 / 4), ⟨1 / 2, 5 / 2⟩) := by
  have h := kt (1 / 2) (3 / 2) (by norm_num) (by norm_num)
  norm_num at h ⊢
  exact h

theorem kt3 : KTBinary.predictor.update ⟨1 / 2, 5 / 2⟩ true [] 1 = .ok (Real.log (5 / 6), ⟨1 / 2, 7 / 2⟩) := by
  have h := kt (1 / 2) (5 / 2) (by norm_num) (by norm_num)
  norm_num at h ⊢
  exact h

theorem kt4 : KTBinary.predictor.logPredict ⟨1 / 2, 3 / 2⟩ true [] = .ok (Real.log (3 / 4), ⟨1 / 2, 3 / 2⟩) := by
  have h := kt_predict (1 / 2) (3 / 2) (by norm_num) (by norm_num)
  norm_num at h ⊢
  exact h

theorem kt5 : KTBinary.predictor.logPredict ⟨1 / 2, 5 / 2⟩ true [] = .ok (Real.log (5 / 6), ⟨1 / 2, 5 / 2⟩) := by
  have h := kt_predict (1 / 2) (5 / 2) (by norm_num) (by norm_num)
  norm_num at h ⊢
  exact h

theorem path : (ctx []).reverse = [0] := rfl

theorem all : List.finRange 1 = [0] := rfl

theorem slot : Function.update (fun _ : Fin 1 => (none : Option ℕ)) 0 (some 2) = fun _ => some 2 := by
  funext c
  rw [Subsingleton.elim c 0, Function.update_self]

/-- The nodes: the roots at 0 and 4, their child at 2. -/
theorem before_eq : before = ⟨fun x => if x = 0 ∨ x = 4 then some ⟨⟨1 / 2, 3 / 2⟩, Real.log (1 / 2), Real.log (1 / 2), Real.log (1 / 2), fun _ => some 2, 1⟩
    else if x = 2 then some ⟨⟨1 / 2, 3 / 2⟩, Real.log (1 / 2), 0, Real.log (1 / 2), fun _ => none, 2⟩ else none,
    fun t => if t then 0 else 3⟩ := by
  simp only [before, thread, step, KTBinary.init]
  simp [-one_div, run_mk_bind, assoc, done_bind, call_bind, run_rd_bind, run_wr_bind, update, own, copy, incChildren, path, all, kt1, run_pure,
    Heap.newNode, logsumexp2_self, slot]
  constructor
  · funext x
    by_cases h0 : x = 0
    · subst h0
      simp
    · by_cases h2 : x = 2
      · subst h2
        simp
      · by_cases h4 : x = 4
        · subst h4
          simp
        · simp [h0, h2, h4, Function.update_apply]
  · funext t
    cases t <;> simp

/-- A model that has seen `true` once. -/
noncomputable def once : Mem KTBinary 1 :=
  ((thread (2 * ·) false KTBinary.predictor (.init none) [.new ctx, .update 0 true [] 1] []).run ⟨fun _ => none, fun _ => 0⟩).2

theorem once_eq : once = ⟨fun x => if x = 0 then some ⟨⟨1 / 2, 3 / 2⟩, Real.log (1 / 2), Real.log (1 / 2), Real.log (1 / 2), fun _ => some 2, 1⟩
    else if x = 2 then some ⟨⟨1 / 2, 3 / 2⟩, Real.log (1 / 2), 0, Real.log (1 / 2), fun _ => none, 1⟩ else none,
    fun t => if t then 0 else 2⟩ := by
  simp only [once, thread, step, KTBinary.init]
  simp [-one_div, run_mk_bind, assoc, done_bind, call_bind, run_rd_bind, run_wr_bind, update, own, path, kt1, run_pure,
    Heap.newNode, logsumexp2_self, slot]
  constructor
  · funext x
    by_cases h0 : x = 0
    · subst h0
      simp
    · by_cases h2 : x = 2
      · subst h2
        simp
      · simp [h0, h2, Function.update_apply]
  · funext t
    cases t <;> simp

theorem mixed : log05 + logsumexp2 (Real.log (1 / 2) + Real.log (3 / 4)) (Real.log (1 / 2) + Real.log (5 / 6)) - Real.log (1 / 2) =
    Real.log (19 / 24) := by
  rw [half_lse2_eq_log, Real.exp_add, Real.exp_add, Real.exp_log (by norm_num), Real.exp_log (by norm_num), Real.exp_log (by norm_num),
    ← Real.log_div (by norm_num) (by norm_num)]
  norm_num

end Threads.Race

open Threads.Race in
/-- The full statement is false: a model that has seen `true` once and its copy see `true` again, in two threads.  One after the other,
each update returns the logarithm of 3/4.  But one thread can find the shared child between the two steps in which the other gives up its
reference and copies the child; it then updates the child in place, and the other thread copies what it has written. -/
theorem C134_update_race :
    (∃ s', Interleaving (thread (2 * ·) false KTBinary.predictor (.init none) [.update 0 true [] 1] [(ctx, 0)])
      (thread (2 * · + 1) true KTBinary.predictor (.init none) [.update 0 true [] 1] [(ctx, 4)]) before
      (.ok [some (Real.log (19 / 24))]) (.ok [some (Real.log (3 / 4))]) s') ∧
    (∃ s₁ s₂, (thread (2 * ·) false KTBinary.predictor (.init none) [.update 0 true [] 1] [(ctx, 0)]).run before =
        (.ok [some (Real.log (3 / 4))], s₁) ∧
      (thread (2 * · + 1) true KTBinary.predictor (.init none) [.update 0 true [] 1] [(ctx, 4)]).run s₁ = (.ok [some (Real.log (3 / 4))], s₂)) ∧
    ∃ s₁ s₂, (thread (2 * · + 1) true KTBinary.predictor (.init none) [.update 0 true [] 1] [(ctx, 4)]).run before =
        (.ok [some (Real.log (3 / 4))], s₁) ∧
      (thread (2 * ·) false KTBinary.predictor (.init none) [.update 0 true [] 1] [(ctx, 0)]).run s₁ = (.ok [some (Real.log (3 / 4))], s₂) := by
  rw [before_eq]
  refine ⟨⟨_, Interleaving.of_follow (List.replicate 9 false ++ List.replicate 21 true ++ List.replicate 21 false) (s' := ?_) ?_⟩, ?_, ?_⟩
  rotate_left
  · simp only [thread, step, KTBinary.init]
    simp [-one_div, assoc, done_bind, call_bind, left_rd, right_rd, left_wr, right_wr, left_mk, follow_pure, List.replicate, update,
      own, copy, incChildren, path, all, kt2, kt3, logsumexp2_self]
    refine ⟨mixed, ?_⟩
    rfl
  · simp only [thread, step, KTBinary.init]
    simp [-one_div, assoc, done_bind, call_bind, run_rd_bind, run_wr_bind, run_mk_bind, run_pure, update, own, copy, incChildren, path, all, kt2,
      logsumexp2_self]
  · simp only [thread, step, KTBinary.init]
    simp [-one_div, assoc, done_bind, call_bind, run_rd_bind, run_wr_bind, run_mk_bind, run_pure, update, own, copy, incChildren, path, all, kt2,
      logsumexp2_self]

open Threads.Race in
/-- Copying a model in two threads at once can lose a reference: afterwards, with no other thread running, an update of one of the copies
changes what the original predicts. -/
theorem C134_copy_race :
    ∃ s', Interleaving (thread (2 * ·) false KTBinary.predictor (.init none) [.copy 0] [(ctx, 0)])
      (thread (2 * · + 1) true KTBinary.predictor (.init none) [.copy 0] [(ctx, 0)]) once (.ok [none]) (.ok [none]) s' ∧
    ((thread (2 * ·) false KTBinary.predictor (.init none) [.predict 0 true [], .update 2 true [] 1, .update 1 true [] 1, .predict 0 true []]
      [(ctx, 0), (ctx, 4), (ctx, 1)]).run s').1 =
      .ok [some (Real.log (3 / 4)), some (Real.log (3 / 4)), some (Real.log (3 / 4)), some (Real.log (19 / 24))] := by
  rw [once_eq]
  refine ⟨_, Interleaving.of_follow (List.replicate 7 false ++ List.replicate 8 true ++ List.replicate 1 false) (s' := ?_) ?_, ?_⟩
  rotate_left
  · simp only [thread, step, KTBinary.init]
    simp [-one_div, assoc, done_bind, left_rd, right_rd, left_wr, right_wr, left_mk, right_mk, follow_pure, List.replicate,
      copy, incChildren, all]
    rfl
  · simp only [thread, step, KTBinary.init]
    simp [-one_div, assoc, done_bind, call_bind, run_rd_bind, run_wr_bind, run_mk_bind, run_pure, update, logPredict, own, peek, copy,
      incChildren, path, all, kt2, kt4, kt5, logsumexp2_self, mixed]

end Verif
