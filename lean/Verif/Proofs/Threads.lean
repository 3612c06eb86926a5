import Verif.Spec.Threads
import Mathlib.Data.Set.Disjoint

/-!
# Two threads that share no node
-/

namespace Verif.Threads

variable {σ α β γ : Type} {k : ℕ}

/-- The children of the node are in `A`. -/
def Kids (A : Set ℕ) (n : HNode σ k) : Prop := ∀ c y, n.children c = some y → y ∈ A

/-- No pointer leads out of `A`. -/
def Closed (A : Set ℕ) (s : Mem σ k) : Prop := ∀ x ∈ A, ∀ n, s.mem x = some n → Kids A n

/-- The same for a thread `t` that only uses the nodes in `A`. -/
structure Same (A : Set ℕ) (t : Bool) (s s' : Mem σ k) : Prop where
  mem : ∀ x ∈ A, s.mem x = s'.mem x
  next : s.next t = s'.next t

/-- The program of thread `t` reads and writes only nodes in `A`; its result satisfies `Q`. -/
inductive Within (A : Set ℕ) (t : Bool) (Q : β → Prop) : Prog (Mem σ k) β → Prop
  | ok (b : β) : Q b → Within A t Q (.done (.ok b))
  | error (e : HErr) : Within A t Q (.done (.error e))
  | act (f : Mem σ k → Mem σ k) (g : Mem σ k → Prog (Mem σ k) β) :
      (∀ s, Closed A s → Closed A (f s)) → (∀ s x, x ∉ A → (f s).mem x = s.mem x) → (∀ s, (f s).next (!t) = s.next (!t)) →
      (∀ s s', Same A t s s' → Same A t (f s) (f s') ∧ g s = g s') → (∀ s, Closed A s → Within A t Q (g s)) → Within A t Q (.act f g)

theorem Interleaving.alone {p : Prog (Mem σ k) β} {q : Prog (Mem σ k) γ} {s s' : Mem σ k} {r₁ : HM β} {r₂ : HM γ}
    (h : Interleaving p q s r₁ r₂ s') {A B : Set ℕ} (hAB : Disjoint A B) {Q : β → Prop} {R : γ → Prop} (hp : Within A false Q p)
    (hq : Within B true R q) (hA : Closed A s) (hB : Closed B s) {sa sb : Mem σ k} (ha : Same A false s sa) (hb : Same B true s sb) :
    (p.run sa).1 = r₁ ∧ (q.run sb).1 = r₂ ∧ Same A false s' (p.run sa).2 ∧ Same B true s' (q.run sb).2 := by
  induction h generalizing sa sb with
  | done r₁ r₂ s => exact ⟨rfl, rfl, ha, hb⟩
  | left f g q s r₁ r₂ s' _ ih =>
    cases hp with
    | act _ _ h1 h2 h3 h4 h5 =>
      have hBm : ∀ x ∈ B, (f s).mem x = s.mem x := fun x hx => h2 s x fun hxA => Set.disjoint_left.1 hAB hxA hx
      have := ih (h5 s hA) hq (h1 s hA) (fun x hx n hn => hB x hx n (by rw [← hBm x hx]; exact hn)) (h4 s sa ha).1
        (sb := sb) ⟨fun x hx => by rw [hBm x hx]; exact hb.mem x hx, by rw [← hb.next]; exact h3 s⟩
      rw [(h4 s sa ha).2] at this
      exact this
  | right p f g s r₁ r₂ s' _ ih =>
    cases hq with
    | act _ _ h1 h2 h3 h4 h5 =>
      have hAm : ∀ x ∈ A, (f s).mem x = s.mem x := fun x hx => h2 s x fun hxB => Set.disjoint_left.1 hAB hx hxB
      have := ih hp (h5 s hB) (fun x hx n hn => hA x hx n (by rw [← hAm x hx]; exact hn)) (h1 s hB)
        (sa := sa) ⟨fun x hx => by rw [hAm x hx]; exact ha.mem x hx, by rw [← ha.next]; exact h3 s⟩ (h4 s sb hb).1
      rw [(h4 s sb hb).2] at this
      exact this

namespace Within

variable {A : Set ℕ} {t : Bool} {Q : β → Prop} {R : γ → Prop}

theorem bind {p : Prog (Mem σ k) β} {g : β → Prog (Mem σ k) γ} (hp : Within A t Q p) (hg : ∀ b, Q b → Within A t R (g b)) :
    Within A t R (p >>= g) := by
  change Within A t R (p.bind g)
  induction hp with
  | ok b hb => exact hg b hb
  | error e => exact .error e
  | act f g' h1 h2 h3 h4 _ ih =>
    exact .act _ _ h1 h2 h3 (fun s s' hs => ⟨(h4 s s' hs).1, by rw [(h4 s s' hs).2]⟩) fun s hs => ih s hs

theorem pure {b : β} (h : Q b) : Within A t Q (Pure.pure b : Prog (Mem σ k) β) := .ok b h

theorem rd {x : ℕ} (hx : x ∈ A) (field : HNode σ k → β) (h : ∀ n, Kids A n → Q (field n)) : Within A t Q (Threads.rd x field) := by
  refine .act _ _ (fun s hs => hs) (fun s y _ => rfl) (fun s => rfl) (fun s s' hs => ⟨hs, ?_⟩) fun s hs => ?_
  · rw [hs.mem x hx]
  · cases hn : s.mem x with
    | none => exact .error _
    | some n => exact .ok _ (h n (hs x hx n hn))

theorem wr {x : ℕ} (hx : x ∈ A) {change : HNode σ k → HNode σ k} (h : ∀ n, Kids A n → Kids A (change n)) :
    Within A t (fun _ => True) (Threads.wr x change) := by
  refine .act _ _ (fun s hs => ?_) (fun s y hy => ?_) (fun s => ?_) (fun s s' hs => ⟨⟨fun y hy => ?_, ?_⟩, ?_⟩) fun s hs => ?_
  · cases hn : s.mem x with
    | none => simpa only using hs
    | some n =>
      intro y hy m hm
      simp only at hm
      by_cases hyx : y = x
      · subst hyx
        rw [Function.update_self, Option.some.injEq] at hm
        exact hm ▸ h n (hs y hy n hn)
      · rw [Function.update_of_ne hyx] at hm
        exact hs y hy m hm
  · cases hn : s.mem x with
    | none => rfl
    | some n =>
      simp only
      rw [Function.update_of_ne]
      rintro rfl
      exact hy hx
  · cases s.mem x <;> rfl
  · rw [← hs.mem x hx]
    cases hn : s.mem x with
    | none => exact hs.mem y hy
    | some n =>
      simp only [Function.update_apply]
      split_ifs
      · rfl
      · exact hs.mem y hy
  · rw [← hs.mem x hx]
    cases s.mem x <;> exact hs.next
  · rw [hs.mem x hx]
  · cases s.mem x with
    | none => exact .error _
    | some n => exact .ok _ trivial

theorem mk {addr : ℕ → ℕ} (ha : ∀ n, addr n ∈ A) {n : HNode σ k} (hn : Kids A n) : Within A t (· ∈ A) (Threads.mk addr t n) := by
  refine .act _ _ (fun s hs => ?_) (fun s y hy => ?_) (fun s => ?_) (fun s s' hs => ⟨⟨fun y hy => ?_, ?_⟩, ?_⟩) fun s hs => .ok _ (ha _)
  · intro y hy m hm
    simp only [Function.update_apply] at hm
    split_ifs at hm
    · rw [Option.some.injEq] at hm
      exact hm ▸ hn
    · exact hs y hy m hm
  · simp only
    rw [Function.update_of_ne]
    rintro rfl
    exact hy (ha _)
  · simp
  · simp only [Function.update_apply, hs.next]
    split_ifs
    · rfl
    · exact hs.mem y hy
  · simp [hs.next]
  · rw [hs.next]

theorem call (r : Py β) : Within A t (fun _ => True) (Threads.call r : Prog (Mem σ k) β) := by
  cases r with
  | error e => exact .error _
  | ok b => exact .ok _ trivial

theorem any {p : Prog (Mem σ k) β} (h : Within A t Q p) : Within A t (fun _ => True) p := by
  induction h with
  | ok b _ => exact .ok _ trivial
  | error e => exact .error e
  | act f g h1 h2 h3 h4 _ ih => exact .act _ _ h1 h2 h3 h4 ih

theorem incChildren {ch : Fin k → Option ℕ} (h : ∀ c y, ch c = some y → y ∈ A) (cs : List (Fin k)) :
    Within A t (fun _ => True) (Threads.incChildren ch cs : Prog (Mem σ k) Unit) := by
  induction cs with
  | nil => exact pure trivial
  | cons c cs ih =>
    unfold Threads.incChildren
    cases hc : ch c with
    | none => exact ih
    | some b => exact bind (rd (Q := fun _ => True) (h c b hc) _ fun _ _ => trivial) fun rc _ => bind (wr (h c b hc) fun n hn => hn) fun _ _ => ih

theorem copy {addr : ℕ → ℕ} (ha : ∀ n, addr n ∈ A) {x : ℕ} (hx : x ∈ A) :
    Within A t (· ∈ A) (Threads.copy addr t x : Prog (Mem σ k) ℕ) := by
  unfold Threads.copy
  refine bind (rd (Q := fun _ => True) hx _ fun _ _ => trivial) fun base _ => ?_
  refine bind (rd (Q := fun _ => True) hx _ fun _ _ => trivial) fun blp _ => ?_
  refine bind (rd (Q := fun _ => True) hx _ fun _ _ => trivial) fun clp _ => ?_
  refine bind (rd (Q := fun _ => True) hx _ fun _ _ => trivial) fun lp _ => ?_
  refine bind (rd (Q := fun ch : Fin k → Option ℕ => ∀ c y, ch c = some y → y ∈ A) hx _ fun n hn => hn) fun ch hch => ?_
  refine bind (mk ha (n := ⟨base, blp, clp, lp, ch, 1⟩) hch) fun z hz => ?_
  exact bind (incChildren hch _) fun _ _ => pure hz

theorem kids_update {n : HNode σ k} (hn : Kids A n) (c : Fin k) {z : ℕ} (hz : z ∈ A) :
    Kids A { n with children := Function.update n.children c (some z) } := by
  intro d y hy
  simp only [Function.update_apply] at hy
  split_ifs at hy
  · rw [Option.some.injEq] at hy
    exact hy ▸ hz
  · exact hn d y hy

theorem kids_new (fresh : σ) : Kids A (Heap.newNode fresh : HNode σ k) := fun c y hy => by simp [Heap.newNode] at hy

theorem own {addr : ℕ → ℕ} (ha : ∀ n, addr n ∈ A) (fresh : σ) {x : ℕ} (hx : x ∈ A) (c : Fin k) :
    Within A t (· ∈ A) (Threads.own addr t fresh x c : Prog (Mem σ k) ℕ) := by
  unfold Threads.own
  refine bind (rd (Q := fun o => ∀ y, o = some y → y ∈ A) hx _ fun n hn => hn c) fun o ho => ?_
  cases o with
  | none =>
    refine bind (mk ha (kids_new fresh)) fun z hz => ?_
    exact bind (wr hx fun n hn => kids_update hn c hz) fun _ _ => pure hz
  | some y =>
    have hy := ho y rfl
    refine bind (rd (Q := fun _ => True) hy _ fun _ _ => trivial) fun rc _ => ?_
    split_ifs
    · refine bind (rd (Q := fun _ => True) hy _ fun _ _ => trivial) fun rc _ => ?_
      refine bind (wr hy fun n hn => hn) fun _ _ => ?_
      refine bind (copy ha hy) fun z hz => ?_
      exact bind (wr hx fun n hn => kids_update hn c hz) fun _ _ => pure hz
    · exact pure hy

theorem peek {addr : ℕ → ℕ} (ha : ∀ n, addr n ∈ A) (fresh : σ) {x : ℕ} (hx : x ∈ A) (c : Fin k) :
    Within A t (· ∈ A) (Threads.peek addr t fresh x c : Prog (Mem σ k) ℕ) := by
  unfold Threads.peek
  refine bind (rd (Q := fun o => ∀ y, o = some y → y ∈ A) hx _ fun n hn => hn c) fun o ho => ?_
  cases o with
  | none =>
    refine bind (mk ha (kids_new fresh)) fun z hz => ?_
    exact bind (wr hx fun n hn => kids_update hn c hz) fun _ _ => pure hz
  | some y => exact pure (ho y rfl)

theorem update {addr : ℕ → ℕ} (ha : ∀ n, addr n ∈ A) (P : Predictor σ α) (fresh : σ) (a : α) (h : List α) (w : ℝ) (cs : List (Fin k)) :
    ∀ {x : ℕ}, x ∈ A → Within A t (fun _ => True) (Threads.update addr t P fresh a h w cs x : Prog (Mem σ k) ℝ) := by
  induction cs with
  | nil =>
    intro x hx
    unfold Threads.update
    refine bind (rd (Q := fun _ => True) hx _ fun _ _ => trivial) fun _ _ => ?_
    refine bind (rd (Q := fun _ => True) hx _ fun _ _ => trivial) fun _ _ => ?_
    refine bind (rd (Q := fun _ => True) hx _ fun _ _ => trivial) fun _ _ => ?_
    refine bind (call _) fun _ _ => ?_
    refine bind (wr hx fun n hn => hn) fun _ _ => ?_
    refine bind (wr hx fun n hn => hn) fun _ _ => ?_
    refine bind (rd (Q := fun _ => True) hx _ fun _ _ => trivial) fun _ _ => ?_
    refine bind (wr hx fun n hn => hn) fun _ _ => ?_
    exact bind (rd (Q := fun _ => True) hx _ fun _ _ => trivial) fun _ _ => pure trivial
  | cons c cs ih =>
    intro x hx
    unfold Threads.update
    refine bind (rd (Q := fun _ => True) hx _ fun _ _ => trivial) fun _ _ => ?_
    refine bind (rd (Q := fun _ => True) hx _ fun _ _ => trivial) fun _ _ => ?_
    refine bind (rd (Q := fun _ => True) hx _ fun _ _ => trivial) fun _ _ => ?_
    refine bind (call _) fun _ _ => ?_
    refine bind (wr hx fun n hn => hn) fun _ _ => ?_
    refine bind (wr hx fun n hn => hn) fun _ _ => ?_
    refine bind (own ha fresh hx c) fun y hy => ?_
    refine bind (rd (Q := fun _ => True) hx _ fun _ _ => trivial) fun _ _ => ?_
    refine bind (ih hy) fun _ _ => ?_
    refine bind (wr hx fun n hn => hn) fun _ _ => ?_
    refine bind (rd (Q := fun _ => True) hx _ fun _ _ => trivial) fun _ _ => ?_
    refine bind (rd (Q := fun _ => True) hx _ fun _ _ => trivial) fun _ _ => ?_
    refine bind (wr hx fun n hn => hn) fun _ _ => ?_
    exact bind (rd (Q := fun _ => True) hx _ fun _ _ => trivial) fun _ _ => pure trivial

theorem logPredict {addr : ℕ → ℕ} (ha : ∀ n, addr n ∈ A) (P : Predictor σ α) (fresh : σ) (a : α) (h : List α) (cs : List (Fin k)) :
    ∀ {x : ℕ}, x ∈ A → Within A t (fun _ => True) (Threads.logPredict addr t P fresh a h cs x : Prog (Mem σ k) ℝ) := by
  induction cs with
  | nil =>
    intro x hx
    unfold Threads.logPredict
    refine bind (rd (Q := fun _ => True) hx _ fun _ _ => trivial) fun _ _ => ?_
    refine bind (rd (Q := fun _ => True) hx _ fun _ _ => trivial) fun _ _ => ?_
    refine bind (call _) fun _ _ => ?_
    refine bind (wr hx fun n hn => hn) fun _ _ => ?_
    exact bind (rd (Q := fun _ => True) hx _ fun _ _ => trivial) fun _ _ => pure trivial
  | cons c cs ih =>
    intro x hx
    unfold Threads.logPredict
    refine bind (rd (Q := fun _ => True) hx _ fun _ _ => trivial) fun _ _ => ?_
    refine bind (rd (Q := fun _ => True) hx _ fun _ _ => trivial) fun _ _ => ?_
    refine bind (call _) fun _ _ => ?_
    refine bind (wr hx fun n hn => hn) fun _ _ => ?_
    refine bind (peek ha fresh hx c) fun y hy => ?_
    refine bind (rd (Q := fun _ => True) hx _ fun _ _ => trivial) fun _ _ => ?_
    refine bind (ih hy) fun _ _ => ?_
    exact bind (rd (Q := fun _ => True) hx _ fun _ _ => trivial) fun _ _ => pure trivial

theorem step {addr : ℕ → ℕ} (ha : ∀ n, addr n ∈ A) (P : Predictor σ α) (fresh : σ) {ms : List ((List α → List (Fin k)) × ℕ)}
    (hm : ∀ m ∈ ms, m.2 ∈ A) (o : HOp α k) : Within A t (fun v => ∀ m ∈ v.2, m.2 ∈ A) (Threads.step addr t P fresh ms o) := by
  have push : ∀ (ctx : List α → List (Fin k)) (z : ℕ), z ∈ A → ∀ m ∈ ms ++ [(ctx, z)], m.2 ∈ A := by
    intro ctx z hz m hmem
    simp only [List.mem_append, List.mem_singleton] at hmem
    rcases hmem with h | rfl
    · exact hm m h
    · exact hz
  have done : ∀ (r : Option ℝ) (l : List ((List α → List (Fin k)) × ℕ)), (∀ m ∈ l, m.2 ∈ A) →
      Within (σ := σ) (k := k) A t (fun v => ∀ m ∈ v.2, m.2 ∈ A) (.done (.ok (r, l))) := fun r l hl => .ok _ hl
  cases o with
  | new ctx => exact bind (mk ha (kids_new fresh)) fun z hz => done _ _ (push ctx z hz)
  | copy i =>
    cases hi : ms[i]? with
    | none => rw [Threads.step.eq_def]; simp only [hi]; exact done _ _ hm
    | some v => rw [Threads.step.eq_def]; simp only [hi]; exact bind (copy ha (hm v (List.mem_of_getElem? hi))) fun z hz => done _ _ (push v.1 z hz)
  | update i a h w =>
    cases hi : ms[i]? with
    | none => rw [Threads.step.eq_def]; simp only [hi]; exact done _ _ hm
    | some v => rw [Threads.step.eq_def]; simp only [hi]; exact bind (update ha P fresh a h w _ (hm v (List.mem_of_getElem? hi))) fun z hz => done _ _ hm
  | predict i a h =>
    cases hi : ms[i]? with
    | none => rw [Threads.step.eq_def]; simp only [hi]; exact done _ _ hm
    | some v => rw [Threads.step.eq_def]; simp only [hi]; exact bind (logPredict ha P fresh a h _ (hm v (List.mem_of_getElem? hi))) fun z hz => done _ _ hm
  | destroy i => exact done _ _ hm

theorem thread {addr : ℕ → ℕ} (ha : ∀ n, addr n ∈ A) (P : Predictor σ α) (fresh : σ) (os : List (HOp α k)) :
    ∀ {ms : List ((List α → List (Fin k)) × ℕ)}, (∀ m ∈ ms, m.2 ∈ A) →
      Within A t (fun _ => True) (Threads.thread addr t P fresh os ms) := by
  induction os with
  | nil => exact fun _ => pure trivial
  | cons o os ih =>
    intro ms hm
    exact bind (step ha P fresh hm o) fun v hv => bind (ih hv) fun _ _ => pure trivial

end Within

end Verif.Threads
