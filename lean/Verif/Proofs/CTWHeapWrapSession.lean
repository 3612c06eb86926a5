import Verif.Proofs.CTWHeapWrap

/-! Programs in which fewer than `M` models exist at a time run alike with counts of `M` values. -/

namespace Verif

open Heap

namespace Session

variable {σ α : Type} {k : ℕ} {fresh : σ}

theorem Rel.live {D : ℕ} {rk : ℕ → ℕ} {S : Session σ α k} {vs : Trees σ α k} (h : Rel fresh D rk S vs) :
    S.roots.length = vs.live := by
  have h1 : S.models.map Option.isSome = vs.map Option.isSome := by
    apply List.ext_getElem?
    intro i
    have hi := h.ent i
    rw [List.getElem?_map, List.getElem?_map]
    match h1 : S.models[i]?, h2 : vs[i]?, hi with
    | none, none, _ => rfl
    | some none, some none, _ => rfl
    | some (some _), some (some _), _ => rfl
  have h2 : ∀ l : List (Option ((List α → List (Fin k)) × ℕ)),
      (l.filterMap (fun o => o.map Prod.snd)).length = (l.map Option.isSome).countP id := by
    intro l
    induction l with
    | nil => rfl
    | cons o l ih => cases o <;> simp [ih]
  rw [Trees.live, roots, h2, h1, List.countP_map]
  rfl

theorem step_placed (P : Predictor σ α) {D : ℕ} {rk : ℕ → ℕ} {path : ℕ → List (Fin k)} {S : Session σ α k}
    {vs : Trees σ α k} (h : Rel fresh D rk S vs) (hp : Placed path S.roots S.heap) (op : HOp α k)
    {o : Option ℝ} {S' : Session σ α k} (ho : step P fresh (D + 1) S op = .ok (o, S')) :
    ∃ path', Placed path' S'.roots S'.heap := by
  have hnn := h.inv.next_none
  have hne : ∀ a m, S.heap.mem a = some m → a ≠ S.heap.next := by
    rintro a m ha rfl
    rw [hnn] at ha
    cases ha
  have hsl : ∀ b d a, S.heap.slot b d = some a → b ≠ S.heap.next ∧ a ≠ S.heap.next := by
    intro b d a hb
    obtain ⟨h1, ⟨m, hm⟩, _⟩ := h.inv.slot_alloc hb
    exact ⟨by omega, hne a m hm⟩
  have hroot : ∀ a ∈ S.roots, a ≠ S.heap.next := by
    intro a ha
    obtain ⟨m, hm⟩ := h.inv.hand a ha
    exact hne a m hm
  cases op with
  | new c =>
    simp only [step, Except.ok.injEq, Prod.mk.injEq] at ho
    obtain ⟨-, rfl⟩ := ho
    refine ⟨Function.update path S.heap.next [], ?_, ?_⟩
    · intro b d a hb
      simp only [slot, Heap.alloc] at hb
      by_cases hbn : b = S.heap.next
      · subst hbn
        simp [newNode] at hb
      · rw [Function.update_of_ne hbn] at hb
        rw [Function.update_of_ne (hsl b d a hb).2, Function.update_of_ne hbn]
        exact hp.edge b d a hb
    · intro a ha
      rw [roots_append S.heap] at ha
      rcases List.mem_append.mp ha with ha | ha
      · rw [Function.update_of_ne (hroot a ha)]
        exact hp.root a ha
      · rw [List.mem_singleton.mp ha, Function.update_self]
  | copy i =>
    simp only [step] at ho
    split at ho
    · rename_i ctx x hx
      simp only [bind_eq_ok, Prod.exists, pure_eq_ok, Except.ok.injEq, Prod.mk.injEq] at ho
      obtain ⟨z, H', hc, -, rfl⟩ := ho
      obtain ⟨rfl, hs⟩ := slot_copyNode hc
      have hxr : x ∈ S.roots := mem_roots.mpr ⟨i, ctx, hx⟩
      refine ⟨Function.update path S.heap.next [], ?_, ?_⟩
      · intro b d a hb
        simp only [hs] at hb
        split_ifs at hb with hbn
        · rw [hbn, Function.update_self, Function.update_of_ne (hsl x d a hb).2, hp.edge x d a hb, hp.root x hxr]
        · rw [Function.update_of_ne (hsl b d a hb).2, Function.update_of_ne hbn]
          exact hp.edge b d a hb
      · intro a ha
        rw [roots_append S.heap] at ha
        rcases List.mem_append.mp ha with ha | ha
        · rw [Function.update_of_ne (hroot a ha)]
          exact hp.root a ha
        · rw [List.mem_singleton.mp ha, Function.update_self]
    · simp only [pure_eq_ok, Except.ok.injEq, Prod.mk.injEq] at ho
      obtain ⟨-, rfl⟩ := ho
      exact ⟨path, hp⟩
  | update i a hi w =>
    simp only [step] at ho
    split at ho
    · rename_i ctx x hx
      simp only [bind_eq_ok, Prod.exists, pure_eq_ok, Except.ok.injEq, Prod.mk.injEq] at ho
      obtain ⟨r, H', hc, -, rfl⟩ := ho
      have hxr : x ∈ S.roots := mem_roots.mpr ⟨i, ctx, hx⟩
      obtain ⟨n, hn⟩ := h.inv.hand x hxr
      have hlen : (ctx hi).reverse.length ≤ rk x := by
        have he := h.ent i
        rw [hx] at he
        match h2 : vs[i]?, he with
        | some (some (c', T)), he =>
          rw [List.length_reverse, h.rank x hxr]
          exact he.2.1 hi
      exact (wupdate_eq (M := 0) P a hi w _ rk path S.roots S.heap x n h.inv hp hn hlen).2 r H' hc
    · simp only [pure_eq_ok, Except.ok.injEq, Prod.mk.injEq] at ho
      obtain ⟨-, rfl⟩ := ho
      exact ⟨path, hp⟩
  | predict i a hi =>
    simp only [step] at ho
    split at ho
    · rename_i ctx x hx
      simp only [bind_eq_ok, Prod.exists, pure_eq_ok, Except.ok.injEq, Prod.mk.injEq] at ho
      obtain ⟨r, H', hc, -, rfl⟩ := ho
      have hxr : x ∈ S.roots := mem_roots.mpr ⟨i, ctx, hx⟩
      obtain ⟨n, hn⟩ := h.inv.hand x hxr
      have hlen : (ctx hi).reverse.length ≤ rk x := by
        have he := h.ent i
        rw [hx] at he
        match h2 : vs[i]?, he with
        | some (some (c', T)), he =>
          rw [List.length_reverse, h.rank x hxr]
          exact he.2.1 hi
      exact logPredict_placed P a hi _ rk path S.roots S.heap x n h.inv hp hn hlen r H' hc
    · simp only [pure_eq_ok, Except.ok.injEq, Prod.mk.injEq] at ho
      obtain ⟨-, rfl⟩ := ho
      exact ⟨path, hp⟩
  | destroy i =>
    simp only [step] at ho
    split at ho
    · rename_i ctx x hx
      simp only [bind_eq_ok, pure_eq_ok, Except.ok.injEq, Prod.mk.injEq] at ho
      obtain ⟨H', hc, -, rfl⟩ := ho
      have hxr : x ∈ S.roots := mem_roots.mpr ⟨i, ctx, hx⟩
      have hperm := roots_set S.models i ctx x hx
      have hhide : ∀ H : Heap σ k, H.hide ∅ = H := by
        intro H
        simp [hide]
      have hI := h.inv.perm (show S.roots.Perm (x :: (Session.mk S.heap (S.models.set i none)).roots) from hperm)
      rw [← hhide S.heap] at hI
      obtain ⟨H2, e1, hF⟩ := free_ok (D + 1) x S.heap ∅ _ hI (by rw [h.rank x hxr]; omega)
      rw [hc, Except.ok.injEq] at e1
      subst e1
      refine ⟨path, ?_, ?_⟩
      · intro b d a hb
        refine hp.edge b d a ?_
        simp only [slot] at hb ⊢
        cases hbm : H'.mem b with
        | none => simp [hbm] at hb
        | some m' =>
          obtain ⟨m, j, g1, rfl⟩ := hF.same b m' hbm
          rw [hbm, Option.bind_some] at hb
          rw [g1, Option.bind_some]
          exact hb
      · intro a ha
        exact hp.root a (hperm.mem_iff.mpr (List.mem_cons_of_mem _ ha))
    · simp only [pure_eq_ok, Except.ok.injEq, Prod.mk.injEq] at ho
      obtain ⟨-, rfl⟩ := ho
      exact ⟨path, hp⟩

theorem wstep_eq {M : ℕ} (P : Predictor σ α) (hP : ∀ s a h r t, P.logPredict s a h = .ok (r, t) → t = s) {D : ℕ}
    {rk : ℕ → ℕ} {path : ℕ → List (Fin k)} {S : Session σ α k} {vs : Trees σ α k} (h : Rel fresh D rk S vs)
    (hp : Placed path S.roots S.heap) (op : HOp α k) (hop : ∀ c, op = .new c → ∀ h, (c h).length ≤ D)
    (hM : vs.live < M) (hM' : ∀ o vs', Trees.step P fresh vs op = .ok (o, vs') → vs'.live < M) :
    wstep M P fresh (D + 1) S op = step P fresh (D + 1) S op := by
  rw [← h.live] at hM
  have hb : Below M S.heap := fun a m ha => lt_of_le_of_lt (hp.bound h.inv ha) hM
  obtain ⟨-, s2⟩ := step_rel P hP h op hop
  cases op with
  | new c => rfl
  | predict i a hi => rfl
  | copy i =>
    obtain ⟨vs', ho⟩ : ∃ vs', Trees.step P fresh vs (.copy i) = .ok (none, vs') := by
      simp only [Trees.step]
      split <;> exact ⟨_, rfl⟩
    obtain ⟨S', rk', e1, h1⟩ := s2 _ vs' ho
    obtain ⟨path', hp'⟩ := step_placed P h hp _ e1
    have hlive := hM' _ vs' ho
    rw [← h1.live] at hlive
    have hb' : Below M S'.heap := fun a m ha => lt_of_le_of_lt (hp'.bound h1.inv ha) hlive
    rw [e1]
    simp only [step] at e1
    simp only [wstep]
    split at e1
    · rename_i ctx x hx
      simp only [bind_eq_ok, Prod.exists, pure_eq_ok, Except.ok.injEq, Prod.mk.injEq] at e1
      obtain ⟨z, H', hc, -, rfl⟩ := e1
      simp only [hx, wcopyNode_eq hc hb', ok_bind, pure_eq_ok]
    · rename_i hno
      simp only [pure_eq_ok, Except.ok.injEq, Prod.mk.injEq] at e1
      obtain ⟨-, rfl⟩ := e1
      split
      · rename_i ctx x hx
        exact absurd hx (hno ctx x)
      · rfl
  | update i a hi w =>
    simp only [step, wstep]
    split
    · rename_i ctx x hx
      have hxr : x ∈ S.roots := mem_roots.mpr ⟨i, ctx, hx⟩
      obtain ⟨n, hn⟩ := h.inv.hand x hxr
      have hlen : (ctx hi).reverse.length ≤ rk x := by
        have he := h.ent i
        rw [hx] at he
        match h2 : vs[i]?, he with
        | some (some (c', T)), he =>
          rw [List.length_reverse, h.rank x hxr]
          exact he.2.1 hi
      rw [(wupdate_eq (M := M) P a hi w _ rk path S.roots S.heap x n h.inv hp hn hlen).1 hM, hx]
    · rename_i hno
      split
      · rename_i ctx x hx
        exact absurd hx (hno ctx x)
      · rfl
  | destroy i =>
    obtain ⟨vs', ho⟩ : ∃ vs', Trees.step P fresh vs (.destroy i) = .ok (none, vs') := by
      simp only [Trees.step]
      split <;> exact ⟨_, rfl⟩
    obtain ⟨S', rk', e1, h1⟩ := s2 _ vs' ho
    rw [e1]
    simp only [step] at e1
    simp only [wstep]
    split at e1
    · rename_i ctx x hx
      simp only [bind_eq_ok, pure_eq_ok, Except.ok.injEq, Prod.mk.injEq] at e1
      obtain ⟨H', hc, -, rfl⟩ := e1
      simp only [hx, (wfree_eq _ x S.heap H' hc hb).1, ok_bind, pure_eq_ok]
    · rename_i hno
      simp only [pure_eq_ok, Except.ok.injEq, Prod.mk.injEq] at e1
      obtain ⟨-, rfl⟩ := e1
      split
      · rename_i ctx x hx
        exact absurd hx (hno ctx x)
      · rfl

theorem placed_start : Placed (fun _ => []) (start : Session σ α k).roots (start : Session σ α k).heap := by
  constructor <;> simp [start, Heap.empty, roots, slot]

theorem wrun_eq {M : ℕ} (P : Predictor σ α) (hP : ∀ s a h r t, P.logPredict s a h = .ok (r, t) → t = s) {D : ℕ}
    (ops : List (HOp α k)) (hop : ∀ c, HOp.new c ∈ ops → ∀ h, (c h).length ≤ D) :
    ∀ {rk : ℕ → ℕ} {path : ℕ → List (Fin k)} {S : Session σ α k} {vs : Trees σ α k}, Rel fresh D rk S vs →
    Placed path S.roots S.heap →
    (∀ ops1 vs', ops1 <+: ops → (Trees.run P fresh vs ops1).2 = .ok vs' → vs'.live < M) →
    wrun M P fresh (D + 1) S ops = run P fresh (D + 1) S ops := by
  induction ops with
  | nil => intros; rfl
  | cons op ops ih =>
    intro rk path S vs h hp hM
    have hop1 : ∀ c, op = .new c → ∀ h, (c h).length ≤ D := by rintro c rfl; exact hop c (by simp)
    have h0 := hM [] vs (by simp) rfl
    have hstep := wstep_eq (M := M) P hP h hp op hop1 h0 (by
      intro o vs' ho
      exact hM [op] vs' (by simp) (by simp [Trees.run, ho]))
    obtain ⟨s1, s2⟩ := step_rel P hP h op hop1
    simp only [wrun, run, hstep]
    cases hst : Trees.step P fresh vs op with
    | error e => rw [s1 e hst]
    | ok q =>
      obtain ⟨o, vs1⟩ := q
      obtain ⟨S1, rk1, e1, h1⟩ := s2 o vs1 hst
      obtain ⟨path1, hp1⟩ := step_placed P h hp op e1
      have := ih (fun c hc => hop c (by simp [hc])) h1 hp1 (by
        intro ops1 vs' hpre hr
        refine hM (op :: ops1) vs' ?_ ?_
        · simpa using hpre
        · simpa [Trees.run, hst] using hr)
      simp only [e1, this]

theorem run_placed (P : Predictor σ α) (hP : ∀ s a h r t, P.logPredict s a h = .ok (r, t) → t = s) {D : ℕ}
    (ops : List (HOp α k)) (hop : ∀ c, HOp.new c ∈ ops → ∀ h, (c h).length ≤ D) :
    ∀ {rk : ℕ → ℕ} {path : ℕ → List (Fin k)} {S : Session σ α k} {vs : Trees σ α k}, Rel fresh D rk S vs →
    Placed path S.roots S.heap → ∀ S', (run P fresh (D + 1) S ops).2 = .ok S' →
    ∃ path', Placed path' S'.roots S'.heap := by
  induction ops with
  | nil =>
    intro rk path S vs h hp S' hS
    simp only [run, Except.ok.injEq] at hS
    subst hS
    exact ⟨path, hp⟩
  | cons op ops ih =>
    intro rk path S vs h hp S' hS
    have hop1 : ∀ c, op = .new c → ∀ h, (c h).length ≤ D := by rintro c rfl; exact hop c (by simp)
    obtain ⟨s1, s2⟩ := step_rel P hP h op hop1
    cases hst : Trees.step P fresh vs op with
    | error e => simp [run, s1 e hst] at hS
    | ok q =>
      obtain ⟨o, vs1⟩ := q
      obtain ⟨S1, rk1, e1, h1⟩ := s2 o vs1 hst
      obtain ⟨path1, hp1⟩ := step_placed P h hp op e1
      simp only [run, e1] at hS
      exact ih (fun c hc => hop c (by simp [hc])) h1 hp1 S' hS

end Session

end Verif
