import Verif.Proofs.CTWHeapFree
import Verif.Spec.CTWHeap

/-! Sessions over shared memory behave like sessions over separate trees. -/

namespace Verif

open Heap

namespace Session

variable {σ α : Type} {k : ℕ} {fresh : σ}

/-- Corresponding entries of the two kinds of session. -/
def Entry (fresh : σ) (D : ℕ) (H : Heap σ k) : Option (Option ((List α → List (Fin k)) × ℕ)) →
    Option (Option ((List α → List (Fin k)) × CTWNode σ (Fin k))) → Prop
  | none, none => True
  | some none, some none => True
  | some (some (c, x)), some (some (c', T)) => c = c' ∧ (∀ h, (c h).length ≤ D) ∧ SimAll fresh H (some x) T
  | _, _ => False

structure Rel (fresh : σ) (D : ℕ) (rk : ℕ → ℕ) (S : Session σ α k) (vs : Trees σ α k) : Prop where
  inv : Inv rk S.roots S.heap
  top : ∀ x ∈ S.roots, ∀ b d, S.heap.slot b d ≠ some x
  rank : ∀ x ∈ S.roots, rk x = D
  len : S.models.length = vs.length
  inj : ∀ (i j : ℕ) (c c' : List α → List (Fin k)) (x : ℕ), S.models[i]? = some (some (c, x)) → S.models[j]? = some (some (c', x)) → i = j
  ent : ∀ i : ℕ, Entry fresh D S.heap (S.models[i]?) (vs[i]?)

theorem mem_roots {S : Session σ α k} {x : ℕ} :
    x ∈ S.roots ↔ ∃ (i : ℕ) (c : List α → List (Fin k)), S.models[i]? = some (some (c, x)) := by
  simp only [roots, List.mem_filterMap, Option.map_eq_some_iff, Prod.exists]
  constructor
  · rintro ⟨o, ho, c, y, rfl, rfl⟩
    obtain ⟨i, hi⟩ := List.mem_iff_getElem?.mp ho
    exact ⟨i, c, hi⟩
  · rintro ⟨i, c, hi⟩
    exact ⟨some (c, x), List.mem_of_getElem? hi, c, x, rfl, rfl⟩

theorem roots_append (H H' : Heap σ k) (l : List (Option ((List α → List (Fin k)) × ℕ)))
    (c : List α → List (Fin k)) (z : ℕ) :
    (Session.mk H' (l ++ [some (c, z)])).roots = (Session.mk H l).roots ++ [z] := by
  simp [roots]

theorem roots_set (l : List (Option ((List α → List (Fin k)) × ℕ))) (i : ℕ) (c : List α → List (Fin k)) (x : ℕ)
    (h : l[i]? = some (some (c, x))) :
    (l.filterMap (fun o => o.map Prod.snd)).Perm (x :: (l.set i none).filterMap (fun o => o.map Prod.snd)) := by
  induction l generalizing i with
  | nil => simp at h
  | cons o l ih =>
    cases i with
    | zero =>
      rw [List.getElem?_cons_zero, Option.some.injEq] at h
      subst h
      simp
    | succ i =>
      rw [List.getElem?_cons_succ] at h
      have := ih i h
      rw [List.set_cons_succ]
      cases o with
      | none => simpa using this
      | some p =>
        simp only [List.filterMap_cons, Option.map_some]
        exact (this.cons p.2).trans (List.Perm.swap _ _ _)

theorem Entry.mono {D : ℕ} {H H' : Heap σ k} {o : Option (Option ((List α → List (Fin k)) × ℕ))}
    {o' : Option (Option ((List α → List (Fin k)) × CTWNode σ (Fin k)))}
    (hs : ∀ c x T, o = some (some (c, x)) → SimAll fresh H (some x) T → SimAll fresh H' (some x) T)
    (h : Entry fresh D H o o') : Entry fresh D H' o o' := by
  match o, o', h with
  | none, none, _ => trivial
  | some none, some none, _ => trivial
  | some (some (c, x)), some (some (c', T)), h => exact ⟨h.1, h.2.1, hs c x T rfl h.2.2⟩

/-- Adding a model whose root is a new address. -/
theorem Rel.push {D : ℕ} {rk rk' : ℕ → ℕ} {S : Session σ α k} {vs : Trees σ α k} (h : Rel fresh D rk S vs)
    {H' : Heap σ k} (hinv : Inv rk' (S.heap.next :: S.roots) H')
    (hrk : ∀ a m, S.heap.mem a = some m → rk' a = rk a) (hz : rk' S.heap.next = D)
    (hslot : ∀ b d a, H'.slot b d = some a → ∃ b' d', S.heap.slot b' d' = some a)
    (hsim : ∀ x T, (∃ m, S.heap.mem x = some m) → SimAll fresh S.heap (some x) T → SimAll fresh H' (some x) T)
    (c : List α → List (Fin k)) (hc : ∀ h, (c h).length ≤ D) (T : CTWNode σ (Fin k))
    (hT : SimAll fresh H' (some S.heap.next) T) :
    Rel fresh D rk' ⟨H', S.models ++ [some (c, S.heap.next)]⟩ (vs ++ [some (c, T)]) := by
  have hroots := roots_append S.heap H' S.models c S.heap.next
  have hnn := h.inv.next_none
  have hfresh : S.heap.next ∉ S.roots := by
    intro hm
    obtain ⟨m, hm⟩ := h.inv.hand _ hm
    rw [hnn] at hm
    cases hm
  refine ⟨?_, ?_, ?_, ?_, ?_, ?_⟩
  · rw [hroots]
    exact hinv.perm (List.perm_append_singleton _ _).symm
  · intro x hx b d hbd
    obtain ⟨b', d', h'⟩ := hslot b d x hbd
    rw [hroots, List.mem_append, List.mem_singleton] at hx
    rcases hx with hx | rfl
    · exact h.top x hx b' d' h'
    · obtain ⟨_, ⟨m, hm⟩, _⟩ := h.inv.slot_alloc h'
      rw [hnn] at hm
      cases hm
  · intro x hx
    rw [hroots, List.mem_append, List.mem_singleton] at hx
    rcases hx with hx | rfl
    · obtain ⟨m, hm⟩ := h.inv.hand x hx
      rw [hrk x m hm, h.rank x hx]
    · exact hz
  · simp [h.len]
  · intro i j c1 c2 x hi hj
    simp only at hi hj
    have key : ∀ (i : ℕ) (c1 : List α → List (Fin k)) (x : ℕ), (S.models ++ [some (c, S.heap.next)])[i]? = some (some (c1, x)) →
        (S.models[i]? = some (some (c1, x)) ∧ x ∈ S.roots) ∨ (i = S.models.length ∧ x = S.heap.next) := by
      intro i c1 x hi
      rw [List.getElem?_append] at hi
      split_ifs at hi with hlt
      · left
        exact ⟨hi, mem_roots.mpr ⟨i, c1, hi⟩⟩
      · right
        obtain ⟨e, he⟩ : ∃ e, i = S.models.length + e := ⟨i - S.models.length, by omega⟩
        subst he
        rw [Nat.add_sub_cancel_left] at hi
        cases e with
        | zero =>
          simp only [List.getElem?_cons_zero, Option.some.injEq, Prod.mk.injEq] at hi
          exact ⟨rfl, hi.2.symm⟩
        | succ e => simp at hi
    rcases key i c1 x hi with ⟨h1, h2⟩ | ⟨h1, h2⟩
    · rcases key j c2 x hj with ⟨h3, _⟩ | ⟨_, h4⟩
      · exact h.inj i j c1 c2 x h1 h3
      · exact absurd (h4 ▸ h2) hfresh
    · rcases key j c2 x hj with ⟨_, h4⟩ | ⟨h3, _⟩
      · exact absurd (h2 ▸ h4) hfresh
      · omega
  · intro i
    have hi := h.ent i
    rw [List.getElem?_append, List.getElem?_append, ← h.len]
    split_ifs with hlt
    · refine hi.mono ?_
      intro c1 x T1 hx hs
      exact hsim x T1 (h.inv.hand x (mem_roots.mpr ⟨i, c1, hx⟩)) hs
    · obtain ⟨e, he⟩ : ∃ e, i = S.models.length + e := ⟨i - S.models.length, by omega⟩
      subst he
      rw [Nat.add_sub_cancel_left]
      cases e with
      | zero => exact ⟨rfl, hc, hT⟩
      | succ e => simp [Entry]

/-- Changing the tree of one model and leaving the others. -/
theorem Rel.modify {D : ℕ} {rk rk' : ℕ → ℕ} {S : Session σ α k} {vs : Trees σ α k} (h : Rel fresh D rk S vs)
    {i : ℕ} {c : List α → List (Fin k)} {x : ℕ} {T : CTWNode σ (Fin k)}
    (hi : S.models[i]? = some (some (c, x))) (hv : vs[i]? = some (some (c, T)))
    {H' : Heap σ k} (hinv : Inv rk' S.roots H')
    (hrk : ∀ a m, S.heap.mem a = some m → rk' a = rk a)
    (hold : ∀ b d a m, H'.slot b d = some a → S.heap.mem a = some m → ∃ b' d', S.heap.slot b' d' = some a)
    (hsim : ∀ y U, y ∈ S.roots → y ≠ x → SimAll fresh S.heap (some y) U → SimAll fresh H' (some y) U)
    (T' : CTWNode σ (Fin k)) (hT : SimAll fresh H' (some x) T') :
    Rel fresh D rk' ⟨H', S.models⟩ (vs.set i (some (c, T'))) := by
  refine ⟨hinv, ?_, ?_, ?_, h.inj, ?_⟩
  · intro y hy b d hbd
    obtain ⟨m, hm⟩ := h.inv.hand y hy
    obtain ⟨b', d', h'⟩ := hold b d y m hbd hm
    exact h.top y hy b' d' h'
  · intro y hy
    obtain ⟨m, hm⟩ := h.inv.hand y hy
    rw [hrk y m hm]
    exact h.rank y hy
  · simp [h.len]
  · intro j
    have hj := h.ent j
    by_cases hij : i = j
    · subst hij
      have hlt : i < vs.length := by
        have := List.getElem?_eq_some_iff.mp hv
        exact this.1
      simp only [List.getElem?_set_self hlt]
      rw [hi, hv] at hj
      rw [hi]
      exact ⟨rfl, hj.2.1, hT⟩
    · rw [List.getElem?_set_ne hij]
      refine hj.mono ?_
      intro c1 y U hy hs
      refine hsim y U (mem_roots.mpr ⟨j, c1, hy⟩) ?_ hs
      rintro rfl
      exact hij (h.inj i j c c1 y hi hy)

theorem step_rel (P : Predictor σ α) (hP : ∀ s a h r t, P.logPredict s a h = .ok (r, t) → t = s) {D : ℕ}
    {rk : ℕ → ℕ} {S : Session σ α k} {vs : Trees σ α k} (h : Rel fresh D rk S vs) (op : HOp α k)
    (hop : ∀ c, op = .new c → ∀ h, (c h).length ≤ D) :
    (∀ e, Trees.step P fresh vs op = .error e → step P fresh (D + 1) S op = .error (.py e)) ∧
    (∀ o vs', Trees.step P fresh vs op = .ok (o, vs') →
      ∃ S' rk', step P fresh (D + 1) S op = .ok (o, S') ∧ Rel fresh D rk' S' vs') := by
  cases op with
  | new c =>
    constructor
    · intro e he
      simp [Trees.step] at he
    · intro o vs' ho
      simp only [Trees.step, Except.ok.injEq, Prod.mk.injEq] at ho
      obtain ⟨rfl, rfl⟩ := ho
      refine ⟨_, Function.update rk S.heap.next D, rfl, ?_⟩
      have hnn := h.inv.next_none
      have hne : ∀ a m, S.heap.mem a = some m → a ≠ S.heap.next := by
        rintro a m ha rfl
        rw [hnn] at ha
        cases ha
      refine h.push (h.inv.allocNew fresh D) ?_ (by simp) ?_ ?_ c (hop c rfl) _ ?_
      · intro a m ha
        rw [Function.update_of_ne (hne a m ha)]
      · intro b d a hbd
        simp only [slot, Heap.alloc] at hbd
        by_cases hb : b = S.heap.next
        · subst hb
          simp [newNode] at hbd
        · rw [Function.update_of_ne hb] at hbd
          exact ⟨b, d, hbd⟩
      · rintro x T hx hs
        refine SimAll.transfer {a | ∃ m, S.heap.mem a = some m} ?_ (by rintro a ⟨⟩; exact hx) hs
        rintro a ⟨m, hm⟩
        refine ⟨m, hm, ?_, m.rc, by simp [Heap.alloc, Function.update_of_ne (hne a m hm), hm]⟩
        intro d b hb
        exact (h.inv.edge a m d b hm hb).1
      · have hz : (S.heap.alloc (newNode fresh)).mem S.heap.next = some (newNode fresh) := by simp [Heap.alloc]
        intro j
        have hdat : Data (newNode fresh : HNode σ k) (CTW.init fresh) := ⟨rfl, rfl, rfl, rfl⟩
        have hnone : ∀ j, Sim fresh (S.heap.alloc (newNode fresh)) j none (CTW.init fresh) := by
          intro j
          induction j with
          | zero => exact hdat
          | succ j ih => exact ⟨hdat, fun d => ih⟩
        cases j with
        | zero =>
          simp only [Sim, view_some hz]
          exact hdat
        | succ j =>
          simp only [Sim, view_some hz]
          exact ⟨hdat, fun d => hnone j⟩
  | copy i =>
    have hi := h.ent i
    match h1 : S.models[i]?, h2 : vs[i]?, hi with
    | none, none, _ =>
      constructor
      · intro e he; simp [Trees.step, h2] at he
      · intro o vs' ho
        simp only [Trees.step, h2, Except.ok.injEq, Prod.mk.injEq] at ho
        obtain ⟨rfl, rfl⟩ := ho
        exact ⟨S, rk, by simp [step, h1], h⟩
    | some none, some none, _ =>
      constructor
      · intro e he; simp [Trees.step, h2] at he
      · intro o vs' ho
        simp only [Trees.step, h2, Except.ok.injEq, Prod.mk.injEq] at ho
        obtain ⟨rfl, rfl⟩ := ho
        exact ⟨S, rk, by simp [step, h1], h⟩
    | some (some (c, x)), some (some (c', T)), ⟨hcc, hlen, hs⟩ =>
      subst hcc
      constructor
      · intro e he; simp [Trees.step, h2] at he
      · intro o vs' ho
        simp only [Trees.step, h2, Except.ok.injEq, Prod.mk.injEq] at ho
        obtain ⟨rfl, rfl⟩ := ho
        have hxr : x ∈ S.roots := mem_roots.mpr ⟨i, c, h1⟩
        obtain ⟨n, hn⟩ := h.inv.hand x hxr
        obtain ⟨H', e1, e2, e3, e4, e5⟩ := h.inv.copyNode hn
        refine ⟨⟨H', S.models ++ [some (c, S.heap.next)]⟩, Function.update rk S.heap.next (rk x),
          by simp [step, h1, e1], ?_⟩
        have hnn := h.inv.next_none
        have hne : ∀ a m, S.heap.mem a = some m → a ≠ S.heap.next := by
          rintro a m ha rfl
          rw [hnn] at ha
          cases ha
        have htr : ∀ p T, (∀ a, p = some a → ∃ m, S.heap.mem a = some m) → SimAll fresh S.heap p T →
            SimAll fresh H' p T := by
          intro p T hp hs
          refine SimAll.transfer {a | ∃ m, S.heap.mem a = some m} ?_ hp hs
          rintro a ⟨m, hm⟩
          refine ⟨m, hm, ?_, _, by rw [e5 a (hne a m hm), hm]; rfl⟩
          intro d b hb
          exact (h.inv.edge a m d b hm hb).1
        refine h.push e2 ?_ (by rw [Function.update_self, h.rank x hxr]) ?_ ?_ c hlen T ?_
        · intro a m ha
          rw [Function.update_of_ne (hne a m ha)]
        · intro b d a hbd
          simp only [slot] at hbd
          by_cases hb : b = S.heap.next
          · subst hb
            rw [e4, Option.bind_some] at hbd
            exact ⟨x, d, by simp only [slot, hn, Option.bind_some]; exact hbd⟩
          · rw [e5 b hb] at hbd
            refine ⟨b, d, ?_⟩
            simp only [slot]
            cases hmb : S.heap.mem b with
            | none => simp [hmb] at hbd
            | some q => simpa [hmb] using hbd
        · intro y U hy hs'
          exact htr _ _ (by rintro a ⟨⟩; exact hy) hs'
        · obtain ⟨g1, g2⟩ := simAll_iff.mp hs
          rw [view_some hn] at g1 g2
          refine simAll_iff.mpr ⟨?_, ?_⟩
          · rw [view_some e4]
            exact ⟨g1.base, g1.baseLP, g1.childrenLP, g1.lp⟩
          · intro d
            rw [view_some e4]
            exact htr _ _ (fun a ha => (h.inv.edge x n d a hn ha).1) (g2 d)
  | update i a hi' w =>
    have hi := h.ent i
    match h1 : S.models[i]?, h2 : vs[i]?, hi with
    | none, none, _ =>
      constructor
      · intro e he; simp [Trees.step, h2] at he
      · intro o vs' ho
        simp only [Trees.step, h2, Except.ok.injEq, Prod.mk.injEq] at ho
        obtain ⟨rfl, rfl⟩ := ho
        exact ⟨S, rk, by simp [step, h1], h⟩
    | some none, some none, _ =>
      constructor
      · intro e he; simp [Trees.step, h2] at he
      · intro o vs' ho
        simp only [Trees.step, h2, Except.ok.injEq, Prod.mk.injEq] at ho
        obtain ⟨rfl, rfl⟩ := ho
        exact ⟨S, rk, by simp [step, h1], h⟩
    | some (some (c, x)), some (some (c', T)), ⟨hcc, hlen, hs⟩ =>
      subst hcc
      have hxr : x ∈ S.roots := mem_roots.mpr ⟨i, c, h1⟩
      obtain ⟨n, hn⟩ := h.inv.hand x hxr
      set G : Set ℕ := {b | Reach S.heap {b | b ∈ S.roots ∧ b ≠ x} b} with hG
      have hGal : ∀ b ∈ G, ∃ m, S.heap.mem b = some m := by
        intro b hb
        cases hb with
        | root hr => exact h.inv.hand b hr.1
        | step _ hsl => exact (h.inv.slot_alloc hsl).2.1
      obtain ⟨u1, u2⟩ := update_sim (fresh := fresh) P a hi' w (c hi').reverse rk S.roots G S.heap x n T h.inv hn
        (by rw [List.length_reverse, h.rank x hxr]; exact hlen hi') hs
        (by
          intro hxG
          cases hxG with
          | root hr => exact hr.2 rfl
          | step _ hsl => exact h.top x hxr _ _ hsl)
        hGal
        (by
          intro b hb _
          cases hb with
          | root hr => exact .inl hr.1
          | step hr hsl => exact .inr ⟨_, hr, _, hsl⟩)
      constructor
      · intro e he
        simp only [Trees.step, h2, CTW.predictor] at he
        cases hu : T.update P fresh a hi' w (c hi').reverse with
        | error e' =>
          rw [hu] at he
          simp only [error_bind, Except.error.injEq] at he
          subst he
          simp [step, h1, u1 _ hu]
        | ok q => rw [hu] at he; simp at he
      · intro o vs' ho
        simp only [Trees.step, h2, CTW.predictor, bind_eq_ok, pure_eq_ok, Except.ok.injEq, Prod.mk.injEq,
          Prod.exists] at ho
        obtain ⟨r, T', hu, rfl, rfl⟩ := ho
        obtain ⟨H', rk', e1, hU⟩ := u2 r T' hu
        refine ⟨⟨H', S.models⟩, rk', by simp [step, h1, e1], ?_⟩
        refine h.modify h1 h2 hU.inv hU.rkeq hU.old ?_ T' hU.sim
        intro y U hy hyx hsy
        refine SimAll.transfer G ?_ (by rintro b ⟨⟩; exact Reach.root ⟨hy, hyx⟩) hsy
        intro b hb
        obtain ⟨m, hm⟩ := hGal b hb
        refine ⟨m, hm, ?_, hU.frame b m hb hm⟩
        intro d b' hb'
        exact Reach.step (c := d) hb (by simp [slot, hm, hb'])
  | predict i a hi' =>
    have hi := h.ent i
    match h1 : S.models[i]?, h2 : vs[i]?, hi with
    | none, none, _ =>
      constructor
      · intro e he; simp [Trees.step, h2] at he
      · intro o vs' ho
        simp only [Trees.step, h2, Except.ok.injEq, Prod.mk.injEq] at ho
        obtain ⟨rfl, rfl⟩ := ho
        exact ⟨S, rk, by simp [step, h1], h⟩
    | some none, some none, _ =>
      constructor
      · intro e he; simp [Trees.step, h2] at he
      · intro o vs' ho
        simp only [Trees.step, h2, Except.ok.injEq, Prod.mk.injEq] at ho
        obtain ⟨rfl, rfl⟩ := ho
        exact ⟨S, rk, by simp [step, h1], h⟩
    | some (some (c, x)), some (some (c', T)), ⟨hcc, hlen, hs⟩ =>
      subst hcc
      have hxr : x ∈ S.roots := mem_roots.mpr ⟨i, c, h1⟩
      obtain ⟨n, hn⟩ := h.inv.hand x hxr
      obtain ⟨u1, u2⟩ := logPredict_sim (fresh := fresh) P hP a hi' (c hi').reverse rk S.roots S.heap x n T
        h.inv hn (by rw [List.length_reverse, h.rank x hxr]; exact hlen hi') hs
      constructor
      · intro e he
        simp only [Trees.step, h2, CTW.predictor] at he
        cases hu : T.logPredict P fresh a hi' (c hi').reverse with
        | error e' =>
          rw [hu] at he
          simp only [error_bind, Except.error.injEq] at he
          subst he
          simp [step, h1, u1 _ hu]
        | ok q => rw [hu] at he; simp at he
      · intro o vs' ho
        simp only [Trees.step, h2, CTW.predictor, bind_eq_ok, pure_eq_ok, Except.ok.injEq, Prod.mk.injEq,
          Prod.exists] at ho
        obtain ⟨r, T', hu, rfl, rfl⟩ := ho
        obtain ⟨H', rk', e1, hU⟩ := u2 r T' hu
        refine ⟨⟨H', S.models⟩, rk', by simp [step, h1, e1], ?_⟩
        refine h.modify h1 h2 hU.inv hU.rkeq hU.old ?_ T' ?_
        · intro y U hy _ hsy
          exact hU.sim _ _ (by rintro b ⟨⟩; exact h.inv.hand y hy) hsy
        · exact SimAll.logPredict hP hu (hU.sim _ _ (by rintro b ⟨⟩; exact ⟨n, hn⟩) hs)
  | destroy i =>
    have hi := h.ent i
    match h1 : S.models[i]?, h2 : vs[i]?, hi with
    | none, none, _ =>
      constructor
      · intro e he; simp [Trees.step, h2] at he
      · intro o vs' ho
        simp only [Trees.step, h2, Except.ok.injEq, Prod.mk.injEq] at ho
        obtain ⟨rfl, rfl⟩ := ho
        exact ⟨S, rk, by simp [step, h1], h⟩
    | some none, some none, _ =>
      constructor
      · intro e he; simp [Trees.step, h2] at he
      · intro o vs' ho
        simp only [Trees.step, h2, Except.ok.injEq, Prod.mk.injEq] at ho
        obtain ⟨rfl, rfl⟩ := ho
        exact ⟨S, rk, by simp [step, h1], h⟩
    | some (some (c, x)), some (some (c', T)), ⟨hcc, hlen, hs⟩ =>
      subst hcc
      constructor
      · intro e he; simp [Trees.step, h2] at he
      · intro o vs' ho
        simp only [Trees.step, h2, Except.ok.injEq, Prod.mk.injEq] at ho
        obtain ⟨rfl, rfl⟩ := ho
        have hxr : x ∈ S.roots := mem_roots.mpr ⟨i, c, h1⟩
        have hperm := roots_set S.models i c x h1
        set S' : ∀ H : Heap σ k, Session σ α k := fun H => ⟨H, S.models.set i none⟩ with hS'
        have hperm' : ∀ H, S.roots.Perm (x :: (S' H).roots) := fun H => hperm
        have hhide : ∀ H : Heap σ k, H.hide ∅ = H := by
          intro H
          simp [hide]
        have hI := h.inv.perm (hperm' S.heap)
        rw [← hhide S.heap] at hI
        obtain ⟨H', e1, hF⟩ := free_ok (D + 1) x S.heap ∅ _ hI (by rw [h.rank x hxr]; omega)
        have hinv := hF.inv
        rw [hhide H'] at hinv
        refine ⟨⟨H', S.models.set i none⟩, rk, by simp [step, h1, e1], ?_⟩
        have hsub : ∀ y, y ∈ (S' H').roots → y ∈ S.roots := by
          intro y hy
          exact (hperm' H').mem_iff.mpr (List.mem_cons_of_mem _ hy)
        have hslot : ∀ b d a, H'.slot b d = some a → S.heap.slot b d = some a := by
          intro b d a hbd
          simp only [slot] at hbd ⊢
          cases hb : H'.mem b with
          | none => simp [hb] at hbd
          | some m' =>
            obtain ⟨m, j, g1, rfl⟩ := hF.same b m' hb
            rw [hb, Option.bind_some] at hbd
            rw [g1, Option.bind_some]
            exact hbd
        refine ⟨hinv, ?_, ?_, by simp [h.len], ?_, ?_⟩
        · intro y hy b d hbd
          exact h.top y (hsub y hy) b d (hslot b d y hbd)
        · intro y hy
          exact h.rank y (hsub y hy)
        · intro j l c1 c2 y hj hl
          simp only at hj hl
          have key : ∀ (j : ℕ) (c1 : List α → List (Fin k)), (S.models.set i none)[j]? = some (some (c1, y)) → S.models[j]? = some (some (c1, y)) := by
            intro j c1 hj
            by_cases hij : i = j
            · subst hij
              rw [List.getElem?_set_self'] at hj
              rw [h1] at hj
              simp at hj
            · rwa [List.getElem?_set_ne hij] at hj
          exact h.inj j l c1 c2 y (key j c1 hj) (key l c2 hl)
        · intro j
          have hj := h.ent j
          by_cases hij : i = j
          · subst hij
            simp only
            rw [List.getElem?_set_self', List.getElem?_set_self', h1, h2]
            trivial
          · simp only
            rw [List.getElem?_set_ne hij, List.getElem?_set_ne hij]
            refine hj.mono ?_
            intro c1 y U hy hsy
            have hyr : y ∈ (S' H').roots := mem_roots.mpr ⟨j, c1, by simp [hS', List.getElem?_set_ne hij, hy]⟩
            refine SimAll.transfer {b | ∃ m, H'.mem b = some m} ?_ (by rintro b ⟨⟩; exact hinv.hand y hyr) hsy
            rintro b ⟨m', hm'⟩
            obtain ⟨m, j', g1, rfl⟩ := hF.same b m' hm'
            refine ⟨m, g1, ?_, j', hm'⟩
            intro d b' hb'
            exact (hinv.edge b _ d b' hm' hb').1

theorem rel_start (D : ℕ) : Rel (α := α) fresh D (fun _ => 0) (start : Session σ α k) [] := by
  refine ⟨⟨?_, ?_, ?_, ?_, ?_⟩, ?_, ?_, rfl, ?_, ?_⟩ <;> simp [start, Heap.empty, roots, Entry]

theorem run_rel (P : Predictor σ α) (hP : ∀ s a h r t, P.logPredict s a h = .ok (r, t) → t = s) {D : ℕ}
    (ops : List (HOp α k)) (hop : ∀ c, HOp.new c ∈ ops → ∀ h, (c h).length ≤ D) :
    ∀ {rk : ℕ → ℕ} {S : Session σ α k} {vs : Trees σ α k}, Rel fresh D rk S vs →
    (run P fresh (D + 1) S ops).1 = (Trees.run P fresh vs ops).1 ∧
    (∀ e, (Trees.run P fresh vs ops).2 = .error e → (run P fresh (D + 1) S ops).2 = .error (.py e)) ∧
    (∀ vs', (Trees.run P fresh vs ops).2 = .ok vs' →
      ∃ S' rk', (run P fresh (D + 1) S ops).2 = .ok S' ∧ Rel fresh D rk' S' vs') := by
  induction ops with
  | nil =>
    intro rk S vs h
    refine ⟨rfl, by simp [Trees.run], ?_⟩
    intro vs' hvs
    simp only [Trees.run, Except.ok.injEq] at hvs
    subst hvs
    exact ⟨S, rk, rfl, h⟩
  | cons op ops ih =>
    intro rk S vs h
    obtain ⟨s1, s2⟩ := step_rel P hP h op (by rintro c rfl; exact hop c (by simp))
    cases hst : Trees.step P fresh vs op with
    | error e =>
      have := s1 e hst
      refine ⟨by simp [run, Trees.run, hst, this], ?_, ?_⟩
      · intro e' he'
        simp only [Trees.run, hst, Except.error.injEq] at he'
        simp [run, this, he']
      · intro vs' hvs
        simp [Trees.run, hst] at hvs
    | ok q =>
      obtain ⟨o, vs1⟩ := q
      obtain ⟨S1, rk1, e1, h1⟩ := s2 o vs1 hst
      obtain ⟨i1, i2, i3⟩ := ih (fun c hc => hop c (by simp [hc])) h1
      refine ⟨by simp [run, Trees.run, hst, e1, i1], ?_, ?_⟩
      · intro e he
        simp only [Trees.run, hst] at he
        simp only [run, e1]
        exact i2 e he
      · intro vs' hvs
        simp only [Trees.run, hst] at hvs
        simp only [run, e1]
        exact i3 vs' hvs

end Session

end Verif
