import Verif.Proofs.CTWHeapSession
import Verif.Model.CTWHeapWrap
import Verif.Spec.CTWHeapWrap

/-! Reference counts never exceed the number of existing models; so counts of a fixed size do not wrap. -/

namespace Verif

namespace Heap

variable {σ α : Type} {k : ℕ} {fresh : σ}

/-- Every node stands at one place of the trees: `path` gives the symbols from the node up to the root. -/
structure Placed (path : ℕ → List (Fin k)) (hs : List ℕ) (H : Heap σ k) : Prop where
  edge : ∀ b d a, H.slot b d = some a → path a = d :: path b
  root : ∀ a ∈ hs, path a = []

theorem Placed.unique {path : ℕ → List (Fin k)} {hs : List ℕ} {H : Heap σ k} (h : Placed path hs H) {r : ℕ}
    (hr : r ∈ hs) {a b : ℕ} (ha : Reach H {r} a) (hb : Reach H {r} b) (hp : path a = path b) : a = b := by
  induction ha generalizing b with
  | root ha =>
    rw [Set.mem_singleton_iff] at ha
    subst ha
    cases hb with
    | root hb => exact (Set.mem_singleton_iff.mp hb).symm
    | step h1 h2 =>
      rw [h.root _ hr, h.edge _ _ _ h2] at hp
      cases hp
  | step h1 h2 ih =>
    cases hb with
    | root hb =>
      rw [Set.mem_singleton_iff] at hb
      subst hb
      rw [h.root _ hr, h.edge _ _ _ h2] at hp
      cases hp
    | step h3 h4 =>
      rw [h.edge _ _ _ h2, h.edge _ _ _ h4, List.cons.injEq] at hp
      obtain ⟨rfl, hp⟩ := hp
      have := ih h3 hp
      subst this
      rw [h2] at h4
      exact Option.some.inj h4

theorem Reach.one {H : Heap σ k} {hs : List ℕ} {a : ℕ} (h : Reach H {b | b ∈ hs} a) :
    ∃ r ∈ hs, Reach H {r} a := by
  induction h with
  | root h => exact ⟨_, h, .root rfl⟩
  | step _ h2 ih =>
    obtain ⟨r, hr, h3⟩ := ih
    exact ⟨r, hr, .step h3 h2⟩

/-- The count of a node is at most the number of references that the program holds. -/
theorem Placed.bound {rk : ℕ → ℕ} {path : ℕ → List (Fin k)} {hs : List ℕ} {H : Heap σ k} (h : Placed path hs H)
    (hI : Inv rk hs H) {a : ℕ} {n : HNode σ k} (ha : H.mem a = some n) : n.rc ≤ hs.length := by
  rw [hI.cnt a n ha]
  by_cases hm : a ∈ hs
  · have h0 : H.refs a = 0 := by
      rw [refs_eq_card, Finset.card_eq_zero, Finset.filter_eq_empty_iff]
      rintro ⟨b, c⟩ _ hb
      have := h.edge _ _ _ hb
      rw [h.root a hm] at this
      cases this
    rw [h0]
    exact List.count_le_length
  · rw [List.count_eq_zero.mpr hm, zero_add, refs_eq_card]
    refine le_trans ?_ hs.toFinset_card_le
    have key : ∀ q : ℕ × Fin k, H.slot q.1 q.2 = some a → ∃ r ∈ hs, Reach H {r} q.1 := by
      rintro ⟨b, c⟩ hb
      simp only [slot] at hb
      cases hmb : H.mem b with
      | none => simp [hmb] at hb
      | some m => exact (hI.reach hmb).one
    classical
    refine Finset.card_le_card_of_injOn
      (fun q => if hq : H.slot q.1 q.2 = some a then (key q hq).choose else 0) ?_ ?_
    · intro q hq
      have hq := (Finset.mem_filter.mp hq).2
      simp only [hq, dif_pos, List.coe_toFinset, Set.mem_setOf_eq]
      exact (key q hq).choose_spec.1
    · intro q hq q' hq' he
      have hq := (Finset.mem_filter.mp hq).2
      have hq' := (Finset.mem_filter.mp hq').2
      simp only [hq, hq', dif_pos] at he
      obtain ⟨h1, h2⟩ := (key q hq).choose_spec
      obtain ⟨_, h3⟩ := (key q' hq').choose_spec
      rw [← he] at h3
      have e1 := h.edge _ _ _ hq
      have e2 := h.edge _ _ _ hq'
      rw [e1, List.cons.injEq] at e2
      exact Prod.ext (h.unique h1 h2 h3 e2.2) e2.1

/-! ### Places are kept -/

theorem Placed.mono {path : ℕ → List (Fin k)} {hs : List ℕ} {H H' : Heap σ k} (h : Placed path hs H)
    (hs' : ∀ b d a, H'.slot b d = some a → H.slot b d = some a) : Placed path hs H' :=
  ⟨fun b d a hb => h.edge b d a (hs' b d a hb), h.root⟩

theorem slot_set {H : Heap σ k} {x : ℕ} {n n' : HNode σ k} (hx : H.mem x = some n) (hc : n'.children = n.children)
    (b : ℕ) (d : Fin k) : (H.set x n').slot b d = H.slot b d := by
  simp only [slot, set]
  by_cases hb : b = x
  · subst hb
    simp [hx, hc]
  · rw [Function.update_of_ne hb]

theorem Placed.set {path : ℕ → List (Fin k)} {hs : List ℕ} {H : Heap σ k} (h : Placed path hs H) {x : ℕ}
    {n n' : HNode σ k} (hx : H.mem x = some n) (hc : n'.children = n.children) : Placed path hs (H.set x n') :=
  h.mono (fun b d a hb => by rwa [slot_set hx hc] at hb)

theorem slot_incChildren (n : HNode σ k) (l : List (Fin k)) {H H' : Heap σ k} (h : incChildren n l H = .ok H')
    (b : ℕ) (d : Fin k) : H'.slot b d = H.slot b d := by
  induction l generalizing H with
  | nil =>
    simp only [incChildren, pure_eq_ok, Except.ok.injEq] at h
    rw [h]
  | cons c cs ih =>
    simp only [incChildren] at h
    cases hc : n.children c with
    | none =>
      rw [hc] at h
      exact ih h
    | some e =>
      rw [hc] at h
      simp only [bind_eq_ok] at h
      obtain ⟨m, hm, h⟩ := h
      have hm' : H.mem e = some m := by
        simp only [get] at hm
        split at hm <;> simp_all
      rw [ih h]
      exact slot_set hm' (n' := { m with rc := m.rc + 1 }) rfl b d

theorem slot_copyNode {H H' : Heap σ k} {a z : ℕ} (h : H.copyNode a = .ok (z, H')) :
    z = H.next ∧ ∀ b d, H'.slot b d = if b = H.next then H.slot a d else H.slot b d := by
  simp only [Heap.copyNode, bind_eq_ok, pure_eq_ok, Except.ok.injEq, Prod.mk.injEq] at h
  obtain ⟨n, hn, H2, h2, rfl, rfl⟩ := h
  have hn' : H.mem a = some n := by
    simp only [get] at hn
    split at hn <;> simp_all
  refine ⟨rfl, fun b d => ?_⟩
  rw [slot_incChildren _ _ h2]
  by_cases hb : b = H.next
  · simp [slot, alloc, hb, hn']
  · simp [slot, alloc, hb]

/-- The slots after `ownChild` and `peekChild`. -/
structure Grown (H : Heap σ k) (x : ℕ) (c : Fin k) (y : ℕ) (H' : Heap σ k) : Prop where
  self : H'.slot x c = some y
  new : y = H.next ∨ H.slot x c = some y
  slots : ∀ b d a, H'.slot b d = some a → (b = x ∧ d = c ∧ a = y) ∨ H.slot b d = some a ∨
    (y = H.next ∧ b = H.next ∧ ∃ y0, H.slot x c = some y0 ∧ H.slot y0 d = some a)

theorem Grown.placed {rk : ℕ → ℕ} {path : ℕ → List (Fin k)} {hs : List ℕ} {H H' : Heap σ k} {x y : ℕ} {c : Fin k}
    (g : Grown H x c y H') (hI : Inv rk hs H) (h : Placed path hs H) {n : HNode σ k} (hx : H.mem x = some n) :
    ∃ path', Placed path' hs H' ∧ ∀ a m, H.mem a = some m → path' a = path a := by
  have hnn := hI.next_none
  have hne : ∀ a m, H.mem a = some m → a ≠ H.next := by
    rintro a m ha rfl
    rw [hnn] at ha
    cases ha
  have hsl : ∀ b d a, H.slot b d = some a → b ≠ H.next ∧ a ≠ H.next := by
    intro b d a hb
    obtain ⟨h1, ⟨m, hm⟩, _⟩ := hI.slot_alloc hb
    exact ⟨by omega, hne a m hm⟩
  refine ⟨Function.update path H.next (c :: path x), ⟨?_, ?_⟩, ?_⟩
  · intro b d a hb
    rcases g.slots b d a hb with ⟨rfl, rfl, rfl⟩ | hb | ⟨h1, rfl, y0, h2, h3⟩
    · rw [Function.update_of_ne (hne _ _ hx)]
      rcases g.new with rfl | h1
      · rw [Function.update_self]
      · rw [Function.update_of_ne (hsl _ _ _ h1).2, h.edge _ _ _ h1]
    · rw [Function.update_of_ne (hsl _ _ _ hb).1, Function.update_of_ne (hsl _ _ _ hb).2, h.edge _ _ _ hb]
    · rw [Function.update_self, Function.update_of_ne (hsl _ _ _ h3).2, h.edge _ _ _ h3, h.edge _ _ _ h2]
  · intro a ha
    obtain ⟨m, hm⟩ := hI.hand a ha
    rw [Function.update_of_ne (hne a m hm), h.root a ha]
  · intro a m ha
    rw [Function.update_of_ne (hne a m ha)]

theorem grown_new {H : Heap σ k} {x : ℕ} {n : HNode σ k} (hx : H.mem x = some n) (hxn : x ≠ H.next) (c : Fin k)
    (hc : n.children c = none) : Grown H x c H.next
      ((H.alloc (newNode fresh)).set x { n with children := Function.update n.children c (some H.next) }) := by
  refine ⟨by simp [slot, set], .inl rfl, ?_⟩
  intro b d a hb
  simp only [slot, set, alloc] at hb
  by_cases hbx : b = x
  · subst hbx
    rw [Function.update_self, Option.bind_some] at hb
    by_cases hd : d = c
    · subst hd
      simp only [Function.update_self, Option.some.injEq] at hb
      exact .inl ⟨rfl, rfl, hb.symm⟩
    · simp only [Function.update_of_ne hd] at hb
      exact .inr (.inl (by simp [slot, hx, hb]))
  · rw [Function.update_of_ne hbx] at hb
    by_cases hbn : b = H.next
    · subst hbn
      simp [newNode] at hb
    · rw [Function.update_of_ne hbn] at hb
      exact .inr (.inl hb)

theorem mem_of_get {H : Heap σ k} {a : ℕ} {n : HNode σ k} (h : H.get a = .ok n) : H.mem a = some n := by
  simp only [get] at h
  split at h <;> simp_all

theorem ownChild_grown {H H' : Heap σ k} {x y : ℕ} {n : HNode σ k} (hx : H.mem x = some n) (hxn : x ≠ H.next)
    {c : Fin k} (h : H.ownChild fresh x c = .ok (y, H')) : Grown H x c y H' := by
  simp only [ownChild, get_some hx, ok_bind] at h
  cases hc : n.children c with
  | none =>
    rw [hc] at h
    simp only [pure_eq_ok, Except.ok.injEq, Prod.mk.injEq] at h
    obtain ⟨rfl, rfl⟩ := h
    exact grown_new hx hxn c hc
  | some y0 =>
    rw [hc] at h
    simp only [bind_eq_ok] at h
    obtain ⟨m, hm, h⟩ := h
    have hm' := mem_of_get hm
    have hsx : H.slot x c = some y0 := by simp [slot, hx, hc]
    by_cases hrc : 1 < m.rc
    · rw [if_pos hrc] at h
      simp only [bind_eq_ok, Prod.exists, pure_eq_ok, Except.ok.injEq, Prod.mk.injEq] at h
      obtain ⟨z, H2, hcp, n2, hn2, rfl, rfl⟩ := h
      obtain ⟨rfl, hsl⟩ := slot_copyNode hcp
      have hsl' : ∀ b d, H2.slot b d = if b = H.next then H.slot y0 d else H.slot b d := by
        intro b d
        rw [hsl]
        simp only [slot_set (n := m) (n' := { m with rc := m.rc - 1 }) hm' rfl]
        rfl
      have hn2' := mem_of_get hn2
      have hnx : (H.set y0 { m with rc := m.rc - 1 }).next = H.next := rfl
      rw [hnx]
      refine ⟨by simp [slot, set], .inl rfl, ?_⟩
      intro b d a hb
      by_cases hbx : b = x
      · subst hbx
        by_cases hd : d = c
        · subst hd
          simp only [slot, set, Function.update_self, Option.bind_some, Option.some.injEq] at hb
          exact .inl ⟨rfl, rfl, hb.symm⟩
        · right; left
          have : H2.slot b d = some a := by
            simp only [slot, set, Function.update_self, Option.bind_some, Function.update_of_ne hd] at hb
            simpa [slot, hn2'] using hb
          rwa [hsl', if_neg hxn] at this
      · have : H2.slot b d = some a := by
          simpa only [slot, set, Function.update_of_ne hbx] using hb
        rw [hsl'] at this
        split_ifs at this with hbn
        · exact .inr (.inr ⟨rfl, hbn, y0, hsx, this⟩)
        · exact .inr (.inl this)
    · rw [if_neg hrc] at h
      simp only [pure_eq_ok, Except.ok.injEq, Prod.mk.injEq] at h
      obtain ⟨rfl, rfl⟩ := h
      exact ⟨hsx, .inr hsx, fun b d a hb => .inr (.inl hb)⟩

theorem peekChild_grown {H H' : Heap σ k} {x y : ℕ} {n : HNode σ k} (hx : H.mem x = some n) (hxn : x ≠ H.next)
    {c : Fin k} (h : H.peekChild fresh x c = .ok (y, H')) : Grown H x c y H' := by
  simp only [peekChild, get_some hx, ok_bind] at h
  cases hc : n.children c with
  | none =>
    rw [hc] at h
    simp only [pure_eq_ok, Except.ok.injEq, Prod.mk.injEq] at h
    obtain ⟨rfl, rfl⟩ := h
    exact grown_new hx hxn c hc
  | some y0 =>
    rw [hc] at h
    simp only [pure_eq_ok, Except.ok.injEq, Prod.mk.injEq] at h
    obtain ⟨rfl, rfl⟩ := h
    have hsx : H.slot x c = some y0 := by simp [slot, hx, hc]
    exact ⟨hsx, .inr hsx, fun b d a hb => .inr (.inl hb)⟩

/-! ### Counts that do not reach the limit do not wrap -/

/-- All counts are below `M`. -/
def Below (M : ℕ) (H : Heap σ k) : Prop := ∀ a n, H.mem a = some n → n.rc < M

theorem succ_eq {M r : ℕ} (h : r + 1 < M) : WHeap.succ M r = r + 1 := Nat.mod_eq_of_lt h

theorem pred_eq {M r : ℕ} (h0 : 0 < r) (h : r < M) : WHeap.pred M r = r - 1 := by
  unfold WHeap.pred
  rw [show r + (M - 1) = (r - 1) + M by omega, Nat.add_mod_right]
  exact Nat.mod_eq_of_lt (by omega)

theorem incChildren_mono (n : HNode σ k) (l : List (Fin k)) {H H' : Heap σ k} (h : incChildren n l H = .ok H')
    {a : ℕ} {m : HNode σ k} (ha : H.mem a = some m) : ∃ m', H'.mem a = some m' ∧ m.rc ≤ m'.rc := by
  induction l generalizing H m with
  | nil =>
    simp only [incChildren, pure_eq_ok, Except.ok.injEq] at h
    subst h
    exact ⟨m, ha, le_rfl⟩
  | cons c cs ih =>
    simp only [incChildren] at h
    cases hc : n.children c with
    | none =>
      rw [hc] at h
      exact ih h ha
    | some e =>
      rw [hc] at h
      simp only [bind_eq_ok] at h
      obtain ⟨q, hq, h⟩ := h
      by_cases hae : a = e
      · subst hae
        have := mem_of_get hq
        rw [ha, Option.some.injEq] at this
        subst this
        obtain ⟨m', h1, h2⟩ := ih h (m := { m with rc := m.rc + 1 }) (by simp [set])
        exact ⟨m', h1, le_trans (Nat.le_succ _) h2⟩
      · exact ih h (by simp [set, Function.update_of_ne hae, ha])

theorem wincChildren_eq {M : ℕ} (n : HNode σ k) (l : List (Fin k)) {H H' : Heap σ k}
    (h : incChildren n l H = .ok H') (hb : Below M H') : WHeap.incChildren M n l H = .ok H' := by
  induction l generalizing H with
  | nil => exact h
  | cons c cs ih =>
    simp only [incChildren] at h
    simp only [WHeap.incChildren]
    cases hc : n.children c with
    | none =>
      rw [hc] at h
      exact ih h
    | some e =>
      rw [hc] at h
      simp only [bind_eq_ok] at h
      obtain ⟨q, hq, h⟩ := h
      obtain ⟨m', h1, h2⟩ := incChildren_mono n cs h (a := e) (m := { q with rc := q.rc + 1 }) (by simp [set])
      have := hb e m' h1
      simp only [hq, ok_bind, succ_eq (lt_of_le_of_lt h2 this)]
      exact ih h

theorem wcopyNode_eq {M : ℕ} {H H' : Heap σ k} {a z : ℕ} (h : H.copyNode a = .ok (z, H')) (hb : Below M H') :
    WHeap.copyNode M H a = .ok (z, H') := by
  simp only [Heap.copyNode, bind_eq_ok, pure_eq_ok, Except.ok.injEq, Prod.mk.injEq] at h
  obtain ⟨n, hn, H2, h2, rfl, rfl⟩ := h
  simp only [WHeap.copyNode, hn, ok_bind, wincChildren_eq n _ h2 hb, pure_eq_ok]

theorem wownChild_eq {M : ℕ} {H H' : Heap σ k} {x y : ℕ} {c : Fin k} (hH : Below M H)
    (h : H.ownChild fresh x c = .ok (y, H')) (hb : Below M H') : WHeap.ownChild M fresh H x c = .ok (y, H') := by
  simp only [ownChild, bind_eq_ok] at h
  obtain ⟨n, hn, h⟩ := h
  simp only [WHeap.ownChild, hn, ok_bind]
  cases hc : n.children c with
  | none =>
    rw [hc] at h
    exact h
  | some y0 =>
    rw [hc] at h
    simp only [bind_eq_ok] at h
    obtain ⟨m, hm, h⟩ := h
    simp only [hm, ok_bind]
    by_cases hrc : 1 < m.rc
    · rw [if_pos hrc] at h
      rw [if_pos hrc, pred_eq (by omega) (hH y0 m (mem_of_get hm))]
      simp only [bind_eq_ok, Prod.exists] at h
      obtain ⟨z, H2, hcp, n2, hn2, h⟩ := h
      have hb2 : Below M H2 := by
        simp only [pure_eq_ok, Except.ok.injEq, Prod.mk.injEq] at h
        obtain ⟨-, rfl⟩ := h
        intro a q ha
        by_cases hax : a = x
        · subst hax
          rw [mem_of_get hn2, Option.some.injEq] at ha
          subst ha
          exact hb a { n2 with children := Function.update n2.children c (some z) } (by simp [set])
        · exact hb a q (by simp only [set, Function.update_of_ne hax, ha])
      simp only [wcopyNode_eq hcp hb2, ok_bind, hn2]
      exact h
    · rw [if_neg hrc] at h
      rw [if_neg hrc]
      exact h

/-- While fewer than `M` references are held, an update with counts of `M` values is an update with natural
numbers, and nodes keep their places. -/
theorem wupdate_eq {M : ℕ} (P : Predictor σ α) (a : α) (hi : List α) (w : ℝ) (ctx : List (Fin k)) :
    ∀ (rk : ℕ → ℕ) (path : ℕ → List (Fin k)) (hs : List ℕ) (H : Heap σ k) (x : ℕ) (n : HNode σ k),
    Inv rk hs H → Placed path hs H → H.mem x = some n → ctx.length ≤ rk x →
    (hs.length < M → WHeap.update M P fresh a hi w ctx x H = H.update P fresh a hi w ctx x) ∧
    ∀ r H', H.update P fresh a hi w ctx x = .ok (r, H') → ∃ path', Placed path' hs H' := by
  induction ctx with
  | nil =>
    intro rk path hs H x n hI hp hx _
    refine ⟨fun _ => rfl, ?_⟩
    intro r H' h
    simp only [Heap.update, get_some hx, ok_bind, bind_eq_ok, Prod.exists, pure_eq_ok, Except.ok.injEq,
      Prod.mk.injEq] at h
    obtain ⟨q, b, -, -, rfl⟩ := h
    exact ⟨path, hp.set hx rfl⟩
  | cons c cs ih =>
    intro rk path hs H x n hI hp hx hlen
    rw [List.length_cons] at hlen
    simp only [Heap.update, WHeap.update, get_some hx, ok_bind]
    cases hu : liftPy (P.update n.base a hi w) with
    | error e => exact ⟨fun _ => rfl, fun r H' h => by simp at h⟩
    | ok q =>
      obtain ⟨q, b⟩ := q
      simp only [ok_bind]
      set n1 : HNode σ k := { n with base := b, baseLP := n.baseLP + q } with hn1
      set H1 := H.set x n1 with hH1
      have hI1 : Inv rk hs H1 := hI.set_data hx rfl rfl
      have hx1 : H1.mem x = some n1 := by simp [hH1, set]
      have hp1 : Placed path hs H1 := hp.set hx rfl
      obtain ⟨y, H2, rk2, hown, hO⟩ := ownChild_ok (fresh := fresh) hI1 hx1 (by omega) c
      have hxn : x ≠ H1.next := by
        intro hh
        rw [hh, hI1.next_none] at hx1
        cases hx1
      obtain ⟨path2, hp2, -⟩ := (ownChild_grown hx1 hxn hown).placed hI1 hp1 hx1
      obtain ⟨m', hy, -⟩ := hO.child
      obtain ⟨ih1, ih2⟩ := ih rk2 path2 hs H2 y m' hO.inv hp2 hy (by have := hO.rky; omega)
      constructor
      · intro hM
        have hb1 : Below M H1 := fun a' m ha => lt_of_le_of_lt (hp1.bound hI1 ha) hM
        have hb2 : Below M H2 := fun a' m ha => lt_of_le_of_lt (hp2.bound hO.inv ha) hM
        simp only [wownChild_eq hb1 hown hb2, hown, ok_bind, ih1 hM]
      · intro r H' h
        simp only [hown, ok_bind, bind_eq_ok, Prod.exists, pure_eq_ok, Except.ok.injEq, Prod.mk.injEq] at h
        obtain ⟨rc, H3, h3, n3, hn3, -, rfl⟩ := h
        obtain ⟨path3, hp3⟩ := ih2 rc H3 h3
        exact ⟨path3, hp3.set (mem_of_get hn3) rfl⟩

theorem logPredict_placed (P : Predictor σ α) (a : α) (hi : List α) (ctx : List (Fin k)) :
    ∀ (rk : ℕ → ℕ) (path : ℕ → List (Fin k)) (hs : List ℕ) (H : Heap σ k) (x : ℕ) (n : HNode σ k),
    Inv rk hs H → Placed path hs H → H.mem x = some n → ctx.length ≤ rk x →
    ∀ r H', H.logPredict P fresh a hi ctx x = .ok (r, H') → ∃ path', Placed path' hs H' := by
  induction ctx with
  | nil =>
    intro rk path hs H x n hI hp hx _ r H' h
    simp only [Heap.logPredict, get_some hx, ok_bind, bind_eq_ok, Prod.exists, pure_eq_ok, Except.ok.injEq,
      Prod.mk.injEq] at h
    obtain ⟨q, b, -, -, rfl⟩ := h
    exact ⟨path, hp.set hx rfl⟩
  | cons c cs ih =>
    intro rk path hs H x n hI hp hx hlen r H' h
    rw [List.length_cons] at hlen
    simp only [Heap.logPredict, get_some hx, ok_bind] at h
    cases hu : liftPy (P.logPredict n.base a hi) with
    | error e => simp [hu] at h
    | ok q =>
      obtain ⟨q, b⟩ := q
      simp only [hu, ok_bind] at h
      set n1 : HNode σ k := { n with base := b } with hn1
      set H1 := H.set x n1 with hH1
      have hI1 : Inv rk hs H1 := hI.set_data hx rfl rfl
      have hx1 : H1.mem x = some n1 := by simp [hH1, set]
      have hp1 : Placed path hs H1 := hp.set hx rfl
      obtain ⟨y, H2, rk2, hpk, hO, hrky, ⟨m2, hy2⟩, hself⟩ := peekChild_ok (fresh := fresh) hI1 hx1 (by omega) c
      have hxn : x ≠ H1.next := by
        intro hh
        rw [hh, hI1.next_none] at hx1
        cases hx1
      obtain ⟨path2, hp2, -⟩ := (peekChild_grown hx1 hxn hpk).placed hI1 hp1 hx1
      simp only [hpk, ok_bind, bind_eq_ok, Prod.exists, pure_eq_ok, Except.ok.injEq, Prod.mk.injEq] at h
      obtain ⟨rc, H3, h3, n3, hn3, -, rfl⟩ := h
      exact ih rk2 path2 hs H2 y m2 hO.inv hp2 hy2 (by omega) rc H3 h3

/-! ### Freeing -/

theorem wfreeChildren_eq {M f : ℕ}
    (ih : ∀ (a : ℕ) (H H' : Heap σ k), free f a H = .ok H' → Below M H → WHeap.free M f a H = .ok H' ∧ Below M H')
    (a : ℕ) (l : List (Fin k)) : ∀ (H H' : Heap σ k), freeChildren f a l H = .ok H' → Below M H →
      WHeap.freeChildren M f a l H = .ok H' ∧ Below M H' := by
  induction l with
  | nil =>
    intro H H' h hb
    simp only [freeChildren, pure_eq_ok, Except.ok.injEq] at h
    subst h
    exact ⟨by simp [WHeap.freeChildren], hb⟩
  | cons c cs ihl =>
    intro H H' h hb
    simp only [freeChildren, bind_eq_ok] at h
    obtain ⟨n, hn, h⟩ := h
    simp only [WHeap.freeChildren, hn, ok_bind]
    cases hc : n.children c with
    | none =>
      rw [hc] at h
      exact ihl H H' h hb
    | some b =>
      rw [hc] at h
      simp only [bind_eq_ok] at h
      obtain ⟨H1, h1, h2⟩ := h
      obtain ⟨g1, g2⟩ := ih b H H1 h1 hb
      simp only [g1, ok_bind]
      exact ihl H1 H' h2 g2

theorem wfree_eq {M : ℕ} (f : ℕ) : ∀ (a : ℕ) (H H' : Heap σ k), free f a H = .ok H' → Below M H →
    WHeap.free M f a H = .ok H' ∧ Below M H' := by
  induction f with
  | zero => intro a H H' h; simp [free] at h
  | succ f ih =>
    intro a H H' h hb
    simp only [free, bind_eq_ok] at h
    obtain ⟨n, hn, h⟩ := h
    by_cases h0 : n.rc = 0
    · simp [h0] at h
    · rw [if_neg h0] at h
      have hlt := hb a n (mem_of_get hn)
      have hb1 : Below M (H.set a { n with rc := n.rc - 1 }) := by
        intro e m he
        by_cases hea : e = a
        · subst hea
          simp only [set, Function.update_self, Option.some.injEq] at he
          subst he
          simp only
          omega
        · simp only [set, Function.update_of_ne hea] at he
          exact hb e m he
      simp only [WHeap.free, hn, ok_bind, pred_eq (by omega : 0 < n.rc) hlt]
      by_cases h1 : n.rc - 1 = 0
      · rw [if_pos h1] at h
        rw [if_pos h1]
        simp only [bind_eq_ok, pure_eq_ok, Except.ok.injEq] at h
        obtain ⟨H2, h2, m, hm, rfl⟩ := h
        obtain ⟨g1, g2⟩ := wfreeChildren_eq ih a _ _ _ h2 hb1
        refine ⟨by simp only [g1, ok_bind, hm, pure_eq_ok], ?_⟩
        intro e q he
        by_cases hea : e = a
        · subst hea
          simp [erase] at he
        · simp only [erase, Function.update_of_ne hea] at he
          exact g2 e q he
      · rw [if_neg h1] at h
        rw [if_neg h1]
        simp only [pure_eq_ok, Except.ok.injEq] at h
        subst h
        exact ⟨rfl, hb1⟩

end Heap

end Verif
