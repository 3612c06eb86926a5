import Verif.Proofs.CTWHeap

/-! Updates of shared trees act like updates of separate trees. -/

namespace Verif

namespace Heap

variable {σ α : Type} {k : ℕ} {fresh : σ}

theorem refs_self_zero {rk : ℕ → ℕ} {hs : List ℕ} {H : Heap σ k} (h : Inv rk hs H) {y a : ℕ} {m : HNode σ k}
    (hy : H.mem y = some m) (hr : rk y ≤ rk a) : nodeRefs (some m) a = 0 := by
  apply nodeRefs_eq_zero
  intro c hc
  have := (h.edge y m c a hy hc).2
  omega

/-- What `ownChild` guarantees. -/
structure Owned (fresh : σ) (rk : ℕ → ℕ) (hs : List ℕ) (H : Heap σ k) (x : ℕ) (n : HNode σ k) (c : Fin k)
    (y : ℕ) (H' : Heap σ k) (rk' : ℕ → ℕ) : Prop where
  inv : Inv rk' hs H'
  rkeq : ∀ a m, H.mem a = some m → rk' a = rk a
  rky : rk' y + 1 = rk x
  self : H'.mem x = some { n with children := Function.update n.children c (some y) }
  others : ∀ a m, a ≠ x → H.mem a = some m → ∃ j, H'.mem a = some { m with rc := j }
  high : ∀ a m, a ≠ x → rk x ≤ rk a → H.mem a = some m → H'.mem a = some m
  child : ∃ m', H'.mem y = some m' ∧ m'.rc = 1 ∧ ((n.children c = none ∧ m' = newNode fresh) ∨
    ∃ y0 m0, n.children c = some y0 ∧ H.mem y0 = some m0 ∧ m' = { m0 with rc := 1 })
  old : ∀ b d a m, H'.slot b d = some a → H.mem a = some m → ∃ b' d', H.slot b' d' = some a

theorem newChild_owned {rk : ℕ → ℕ} {hs : List ℕ} {H : Heap σ k} (h : Inv rk hs H) {x : ℕ} {n : HNode σ k}
    (hx : H.mem x = some n) (hpos : 1 ≤ rk x) {c : Fin k} (hc : n.children c = none) :
    Owned fresh rk hs H x n c H.next
      ((H.alloc (newNode fresh)).set x { n with children := Function.update n.children c (some H.next) })
      (Function.update rk H.next (rk x - 1)) := by
  have hnn := h.next_none
  have hne : ∀ a m, H.mem a = some m → a ≠ H.next := by
    rintro a m ha rfl
    rw [hnn] at ha
    cases ha
  have h1 := h.allocNew fresh (rk x - 1)
  have hx1 : (H.alloc (newNode fresh)).mem x = some n := by
    simp [alloc, Function.update_of_ne (hne x n hx), hx]
  have h2 := h1.setSlot hx1 c (by
    rw [Function.update_self, Function.update_of_ne (hne x n hx)]; omega)
  rw [hc] at h2
  have hoth : ∀ a m, a ≠ x → H.mem a = some m →
      ((H.alloc (newNode fresh)).set x { n with children := Function.update n.children c (some H.next) }).mem a
        = some m := by
    intro a m hax ha
    simp [set, alloc, Function.update_of_ne hax, Function.update_of_ne (hne a m ha), ha]
  refine ⟨by simpa using h2, ?_, ?_, ?_, ?_, ?_, ?_, ?_⟩
  · intro a m ha
    rw [Function.update_of_ne (hne a m ha)]
  · rw [Function.update_self]; omega
  · simp [set]
  · intro a m hax ha
    exact ⟨m.rc, hoth a m hax ha⟩
  · intro a m hax _ ha
    exact hoth a m hax ha
  · refine ⟨newNode fresh, ?_, rfl, .inl ⟨hc, rfl⟩⟩
    simp [set, alloc, Function.update_of_ne (Ne.symm (hne x n hx))]
  · intro b d a m hb ha
    simp only [slot, set, alloc] at hb
    by_cases hbx : b = x
    · subst hbx
      rw [Function.update_self, Option.bind_some] at hb
      by_cases hd : d = c
      · subst hd
        simp only [Function.update_self, Option.some.injEq] at hb
        exact absurd hb.symm (hne a m ha)
      · simp only [Function.update_of_ne hd] at hb
        exact ⟨b, d, by simp [slot, hx, hb]⟩
    · rw [Function.update_of_ne hbx] at hb
      by_cases hbn : b = H.next
      · subst hbn
        simp [newNode] at hb
      · rw [Function.update_of_ne hbn] at hb
        exact ⟨b, d, hb⟩

theorem ownChild_ok {rk : ℕ → ℕ} {hs : List ℕ} {H : Heap σ k} (h : Inv rk hs H) {x : ℕ} {n : HNode σ k}
    (hx : H.mem x = some n) (hpos : 1 ≤ rk x) (c : Fin k) :
    ∃ y H' rk', H.ownChild fresh x c = .ok (y, H') ∧ Owned fresh rk hs H x n c y H' rk' := by
  cases hc : n.children c with
  | none =>
    exact ⟨_, _, _, by simp [ownChild, hx, hc], newChild_owned h hx hpos hc⟩
  | some y =>
    have hnn := h.next_none
    have hne : ∀ a m, H.mem a = some m → a ≠ H.next := by
      rintro a m ha rfl
      rw [hnn] at ha
      cases ha
    obtain ⟨⟨m, hy⟩, hrk⟩ := h.edge x n c y hx hc
    have hxy : x ≠ y := by
      rintro rfl
      omega
    by_cases hrc : 1 < m.rc
    · -- shared: copy
      obtain ⟨Hm, -, hinv, hnext, hz, hmem⟩ := h.copyNode hy
      have hmx : Hm.mem x = some n := by
        rw [hmem x (hne x n hx), hx, Option.map_some, refs_self_zero h hy (by omega)]
        rfl
      have hmy : Hm.mem y = some m := by
        rw [hmem y (hne y m hy), hy, Option.map_some, refs_self_zero h hy le_rfl]
        rfl
      have h2 := hinv.setSlot hmx c (by
        rw [Function.update_self, Function.update_of_ne (hne x n hx)]; exact hrk)
      rw [hc] at h2
      set n' : HNode σ k := { n with children := Function.update n.children c (some H.next) } with hn'
      have hmy2 : (Hm.set x n').mem y = some m := by
        simp [set, Function.update_of_ne (Ne.symm hxy), hmy]
      have h3 := Inv.dropRef (by simpa using h2) hmy2 hrc
      -- the code's heap
      set H1 := H.set y { m with rc := m.rc - 1 } with hH1
      have hne1 : ∀ b, b ≠ y → H1.mem b = H.mem b := fun b hb => by simp [hH1, set, Function.update_of_ne hb]
      have hn1 : H1.next = H.next := rfl
      have hall : ∀ c b, ({ m with rc := m.rc - 1 } : HNode σ k).children c = some b →
          ∃ q, (H1.alloc { m with rc := 1 }).mem b = some q := by
        intro d b hb
        obtain ⟨⟨q, hq⟩, hr⟩ := h.edge y m d b hy hb
        have hby : b ≠ y := by rintro rfl; omega
        exact ⟨q, by simp [alloc, hn1, Function.update_of_ne (hne b q hq), hne1 b hby, hq]⟩
      obtain ⟨H2, g1, g2, g3⟩ := incChildren_ok { m with rc := m.rc - 1 } (List.finRange k)
        (H1.alloc { m with rc := 1 }) hall
      simp only [← nodeRefs_eq_countP] at g3
      have hH1y : H1.mem y = some { m with rc := m.rc - 1 } := by simp [hH1, set]
      have hcopy : H1.copyNode y = .ok (H.next, H2) := by
        simp [Heap.copyNode, hH1y, g1, hn1]
      have hsame : ∀ a j, nodeRefs (some { m with rc := j }) a = nodeRefs (some m) a := fun a j => rfl
      have hH2x : H2.mem x = some n := by
        rw [g3]
        simp only [alloc, hn1, Function.update_of_ne (hne x n hx), hne1 x hxy, hx, Option.map_some]
        rw [refs_self_zero h hy (by omega)]
        rfl
      have heq : H2.set x n' = (Hm.set x n').set y { m with rc := m.rc - 1 } := by
        have : H2.next = Hm.next := by rw [g2, hnext]; rfl
        simp only [set, this, Heap.mk.injEq, and_true]
        funext a
        by_cases hay : a = y
        · subst hay
          rw [Function.update_self, Function.update_of_ne (Ne.symm hxy), g3]
          simp only [alloc, hn1, Function.update_of_ne (hne a m hy), hH1y, Option.map_some]
          rw [refs_self_zero h hy le_rfl]
          rfl
        · rw [Function.update_of_ne hay]
          by_cases hax : a = x
          · subst hax
            rw [Function.update_self, Function.update_self]
          · rw [Function.update_of_ne hax, Function.update_of_ne hax, g3]
            by_cases haz : a = H.next
            · subst haz
              rw [hz]
              simp only [alloc, hn1, Function.update_self, Option.map_some]
              have h0 : nodeRefs (some m) H.next = 0 := by
                apply nodeRefs_eq_zero
                intro d hd
                obtain ⟨⟨q, hq⟩, _⟩ := h.edge y m d _ hy hd
                exact hne _ _ hq rfl
              rw [h0]
            · rw [hmem a haz]
              simp only [alloc, hn1, Function.update_of_ne haz, hne1 a hay]
      have hoth : ∀ a q, a ≠ x → a ≠ y → H.mem a = some q → (H2.set x n').mem a =
          some { q with rc := q.rc + nodeRefs (some m) a } := by
        intro a q hax hay ha
        rw [heq]
        simp only [set, Function.update_of_ne hay, Function.update_of_ne hax, hmem a (hne a q ha), ha,
          Option.map_some]
      refine ⟨H.next, H2.set x n', Function.update rk H.next (rk y), ?_, ?_⟩
      · simp [ownChild, hx, hc, hy, hrc, ← hH1, hcopy, hH2x, hn']
      · refine ⟨by rw [heq]; exact h3, ?_, ?_, ?_, ?_, ?_, ?_, ?_⟩
        · intro a q ha
          rw [Function.update_of_ne (hne a q ha)]
        · rw [Function.update_self, hrk]
        · simp [set, hn']
        · intro a q hax ha
          by_cases hay : a = y
          · subst hay
            rw [hy, Option.some.injEq] at ha
            subst ha
            exact ⟨m.rc - 1, by rw [heq]; simp [set]⟩
          · exact ⟨_, hoth a q hax hay ha⟩
        · intro a q hax har ha
          have hay : a ≠ y := by rintro rfl; omega
          rw [hoth a q hax hay ha, refs_self_zero h hy (by omega)]
          rfl
        · refine ⟨{ m with rc := 1 }, ?_, rfl, .inr ⟨y, m, hc, hy, rfl⟩⟩
          rw [heq]
          simp [set, Function.update_of_ne (Ne.symm (hne x n hx)), Function.update_of_ne (Ne.symm (hne y m hy)), hz]
        · intro b d a q hb ha
          rw [heq] at hb
          simp only [slot, set] at hb
          by_cases hby : b = y
          · subst hby
            rw [Function.update_self, Option.bind_some] at hb
            exact ⟨b, d, by simp only [slot, hy, Option.bind_some]; exact hb⟩
          · rw [Function.update_of_ne hby] at hb
            by_cases hbx : b = x
            · subst hbx
              rw [Function.update_self, Option.bind_some] at hb
              by_cases hd : d = c
              · subst hd
                simp only [hn', Function.update_self, Option.some.injEq] at hb
                exact absurd hb.symm (hne a q ha)
              · simp only [hn', Function.update_of_ne hd] at hb
                exact ⟨b, d, by simp [slot, hx, hb]⟩
            · rw [Function.update_of_ne hbx] at hb
              by_cases hbn : b = H.next
              · subst hbn
                rw [hz, Option.bind_some] at hb
                exact ⟨y, d, by simp only [slot, hy, Option.bind_some]; exact hb⟩
              · rw [hmem b hbn] at hb
                refine ⟨b, d, ?_⟩
                simp only [slot]
                cases hmb : H.mem b with
                | none => simp [hmb] at hb
                | some q => simpa [hmb] using hb
    · -- not shared
      refine ⟨y, H, rk, by simp [ownChild, hx, hc, hy, hrc], h, fun _ _ _ => rfl, hrk, ?_, ?_, ?_, ?_,
        fun b d a q hb _ => ⟨b, d, hb⟩⟩
      · rw [hx, ← hc, Function.update_eq_self]
      · intro a q _ ha
        exact ⟨q.rc, ha⟩
      · intro a q _ _ ha
        exact ha
      · have := h.pos y m hy
        refine ⟨m, hy, by omega, .inr ⟨y, m, hc, hy, ?_⟩⟩
        have : m.rc = 1 := by omega
        rw [← this]

/-! ### The tree a pointer represents -/

/-- The node behind a pointer; a null pointer stands for a new node. -/
def view (fresh : σ) (H : Heap σ k) : Option ℕ → HNode σ k
  | none => newNode fresh
  | some a => (H.mem a).getD (newNode fresh)

/-- The node behind a pointer holds the data of the tree's root. -/
structure Data (v : HNode σ k) (T : CTWNode σ (Fin k)) : Prop where
  base : v.base = T.base
  baseLP : v.baseLP = T.baseLP
  childrenLP : v.childrenLP = T.childrenLP
  lp : v.lp = T.lp

/-- A pointer represents a tree down to depth `j`. -/
def Sim (fresh : σ) (H : Heap σ k) : ℕ → Option ℕ → CTWNode σ (Fin k) → Prop
  | 0, p, T => Data (view fresh H p) T
  | j + 1, p, T => Data (view fresh H p) T ∧ ∀ c, Sim fresh H j ((view fresh H p).children c) (T.child fresh c)

/-- A pointer represents a tree. -/
def SimAll (fresh : σ) (H : Heap σ k) (p : Option ℕ) (T : CTWNode σ (Fin k)) : Prop := ∀ j, Sim fresh H j p T

theorem simAll_iff {H : Heap σ k} {p : Option ℕ} {T : CTWNode σ (Fin k)} :
    SimAll fresh H p T ↔
      Data (view fresh H p) T ∧ ∀ c, SimAll fresh H ((view fresh H p).children c) (T.child fresh c) := by
  constructor
  · intro h
    exact ⟨h 0, fun c j => (h (j + 1)).2 c⟩
  · rintro ⟨h1, h2⟩ j
    cases j with
    | zero => exact h1
    | succ j => exact ⟨h1, fun c => h2 c j⟩

theorem view_some {H : Heap σ k} {a : ℕ} {n : HNode σ k} (h : H.mem a = some n) : view fresh H (some a) = n := by
  simp [view, h]

/-- Same contents, except for the reference count. -/
def SameBut (m m' : HNode σ k) : Prop := ∃ j, m' = { m with rc := j }

theorem SameBut.data {m m' : HNode σ k} (h : SameBut m m') {T : CTWNode σ (Fin k)} (hd : Data m T) : Data m' T := by
  obtain ⟨j, rfl⟩ := h
  exact ⟨hd.base, hd.baseLP, hd.childrenLP, hd.lp⟩

theorem SameBut.children {m m' : HNode σ k} (h : SameBut m m') : m'.children = m.children := by
  obtain ⟨j, rfl⟩ := h
  rfl

/-- A closed set of nodes with unchanged contents represents the same trees. -/
theorem SimAll.transfer {H H' : Heap σ k} (S : Set ℕ)
    (hcl : ∀ a ∈ S, ∃ m, H.mem a = some m ∧ (∀ c b, m.children c = some b → b ∈ S) ∧
      ∃ j, H'.mem a = some { m with rc := j })
    {p : Option ℕ} {T : CTWNode σ (Fin k)} (hp : ∀ a, p = some a → a ∈ S) (h : SimAll fresh H p T) :
    SimAll fresh H' p T := by
  have key : ∀ j p T, (∀ a, p = some a → a ∈ S) → Sim fresh H j p T → Sim fresh H' j p T := by
    intro j
    induction j with
    | zero =>
      intro p T hp h
      cases p with
      | none => exact h
      | some a =>
        obtain ⟨m, h1, _, i, h3⟩ := hcl a (hp a rfl)
        simp only [Sim, view_some h1] at h
        simp only [Sim, view_some h3]
        exact SameBut.data ⟨i, rfl⟩ h
    | succ j ih =>
      intro p T hp h
      cases p with
      | none => exact ⟨h.1, fun c => ih _ _ (by simp [view, newNode]) (h.2 c)⟩
      | some a =>
        obtain ⟨m, h1, h2, i, h3⟩ := hcl a (hp a rfl)
        simp only [Sim, view_some h1] at h
        simp only [Sim, view_some h3]
        exact ⟨SameBut.data ⟨i, rfl⟩ h.1, fun c => ih _ _ (h2 c) (h.2 c)⟩
  exact fun j => key j p T hp (h j)

/-- Nodes reachable from a set of pointers. -/
inductive Reach (H : Heap σ k) (R : Set ℕ) : ℕ → Prop
  | root {a : ℕ} : a ∈ R → Reach H R a
  | step {a b : ℕ} {c : Fin k} : Reach H R a → H.slot a c = some b → Reach H R b

theorem Inv.slot_alloc {rk : ℕ → ℕ} {hs : List ℕ} {H : Heap σ k} (h : Inv rk hs H) {a b : ℕ} {c : Fin k}
    (hs : H.slot a c = some b) : a < H.next ∧ (∃ m, H.mem b = some m) ∧ rk b + 1 = rk a := by
  simp only [slot] at hs
  cases hm : H.mem a with
  | none => simp [hm] at hs
  | some n =>
    rw [hm, Option.bind_some] at hs
    exact ⟨h.bound a n hm, h.edge a n c b hm hs⟩

/-- What an update of the node at `x` guarantees; nodes in `G` must not be changed. -/
structure Updated (fresh : σ) (rk : ℕ → ℕ) (hs : List ℕ) (G : Set ℕ) (H : Heap σ k) (x : ℕ)
    (T' : CTWNode σ (Fin k)) (H' : Heap σ k) (rk' : ℕ → ℕ) : Prop where
  inv : Inv rk' hs H'
  rkeq : ∀ a m, H.mem a = some m → rk' a = rk a
  sim : SimAll fresh H' (some x) T'
  frame : ∀ a m, a ∈ G → H.mem a = some m → ∃ j, H'.mem a = some { m with rc := j }
  high : ∀ a m, a ≠ x → rk x ≤ rk a → H.mem a = some m → H'.mem a = some m
  alive : ∀ a m, H.mem a = some m → ∃ m', H'.mem a = some m'
  old : ∀ b d a m, H'.slot b d = some a → H.mem a = some m → ∃ b' d', H.slot b' d' = some a

theorem update_sim (P : Predictor σ α) (a : α) (hi : List α) (w : ℝ) (ctx : List (Fin k)) :
    ∀ (rk : ℕ → ℕ) (hs : List ℕ) (G : Set ℕ) (H : Heap σ k) (x : ℕ) (n : HNode σ k) (T : CTWNode σ (Fin k)),
    Inv rk hs H → H.mem x = some n → ctx.length ≤ rk x → SimAll fresh H (some x) T → x ∉ G →
    (∀ b ∈ G, ∃ m, H.mem b = some m) →
    (∀ b ∈ G, rk b ≤ rk x → b ∈ hs ∨ ∃ e ∈ G, ∃ c, H.slot e c = some b) →
    (∀ e, T.update P fresh a hi w ctx = .error e → H.update P fresh a hi w ctx x = .error (.py e)) ∧
    (∀ r T', T.update P fresh a hi w ctx = .ok (r, T') →
      ∃ H' rk', H.update P fresh a hi w ctx x = .ok (r, H') ∧ Updated fresh rk hs G H x T' H' rk') := by
  induction ctx with
  | nil =>
    intro rk hs G H x n T hI hx _ hsim hxG _ _
    obtain ⟨hd, hk⟩ := simAll_iff.mp hsim
    rw [view_some hx] at hd hk
    constructor
    · intro e he
      simp only [CTWNode.update] at he
      simp only [Heap.update, get_some hx, ok_bind, hd.base]
      cases hu : P.update T.base a hi w with
      | error e' =>
        rw [hu] at he
        simp only [error_bind, Except.error.injEq] at he
        simp [liftPy, he]
      | ok q =>
        rw [hu] at he
        simp at he
    · intro r T' hT
      simp only [CTWNode.update, bind_eq_ok, pure_eq_ok, Except.ok.injEq, Prod.mk.injEq, Prod.exists] at hT
      obtain ⟨q, b, hu, rfl, rfl⟩ := hT
      refine ⟨H.set x { n with base := b, baseLP := T.baseLP + q, lp := T.baseLP + q }, rk, ?_, ?_⟩
      · simp [Heap.update, get_some hx, hd.base, hu, liftPy, hd.baseLP, hd.lp]
      · have hoth : ∀ a' m, a' ≠ x → H.mem a' = some m →
            (H.set x { n with base := b, baseLP := T.baseLP + q, lp := T.baseLP + q }).mem a' = some m := by
          intro a' m hne ha'
          simp [set, Function.update_of_ne hne, ha']
        refine ⟨hI.set_data hx rfl rfl, fun _ _ _ => rfl, ?_, ?_, ?_, ?_, ?_⟩
        · have hx' : (H.set x { n with base := b, baseLP := T.baseLP + q, lp := T.baseLP + q }).mem x =
              some { n with base := b, baseLP := T.baseLP + q, lp := T.baseLP + q } := by simp [set]
          refine simAll_iff.mpr ⟨?_, ?_⟩
          · rw [view_some hx']
            exact ⟨rfl, rfl, hd.childrenLP, rfl⟩
          · intro c
            rw [view_some hx']
            refine SimAll.transfer (H := H) {a' | (∃ m, H.mem a' = some m) ∧ rk a' < rk x} ?_ ?_ (hk c)
            · rintro a' ⟨⟨m, hm⟩, hlt⟩
              refine ⟨m, hm, ?_, m.rc, hoth a' m (by rintro rfl; omega) hm⟩
              intro d b' hb'
              obtain ⟨h1, h2⟩ := hI.edge a' m d b' hm hb'
              exact ⟨h1, by omega⟩
            · intro a' ha'
              obtain ⟨h1, h2⟩ := hI.edge x n c a' hx ha'
              exact ⟨h1, by omega⟩
        · intro a' m ha' hm
          exact ⟨m.rc, hoth a' m (by rintro rfl; exact hxG ha') hm⟩
        · intro a' m hne _ hm
          exact hoth a' m hne hm
        · intro a' m hm
          by_cases hne : a' = x
          · subst hne
            exact ⟨{ n with base := b, baseLP := T.baseLP + q, lp := T.baseLP + q }, by simp [set]⟩
          · exact ⟨m, hoth a' m hne hm⟩
        · intro b' d a' m hb' _
          refine ⟨b', d, ?_⟩
          simp only [slot, set] at hb' ⊢
          by_cases hne : b' = x
          · subst hne
            rw [Function.update_self] at hb'
            rw [hx]
            exact hb'
          · rwa [Function.update_of_ne hne] at hb'
  | cons c cs ih =>
    intro rk hs G H x n T hI hx hlen hsim hxG hG hsup
    obtain ⟨hd, hk⟩ := simAll_iff.mp hsim
    rw [view_some hx] at hd hk
    rw [List.length_cons] at hlen
    cases hu : P.update T.base a hi w with
    | error e' =>
      constructor
      · intro e he
        simp only [CTWNode.update, hu, error_bind, Except.error.injEq] at he
        simp [Heap.update, get_some hx, hd.base, hu, liftPy, he]
      · intro r T' hT
        simp [CTWNode.update, hu] at hT
    | ok q =>
      obtain ⟨q, b⟩ := q
      set n1 : HNode σ k := { n with base := b, baseLP := n.baseLP + q } with hn1
      set H1 := H.set x n1 with hH1
      have hI1 : Inv rk hs H1 := hI.set_data hx rfl rfl
      have hx1 : H1.mem x = some n1 := by simp [hH1, set]
      have hoth1 : ∀ a', a' ≠ x → H1.mem a' = H.mem a' := fun a' hne => by
        simp [hH1, set, Function.update_of_ne hne]
      have hslot1 : ∀ b' d, H1.slot b' d = H.slot b' d := by
        intro b' d
        simp only [slot]
        by_cases hne : b' = x
        · subst hne; rw [hx1, hx]; rfl
        · rw [hoth1 b' hne]
      obtain ⟨y, H2, rk2, hown, hO⟩ := ownChild_ok (fresh := fresh) hI1 hx1 (by omega) c
      have hrk2 : ∀ a' m, H.mem a' = some m → rk2 a' = rk a' := by
        intro a' m hm
        by_cases hne : a' = x
        · subst hne; exact hO.rkeq a' n1 hx1
        · exact hO.rkeq a' m (by rw [hoth1 a' hne]; exact hm)
      have hrkx : rk2 x = rk x := hrk2 x n hx
      have hrky := hO.rky
      have hyx : y ≠ x := by rintro rfl; omega
      have hoth2 : ∀ a' m, a' ≠ x → H.mem a' = some m → ∃ j, H2.mem a' = some { m with rc := j } := by
        intro a' m hne hm
        exact hO.others a' m hne (by rw [hoth1 a' hne]; exact hm)
      -- transfer from H to H2 below x
      have htr2 : ∀ p T, (∀ a', p = some a' → (∃ m, H.mem a' = some m) ∧ rk a' < rk x) →
          SimAll fresh H p T → SimAll fresh H2 p T := by
        intro p T hp h
        refine SimAll.transfer {a' | (∃ m, H.mem a' = some m) ∧ rk a' < rk x} ?_ hp h
        rintro a' ⟨⟨m, hm⟩, hlt⟩
        refine ⟨m, hm, ?_, hoth2 a' m (by rintro rfl; omega) hm⟩
        intro d b' hb'
        obtain ⟨h1, h2⟩ := hI.edge a' m d b' hm hb'
        exact ⟨h1, by omega⟩
      have hkid : ∀ d a', n.children d = some a' → (∃ m, H.mem a' = some m) ∧ rk a' < rk x := by
        intro d a' hd'
        obtain ⟨h1, h2⟩ := hI.edge x n d a' hx hd'
        exact ⟨h1, by omega⟩
      obtain ⟨m', hym, hmrc, hmc⟩ := hO.child
      -- the child represents the child tree
      have hsimy : SimAll fresh H2 (some y) (T.child fresh c) := by
        have hkc := hk c
        rcases hmc with ⟨hnone, hm'⟩ | ⟨y0, m0, hy0, hm0, hm'⟩
        · have hnone' : n.children c = none := hnone
          rw [hnone'] at hkc
          obtain ⟨g1, g2⟩ := simAll_iff.mp hkc
          refine simAll_iff.mpr ⟨?_, ?_⟩
          · rw [view_some hym, hm']
            exact g1
          · intro d
            rw [view_some hym, hm']
            exact htr2 none _ (by simp) (g2 d)
        · have hy0' : n.children c = some y0 := hy0
          obtain ⟨⟨m00, hm00⟩, hlt⟩ := hkid c y0 hy0'
          have hyx0 : y0 ≠ x := by rintro rfl; omega
          rw [hoth1 y0 hyx0] at hm0
          rw [hy0'] at hkc
          obtain ⟨g1, g2⟩ := simAll_iff.mp hkc
          rw [view_some hm0] at g1 g2
          refine simAll_iff.mpr ⟨?_, ?_⟩
          · rw [view_some hym, hm']
            exact ⟨g1.base, g1.baseLP, g1.childrenLP, g1.lp⟩
          · intro d
            rw [view_some hym, hm']
            refine htr2 _ _ ?_ (g2 d)
            intro a' ha'
            obtain ⟨h1, h2⟩ := hI.edge y0 m0 d a' hm0 ha'
            exact ⟨h1, by omega⟩
      -- the set that must not change
      set R : Set ℕ := {b' | ∃ d, d ≠ c ∧ n.children d = some b'} with hR
      set G' : Set ℕ := {b' | b' ∈ G ∨ b' = x ∨ Reach H2 R b'} with hG'
      have hslotx : ∀ d, H2.slot x d = Function.update n.children c (some y) d := by
        intro d
        simp [slot, hO.self, hn1]
      have hreach : ∀ b', Reach H2 R b' → (∃ m, H2.mem b' = some m) ∧ rk2 b' < rk2 x := by
        intro b' hb'
        induction hb' with
        | root h =>
          obtain ⟨d, hdc, hd'⟩ := h
          have := hO.inv.slot_alloc (a := x) (c := d) (b := _) (by
            rw [hslotx, Function.update_of_ne hdc]; exact hd')
          exact ⟨this.2.1, by omega⟩
        | step _ hs' ih' =>
          have := hO.inv.slot_alloc hs'
          exact ⟨this.2.1, by omega⟩
      have hxalloc : x < H2.next := hO.inv.bound x _ hO.self
      have hxy : H2.slot x c = some y := by rw [hslotx, Function.update_self]
      have hy1 := hO.inv.cnt y m' hym
      have hone := one_le_refs hxalloc hxy
      have hyhs : y ∉ hs := by
        intro hmem
        have := List.count_pos_iff.mpr hmem
        omega
      have huniq : ∀ e d, H2.slot e d = some y → e = x ∧ d = c := by
        intro e d hed
        by_contra hcon
        have := two_le_refs (hO.inv.slot_alloc hed).1 hed hxalloc hxy (by
          by_contra h3
          push Not at h3
          exact hcon h3)
        omega
      have hGx : ∀ b' ∈ G, b' ≠ x := by
        rintro b' hb' rfl
        exact hxG hb'
      have hslotG : ∀ e ∈ G, ∀ d b', H.slot e d = some b' → H2.slot e d = some b' := by
        intro e he d b' hed
        obtain ⟨m, hm⟩ := hG e he
        obtain ⟨j, hj⟩ := hoth2 e m (hGx e he) hm
        simp only [slot, hm, Option.bind_some] at hed
        simp only [slot, hj, Option.bind_some]
        exact hed
      have hyG' : y ∉ G' := by
        rintro (hy' | hy' | hy')
        · obtain ⟨m, hm⟩ := hG y hy'
          have := hrk2 y m hm
          rcases hsup y hy' (by omega) with h1 | ⟨e, he, d, hed⟩
          · exact hyhs h1
          · exact hxG ((huniq e d (hslotG e he d y hed)).1 ▸ he)
        · exact hyx hy'
        · cases hy' with
          | root h =>
            obtain ⟨d, hdc, hd'⟩ := h
            have := huniq x d (by rw [hslotx, Function.update_of_ne hdc]; exact hd')
            exact hdc this.2
          | step h1 h2 =>
            have h3 := (huniq _ _ h2).1
            subst h3
            have := (hreach _ h1).2
            omega
      obtain ⟨ih1, ih2⟩ := ih rk2 hs G' H2 y m' (T.child fresh c) hO.inv hym (by omega) hsimy hyG'
        (by
          rintro b' (hb' | rfl | hb')
          · obtain ⟨m, hm⟩ := hG b' hb'
            obtain ⟨j, hj⟩ := hoth2 b' m (hGx b' hb') hm
            exact ⟨_, hj⟩
          · exact ⟨_, hO.self⟩
          · exact (hreach b' hb').1)
        (by
          rintro b' (hb' | rfl | hb') hle
          · obtain ⟨m, hm⟩ := hG b' hb'
            have := hrk2 b' m hm
            rcases hsup b' hb' (by omega) with h1 | ⟨e, he, d, hed⟩
            · exact .inl h1
            · exact .inr ⟨e, .inl he, d, hslotG e he d b' hed⟩
          · omega
          · right
            cases hb' with
            | root h =>
              obtain ⟨d, hdc, hd'⟩ := h
              exact ⟨x, .inr (.inl rfl), d, by rw [hslotx, Function.update_of_ne hdc]; exact hd'⟩
            | step h1 h2 => exact ⟨_, .inr (.inr h1), _, h2⟩)
      cases hc : (T.child fresh c).update P fresh a hi w cs with
      | error e' =>
        have hc' := hc
        unfold CTWNode.child at hc'
        constructor
        · intro e he
          simp only [CTWNode.update, hu, ok_bind, hc', error_bind, Except.error.injEq] at he
          subst he
          simp [Heap.update, get_some hx, hd.base, hu, liftPy, ← hn1, ← hH1, hown, ih1 e' hc]
        · intro r T' hT
          simp [CTWNode.update, hu, hc'] at hT
      | ok qc =>
        obtain ⟨rc, Tc⟩ := qc
        have hc' := hc
        unfold CTWNode.child at hc'
        constructor
        · intro e he
          simp [CTWNode.update, hu, hc'] at he
        · intro r T' hT
          simp only [CTWNode.update, hu, ok_bind, hc', pure_eq_ok, Except.ok.injEq, Prod.mk.injEq] at hT
          obtain ⟨rfl, rfl⟩ := hT
          obtain ⟨H3, rk3, hup, hU⟩ := ih2 rc Tc hc
          have hx3 : H3.mem x = some { n1 with children := Function.update n1.children c (some y) } :=
            hU.high x _ (Ne.symm hyx) (by omega) hO.self
          set clp := T.childrenLP + rc with hclp
          set lp := log05 + logsumexp2 (T.baseLP + q) clp with hlp
          set n4 : HNode σ k := { n1 with children := Function.update n1.children c (some y),
                                          childrenLP := clp, lp := lp } with hn4
          have hoth4 : ∀ a', a' ≠ x → (H3.set x n4).mem a' = H3.mem a' := fun a' hne => by
            simp [set, Function.update_of_ne hne]
          have hx4 : (H3.set x n4).mem x = some n4 := by simp [set]
          have halive2 : ∀ a' m, H.mem a' = some m → ∃ m', H2.mem a' = some m' := by
            intro a' m hm
            by_cases hne : a' = x
            · subst hne; exact ⟨_, hO.self⟩
            · obtain ⟨j, hj⟩ := hoth2 a' m hne hm
              exact ⟨_, hj⟩
          have hrk3 : rk3 x = rk x := by rw [hU.rkeq x _ hO.self, hrkx]
          have htr4 : ∀ p T, (∀ a', p = some a' → (∃ m, H3.mem a' = some m) ∧ rk3 a' < rk x) →
              SimAll fresh H3 p T → SimAll fresh (H3.set x n4) p T := by
            intro p T hp h
            refine SimAll.transfer {a' | (∃ m, H3.mem a' = some m) ∧ rk3 a' < rk x} ?_ hp h
            rintro a' ⟨⟨m, hm⟩, hlt⟩
            have hne : a' ≠ x := by rintro rfl; omega
            refine ⟨m, hm, ?_, m.rc, by rw [hoth4 a' hne, hm]⟩
            intro d b' hb'
            obtain ⟨h1, h2⟩ := hU.inv.edge a' m d b' hm hb'
            exact ⟨h1, by omega⟩
          have hkid3 : ∀ d a', Function.update n.children c (some y) d = some a' →
              (∃ m, H3.mem a' = some m) ∧ rk3 a' < rk x := by
            intro d a' hd'
            obtain ⟨h1, h2⟩ := hU.inv.edge x _ d a' hx3 hd'
            exact ⟨h1, by omega⟩
          refine ⟨H3.set x n4, rk3, ?_, ?_, ?_, ?_, ?_, ?_, ?_, ?_⟩
          · simp only [Heap.update, get_some hx, hd.base, hu, liftPy, ok_bind, ← hn1, ← hH1, hown, hup, get_some hx3]
            simp [hn1, hd.baseLP, hd.childrenLP, hd.lp, hclp, hlp, hn4]
          · exact hU.inv.set_data hx3 rfl rfl
          · intro a' m hm
            obtain ⟨m2, hm2⟩ := halive2 a' m hm
            rw [hU.rkeq a' m2 hm2, hrk2 a' m hm]
          · refine simAll_iff.mpr ⟨?_, ?_⟩
            · rw [view_some hx4]
              exact ⟨rfl, by simp [hn4, hn1, hd.baseLP], rfl, rfl⟩
            · intro d
              rw [view_some hx4]
              change SimAll fresh (H3.set x n4) (Function.update n.children c (some y) d) _
              refine htr4 _ _ (hkid3 d) ?_
              by_cases hdc : d = c
              · subst hdc
                rw [Function.update_self, CTWNode.child_update_self]
                exact hU.sim
              · rw [Function.update_of_ne hdc, CTWNode.child_update_other _ _ _ _ _ hdc]
                have h2 := htr2 _ _ (hkid d) (hk d)
                refine SimAll.transfer {b' | Reach H2 R b'} ?_ ?_ h2
                · intro a' ha'
                  obtain ⟨⟨m, hm⟩, _⟩ := hreach a' ha'
                  refine ⟨m, hm, ?_, hU.frame a' m (.inr (.inr ha')) hm⟩
                  intro e b' hb'
                  exact Reach.step (c := e) ha' (by simp [slot, hm, hb'])
                · intro a' ha'
                  exact Reach.root ⟨d, hdc, ha'⟩
          · intro a' m ha' hm
            obtain ⟨j, hj⟩ := hoth2 a' m (hGx a' ha') hm
            obtain ⟨j', hj'⟩ := hU.frame a' _ (.inl ha') hj
            exact ⟨j', by rw [hoth4 a' (hGx a' ha'), hj']⟩
          · intro a' m hne hle hm
            rw [hoth4 a' hne]
            have h2 := hO.high a' m hne hle (by rw [hoth1 a' hne]; exact hm)
            have h3 := hrk2 a' m hm
            exact hU.high a' m (by rintro rfl; omega) (by omega) h2
          · intro a' m hm
            by_cases hne : a' = x
            · subst hne; exact ⟨_, hx4⟩
            · obtain ⟨m2, hm2⟩ := halive2 a' m hm
              obtain ⟨m3, hm3⟩ := hU.alive a' m2 hm2
              exact ⟨m3, by rw [hoth4 a' hne, hm3]⟩
          · intro b' d a' m hb' hm
            have h3 : H3.slot b' d = some a' := by
              simp only [slot] at hb' ⊢
              by_cases hne : b' = x
              · subst hne
                rw [hx4] at hb'
                rw [hx3]
                exact hb'
              · rwa [hoth4 b' hne] at hb'
            obtain ⟨m2, hm2⟩ := halive2 a' m hm
            obtain ⟨b2, d2, h2⟩ := hU.old b' d a' m2 h3 hm2
            have hm1 : ∃ m1, H1.mem a' = some m1 := by
              by_cases hne : a' = x
              · subst hne; exact ⟨_, hx1⟩
              · exact ⟨m, by rw [hoth1 a' hne, hm]⟩
            obtain ⟨m1, hm1⟩ := hm1
            obtain ⟨b1, d1, h1⟩ := hO.old b2 d2 a' m1 h2 hm1
            exact ⟨b1, d1, by rw [← hslot1]; exact h1⟩

end Heap

end Verif
