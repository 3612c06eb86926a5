import Verif.Model.CTWHeap
import Verif.Proofs.CTWPure
import Mathlib.Algebra.BigOperators.Fin
import Mathlib.Algebra.Order.BigOperators.Group.Finset

/-! Reference counts and sharing of context-tree nodes: counting lemmas and the heap invariant. -/

namespace Verif

namespace Heap

variable {σ α : Type} {k : ℕ}

/-- The child pointer in slot `c` of the node at `b`. -/
def slot (H : Heap σ k) (b : ℕ) (c : Fin k) : Option ℕ := (H.mem b).bind (fun n => n.children c)

/-- Number of child slots of a node that point to `a`. -/
def nodeRefs (o : Option (HNode σ k)) (a : ℕ) : ℕ :=
  ∑ c : Fin k, if (o.bind (fun n => n.children c)) = some a then 1 else 0

/-- Number of child slots in memory that point to `a`. -/
def refs (H : Heap σ k) (a : ℕ) : ℕ := ∑ b ∈ Finset.range H.next, nodeRefs (H.mem b) a

/-- Overwrite or deallocate. -/
def put (H : Heap σ k) (x : ℕ) (o : Option (HNode σ k)) : Heap σ k := ⟨Function.update H.mem x o, H.next⟩

theorem refs_put (H : Heap σ k) {x : ℕ} (hx : x < H.next) (o : Option (HNode σ k)) (a : ℕ) :
    (H.put x o).refs a + nodeRefs (H.mem x) a = H.refs a + nodeRefs o a := by
  have hm : x ∈ Finset.range H.next := Finset.mem_range.mpr hx
  unfold refs put
  simp only
  rw [← Finset.add_sum_erase _ _ hm, ← Finset.add_sum_erase (Finset.range H.next) (fun b => nodeRefs (H.mem b) a) hm]
  have : ∑ b ∈ (Finset.range H.next).erase x, nodeRefs (Function.update H.mem x o b) a =
      ∑ b ∈ (Finset.range H.next).erase x, nodeRefs (H.mem b) a := by
    apply Finset.sum_congr rfl
    intro b hb
    rw [Function.update_of_ne (Finset.ne_of_mem_erase hb)]
  rw [this]
  simp only [Function.update_self]
  omega

theorem refs_alloc (H : Heap σ k) (n : HNode σ k) (a : ℕ) :
    (H.alloc n).refs a = H.refs a + nodeRefs (some n) a := by
  unfold refs alloc
  simp only
  rw [Finset.sum_range_succ, Function.update_self]
  congr 1
  apply Finset.sum_congr rfl
  intro b hb
  rw [Function.update_of_ne (Finset.mem_range.mp hb).ne]

theorem refs_congr {H H' : Heap σ k} (hn : H'.next = H.next) (h : ∀ b, b < H.next → ∀ c, H'.slot b c = H.slot b c)
    (a : ℕ) : H'.refs a = H.refs a := by
  unfold refs
  rw [hn]
  apply Finset.sum_congr rfl
  intro b hb
  unfold nodeRefs
  apply Finset.sum_congr rfl
  intro c _
  have := h b (Finset.mem_range.mp hb) c
  unfold slot at this
  rw [this]

theorem refs_eq_card (H : Heap σ k) (a : ℕ) :
    H.refs a = ((Finset.range H.next ×ˢ (Finset.univ : Finset (Fin k))).filter
      (fun p => H.slot p.1 p.2 = some a)).card := by
  rw [Finset.card_filter, Finset.sum_product]
  rfl

theorem one_le_refs {H : Heap σ k} {x a : ℕ} {c : Fin k} (hx : x < H.next) (h : H.slot x c = some a) :
    1 ≤ H.refs a := by
  rw [refs_eq_card]
  apply Finset.card_pos.mpr
  exact ⟨(x, c), by simp [hx, h]⟩

theorem two_le_refs {H : Heap σ k} {x y a : ℕ} {c d : Fin k} (hx : x < H.next) (h : H.slot x c = some a)
    (hy : y < H.next) (h' : H.slot y d = some a) (hne : x ≠ y ∨ c ≠ d) : 2 ≤ H.refs a := by
  rw [refs_eq_card]
  apply Finset.one_lt_card.mpr
  refine ⟨(x, c), by simp [hx, h], (y, d), by simp [hy, h'], ?_⟩
  intro he
  rw [Prod.mk.injEq] at he
  rcases hne with h1 | h1
  · exact h1 he.1
  · exact h1 he.2

theorem nodeRefs_update (n : HNode σ k) (c : Fin k) (v : Option ℕ) (a : ℕ) :
    nodeRefs (some { n with children := Function.update n.children c v }) a +
        (if n.children c = some a then 1 else 0) =
      nodeRefs (some n) a + (if v = some a then 1 else 0) := by
  unfold nodeRefs
  simp only [Option.bind_some]
  rw [← Finset.add_sum_erase _ _ (Finset.mem_univ c),
    ← Finset.add_sum_erase Finset.univ (fun c => if n.children c = some a then 1 else 0) (Finset.mem_univ c)]
  have : ∑ d ∈ Finset.univ.erase c, (if Function.update n.children c v d = some a then 1 else 0) =
      ∑ d ∈ Finset.univ.erase c, (if n.children d = some a then 1 else 0) := by
    apply Finset.sum_congr rfl
    intro b hb
    rw [Function.update_of_ne (Finset.ne_of_mem_erase hb)]
  rw [this]
  simp only [Function.update_self]
  omega

theorem nodeRefs_eq_countP (n : HNode σ k) (a : ℕ) :
    nodeRefs (some n) a = (List.finRange k).countP (fun c => decide (n.children c = some a)) := by
  unfold nodeRefs
  rw [Fin.sum_univ_def]
  generalize List.finRange k = l
  induction l with
  | nil => rfl
  | cons c cs ih =>
    rw [List.map_cons, List.sum_cons, ih, List.countP_cons]
    simp only [Option.bind_some, decide_eq_true_eq]
    omega

theorem nodeRefs_eq_zero {n : HNode σ k} {a : ℕ} (h : ∀ c, n.children c ≠ some a) : nodeRefs (some n) a = 0 := by
  unfold nodeRefs
  apply Finset.sum_eq_zero
  intro c _
  simp [h c]

/-- The invariant of memory: `hs` lists the references held by the program; `rk` is a height function. -/
structure Inv (rk : ℕ → ℕ) (hs : List ℕ) (H : Heap σ k) : Prop where
  /-- allocated addresses are below the next address -/
  bound : ∀ a n, H.mem a = some n → a < H.next
  /-- child pointers point to allocated nodes one level down -/
  edge : ∀ a n c b, H.mem a = some n → n.children c = some b → (∃ m, H.mem b = some m) ∧ rk b + 1 = rk a
  /-- the program's references are to allocated nodes -/
  hand : ∀ a ∈ hs, ∃ m, H.mem a = some m
  /-- the reference count is the number of references -/
  cnt : ∀ a n, H.mem a = some n → n.rc = hs.count a + H.refs a
  /-- every allocated node is referenced -/
  pos : ∀ a n, H.mem a = some n → 0 < n.rc

namespace Inv

variable {rk : ℕ → ℕ} {hs : List ℕ} {H : Heap σ k}

theorem next_none (h : Inv rk hs H) : H.mem H.next = none := by
  cases hm : H.mem H.next with
  | none => rfl
  | some n => exact absurd (h.bound _ _ hm) (lt_irrefl _)

theorem refs_none (h : Inv rk hs H) {a : ℕ} (ha : H.mem a = none) : H.refs a = 0 ∧ hs.count a = 0 := by
  constructor
  · rw [refs_eq_card, Finset.card_eq_zero, Finset.filter_eq_empty_iff]
    rintro ⟨b, c⟩ _ hb
    simp only [slot] at hb
    cases hm : H.mem b with
    | none => simp [hm] at hb
    | some n =>
      rw [hm, Option.bind_some] at hb
      obtain ⟨⟨m, h1⟩, _⟩ := h.edge b n c a hm hb
      rw [ha] at h1
      cases h1
  · rw [List.count_eq_zero]
    intro hmem
    obtain ⟨m, h1⟩ := h.hand a hmem
    rw [ha] at h1
    cases h1

/-- Heights may be shifted. -/
theorem shift (h : Inv rk hs H) (l : ℕ) : Inv (fun a => rk a + l) hs H where
  bound := h.bound
  edge a n c b h1 h2 := ⟨(h.edge a n c b h1 h2).1, by have := (h.edge a n c b h1 h2).2; omega⟩
  hand := h.hand
  cnt := h.cnt
  pos := h.pos

/-- Only the order of the program's references may change. -/
theorem perm (h : Inv rk hs H) {hs' : List ℕ} (hp : hs.Perm hs') : Inv rk hs' H where
  bound := h.bound
  edge := h.edge
  hand a ha := h.hand a (hp.mem_iff.mpr ha)
  cnt a n ha := by rw [h.cnt a n ha, hp.count_eq]
  pos := h.pos

/-- Changing the data of a node, but not its children or count, keeps the invariant. -/
theorem set_data (h : Inv rk hs H) {x : ℕ} {n n' : HNode σ k} (hx : H.mem x = some n)
    (hc : n'.children = n.children) (hr : n'.rc = n.rc) : Inv rk hs (H.set x n') := by
  have hmem : ∀ a m, (H.set x n').mem a = some m → ∃ m0, H.mem a = some m0 ∧ m.children = m0.children ∧ m.rc = m0.rc := by
    intro a m ha
    simp only [set] at ha
    by_cases hax : a = x
    · subst hax
      rw [Function.update_self, Option.some.injEq] at ha
      subst ha
      exact ⟨n, hx, hc, hr⟩
    · rw [Function.update_of_ne hax] at ha
      exact ⟨m, ha, rfl, rfl⟩
  have hsome : ∀ a, (∃ m, H.mem a = some m) → ∃ m, (H.set x n').mem a = some m := by
    rintro a ⟨m, ha⟩
    simp only [set]
    by_cases hax : a = x
    · subst hax
      exact ⟨n', by simp⟩
    · exact ⟨m, by rw [Function.update_of_ne hax, ha]⟩
  have hrefs : ∀ a, (H.set x n').refs a = H.refs a := by
    intro a
    refine refs_congr (H := H) (H' := H.set x n') rfl ?_ a
    intro b _ c
    simp only [slot, set]
    by_cases hbx : b = x
    · subst hbx
      rw [Function.update_self, hx]
      simp [hc]
    · rw [Function.update_of_ne hbx]
  refine ⟨?_, ?_, ?_, ?_, ?_⟩
  · intro a m ha
    obtain ⟨m0, h0, _⟩ := hmem a m ha
    exact h.bound a m0 h0
  · intro a m c b ha hb
    obtain ⟨m0, h0, h1, _⟩ := hmem a m ha
    rw [h1] at hb
    obtain ⟨h2, h3⟩ := h.edge a m0 c b h0 hb
    exact ⟨hsome b h2, h3⟩
  · intro a ha
    exact hsome a (h.hand a ha)
  · intro a m ha
    obtain ⟨m0, h0, _, h2⟩ := hmem a m ha
    rw [h2, hrefs, h.cnt a m0 h0]
  · intro a m ha
    obtain ⟨m0, h0, _, h2⟩ := hmem a m ha
    rw [h2]
    exact h.pos a m0 h0

theorem slot_of {x : ℕ} {n : HNode σ k} (hx : H.mem x = some n) (c : Fin k) : H.slot x c = n.children c := by
  simp [slot, hx]

end Inv

@[simp] theorem get_some {H : Heap σ k} {a : ℕ} {n : HNode σ k} (h : H.mem a = some n) : H.get a = .ok n := by
  simp [get, h]

/-- The loop that increments reference counts succeeds and adds to each node the number of slots pointing to it. -/
theorem incChildren_ok (n : HNode σ k) (l : List (Fin k)) (H : Heap σ k)
    (hall : ∀ c b, n.children c = some b → ∃ m, H.mem b = some m) :
    ∃ H', incChildren n l H = .ok H' ∧ H'.next = H.next ∧
      ∀ b, H'.mem b = (H.mem b).map
        (fun m => { m with rc := m.rc + l.countP (fun c => decide (n.children c = some b)) }) := by
  induction l generalizing H with
  | nil =>
    refine ⟨H, rfl, rfl, ?_⟩
    intro b
    cases H.mem b <;> simp
  | cons c cs ih =>
    cases hc : n.children c with
    | none =>
      obtain ⟨H', h1, h2, h3⟩ := ih H hall
      refine ⟨H', by simp [incChildren, hc, h1], h2, ?_⟩
      intro b
      rw [h3, List.countP_cons]
      simp [hc]
    | some b0 =>
      obtain ⟨m0, hm0⟩ := hall c b0 hc
      have hall' : ∀ c b, n.children c = some b → ∃ m, (H.set b0 { m0 with rc := m0.rc + 1 }).mem b = some m := by
        intro c b hcb
        by_cases hb : b = b0
        · subst hb
          exact ⟨{ m0 with rc := m0.rc + 1 }, by simp [set]⟩
        · obtain ⟨m, hm⟩ := hall c b hcb
          exact ⟨m, by simp [set, Function.update_of_ne hb, hm]⟩
      obtain ⟨H', h1, h2, h3⟩ := ih _ hall'
      refine ⟨H', by simp [incChildren, hc, hm0, h1], h2, ?_⟩
      intro b
      rw [h3, List.countP_cons]
      by_cases hb : b = b0
      · subst hb
        simp [set, hm0, hc]
        omega
      · have hb' : ¬ b0 = b := fun h => hb h.symm
        simp [set, Function.update_of_ne hb, hc, hb']

/-! ### Transitions that keep the invariant -/

namespace Inv

variable {rk : ℕ → ℕ} {hs : List ℕ} {H : Heap σ k}

/-- Allocating a node with given children, whose counts are incremented, and holding a reference to it. -/
theorem alloc_aux (h : Inv rk hs H) (n0 : HNode σ k) (r : ℕ) (hrc : n0.rc = 1)
    (hch : ∀ c b, n0.children c = some b → (∃ m, H.mem b = some m) ∧ rk b + 1 = r) (H' : Heap σ k)
    (hn : H'.next = H.next + 1) (hz : H'.mem H.next = some n0)
    (hmem : ∀ a, a ≠ H.next → H'.mem a = (H.mem a).map (fun m => { m with rc := m.rc + nodeRefs (some n0) a })) :
    Inv (Function.update rk H.next r) (H.next :: hs) H' := by
  have hnn := h.next_none
  have hne : ∀ a m, H.mem a = some m → a ≠ H.next := by
    rintro a m ha rfl
    rw [hnn] at ha
    cases ha
  have hsome : ∀ a, (∃ m, H.mem a = some m) → ∃ m, H'.mem a = some m := by
    rintro a ⟨m, ha⟩
    exact ⟨_, by rw [hmem a (hne a m ha), ha]; rfl⟩
  have hback : ∀ a m, H'.mem a = some m → a ≠ H.next →
      ∃ m0, H.mem a = some m0 ∧ m = { m0 with rc := m0.rc + nodeRefs (some n0) a } := by
    intro a m ha hax
    rw [hmem a hax] at ha
    cases hm : H.mem a with
    | none => simp [hm] at ha
    | some m0 =>
      rw [hm, Option.map_some, Option.some.injEq] at ha
      exact ⟨m0, rfl, ha.symm⟩
  have hrefs : ∀ a, H'.refs a = H.refs a + nodeRefs (some n0) a := by
    intro a
    rw [← refs_alloc]
    refine refs_congr (H := H.alloc n0) hn ?_ a
    intro b _ c
    simp only [slot, alloc]
    by_cases hb : b = H.next
    · subst hb
      rw [hz, Function.update_self]
    · rw [Function.update_of_ne hb, hmem b hb]
      cases H.mem b <;> simp
  refine ⟨?_, ?_, ?_, ?_, ?_⟩
  · intro a m ha
    rw [hn]
    by_cases hax : a = H.next
    · omega
    · obtain ⟨m0, h0, _⟩ := hback a m ha hax
      have := h.bound a m0 h0
      omega
  · intro a m c b ha hb
    by_cases hax : a = H.next
    · subst hax
      rw [hz, Option.some.injEq] at ha
      subst ha
      obtain ⟨⟨mb, h1⟩, h2⟩ := hch c b hb
      refine ⟨hsome b ⟨mb, h1⟩, ?_⟩
      rw [Function.update_self, Function.update_of_ne (hne b mb h1), h2]
    · obtain ⟨m0, h0, rfl⟩ := hback a m ha hax
      obtain ⟨⟨mb, h1⟩, h2⟩ := h.edge a m0 c b h0 hb
      refine ⟨hsome b ⟨mb, h1⟩, ?_⟩
      rw [Function.update_of_ne hax, Function.update_of_ne (hne b mb h1), h2]
  · intro a ha
    rcases List.mem_cons.mp ha with rfl | ha
    · exact ⟨n0, hz⟩
    · exact hsome a (h.hand a ha)
  · intro a m ha
    rw [hrefs]
    by_cases hax : a = H.next
    · subst hax
      rw [hz, Option.some.injEq] at ha
      subst ha
      obtain ⟨h1, h2⟩ := h.refs_none hnn
      have h3 : nodeRefs (some n0) H.next = 0 := by
        apply nodeRefs_eq_zero
        intro c hc
        obtain ⟨⟨mb, h4⟩, _⟩ := hch c _ hc
        rw [hnn] at h4
        cases h4
      rw [List.count_cons_self, h1, h2, h3, hrc]
    · obtain ⟨m0, h0, rfl⟩ := hback a m ha hax
      rw [List.count_cons_of_ne (fun hh => hax hh.symm)]
      simp only
      rw [h.cnt a m0 h0]
      omega
  · intro a m ha
    by_cases hax : a = H.next
    · subst hax
      rw [hz, Option.some.injEq] at ha
      subst ha
      omega
    · obtain ⟨m0, h0, rfl⟩ := hback a m ha hax
      have := h.pos a m0 h0
      simp only
      omega

/-- Creating a new node. -/
theorem allocNew (h : Inv rk hs H) (fresh : σ) (r : ℕ) :
    Inv (Function.update rk H.next r) (H.next :: hs) (H.alloc (newNode fresh)) := by
  refine h.alloc_aux (newNode fresh) r rfl (by simp [newNode]) _ rfl (by simp [alloc]) ?_
  intro a ha
  have h0 : nodeRefs (some (newNode (k := k) fresh)) a = 0 := nodeRefs_eq_zero (by simp [newNode])
  simp only [alloc, Function.update_of_ne ha, h0]
  cases H.mem a <;> simp

/-- Copying a node. -/
theorem copyNode (h : Inv rk hs H) {x : ℕ} {n : HNode σ k} (hx : H.mem x = some n) :
    ∃ H', H.copyNode x = .ok (H.next, H') ∧ Inv (Function.update rk H.next (rk x)) (H.next :: hs) H' ∧
      H'.next = H.next + 1 ∧ H'.mem H.next = some { n with rc := 1 } ∧
      ∀ a, a ≠ H.next → H'.mem a = (H.mem a).map (fun m => { m with rc := m.rc + nodeRefs (some n) a }) := by
  have hnn := h.next_none
  have hne : ∀ a m, H.mem a = some m → a ≠ H.next := by
    rintro a m ha rfl
    rw [hnn] at ha
    cases ha
  have hall : ∀ c b, n.children c = some b → ∃ m, (H.alloc { n with rc := 1 }).mem b = some m := by
    intro c b hb
    obtain ⟨⟨m, h1⟩, _⟩ := h.edge x n c b hx hb
    exact ⟨m, by simp [alloc, Function.update_of_ne (hne b m h1), h1]⟩
  obtain ⟨H', h1, h2, h3⟩ := incChildren_ok n (List.finRange k) (H.alloc { n with rc := 1 }) hall
  simp only [← nodeRefs_eq_countP] at h3
  have hz : H'.mem H.next = some { n with rc := 1 } := by
    have h0 : nodeRefs (some n) H.next = 0 := by
      apply nodeRefs_eq_zero
      intro c hc
      obtain ⟨⟨m, h4⟩, _⟩ := h.edge x n c _ hx hc
      exact hne _ _ h4 rfl
    rw [h3]
    simp [alloc, h0]
  have hm : ∀ a, a ≠ H.next → H'.mem a = (H.mem a).map (fun m => { m with rc := m.rc + nodeRefs (some n) a }) := by
    intro a ha
    rw [h3]
    simp [alloc, Function.update_of_ne ha]
  have hsame : ∀ a, nodeRefs (some { n with rc := 1 }) a = nodeRefs (some n) a := fun a => rfl
  refine ⟨H', ?_, ?_, h2, hz, hm⟩
  · simp [Heap.copyNode, hx, h1]
  · refine h.alloc_aux { n with rc := 1 } (rk x) rfl ?_ H' h2 hz ?_
    · intro c b hb
      exact h.edge x n c b hx hb
    · intro a ha
      rw [hm a ha]
      simp only [hsame]

/-- Storing a held reference in a child slot; the reference that was there becomes held. -/
theorem setSlot {z : ℕ} (h : Inv rk (z :: hs) H) {x : ℕ} {n : HNode σ k} (hx : H.mem x = some n) (c : Fin k)
    (hr : rk z + 1 = rk x) :
    Inv rk ((n.children c).toList ++ hs) (H.set x { n with children := Function.update n.children c (some z) }) := by
  set n' : HNode σ k := { n with children := Function.update n.children c (some z) } with hn'
  have hb : x < H.next := h.bound x n hx
  have hmem : ∀ a m, (H.set x n').mem a = some m → ∃ m0, H.mem a = some m0 ∧ m.rc = m0.rc := by
    intro a m ha
    simp only [set] at ha
    by_cases hax : a = x
    · subst hax
      rw [Function.update_self, Option.some.injEq] at ha
      subst ha
      exact ⟨n, hx, rfl⟩
    · rw [Function.update_of_ne hax] at ha
      exact ⟨m, ha, rfl⟩
  have hsome : ∀ a, (∃ m, H.mem a = some m) → ∃ m, (H.set x n').mem a = some m := by
    rintro a ⟨m, ha⟩
    simp only [set]
    by_cases hax : a = x
    · subst hax
      exact ⟨n', by simp⟩
    · exact ⟨m, by rw [Function.update_of_ne hax, ha]⟩
  have hrefs : ∀ a, (H.set x n').refs a + (if n.children c = some a then 1 else 0) =
      H.refs a + (if z = a then 1 else 0) := by
    intro a
    have h1 := refs_put H hb (some n') a
    have h2 := nodeRefs_update n c (some z) a
    rw [hx] at h1
    simp only [Option.some.injEq] at h2
    have h3 : (H.put x (some n')).refs a = (H.set x n').refs a := rfl
    rw [← hn'] at h2
    split_ifs at h2 ⊢ <;> omega
  refine ⟨?_, ?_, ?_, ?_, ?_⟩
  · intro a m ha
    obtain ⟨m0, h0, _⟩ := hmem a m ha
    exact h.bound a m0 h0
  · intro a m d b ha hbb
    simp only [set] at ha
    by_cases hax : a = x
    · subst hax
      rw [Function.update_self, Option.some.injEq] at ha
      subst ha
      by_cases hd : d = c
      · subst hd
        simp only [hn', Function.update_self, Option.some.injEq] at hbb
        subst hbb
        exact ⟨hsome z (h.hand z (by simp)), hr⟩
      · simp only [hn', Function.update_of_ne hd] at hbb
        obtain ⟨h1, h2⟩ := h.edge a n d b hx hbb
        exact ⟨hsome b h1, h2⟩
    · rw [Function.update_of_ne hax] at ha
      obtain ⟨h1, h2⟩ := h.edge a m d b ha hbb
      exact ⟨hsome b h1, h2⟩
  · intro a ha
    rcases List.mem_append.mp ha with ha | ha
    · rw [Option.mem_toList] at ha
      exact hsome a (h.edge x n c a hx ha).1
    · exact hsome a (h.hand a (by simp [ha]))
  · intro a m ha
    obtain ⟨m0, h0, h1⟩ := hmem a m ha
    rw [h1, h.cnt a m0 h0, List.count_append]
    have := hrefs a
    have h4 : (n.children c).toList.count a = if n.children c = some a then 1 else 0 := by
      cases hc : n.children c with
      | none => simp
      | some y =>
        by_cases hya : y = a
        · subst hya; simp
        · simp [hya]
    have h5 : (z :: hs).count a = hs.count a + if z = a then 1 else 0 := by
      rw [List.count_cons]
      simp [beq_iff_eq]
    rw [h4, h5]
    split_ifs at this ⊢ <;> omega
  · intro a m ha
    obtain ⟨m0, h0, h1⟩ := hmem a m ha
    rw [h1]
    exact h.pos a m0 h0

/-- Dropping one of several references. -/
theorem dropRef {y : ℕ} (h : Inv rk (y :: hs) H) {m : HNode σ k} (hy : H.mem y = some m) (hrc : 1 < m.rc) :
    Inv rk hs (H.set y { m with rc := m.rc - 1 }) := by
  have hmem : ∀ a m', (H.set y { m with rc := m.rc - 1 }).mem a = some m' →
      ∃ m0, H.mem a = some m0 ∧ m'.children = m0.children ∧ m'.rc + (if y = a then 1 else 0) = m0.rc ∧ 0 < m'.rc := by
    intro a m' ha
    simp only [set] at ha
    by_cases hax : a = y
    · subst hax
      rw [Function.update_self, Option.some.injEq] at ha
      subst ha
      refine ⟨m, hy, rfl, ?_, ?_⟩ <;> simp <;> omega
    · rw [Function.update_of_ne hax] at ha
      have : ¬ y = a := fun hh => hax hh.symm
      exact ⟨m', ha, rfl, by simp [this], h.pos a m' ha⟩
  have hsome : ∀ a, (∃ m, H.mem a = some m) → ∃ m', (H.set y { m with rc := m.rc - 1 }).mem a = some m' := by
    rintro a ⟨m, ha⟩
    simp only [set]
    by_cases hax : a = y
    · subst hax
      exact ⟨_, by simp; rfl⟩
    · exact ⟨m, by rw [Function.update_of_ne hax, ha]⟩
  have hrefs : ∀ a, (H.set y { m with rc := m.rc - 1 }).refs a = H.refs a := by
    intro a
    refine refs_congr (H := H) (H' := H.set y { m with rc := m.rc - 1 }) rfl ?_ a
    intro b _ c
    simp only [slot, set]
    by_cases hbx : b = y
    · subst hbx
      rw [Function.update_self, hy]
      simp
    · rw [Function.update_of_ne hbx]
  refine ⟨?_, ?_, ?_, ?_, ?_⟩
  · intro a m' ha
    obtain ⟨m0, h0, _⟩ := hmem a m' ha
    exact h.bound a m0 h0
  · intro a m' c b ha hb
    obtain ⟨m0, h0, h1, _⟩ := hmem a m' ha
    rw [h1] at hb
    obtain ⟨h2, h3⟩ := h.edge a m0 c b h0 hb
    exact ⟨hsome b h2, h3⟩
  · intro a ha
    exact hsome a (h.hand a (by simp [ha]))
  · intro a m' ha
    obtain ⟨m0, h0, _, h2, _⟩ := hmem a m' ha
    have h3 := h.cnt a m0 h0
    rw [List.count_cons] at h3
    rw [hrefs]
    simp only [beq_iff_eq] at h3
    split_ifs at h2 h3 <;> omega
  · intro a m' ha
    obtain ⟨m0, h0, _, _, h3⟩ := hmem a m' ha
    exact h3

end Inv

end Heap

end Verif
