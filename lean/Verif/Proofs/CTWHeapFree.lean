import Verif.Proofs.CTWHeapSim

/-! Freeing nodes; predictions on shared trees. -/

namespace Verif

namespace Heap

variable {σ α : Type} {k : ℕ} {fresh : σ}

/-- Memory without the nodes in `Z` (nodes that are being freed). -/
def hide (H : Heap σ k) (Z : Finset ℕ) : Heap σ k := ⟨fun a => if a ∈ Z then none else H.mem a, H.next⟩

theorem hide_set (H : Heap σ k) {Z : Finset ℕ} {a : ℕ} (ha : a ∉ Z) (n : HNode σ k) :
    (H.set a n).hide Z = (H.hide Z).set a n := by
  simp only [hide, set, Heap.mk.injEq, and_true]
  funext b
  by_cases hb : b = a
  · subst hb
    simp [ha]
  · simp [Function.update_of_ne hb]

theorem hide_insert (H : Heap σ k) (Z : Finset ℕ) (a : ℕ) : H.hide (insert a Z) = (H.hide Z).erase a := by
  simp only [hide, erase, Heap.mk.injEq, and_true]
  funext b
  by_cases hb : b = a
  · subst hb
    simp
  · simp [hb]

theorem erase_hide (H : Heap σ k) {Z : Finset ℕ} {a : ℕ} (ha : a ∉ Z) :
    (H.erase a).hide Z = H.hide (insert a Z) := by
  simp only [hide, erase, Heap.mk.injEq, and_true]
  funext b
  by_cases hb : b = a
  · subst hb
    simp [ha]
  · simp [hb]

theorem count_filterMap (n : HNode σ k) (l : List (Fin k)) (b : ℕ) :
    (l.filterMap n.children).count b = l.countP (fun c => decide (n.children c = some b)) := by
  induction l with
  | nil => rfl
  | cons c cs ih =>
    rw [List.countP_cons, ← ih]
    cases hc : n.children c with
    | none => simp [hc]
    | some y =>
      rw [List.filterMap_cons, hc, List.count_cons]
      by_cases hyb : y = b <;> simp [hyb]

namespace Inv

variable {rk : ℕ → ℕ} {hs : List ℕ} {H : Heap σ k}

/-- Dropping the last reference to a node: the node goes, its child pointers become held. -/
theorem kill {a : ℕ} (h : Inv rk (a :: hs) H) {n : HNode σ k} (ha : H.mem a = some n) (hrc : n.rc = 1) :
    Inv rk ((List.finRange k).filterMap n.children ++ hs) (H.erase a) := by
  have hb : a < H.next := h.bound a n ha
  have hcnt := h.cnt a n ha
  rw [List.count_cons_self] at hcnt
  have hr0 : H.refs a = 0 := by omega
  have hc0 : hs.count a = 0 := by omega
  have hmem : ∀ b m, (H.erase a).mem b = some m → b ≠ a ∧ H.mem b = some m := by
    intro b m hbm
    simp only [erase] at hbm
    by_cases hba : b = a
    · subst hba
      simp at hbm
    · rw [Function.update_of_ne hba] at hbm
      exact ⟨hba, hbm⟩
  have hkeep : ∀ b m, b ≠ a → H.mem b = some m → (H.erase a).mem b = some m := by
    intro b m hba hbm
    simp [erase, Function.update_of_ne hba, hbm]
  have hnoref : ∀ e d, H.slot e d ≠ some a := by
    intro e d hed
    have := one_le_refs (h.slot_alloc hed).1 hed
    omega
  have hrefs : ∀ b, (H.erase a).refs b + nodeRefs (some n) b = H.refs b := by
    intro b
    have h1 := refs_put H hb none b
    rw [ha] at h1
    have h2 : nodeRefs (none : Option (HNode σ k)) b = 0 := by simp [nodeRefs]
    have h3 : (H.put a none).refs b = (H.erase a).refs b := rfl
    omega
  refine ⟨?_, ?_, ?_, ?_, ?_⟩
  · intro b m hbm
    exact h.bound b m (hmem b m hbm).2
  · intro e m c b he hcb
    obtain ⟨hne, he'⟩ := hmem e m he
    obtain ⟨⟨m', h1⟩, h2⟩ := h.edge e m c b he' hcb
    refine ⟨⟨m', hkeep b m' ?_ h1⟩, h2⟩
    rintro rfl
    exact hnoref e c (by simp [slot, he', hcb])
  · intro b hb'
    rcases List.mem_append.mp hb' with h1 | h1
    · obtain ⟨c, _, hc⟩ := List.mem_filterMap.mp h1
      obtain ⟨⟨m', h2⟩, h3⟩ := h.edge a n c b ha hc
      exact ⟨m', hkeep b m' (by rintro rfl; omega) h2⟩
    · obtain ⟨m', h2⟩ := h.hand b (by simp [h1])
      refine ⟨m', hkeep b m' ?_ h2⟩
      rintro rfl
      exact List.count_eq_zero.mp hc0 h1
  · intro b m hbm
    obtain ⟨hne, h1⟩ := hmem b m hbm
    rw [h.cnt b m h1, List.count_append, count_filterMap, ← nodeRefs_eq_countP,
      List.count_cons_of_ne (fun hh => hne hh.symm)]
    have := hrefs b
    omega
  · intro b m hbm
    exact h.pos b m (hmem b m hbm).2

/-- Every allocated node can be reached from a held reference. -/
theorem reach (h : Inv rk hs H) {a : ℕ} {n : HNode σ k} (ha : H.mem a = some n) :
    Reach H {b | b ∈ hs} a := by
  obtain ⟨M, hM⟩ : ∃ M, ∀ b, b < H.next → rk b ≤ M :=
    ⟨(Finset.range H.next).sup rk, fun b hb => Finset.le_sup (f := rk) (Finset.mem_range.mpr hb)⟩
  obtain ⟨d, hd⟩ : ∃ d, M - rk a = d := ⟨_, rfl⟩
  induction d using Nat.strong_induction_on generalizing a n with
  | _ d ih =>
    have h1 := h.cnt a n ha
    have h2 := h.pos a n ha
    by_cases hm : a ∈ hs
    · exact .root hm
    · have h0 : hs.count a = 0 := List.count_eq_zero.mpr hm
      have h3 : 0 < H.refs a := by omega
      rw [refs_eq_card, Finset.card_pos] at h3
      obtain ⟨⟨e, c⟩, he⟩ := h3
      rw [Finset.mem_filter] at he
      obtain ⟨_, hs'⟩ := he
      obtain ⟨h4, _, h5⟩ := h.slot_alloc hs'
      simp only at hs' h4 h5
      have hlt := hM e h4
      have : ∃ m, H.mem e = some m := by
        simp only [slot] at hs'
        cases hme : H.mem e with
        | none => simp [hme] at hs'
        | some m => exact ⟨m, rfl⟩
      obtain ⟨m, hme⟩ := this
      exact .step (ih (M - rk e) (by omega) hme rfl) hs'

end Inv

/-- What freeing guarantees. -/
structure Freed (rk : ℕ → ℕ) (hs : List ℕ) (Z : Finset ℕ) (r : ℕ) (H H' : Heap σ k) : Prop where
  inv : Inv rk hs (H'.hide Z)
  same : ∀ b m', H'.mem b = some m' → ∃ m j, H.mem b = some m ∧ m' = { m with rc := j }
  high : ∀ b, r < rk b → H'.mem b = H.mem b
  hidden : ∀ b ∈ Z, H'.mem b = H.mem b

theorem freeChildren_ok {rk : ℕ → ℕ} {f : ℕ}
    (ih : ∀ (a : ℕ) (H : Heap σ k) (Z : Finset ℕ) (hs : List ℕ), Inv rk (a :: hs) (H.hide Z) → rk a < f →
      ∃ H', free f a H = .ok H' ∧ Freed rk hs Z (rk a) H H')
    (a : ℕ) (n : HNode σ k) (Z : Finset ℕ) (haZ : a ∈ Z) (hs : List ℕ)
    (hlow : ∀ c b, n.children c = some b → rk b < f ∧ rk b < rk a) (l : List (Fin k)) :
    ∀ (H : Heap σ k), (∃ j, H.mem a = some { n with rc := j }) →
      Inv rk (l.filterMap n.children ++ hs) (H.hide Z) →
      ∃ H', freeChildren f a l H = .ok H' ∧ Inv rk hs (H'.hide Z) ∧
        (∀ b m', H'.mem b = some m' → ∃ m j, H.mem b = some m ∧ m' = { m with rc := j }) ∧
        (∀ b, rk a ≤ rk b → H'.mem b = H.mem b) ∧ (∀ b ∈ Z, H'.mem b = H.mem b) := by
  induction l with
  | nil =>
    intro H _ hI
    exact ⟨H, by simp [freeChildren], by simpa using hI, fun b m' hb => ⟨m', m'.rc, hb, rfl⟩, fun _ _ => rfl,
      fun _ _ => rfl⟩
  | cons c cs ihl =>
    rintro H ⟨j, hj⟩ hI
    cases hc : n.children c with
    | none =>
      rw [List.filterMap_cons, hc] at hI
      obtain ⟨H', h1, h2⟩ := ihl H ⟨j, hj⟩ hI
      exact ⟨H', by simp [freeChildren, get_some hj, hc, h1], h2⟩
    | some b =>
      rw [List.filterMap_cons, hc, List.cons_append] at hI
      obtain ⟨H1, g1, g2⟩ := ih b H Z _ hI (hlow c b hc).1
      have hj1 : H1.mem a = some { n with rc := j } := by rw [g2.hidden a haZ, hj]
      obtain ⟨H', h1, h2, h3, h4, h5⟩ := ihl H1 ⟨j, hj1⟩ g2.inv
      refine ⟨H', by simp [freeChildren, get_some hj, hc, g1, h1], h2, ?_, ?_, ?_⟩
      · intro e m' he
        obtain ⟨m, i, e1, rfl⟩ := h3 e m' he
        obtain ⟨m0, i0, e2, rfl⟩ := g2.same e m e1
        exact ⟨m0, i, e2, rfl⟩
      · intro e he
        rw [h4 e he, g2.high e (by have := (hlow c b hc).2; omega)]
      · intro e he
        rw [h5 e he, g2.hidden e he]

theorem free_ok {rk : ℕ → ℕ} (f : ℕ) :
    ∀ (a : ℕ) (H : Heap σ k) (Z : Finset ℕ) (hs : List ℕ), Inv rk (a :: hs) (H.hide Z) → rk a < f →
      ∃ H', free f a H = .ok H' ∧ Freed rk hs Z (rk a) H H' := by
  induction f with
  | zero => intro a H Z hs _ h; omega
  | succ f ih =>
    intro a H Z hs hI hrk
    obtain ⟨n, hn⟩ := hI.hand a (by simp)
    have haZ : a ∉ Z := by
      intro hm
      simp [hide, hm] at hn
    have hn' : H.mem a = some n := by
      simpa [hide, haZ] using hn
    have hpos := hI.pos a n hn
    by_cases h1 : n.rc = 1
    · have hk := hI.kill hn h1
      rw [← hide_insert] at hk
      set H1 := H.set a { n with rc := n.rc - 1 } with hH1
      have hH1a : H1.mem a = some { n with rc := n.rc - 1 } := by simp [hH1, set]
      have hH1o : ∀ b, b ≠ a → H1.mem b = H.mem b := fun b hb => by simp [hH1, set, Function.update_of_ne hb]
      have hhide : H1.hide (insert a Z) = H.hide (insert a Z) := by
        simp only [hide, Heap.mk.injEq]
        refine ⟨?_, rfl⟩
        funext b
        by_cases hb : b = a
        · simp [hb]
        · simp [hH1o b hb]
      rw [← hhide] at hk
      obtain ⟨H2, g1, g2, g3, g4, g5⟩ := freeChildren_ok ih a n (insert a Z) (by simp) hs
        (by
          intro c b hc
          have := (hI.edge a n c b hn hc).2
          omega)
        (List.finRange k) H1 ⟨_, hH1a⟩ hk
      have hH2a : H2.mem a = some { n with rc := n.rc - 1 } := by rw [g5 a (by simp), hH1a]
      refine ⟨H2.erase a, ?_, ?_, ?_, ?_, ?_⟩
      · simp only [free, get_some hn', ok_bind, h1]
        simp only [one_ne_zero, if_false, Nat.sub_self, if_true]
        rw [show H.set a { n with rc := 0 } = H1 by rw [hH1, h1]]
        simp [g1, get_some hH2a]
      · rw [erase_hide _ haZ]
        exact g2
      · intro b m' hb
        have hba : b ≠ a := by
          rintro rfl
          simp [erase] at hb
        simp only [erase, Function.update_of_ne hba] at hb
        obtain ⟨m, i, e1, rfl⟩ := g3 b m' hb
        exact ⟨m, i, by rw [← hH1o b hba, e1], rfl⟩
      · intro b hb
        have hba : b ≠ a := by rintro rfl; omega
        simp only [erase, Function.update_of_ne hba]
        rw [g4 b (by omega), hH1o b hba]
      · intro b hb
        have hba : b ≠ a := by rintro rfl; exact haZ hb
        simp only [erase, Function.update_of_ne hba]
        rw [g5 b (by simp [hb]), hH1o b hba]
    · have hd := hI.dropRef hn (by omega)
      rw [← hide_set _ haZ] at hd
      refine ⟨H.set a { n with rc := n.rc - 1 }, ?_, hd, ?_, ?_, ?_⟩
      · have h2 : n.rc ≠ 0 := by omega
        have h3 : ¬ n.rc - 1 = 0 := by omega
        simp [free, get_some hn', h2, h3]
      · intro b m' hb
        by_cases hba : b = a
        · subst hba
          simp only [set, Function.update_self, Option.some.injEq] at hb
          exact ⟨n, n.rc - 1, hn', hb.symm⟩
        · simp only [set, Function.update_of_ne hba] at hb
          exact ⟨m', m'.rc, hb, rfl⟩
      · intro b hb
        have hba : b ≠ a := by rintro rfl; omega
        simp [set, Function.update_of_ne hba]
      · intro b hb
        have hba : b ≠ a := by rintro rfl; exact haZ hb
        simp [set, Function.update_of_ne hba]

/-! ### Predictions -/

theorem simAll_none {H H' : Heap σ k} {T : CTWNode σ (Fin k)} (h : SimAll fresh H none T) :
    SimAll fresh H' none T :=
  SimAll.transfer (H := H) ∅ (by simp) (by simp) h

/-- Adding a new child below a node leaves every represented tree as it was. -/
theorem newChild_sim {rk : ℕ → ℕ} {hs : List ℕ} {H : Heap σ k} (h : Inv rk hs H) {x : ℕ} {n : HNode σ k}
    (hx : H.mem x = some n) {c : Fin k} (hc : n.children c = none) {p : Option ℕ} {T : CTWNode σ (Fin k)}
    (hp : ∀ a, p = some a → ∃ m, H.mem a = some m) (hsim : SimAll fresh H p T) :
    SimAll fresh ((H.alloc (newNode fresh)).set x
      { n with children := Function.update n.children c (some H.next) }) p T := by
  set n' : HNode σ k := { n with children := Function.update n.children c (some H.next) } with hn'
  set H' := (H.alloc (newNode fresh)).set x n' with hH'
  have hnn := h.next_none
  have hne : ∀ a m, H.mem a = some m → a ≠ H.next := by
    rintro a m ha rfl
    rw [hnn] at ha
    cases ha
  have hx' : H'.mem x = some n' := by simp [hH', set]
  have hz' : H'.mem H.next = some (newNode fresh) := by
    simp [hH', set, alloc, Function.update_of_ne (Ne.symm (hne x n hx))]
  have ho : ∀ a m, a ≠ x → H.mem a = some m → H'.mem a = some m := by
    intro a m hax ha
    simp [hH', set, alloc, Function.update_of_ne hax, Function.update_of_ne (hne a m ha), ha]
  have key : ∀ j p T, (∀ a, p = some a → ∃ m, H.mem a = some m) → SimAll fresh H p T → Sim fresh H' j p T := by
    intro j
    induction j with
    | zero =>
      intro p T hp hs
      cases p with
      | none => exact hs 0
      | some a =>
        obtain ⟨m, hm⟩ := hp a rfl
        have hd := hs 0
        simp only [Sim, view_some hm] at hd
        by_cases hax : a = x
        · subst hax
          rw [hx, Option.some.injEq] at hm
          subst hm
          simp only [Sim, view_some hx']
          exact ⟨hd.base, hd.baseLP, hd.childrenLP, hd.lp⟩
        · simp only [Sim, view_some (ho a m hax hm)]
          exact hd
    | succ j ih =>
      intro p T hp hs
      cases p with
      | none => exact simAll_none hs (j + 1)
      | some a =>
        obtain ⟨m, hm⟩ := hp a rfl
        obtain ⟨hd, hk⟩ := simAll_iff.mp hs
        rw [view_some hm] at hd hk
        by_cases hax : a = x
        · subst hax
          rw [hx, Option.some.injEq] at hm
          subst hm
          simp only [Sim, view_some hx']
          refine ⟨⟨hd.base, hd.baseLP, hd.childrenLP, hd.lp⟩, ?_⟩
          intro d
          by_cases hdc : d = c
          · subst hdc
            have h0 := hk d
            rw [hc] at h0
            simp only [hn', Function.update_self]
            have h1 : SimAll fresh H' (some H.next) (T.child fresh d) := by
              obtain ⟨g1, g2⟩ := simAll_iff.mp h0
              refine simAll_iff.mpr ⟨?_, ?_⟩
              · rw [view_some hz']
                exact g1
              · intro e
                rw [view_some hz']
                exact simAll_none (g2 e)
            exact h1 j
          · simp only [hn', Function.update_of_ne hdc]
            exact ih _ _ (fun b hb => (h.edge a n d b hx hb).1) (hk d)
        · simp only [Sim, view_some (ho a m hax hm)]
          exact ⟨hd, fun d => ih _ _ (fun b hb => (h.edge a m d b hm hb).1) (hk d)⟩
  exact fun j => key j p T hp hsim

/-- What a prediction at a node guarantees. -/
structure Predicted (fresh : σ) (rk : ℕ → ℕ) (hs : List ℕ) (H : Heap σ k) (x : ℕ)
    (H' : Heap σ k) (rk' : ℕ → ℕ) : Prop where
  inv : Inv rk' hs H'
  rkeq : ∀ a m, H.mem a = some m → rk' a = rk a
  sim : ∀ p T, (∀ a, p = some a → ∃ m, H.mem a = some m) → SimAll fresh H p T → SimAll fresh H' p T
  high : ∀ a m, rk x < rk a → H.mem a = some m → H'.mem a = some m
  alive : ∀ a m, H.mem a = some m → ∃ m', H'.mem a = some m'
  old : ∀ b d a m, H'.slot b d = some a → H.mem a = some m → ∃ b' d', H.slot b' d' = some a

theorem peekChild_ok {rk : ℕ → ℕ} {hs : List ℕ} {H : Heap σ k} (h : Inv rk hs H) {x : ℕ} {n : HNode σ k}
    (hx : H.mem x = some n) (hpos : 1 ≤ rk x) (c : Fin k) :
    ∃ y H' rk', H.peekChild fresh x c = .ok (y, H') ∧ Predicted fresh rk hs H x H' rk' ∧ rk' y + 1 = rk x ∧
      (∃ m, H'.mem y = some m) ∧
      H'.mem x = some { n with children := Function.update n.children c (some y) } := by
  cases hc : n.children c with
  | none =>
    have hO := newChild_owned (fresh := fresh) h hx hpos hc
    refine ⟨_, _, _, by simp [peekChild, hx, hc], ⟨hO.inv, hO.rkeq, ?_, ?_, ?_, hO.old⟩, hO.rky, ?_, hO.self⟩
    · intro p T hp hsim
      exact newChild_sim h hx hc hp hsim
    · intro a m hlt ha
      exact hO.high a m (by rintro rfl; omega) (by omega) ha
    · intro a m ha
      by_cases hax : a = x
      · subst hax; exact ⟨_, hO.self⟩
      · obtain ⟨j, hj⟩ := hO.others a m hax ha
        exact ⟨_, hj⟩
    · obtain ⟨m', h1, _⟩ := hO.child
      exact ⟨m', h1⟩
  | some y =>
    obtain ⟨h1, h2⟩ := h.edge x n c y hx hc
    refine ⟨y, H, rk, by simp [peekChild, hx, hc], ⟨h, fun _ _ _ => rfl, fun _ _ _ hs => hs, fun _ _ _ ha => ha,
      fun a m ha => ⟨m, ha⟩, fun b d _ _ hb _ => ⟨b, d, hb⟩⟩, h2, h1, ?_⟩
    rw [hx, ← hc, Function.update_eq_self]

theorem logPredict_sim (P : Predictor σ α) (hP : ∀ s a h r t, P.logPredict s a h = .ok (r, t) → t = s)
    (a : α) (hi : List α) (ctx : List (Fin k)) :
    ∀ (rk : ℕ → ℕ) (hs : List ℕ) (H : Heap σ k) (x : ℕ) (n : HNode σ k) (T : CTWNode σ (Fin k)),
    Inv rk hs H → H.mem x = some n → ctx.length ≤ rk x → SimAll fresh H (some x) T →
    (∀ e, T.logPredict P fresh a hi ctx = .error e → H.logPredict P fresh a hi ctx x = .error (.py e)) ∧
    (∀ r T', T.logPredict P fresh a hi ctx = .ok (r, T') →
      ∃ H' rk', H.logPredict P fresh a hi ctx x = .ok (r, H') ∧ Predicted fresh rk hs H x H' rk') := by
  induction ctx with
  | nil =>
    intro rk hs H x n T hI hx _ hsim
    obtain ⟨hd, hk⟩ := simAll_iff.mp hsim
    rw [view_some hx] at hd hk
    constructor
    · intro e he
      simp only [CTWNode.logPredict] at he
      simp only [Heap.logPredict, get_some hx, ok_bind, hd.base]
      cases hu : P.logPredict T.base a hi with
      | error e' =>
        rw [hu] at he
        simp only [error_bind, Except.error.injEq] at he
        simp [liftPy, he]
      | ok q =>
        rw [hu] at he
        simp at he
    · intro r T' hT
      simp only [CTWNode.logPredict, bind_eq_ok, pure_eq_ok, Except.ok.injEq, Prod.mk.injEq, Prod.exists] at hT
      obtain ⟨q, b, hu, rfl, rfl⟩ := hT
      have hb : b = n.base := by rw [hP _ _ _ _ _ hu, hd.base]
      have hset : H.set x { n with base := b } = H := by
        rw [hb]
        have : ({ n with base := n.base } : HNode σ k) = n := rfl
        rw [this]
        simp only [set]
        rw [← hx, Function.update_eq_self]
      refine ⟨H, rk, ?_, ⟨hI, fun _ _ _ => rfl, fun _ _ _ hs => hs, fun _ _ _ ha => ha,
        fun a m ha => ⟨m, ha⟩, fun b d _ _ hb _ => ⟨b, d, hb⟩⟩⟩
      simp only [Heap.logPredict, get_some hx, hd.base, hu, liftPy, ok_bind, hset]
      simp [hd.baseLP, hd.lp]
  | cons c cs ih =>
    intro rk hs H x n T hI hx hlen hsim
    obtain ⟨hd, hk⟩ := simAll_iff.mp hsim
    rw [view_some hx] at hd hk
    rw [List.length_cons] at hlen
    cases hu : P.logPredict T.base a hi with
    | error e' =>
      constructor
      · intro e he
        simp only [CTWNode.logPredict, hu, error_bind, Except.error.injEq] at he
        simp [Heap.logPredict, get_some hx, hd.base, hu, liftPy, he]
      · intro r T' hT
        simp [CTWNode.logPredict, hu] at hT
    | ok q =>
      obtain ⟨q, b⟩ := q
      have hb : b = n.base := by rw [hP _ _ _ _ _ hu, hd.base]
      have hset : H.set x { n with base := b } = H := by
        rw [hb]
        have : ({ n with base := n.base } : HNode σ k) = n := rfl
        rw [this]
        simp only [set]
        rw [← hx, Function.update_eq_self]
      obtain ⟨y, H2, rk2, hpk, hO, hrky, ⟨m2, hy2⟩, hself⟩ :=
        peekChild_ok (fresh := fresh) hI hx (by omega) c
      have hrkx : rk2 x = rk x := hO.rkeq x n hx
      have hsimx := hO.sim (some x) T (by rintro a' ⟨⟩; exact ⟨n, hx⟩) hsim
      obtain ⟨_, hk2⟩ := simAll_iff.mp hsimx
      rw [view_some hself] at hk2
      have hsimy := hk2 c
      simp only [Function.update_self] at hsimy
      obtain ⟨ih1, ih2⟩ := ih rk2 hs H2 y m2 (T.child fresh c) hO.inv hy2 (by omega) hsimy
      cases hc : (T.child fresh c).logPredict P fresh a hi cs with
      | error e' =>
        have hc' := hc
        unfold CTWNode.child at hc'
        constructor
        · intro e he
          simp only [CTWNode.logPredict, hu, ok_bind, hc', error_bind, Except.error.injEq] at he
          subst he
          simp only [Heap.logPredict, get_some hx, hd.base, hu, liftPy, ok_bind, hset, hpk, ih1 e' hc, error_bind]
        · intro r T' hT
          simp [CTWNode.logPredict, hu, hc'] at hT
      | ok qc =>
        obtain ⟨rc, Tc⟩ := qc
        have hc' := hc
        unfold CTWNode.child at hc'
        constructor
        · intro e he
          simp [CTWNode.logPredict, hu, hc'] at he
        · intro r T' hT
          simp only [CTWNode.logPredict, hu, ok_bind, hc', pure_eq_ok, Except.ok.injEq, Prod.mk.injEq] at hT
          obtain ⟨rfl, rfl⟩ := hT
          obtain ⟨H3, rk3, hup, hU⟩ := ih2 rc Tc hc
          have hx3 : H3.mem x = some { n with children := Function.update n.children c (some y) } :=
            hU.high x _ (by omega) hself
          refine ⟨H3, rk3, ?_, hU.inv, ?_, ?_, ?_, ?_, ?_⟩
          · simp only [Heap.logPredict, get_some hx, hd.base, hu, liftPy, ok_bind, hset, hpk, hup, get_some hx3]
            simp [hd.baseLP, hd.childrenLP, hd.lp]
          · intro a' m hm
            obtain ⟨m', hm'⟩ := hO.alive a' m hm
            rw [hU.rkeq a' m' hm', hO.rkeq a' m hm]
          · intro p T hp hs
            refine hU.sim p T ?_ (hO.sim p T hp hs)
            intro a' ha'
            obtain ⟨m, hm⟩ := hp a' ha'
            exact hO.alive a' m hm
          · intro a' m hlt hm
            refine hU.high a' m ?_ (hO.high a' m hlt hm)
            rw [hO.rkeq a' m hm]
            omega
          · intro a' m hm
            obtain ⟨m', hm'⟩ := hO.alive a' m hm
            exact hU.alive a' m' hm'
          · intro b' d a' m hb' hm
            obtain ⟨m', hm'⟩ := hO.alive a' m hm
            obtain ⟨b2, d2, h2⟩ := hU.old b' d a' m' hb' hm'
            exact hO.old b2 d2 a' m h2 hm

/-- The tree after a prediction is represented wherever the tree before was. -/
theorem SimAll.logPredict {P : Predictor σ α} (hP : ∀ s a h r t, P.logPredict s a h = .ok (r, t) → t = s)
    {H : Heap σ k} {a : α} {hi : List α} {ctx : List (Fin k)} {p : Option ℕ} {T T' : CTWNode σ (Fin k)} {r : ℝ}
    (h : T.logPredict P fresh a hi ctx = .ok (r, T')) (hs : SimAll fresh H p T) : SimAll fresh H p T' := by
  induction ctx generalizing p T T' r with
  | nil =>
    simp only [CTWNode.logPredict, bind_eq_ok, pure_eq_ok, Except.ok.injEq, Prod.mk.injEq, Prod.exists] at h
    obtain ⟨q, b, hb, rfl, rfl⟩ := h
    obtain ⟨hd, hk⟩ := simAll_iff.mp hs
    refine simAll_iff.mpr ⟨⟨?_, hd.baseLP, hd.childrenLP, hd.lp⟩, hk⟩
    rw [hd.base, ← hP _ _ _ _ _ hb]
    rfl
  | cons c cs ih =>
    simp only [CTWNode.logPredict, bind_eq_ok, pure_eq_ok, Except.ok.injEq, Prod.mk.injEq, Prod.exists] at h
    obtain ⟨q, b, hb, rc, ch, hch, rfl, rfl⟩ := h
    obtain ⟨hd, hk⟩ := simAll_iff.mp hs
    refine simAll_iff.mpr ⟨⟨?_, hd.baseLP, hd.childrenLP, hd.lp⟩, ?_⟩
    · rw [hd.base, ← hP _ _ _ _ _ hb]
      rfl
    · intro d
      by_cases hdc : d = c
      · subst hdc
        rw [CTWNode.child_update_self]
        exact ih hch (hk d)
      · rw [CTWNode.child_update_other _ _ _ _ _ hdc]
        exact hk d

end Heap

end Verif
