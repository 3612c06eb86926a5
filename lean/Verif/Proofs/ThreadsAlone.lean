import Verif.Proofs.Threads
import Verif.Proofs.CTWHeapSession

/-!
# A thread that runs alone

The steps of `Verif/Model/Threads.lean` executed without interruption do what the functions of `Verif/Model/CTWHeap.lean` do.
-/

namespace Verif.Threads

open Heap

variable {σ α β γ : Type} {k : ℕ}

/-- The node with its children at other addresses. -/
def relabel (addr : ℕ → ℕ) (n : HNode σ k) : HNode σ k := { n with children := fun c => (n.children c).map addr }

/-- The memory of the thread holds the nodes of `H`, at other addresses. -/
structure Sees (addr : ℕ → ℕ) (t : Bool) (s : Mem σ k) (H : Heap σ k) : Prop where
  mem : ∀ n, s.mem (addr n) = (H.mem n).map (relabel addr)
  next : s.next t = H.next

variable {addr : ℕ → ℕ} {t : Bool} {s : Mem σ k} {H : Heap σ k}

theorem Sees.some (h : Sees addr t s H) {x : ℕ} {n : HNode σ k} (hx : H.mem x = .some n) : s.mem (addr x) = .some (relabel addr n) := by
  rw [h.mem, hx]; rfl

theorem Sees.set (hinj : Function.Injective addr) (h : Sees addr t s H) (x : ℕ) (n : HNode σ k) :
    Sees addr t ⟨Function.update s.mem (addr x) (.some (relabel addr n)), s.next⟩ (H.set x n) := by
  refine ⟨fun m => ?_, h.next⟩
  simp only [Heap.set, Function.update_apply, hinj.eq_iff]
  split_ifs
  · rfl
  · exact h.mem m

theorem run_bind (p : Prog (Mem σ k) β) (g : β → Prog (Mem σ k) γ) (s : Mem σ k) :
    (p >>= g).run s = match p.run s with
      | (.ok b, s') => (g b).run s'
      | (.error e, s') => (.error e, s') := by
  change (p.bind g).run s = _
  induction p generalizing s with
  | done r => cases r <;> rfl
  | act f k ih =>
    change ((k s).bind g).run (f s) = _
    rw [ih]
    rfl

theorem bind_of_run {p : Prog (Mem σ k) β} {g : β → Prog (Mem σ k) γ} {s s' : Mem σ k} {b : β} (h : p.run s = (.ok b, s')) :
    (p >>= g).run s = (g b).run s' := by
  rw [run_bind, h]

theorem run_rd (h : Sees addr t s H) {x : ℕ} {n : HNode σ k} (hx : H.mem x = .some n) (f : HNode σ k → β) :
    (rd (addr x) f).run s = (.ok (f (relabel addr n)), s) := by
  simp only [rd, Prog.run, h.some hx, id]

theorem run_wr (hinj : Function.Injective addr) (h : Sees addr t s H) {x : ℕ} {n : HNode σ k} (hx : H.mem x = .some n)
    {f : HNode σ k → HNode σ k} (n' : HNode σ k) (hf : f (relabel addr n) = relabel addr n') :
    ∃ s', (wr (addr x) f).run s = (.ok (), s') ∧ Sees addr t s' (H.set x n') := by
  refine ⟨_, ?_, h.set hinj x n'⟩
  simp only [wr, Prog.run, h.some hx, hf]

theorem run_mk (hinj : Function.Injective addr) (h : Sees addr t s H) (n : HNode σ k) :
    ∃ s', (mk addr t (relabel addr n)).run s = (.ok (addr H.next), s') ∧ Sees addr t s' (H.alloc n) := by
  refine ⟨⟨Function.update s.mem (addr (s.next t)) (.some (relabel addr n)), Function.update s.next t (s.next t + 1)⟩, ?_, fun m => ?_, ?_⟩
  · simp only [mk, Prog.run, h.next]
  · simp only [Heap.alloc, Function.update_apply, hinj.eq_iff, h.next]
    split_ifs
    · rfl
    · exact h.mem m
  · simp [Heap.alloc, h.next]

theorem relabel_new (fresh : σ) : relabel addr (newNode fresh : HNode σ k) = newNode fresh := by
  simp [relabel, newNode]

theorem set_self (x : ℕ) (n : HNode σ k) : (H.set x n).mem x = .some n := by simp [Heap.set]

theorem set_set (x : ℕ) (n n' : HNode σ k) : (H.set x n).set x n' = H.set x n' := by simp [Heap.set]

theorem get_ok {x : ℕ} {n : HNode σ k} : H.get x = .ok n ↔ H.mem x = .some n := by
  unfold Heap.get
  cases H.mem x <;> simp

theorem hbind_ok {x : HM β} {f : β → HM γ} {c : γ} : (x >>= f) = .ok c ↔ ∃ b, x = .ok b ∧ f b = .ok c := by
  cases x with
  | error e => simp [Bind.bind, Except.bind]
  | ok b => simp [Bind.bind, Except.bind]

theorem run_incChildren (hinj : Function.Injective addr) (n : HNode σ k) (cs : List (Fin k)) :
    ∀ {s : Mem σ k} {H H' : Heap σ k}, Sees addr t s H → Heap.incChildren n cs H = .ok H' →
      ∃ s', (incChildren (relabel addr n).children cs).run s = (.ok (), s') ∧ Sees addr t s' H' := by
  induction cs with
  | nil =>
    intro s H H' hs h
    simp only [Heap.incChildren, pure, Except.pure, Except.ok.injEq] at h
    exact ⟨s, rfl, h ▸ hs⟩
  | cons c cs ih =>
    intro s H H' hs h
    cases hc : n.children c with
    | none =>
      simp only [Heap.incChildren, hc] at h
      obtain ⟨s', h1, h2⟩ := ih hs h
      refine ⟨s', ?_, h2⟩
      rw [incChildren]
      have : (relabel addr n).children c = none := by simp [relabel, hc]
      rw [this]
      exact h1
    | some b =>
      simp only [Heap.incChildren, hc] at h
      rw [hbind_ok] at h
      obtain ⟨m, hm, h⟩ := h
      rw [get_ok] at hm
      obtain ⟨s1, h1, h2⟩ := run_wr hinj hs hm (f := fun n => { n with rc := m.rc + 1 }) { m with rc := m.rc + 1 } rfl
      obtain ⟨s', h3, h4⟩ := ih h2 h
      refine ⟨s', ?_, h4⟩
      rw [incChildren]
      have : (relabel addr n).children c = .some (addr b) := by simp [relabel, hc]
      rw [this]
      simp only
      rw [bind_of_run (run_rd hs hm _)]
      exact (bind_of_run h1).trans h3

theorem run_copy (hinj : Function.Injective addr) {H' : Heap σ k} {x z : ℕ} (hs : Sees addr t s H) (h : H.copyNode x = .ok (z, H')) :
    ∃ s', (copy addr t (addr x)).run s = (.ok (addr z), s') ∧ Sees addr t s' H' := by
  unfold Heap.copyNode at h
  rw [hbind_ok] at h
  obtain ⟨n, hn, h⟩ := h
  rw [get_ok] at hn
  simp only at h
  rw [hbind_ok] at h
  obtain ⟨H2, h2, h⟩ := h
  simp only [pure, Except.pure, Except.ok.injEq, Prod.mk.injEq] at h
  obtain ⟨rfl, rfl⟩ := h
  obtain ⟨s1, g1, g2⟩ := run_mk hinj hs { n with rc := 1 }
  obtain ⟨s2, g3, g4⟩ := run_incChildren hinj n _ g2 h2
  refine ⟨s2, ?_, g4⟩
  unfold copy
  rw [bind_of_run (run_rd hs hn _), bind_of_run (run_rd hs hn _), bind_of_run (run_rd hs hn _), bind_of_run (run_rd hs hn _),
    bind_of_run (run_rd hs hn _)]
  have e : (⟨(relabel addr n).base, (relabel addr n).baseLP, (relabel addr n).childrenLP, (relabel addr n).lp, (relabel addr n).children, 1⟩ :
    HNode σ k) = relabel addr { n with rc := 1 } := rfl
  rw [e, bind_of_run g1, bind_of_run g3]
  rfl

theorem relabel_update (n : HNode σ k) (c : Fin k) (z : ℕ) :
    ({ relabel addr n with children := Function.update (relabel addr n).children c (.some (addr z)) } : HNode σ k) =
      relabel addr { n with children := Function.update n.children c (.some z) } := by
  simp only [relabel, HNode.mk.injEq, true_and, and_true]
  funext d
  simp only [Function.update_apply]
  split_ifs <;> rfl

theorem run_new (hinj : Function.Injective addr) {x : ℕ} {n : HNode σ k} (c : Fin k) (fresh : σ) (hs : Sees addr t s H)
    (hn : H.mem x = .some n) (hx : x ≠ H.next) :
    ∃ s', (mk addr t (newNode fresh) >>= fun z => wr (addr x) (fun n => { n with children := Function.update n.children c (.some z) }) >>=
        fun _ => (pure z : Prog (Mem σ k) ℕ)).run s = (.ok (addr H.next), s') ∧
      Sees addr t s' ((H.alloc (newNode fresh)).set x { n with children := Function.update n.children c (.some H.next) }) := by
  obtain ⟨s1, g1, g2⟩ := run_mk hinj hs (newNode fresh)
  rw [relabel_new] at g1
  have hn1 : (H.alloc (newNode fresh)).mem x = .some n := by
    simp [Heap.alloc, Function.update_of_ne hx, hn]
  obtain ⟨s2, g3, g4⟩ := run_wr hinj g2 hn1 (f := fun n => { n with children := Function.update n.children c (.some (addr H.next)) }) _
    (relabel_update n c H.next)
  exact ⟨s2, (bind_of_run g1).trans (bind_of_run g3), g4⟩

theorem run_own (hinj : Function.Injective addr) {rk : ℕ → ℕ} {hs' : List ℕ} (hI : Inv rk hs' H) {H' : Heap σ k} {x y : ℕ} {c : Fin k}
    {fresh : σ} (hs : Sees addr t s H) (h : H.ownChild fresh x c = .ok (y, H')) :
    ∃ s', (own addr t fresh (addr x) c).run s = (.ok (addr y), s') ∧ Sees addr t s' H' := by
  unfold Heap.ownChild at h
  rw [hbind_ok] at h
  obtain ⟨n, hn, h⟩ := h
  rw [get_ok] at hn
  unfold own
  rw [bind_of_run (run_rd hs hn _)]
  cases hc : n.children c with
  | none =>
    have e : (relabel addr n).children c = none := by simp [relabel, hc]
    rw [hc] at h
    rw [e]
    simp only [pure, Except.pure, Except.ok.injEq, Prod.mk.injEq] at h
    obtain ⟨rfl, rfl⟩ := h
    exact run_new hinj c fresh hs hn (hI.bound x n hn).ne
  | some y0 =>
    have e : (relabel addr n).children c = .some (addr y0) := by simp [relabel, hc]
    rw [hc] at h
    rw [e]
    simp only at h ⊢
    rw [hbind_ok] at h
    obtain ⟨m, hm, h⟩ := h
    rw [get_ok] at hm
    rw [bind_of_run (run_rd hs hm _)]
    change ∃ s', (if 1 < m.rc then _ else _ : Prog (Mem σ k) ℕ).run s = _ ∧ _
    by_cases hrc : 1 < m.rc
    · rw [if_pos hrc] at h ⊢
      rw [hbind_ok] at h
      obtain ⟨⟨z, H2⟩, h2, h⟩ := h
      simp only at h
      rw [hbind_ok] at h
      obtain ⟨n2, hn2, h⟩ := h
      rw [get_ok] at hn2
      simp only [pure, Except.pure, Except.ok.injEq, Prod.mk.injEq] at h
      obtain ⟨rfl, rfl⟩ := h
      obtain ⟨s1, g1, g2⟩ := run_wr hinj hs hm (f := fun n => { n with rc := m.rc - 1 }) { m with rc := m.rc - 1 } rfl
      obtain ⟨s2, g3, g4⟩ := run_copy hinj g2 h2
      obtain ⟨s3, g5, g6⟩ := run_wr hinj g4 hn2 (f := fun n => { n with children := Function.update n.children c (.some (addr z)) }) _
        (relabel_update n2 c z)
      exact ⟨s3, (bind_of_run (run_rd hs hm _)).trans ((bind_of_run g1).trans ((bind_of_run g3).trans (bind_of_run g5))), g6⟩
    · rw [if_neg hrc] at h ⊢
      simp only [pure, Except.pure, Except.ok.injEq, Prod.mk.injEq] at h
      obtain ⟨rfl, rfl⟩ := h
      exact ⟨s, rfl, hs⟩

/-- What an operation on a node does to the others. -/
structure Framed (rk : ℕ → ℕ) (hs : List ℕ) (H : Heap σ k) (x : ℕ) (H' : Heap σ k) (rk' : ℕ → ℕ) : Prop where
  inv : Inv rk' hs H'
  rkeq : ∀ b m, H.mem b = .some m → rk' b = rk b
  high : ∀ b m, b ≠ x → rk x ≤ rk b → H.mem b = .some m → H'.mem b = .some m
  mono : ∀ b m, H.mem b = .some m → ∃ m', H'.mem b = .some m'

theorem Framed.set {rk : ℕ → ℕ} {hs : List ℕ} (hI : Inv rk hs H) {x : ℕ} {n n' : HNode σ k} (hx : H.mem x = .some n)
    (hc : n'.children = n.children) (hr : n'.rc = n.rc) : Framed rk hs H x (H.set x n') rk := by
  refine ⟨hI.set_data hx hc hr, fun _ _ _ => rfl, fun b m hb _ hm => ?_, fun b m hm => ?_⟩
  · simp [Heap.set, Function.update_of_ne hb, hm]
  · simp only [Heap.set, Function.update_apply]
    split_ifs
    · exact ⟨_, rfl⟩
    · exact ⟨m, hm⟩

theorem Framed.trans {rk rk1 rk2 : ℕ → ℕ} {hs : List ℕ} {H1 H2 : Heap σ k} {x : ℕ} {n : HNode σ k} (hx : H.mem x = .some n)
    (h1 : Framed rk hs H x H1 rk1) (h2 : Framed rk1 hs H1 x H2 rk2) : Framed rk hs H x H2 rk2 := by
  refine ⟨h2.inv, fun b m hm => ?_, fun b m hb hrk hm => ?_, fun b m hm => ?_⟩
  · obtain ⟨m1, hm1⟩ := h1.mono b m hm
    rw [h2.rkeq b m1 hm1, h1.rkeq b m hm]
  · refine h2.high b m hb ?_ (h1.high b m hb hrk hm)
    rw [h1.rkeq x n hx, h1.rkeq b m hm]
    exact hrk
  · obtain ⟨m1, hm1⟩ := h1.mono b m hm
    exact h2.mono b m1 hm1

theorem Framed.up {rk rk1 : ℕ → ℕ} {hs : List ℕ} {H1 : Heap σ k} {x y : ℕ} (h : Framed rk hs H y H1 rk1) (hlt : rk y < rk x) :
    Framed rk hs H x H1 rk1 := by
  refine ⟨h.inv, h.rkeq, fun b m _ hrk hm => h.high b m ?_ (by omega) hm, h.mono⟩
  rintro rfl
  omega

theorem Framed.refl {rk : ℕ → ℕ} {hs : List ℕ} {x : ℕ} (h : Inv rk hs H) : Framed rk hs H x H rk :=
  ⟨h, fun _ _ _ => rfl, fun _ _ _ _ hm => hm, fun _ m hm => ⟨m, hm⟩⟩

theorem Framed.owned {rk rk1 : ℕ → ℕ} {hs : List ℕ} {H1 : Heap σ k} {x y : ℕ} {n : HNode σ k} {c : Fin k} {fresh : σ}
    (h : Owned fresh rk hs H x n c y H1 rk1) : Framed rk hs H x H1 rk1 := by
  refine ⟨h.inv, h.rkeq, h.high, fun b m hm => ?_⟩
  by_cases hb : b = x
  · subst hb
    exact ⟨_, h.self⟩
  · obtain ⟨j, hj⟩ := h.others b m hb hm
    exact ⟨_, hj⟩

theorem bind_of_error {p : Prog (Mem σ k) β} {g : β → Prog (Mem σ k) γ} {s : Mem σ k} {e : HErr} (h : (p.run s).1 = .error e) :
    ((p >>= g).run s).1 = .error e := by
  rw [run_bind]
  rcases hp : p.run s with ⟨r, s'⟩
  rw [hp] at h
  simp only at h
  subst h
  rfl

theorem run_call (b : β) (s : Mem σ k) : (call (.ok b)).run s = (.ok b, s) := rfl

theorem run_call_error (e : PyErr) (s : Mem σ k) : ((call (.error e) : Prog (Mem σ k) β).run s).1 = .error (.py e) := rfl

theorem hx_set {x : ℕ} {n : HNode σ k} : (H.set x n).mem x = .some n := by simp [Heap.set]

theorem update_link (hinj : Function.Injective addr) (P : Predictor σ α) (fresh : σ) (a : α) (h : List α) (w : ℝ) (ctx : List (Fin k)) :
    ∀ (rk : ℕ → ℕ) (hs : List ℕ) (H : Heap σ k) (x : ℕ) (n : HNode σ k) (s : Mem σ k), Inv rk hs H → H.mem x = .some n →
      ctx.length ≤ rk x → Sees addr t s H →
      (∀ e, H.update P fresh a h w ctx x = .error e → ((update addr t P fresh a h w ctx (addr x)).run s).1 = .error e) ∧
      ∀ r H', H.update P fresh a h w ctx x = .ok (r, H') →
        ∃ s' rk', (update addr t P fresh a h w ctx (addr x)).run s = (.ok r, s') ∧ Sees addr t s' H' ∧ Framed rk hs H x H' rk' := by
  induction ctx with
  | nil =>
    intro rk hs H x n s hI hx _ hs'
    have hb : (relabel addr n).base = n.base := rfl
    cases hu : P.update n.base a h w with
    | error e =>
      have hH : H.update P fresh a h w [] x = .error (.py e) := by simp [Heap.update, get_some hx, hu, liftPy]
      rw [hH]
      refine ⟨fun e' he => ?_, fun r H' he => by cases he⟩
      cases he
      rw [update, bind_of_run (run_rd hs' hx _), bind_of_run (run_rd hs' hx _), bind_of_run (run_rd hs' hx _), hb, hu]
      exact bind_of_error (run_call_error e s)
    | ok q =>
      obtain ⟨r0, b⟩ := q
      have hH : H.update P fresh a h w [] x = .ok (n.baseLP + r0 - n.lp, H.set x { n with base := b, baseLP := n.baseLP + r0, lp := n.baseLP + r0 }) := by
        simp [Heap.update, get_some hx, hu, liftPy]
      rw [hH]
      refine ⟨fun e he => (by cases he), fun r H' he => ?_⟩
      cases he
      obtain ⟨s1, g1, h1⟩ := run_wr hinj hs' hx (f := fun n => { n with base := b }) { n with base := b } rfl
      obtain ⟨s2, g2, h2⟩ := run_wr hinj h1 hx_set (f := fun m => { m with baseLP := n.baseLP + r0 }) { n with base := b, baseLP := n.baseLP + r0 } rfl
      rw [set_set] at h2
      obtain ⟨s3, g3, h3⟩ := run_wr hinj h2 hx_set (f := fun m => { m with lp := n.baseLP + r0 })
        { n with base := b, baseLP := n.baseLP + r0, lp := n.baseLP + r0 } rfl
      rw [set_set] at h3
      refine ⟨s3, rk, ?_, h3, Framed.set hI hx rfl rfl⟩
      rw [update, bind_of_run (run_rd hs' hx _), bind_of_run (run_rd hs' hx _), bind_of_run (run_rd hs' hx _), hb, hu,
        bind_of_run (run_call _ s)]
      exact (bind_of_run g1).trans ((bind_of_run g2).trans ((bind_of_run (run_rd h2 hx_set _)).trans ((bind_of_run g3).trans
        (bind_of_run (run_rd h3 hx_set _)))))
  | cons c cs ih =>
    intro rk hs H x n s hI hx hlen hs'
    simp only [List.length_cons] at hlen
    have hb : (relabel addr n).base = n.base := rfl
    cases hu : P.update n.base a h w with
    | error e =>
      have hH : H.update P fresh a h w (c :: cs) x = .error (.py e) := by simp [Heap.update, get_some hx, hu, liftPy]
      rw [hH]
      refine ⟨fun e' he => ?_, fun r H' he => by cases he⟩
      cases he
      rw [update, bind_of_run (run_rd hs' hx _), bind_of_run (run_rd hs' hx _), bind_of_run (run_rd hs' hx _), hb, hu]
      exact bind_of_error (run_call_error e s)
    | ok q =>
      obtain ⟨r0, b⟩ := q
      set n1 : HNode σ k := { n with base := b, baseLP := n.baseLP + r0 } with hn1
      have hI1 : Inv rk hs (H.set x n1) := hI.set_data hx rfl rfl
      obtain ⟨y, H2, rk2, ho, hO⟩ := ownChild_ok (fresh := fresh) hI1 (hx_set (n := n1)) (by omega) c
      obtain ⟨m', hy, -⟩ := hO.child
      have hxy : x ≠ y := by
        rintro rfl
        have h1 := hO.rky
        have h2 := hO.rkeq x n1 hx_set
        omega
      obtain ⟨s1, g1, h1⟩ := run_wr hinj hs' hx (f := fun n => { n with base := b }) { n with base := b } rfl
      obtain ⟨s2, g2, h2⟩ := run_wr hinj h1 hx_set (f := fun m => { m with baseLP := n.baseLP + r0 }) n1 rfl
      rw [set_set] at h2
      obtain ⟨s3, g3, h3⟩ := run_own hinj hI1 h2 ho
      have hrd := run_rd h3 hO.self (·.childrenLP)
      have hH : H.update P fresh a h w (c :: cs) x = (do
          let (rc, H3) ← H2.update P fresh a h w cs y
          let n3 ← H3.get x
          let clp := n3.childrenLP + rc
          let lp := log05 + logsumexp2 n3.baseLP clp
          pure (lp - n.lp, H3.set x { n3 with childrenLP := clp, lp := lp })) := by
        simp [Heap.update, get_some hx, hu, liftPy, ho, ← hn1]
      have hT : (update addr t P fresh a h w (c :: cs) (addr x)).run s = (do
          let rc ← update addr t P fresh a h w cs (addr y)
          wr (addr x) fun m => { m with childrenLP := n.childrenLP + rc }
          let blp ← rd (addr x) (·.baseLP)
          let clp ← rd (addr x) (·.childrenLP)
          wr (addr x) fun m => { m with lp := log05 + logsumexp2 blp clp }
          let lp ← rd (addr x) (·.lp)
          pure (lp - n.lp) : Prog (Mem σ k) ℝ).run s3 := by
        rw [update, bind_of_run (run_rd hs' hx _), bind_of_run (run_rd hs' hx _), bind_of_run (run_rd hs' hx _), hb, hu,
          bind_of_run (run_call _ s)]
        exact (bind_of_run g1).trans ((bind_of_run g2).trans ((bind_of_run g3).trans ((bind_of_run hrd).trans rfl)))
      have hlen2 : cs.length ≤ rk2 y := by
        have := hO.rky
        omega
      obtain ⟨ihe, iho⟩ := ih rk2 hs H2 y m' s3 hO.inv hy hlen2 h3
      rw [hH, hT]
      cases hr : H2.update P fresh a h w cs y with
      | error e =>
        refine ⟨fun e' he => ?_, fun r H' he => by cases he⟩
        cases he
        exact bind_of_error (ihe e hr)
      | ok q =>
        obtain ⟨rc, H3⟩ := q
        obtain ⟨s4, rk3, g4, h4, hF⟩ := iho rc H3 hr
        have hrx : rk2 x = rk x := hO.rkeq x n1 hx_set
        have hx3 := hF.high x _ hxy (by have := hO.rky; omega) hO.self
        simp only [ok_bind, get_some hx3]
        refine ⟨fun e he => (by cases he), fun r H' he => ?_⟩
        cases he
        set n3 : HNode σ k := { n1 with children := Function.update n1.children c (.some y) } with hn3
        obtain ⟨s5, g5, h5⟩ := run_wr hinj h4 hx3 (f := fun m => { m with childrenLP := n.childrenLP + rc })
          { n3 with childrenLP := n.childrenLP + rc } rfl
        obtain ⟨s6, g6, h6⟩ := run_wr hinj h5 hx_set (f := fun m => { m with lp := log05 + logsumexp2 n3.baseLP (n.childrenLP + rc) })
          { n3 with childrenLP := n.childrenLP + rc, lp := log05 + logsumexp2 n3.baseLP (n.childrenLP + rc) } rfl
        rw [set_set] at h6
        refine ⟨s6, rk3, ?_, h6, ?_⟩
        · exact (bind_of_run g4).trans ((bind_of_run g5).trans ((bind_of_run (run_rd h5 hx_set _)).trans
            ((bind_of_run (run_rd h5 hx_set _)).trans ((bind_of_run g6).trans (bind_of_run (run_rd h6 hx_set _))))))
        · have hS := Framed.set (n' := { n3 with childrenLP := n.childrenLP + rc, lp := log05 + logsumexp2 n3.baseLP (n.childrenLP + rc) })
            hF.inv hx3 rfl rfl
          exact ((Framed.set (n' := n1) hI hx rfl rfl).trans hx (Framed.owned hO)).trans hx
            ((hF.up (by have := hO.rky; omega)).trans hO.self hS)

theorem run_peek (hinj : Function.Injective addr) {rk : ℕ → ℕ} {hs' : List ℕ} (hI : Inv rk hs' H) {x : ℕ} {c : Fin k} {n : HNode σ k}
    (fresh : σ) (hs : Sees addr t s H) (hn : H.mem x = .some n) (hpos : 1 ≤ rk x) :
    ∃ y H' rk' s', H.peekChild fresh x c = .ok (y, H') ∧ (peek addr t fresh (addr x) c).run s = (.ok (addr y), s') ∧ Sees addr t s' H' ∧
      Framed rk hs' H x H' rk' ∧ rk' y + 1 = rk x ∧ (∃ m, H'.mem y = .some m) ∧
      ∃ ch, H'.mem x = .some { n with children := ch } := by
  unfold Heap.peekChild peek
  rw [get_some hn, bind_of_run (run_rd hs hn _)]
  cases hc : n.children c with
  | none =>
    have e : (relabel addr n).children c = none := by simp [relabel, hc]
    rw [e]
    have hO := newChild_owned (fresh := fresh) hI hn hpos hc
    obtain ⟨s1, g1, h1⟩ := run_new hinj c fresh hs hn (hI.bound x n hn).ne
    obtain ⟨m, hm, -⟩ := hO.child
    exact ⟨H.next, _, _, s1, by simp [hc], g1, h1, Framed.owned hO, hO.rky, ⟨m, hm⟩, _, hO.self⟩
  | some y =>
    have e : (relabel addr n).children c = .some (addr y) := by simp [relabel, hc]
    rw [e]
    obtain ⟨hm, hrk⟩ := hI.edge x n c y hn hc
    exact ⟨y, H, rk, s, by simp [hc], rfl, hs, Framed.refl hI, hrk, hm, n.children, hn⟩

theorem logPredict_link (hinj : Function.Injective addr) (P : Predictor σ α) (fresh : σ) (a : α) (h : List α) (ctx : List (Fin k)) :
    ∀ (rk : ℕ → ℕ) (hs : List ℕ) (H : Heap σ k) (x : ℕ) (n : HNode σ k) (s : Mem σ k), Inv rk hs H → H.mem x = .some n →
      ctx.length ≤ rk x → Sees addr t s H →
      (∀ e, H.logPredict P fresh a h ctx x = .error e → ((logPredict addr t P fresh a h ctx (addr x)).run s).1 = .error e) ∧
      ∀ r H', H.logPredict P fresh a h ctx x = .ok (r, H') →
        ∃ s' rk', (logPredict addr t P fresh a h ctx (addr x)).run s = (.ok r, s') ∧ Sees addr t s' H' ∧ Framed rk hs H x H' rk' := by
  induction ctx with
  | nil =>
    intro rk hs H x n s hI hx _ hs'
    have hb : (relabel addr n).base = n.base := rfl
    cases hu : P.logPredict n.base a h with
    | error e =>
      have hH : H.logPredict P fresh a h [] x = .error (.py e) := by simp [Heap.logPredict, get_some hx, hu, liftPy]
      rw [hH]
      refine ⟨fun e' he => ?_, fun r H' he => by cases he⟩
      cases he
      rw [logPredict, bind_of_run (run_rd hs' hx _), bind_of_run (run_rd hs' hx _), hb, hu]
      exact bind_of_error (run_call_error e s)
    | ok q =>
      obtain ⟨r0, b⟩ := q
      have hH : H.logPredict P fresh a h [] x = .ok (n.baseLP + r0 - n.lp, H.set x { n with base := b }) := by
        simp [Heap.logPredict, get_some hx, hu, liftPy]
      rw [hH]
      refine ⟨fun e he => (by cases he), fun r H' he => ?_⟩
      cases he
      obtain ⟨s1, g1, h1⟩ := run_wr hinj hs' hx (f := fun n => { n with base := b }) { n with base := b } rfl
      refine ⟨s1, rk, ?_, h1, Framed.set hI hx rfl rfl⟩
      rw [logPredict, bind_of_run (run_rd hs' hx _), bind_of_run (run_rd hs' hx _), hb, hu, bind_of_run (run_call _ s)]
      exact (bind_of_run g1).trans (bind_of_run (run_rd h1 hx_set _))
  | cons c cs ih =>
    intro rk hs H x n s hI hx hlen hs'
    simp only [List.length_cons] at hlen
    have hb : (relabel addr n).base = n.base := rfl
    cases hu : P.logPredict n.base a h with
    | error e =>
      have hH : H.logPredict P fresh a h (c :: cs) x = .error (.py e) := by simp [Heap.logPredict, get_some hx, hu, liftPy]
      rw [hH]
      refine ⟨fun e' he => ?_, fun r H' he => by cases he⟩
      cases he
      rw [logPredict, bind_of_run (run_rd hs' hx _), bind_of_run (run_rd hs' hx _), hb, hu]
      exact bind_of_error (run_call_error e s)
    | ok q =>
      obtain ⟨r0, b⟩ := q
      set n1 : HNode σ k := { n with base := b } with hn1
      have hI1 : Inv rk hs (H.set x n1) := hI.set_data hx rfl rfl
      obtain ⟨s1, g1, h1⟩ := run_wr hinj hs' hx (f := fun n => { n with base := b }) n1 rfl
      obtain ⟨y, H2, rk2, s3, ho, g3, h3, hO, hrky, ⟨m', hy⟩, ch, hself⟩ := run_peek hinj hI1 (c := c) fresh h1 (hx_set (n := n1)) (by omega)
      have hrx : rk2 x = rk x := hO.rkeq x n1 hx_set
      have hxy : x ≠ y := by
        rintro rfl
        omega
      have hrd := run_rd h3 hself (·.childrenLP)
      have hH : H.logPredict P fresh a h (c :: cs) x = (do
          let (rc, H3) ← H2.logPredict P fresh a h cs y
          let n3 ← H3.get x
          let clp := n3.childrenLP + rc
          pure (log05 + logsumexp2 (n.baseLP + r0) clp - n3.lp, H3)) := by
        simp [Heap.logPredict, get_some hx, hu, liftPy, ho, ← hn1]
      have hT : (logPredict addr t P fresh a h (c :: cs) (addr x)).run s = (do
          let rc ← logPredict addr t P fresh a h cs (addr y)
          let lp ← rd (addr x) (·.lp)
          pure (log05 + logsumexp2 (n.baseLP + r0) (n.childrenLP + rc) - lp) : Prog (Mem σ k) ℝ).run s3 := by
        rw [logPredict, bind_of_run (run_rd hs' hx _), bind_of_run (run_rd hs' hx _), hb, hu, bind_of_run (run_call _ s)]
        exact (bind_of_run g1).trans ((bind_of_run g3).trans ((bind_of_run hrd).trans rfl))
      obtain ⟨ihe, iho⟩ := ih rk2 hs H2 y m' s3 hO.inv hy (by omega) h3
      rw [hH, hT]
      cases hr : H2.logPredict P fresh a h cs y with
      | error e =>
        refine ⟨fun e' he => ?_, fun r H' he => by cases he⟩
        cases he
        exact bind_of_error (ihe e hr)
      | ok q =>
        obtain ⟨rc, H3⟩ := q
        obtain ⟨s4, rk3, g4, h4, hF⟩ := iho rc H3 hr
        have hx3 := hF.high x _ hxy (by omega) hself
        simp only [ok_bind, get_some hx3]
        refine ⟨fun e he => (by cases he), fun r H' he => ?_⟩
        cases he
        refine ⟨s4, rk3, (bind_of_run g4).trans (bind_of_run (run_rd h4 hx3 _)), h4, ?_⟩
        exact ((Framed.set (n' := n1) hI hx rfl rfl).trans hx hO).trans hx (hF.up (by omega))

/-- The models of a session as a thread knows them. -/
def handles (addr : ℕ → ℕ) (models : List (Option ((List α → List (Fin k)) × ℕ))) : List ((List α → List (Fin k)) × ℕ) :=
  models.filterMap fun o => o.map fun m => (m.1, addr m.2)

theorem handles_get {models : List (Option ((List α → List (Fin k)) × ℕ))} (h : ∀ o ∈ models, o ≠ none) (i : ℕ) :
    (handles addr models)[i]? = (models[i]?).bind fun o => o.map fun m => (m.1, addr m.2) := by
  induction models generalizing i with
  | nil => simp [handles]
  | cons o models ih =>
    cases o with
    | none => exact absurd rfl (h none (by simp))
    | some m =>
      cases i with
      | zero => simp [handles]
      | succ i =>
        have := ih (fun o ho => h o (by simp [ho])) i
        simpa [handles] using this

theorem handles_append (models : List (Option ((List α → List (Fin k)) × ℕ))) (m : (List α → List (Fin k)) × ℕ) :
    handles addr (models ++ [.some m]) = handles addr models ++ [(m.1, addr m.2)] := by
  simp [handles]

theorem step_link (hinj : Function.Injective addr) (P : Predictor σ α) (fresh : σ) {D : ℕ} {rk : ℕ → ℕ} {S : Session σ α k}
    {vs : Trees σ α k} (hR : Session.Rel fresh D rk S vs) (hsome : ∀ o ∈ S.models, o ≠ none) (hs : Sees addr t s S.heap) (op : HOp α k)
    (hop : ∀ i, op ≠ .destroy i) :
    (∀ e, S.step P fresh (D + 1) op = .error e → ((step addr t P fresh (handles addr S.models) op).run s).1 = .error e) ∧
    ∀ r S', S.step P fresh (D + 1) op = .ok (r, S') →
      ∃ s', (step addr t P fresh (handles addr S.models) op).run s = (.ok (r, handles addr S'.models), s') ∧ Sees addr t s' S'.heap ∧
        ∀ o ∈ S'.models, o ≠ none := by
  have happ : ∀ m : (List α → List (Fin k)) × ℕ, ∀ o ∈ S.models ++ [.some m], o ≠ none := by
    intro m o ho
    rcases List.mem_append.mp ho with ho | ho
    · exact hsome o ho
    · rw [List.mem_singleton] at ho
      subst ho
      simp
  have hnone : ∀ i, S.models[i]? ≠ .some none := fun i hi => hsome none (List.mem_of_getElem? hi) rfl
  have hno : ∀ (r : Option ℝ) (S' : Session σ α k), (pure (none, S) : HM (Option ℝ × Session σ α k)) = .ok (r, S') →
      ∃ s', (pure (none, handles addr S.models) : Prog (Mem σ k) _).run s = (.ok (r, handles addr S'.models), s') ∧ Sees addr t s' S'.heap ∧
        ∀ o ∈ S'.models, o ≠ none := by
    intro r S' he
    cases he
    exact ⟨s, rfl, hs, hsome⟩
  have hfind : ∀ (i : ℕ) (c : List α → List (Fin k)) (x : ℕ), S.models[i]? = .some (.some (c, x)) → (∃ n, S.heap.mem x = .some n) ∧ ∀ h, (c h).reverse.length ≤ rk x := by
    intro i c x hi
    have hmem : x ∈ S.roots := Session.mem_roots.mpr ⟨i, c, hi⟩
    refine ⟨hR.inv.hand x hmem, fun h => ?_⟩
    rw [hR.rank x hmem, List.length_reverse]
    have he := hR.ent i
    rw [hi] at he
    rcases hv : vs[i]? with _ | _ | ⟨c', T⟩
    · rw [hv] at he
      exact he.elim
    · rw [hv] at he
      exact he.elim
    · rw [hv] at he
      exact he.2.1 h
  cases op with
  | destroy i => exact absurd rfl (hop i)
  | new c =>
    simp only [Session.step, step]
    refine ⟨fun e he => (by cases he), fun r S' he => ?_⟩
    cases he
    obtain ⟨s1, g1, h1⟩ := run_mk hinj hs (newNode fresh)
    rw [relabel_new] at g1
    refine ⟨s1, (bind_of_run g1).trans ?_, h1, happ _⟩
    rw [handles_append]
    rfl
  | copy i =>
    rw [step, Session.step, handles_get hsome]
    rcases hi : S.models[i]? with _ | _ | ⟨c, x⟩
    · exact ⟨fun e he => (by cases he), hno⟩
    · exact absurd hi (hnone i)
    · obtain ⟨⟨n, hn⟩, -⟩ := hfind i c x hi
      obtain ⟨H', hc, -⟩ := hR.inv.copyNode hn
      simp only [hc, ok_bind, Option.bind_some, Option.map_some]
      refine ⟨fun e he => (by cases he), fun r S' he => ?_⟩
      cases he
      obtain ⟨s1, g1, h1⟩ := run_copy hinj hs hc
      refine ⟨s1, (bind_of_run g1).trans ?_, h1, happ _⟩
      rw [handles_append]
      rfl
  | update i a h w =>
    rw [step, Session.step, handles_get hsome]
    rcases hi : S.models[i]? with _ | _ | ⟨c, x⟩
    · exact ⟨fun e he => (by cases he), hno⟩
    · exact absurd hi (hnone i)
    · obtain ⟨⟨n, hn⟩, hlen⟩ := hfind i c x hi
      obtain ⟨h1, h2⟩ := update_link (t := t) hinj P fresh a h w (c h).reverse rk _ S.heap x n s hR.inv hn (hlen h) hs
      simp only [Option.bind_some, Option.map_some]
      cases hu : S.heap.update P fresh a h w (c h).reverse x with
      | error e =>
        refine ⟨fun e' he => ?_, fun r S' he => (by cases he)⟩
        cases he
        exact bind_of_error (h1 e hu)
      | ok q =>
        obtain ⟨r0, H'⟩ := q
        refine ⟨fun e he => (by cases he), fun r S' he => ?_⟩
        cases he
        obtain ⟨s1, rk', g, hS, -⟩ := h2 r0 H' hu
        exact ⟨s1, bind_of_run g, hS, hsome⟩
  | predict i a h =>
    rw [step, Session.step, handles_get hsome]
    rcases hi : S.models[i]? with _ | _ | ⟨c, x⟩
    · exact ⟨fun e he => (by cases he), hno⟩
    · exact absurd hi (hnone i)
    · obtain ⟨⟨n, hn⟩, hlen⟩ := hfind i c x hi
      obtain ⟨h1, h2⟩ := logPredict_link (t := t) hinj P fresh a h (c h).reverse rk _ S.heap x n s hR.inv hn (hlen h) hs
      simp only [Option.bind_some, Option.map_some]
      cases hu : S.heap.logPredict P fresh a h (c h).reverse x with
      | error e =>
        refine ⟨fun e' he => ?_, fun r S' he => (by cases he)⟩
        cases he
        exact bind_of_error (h1 e hu)
      | ok q =>
        obtain ⟨r0, H'⟩ := q
        refine ⟨fun e he => (by cases he), fun r S' he => ?_⟩
        cases he
        obtain ⟨s1, rk', g, hS, -⟩ := h2 r0 H' hu
        exact ⟨s1, bind_of_run g, hS, hsome⟩

/-- A thread that runs alone gets what separate trees return. -/
theorem thread_link (hinj : Function.Injective addr) (P : Predictor σ α) (hP : ∀ s a h r t, P.logPredict s a h = .ok (r, t) → t = s)
    (fresh : σ) (D : ℕ) (ops : List (HOp α k)) (hop : ∀ c, HOp.new c ∈ ops → ∀ h, (c h).length ≤ D) (hdes : ∀ i, HOp.destroy i ∉ ops) :
    ∀ {rk : ℕ → ℕ} {S : Session σ α k} {vs : Trees σ α k} {s : Mem σ k}, Session.Rel fresh D rk S vs → (∀ o ∈ S.models, o ≠ none) →
      Sees addr t s S.heap → ((thread addr t P fresh ops (handles addr S.models)).run s).1 =
        match Trees.run P fresh vs ops with
        | (rs, .ok _) => .ok rs
        | (_, .error e) => .error (.py e) := by
  induction ops with
  | nil =>
    intro rk S vs s _ _ _
    rfl
  | cons op ops ih =>
    intro rk S vs s hR hsome hs
    obtain ⟨k1, k2⟩ := Session.step_rel P hP hR op (fun c hc => hop c (by simp [hc]))
    obtain ⟨l1, l2⟩ := step_link (t := t) hinj P fresh hR hsome hs op (fun i hi => hdes i (by simp [hi]))
    rw [thread, Trees.run]
    cases hst : Trees.step P fresh vs op with
    | error e =>
      exact bind_of_error (l1 _ (k1 e hst))
    | ok q =>
      obtain ⟨o, vs'⟩ := q
      obtain ⟨S', rk', hS', hR'⟩ := k2 o vs' hst
      obtain ⟨s', g, hs', hsome'⟩ := l2 o S' hS'
      rw [bind_of_run g]
      have hih := ih (fun c hc => hop c (by simp [hc])) (fun i hi => hdes i (by simp [hi])) hR' hsome' hs'
      simp only
      rcases hr : Trees.run P fresh vs' ops with ⟨rs, _ | v⟩
      · rw [hr] at hih
        exact bind_of_error hih
      · rw [hr] at hih
        simp only at hih ⊢
        rcases hp : (thread addr t P fresh ops (handles addr S'.models)).run s' with ⟨r, s2⟩
        rw [hp] at hih
        simp only at hih
        subst hih
        rw [bind_of_run hp]
        rfl

end Verif.Threads
