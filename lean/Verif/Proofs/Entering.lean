import Verif.Spec.Entering
import Verif.Proofs.Structures

/-!
# Lemmas on entering an experiment
-/

namespace Verif.Entering

open Str Structures

variable {V : Type}

/-- `setInherited` on success: inherited names have the value of the experiment, `base_dir` the path, others are unchanged. -/
theorem setInherited_ok {self : Attrs V} {b : Str} {ns : List Str} {a a' : Attrs V} (h : setInherited self b ns a = (a', .ok ())) (n : Str) :
    (n ∉ ns → a' n = a n) ∧ (n ∈ ns → n = baseDir → a' n = some (.str b)) ∧ (n ∈ ns → n ≠ baseDir → ∃ v, self n = some v ∧ a' n = some v) := by
  induction ns generalizing a with
  | nil =>
    simp only [setInherited, Prod.mk.injEq, and_true] at h
    subst h; simp
  | cons m ns ih =>
    rw [setInherited] at h
    split_ifs at h with hm
    · obtain ⟨h1, h2, h3⟩ := ih h
      refine ⟨fun hn => ?_, fun hn hb => ?_, fun hn hb => ?_⟩
      · rw [List.mem_cons, not_or] at hn
        rw [h1 hn.2, Function.update_of_ne hn.1]
      · by_cases hx : n ∈ ns
        · exact h2 hx hb
        · rw [h1 hx, hb, hm, Function.update_self]
      · have hx : n ∈ ns := by
          rcases List.mem_cons.1 hn with e | e
          · exact absurd (e.trans hm) hb
          · exact e
        exact h3 hx hb
    · cases hs : self m with
      | none => rw [hs] at h; simp at h
      | some v =>
        rw [hs] at h
        obtain ⟨h1, h2, h3⟩ := ih h
        refine ⟨fun hn => ?_, fun hn hb => ?_, fun hn hb => ?_⟩
        · rw [List.mem_cons, not_or] at hn
          rw [h1 hn.2, Function.update_of_ne hn.1]
        · have hx : n ∈ ns := by
            rcases List.mem_cons.1 hn with e | e
            · exact absurd (e.symm.trans hb) hm
            · exact e
          exact h2 hx hb
        · by_cases hx : n ∈ ns
          · exact h3 hx hb
          · have e : n = m := by simpa [hx] using hn
            exact ⟨v, e ▸ hs, by rw [h1 hx, e, Function.update_self]⟩

theorem getInherited_ok {a : Attrs V} {ns : List Str} {self self' : Attrs V} (h : getInherited a ns self = (self', .ok ())) (n : Str) :
    (n ∈ ns → ∃ v, a n = some v ∧ self' n = some v) ∧ (n ∉ ns → self' n = self n) := by
  induction ns generalizing self with
  | nil =>
    simp only [getInherited, Prod.mk.injEq, and_true] at h
    subst h; simp
  | cons m ns ih =>
    rw [getInherited] at h
    cases hs : a m with
    | none => rw [hs] at h; simp at h
    | some v =>
      rw [hs] at h
      obtain ⟨h1, h2⟩ := ih h
      refine ⟨fun hn => ?_, fun hn => ?_⟩
      · by_cases hx : n ∈ ns
        · exact h1 hx
        · have e : n = m := by simpa [hx] using hn
          exact ⟨v, e ▸ hs, by rw [h2 hx, e, Function.update_self]⟩
      · rw [List.mem_cons, not_or] at hn
        rw [h2 hn.2, Function.update_of_ne hn.1]

/-- What a successful turn of the loop does. -/
theorem enterPart_ok {self self' : Attrs V} {base b : Str} {p : Child V} {a : Attrs V} (h : enterPart self base p = (self', a, .ok b)) :
    ∃ a0 r, setInherited self (if p.keyword then normpath (pathJoin2 base p.name) else base) p.inherited p.attrs = (a0, .ok ()) ∧
      p.enter a0 = (a, r) ∧ Harmless r ∧ logPath a p.logDir = .ok b ∧ getInherited a p.broadcast (takeDim a self) = (self', .ok ()) := by
  unfold enterPart at h
  dsimp only at h
  obtain ⟨a0, r0, h0⟩ : ∃ a0 r0, setInherited self (if p.keyword then normpath (pathJoin2 base p.name) else base) p.inherited p.attrs = (a0, r0) :=
    ⟨_, _, rfl⟩
  rw [h0] at h
  cases r0 with
  | error e => simp at h
  | ok u =>
    obtain ⟨a1, r1, h1⟩ : ∃ a1 r1, p.enter a0 = (a1, r1) := ⟨_, _, rfl⟩
    simp only [h1] at h
    cases hr : suppressed r1 with
    | error e => rw [hr] at h; simp at h
    | ok u1 =>
      rw [hr] at h
      dsimp only at h
      cases hl : logPath a1 p.logDir with
      | error e => rw [hl] at h; simp at h
      | ok b1 =>
        rw [hl] at h
        dsimp only at h
        obtain ⟨s2, r2, h2⟩ : ∃ s2 r2, getInherited a1 p.broadcast (takeDim a1 self) = (s2, r2) := ⟨_, _, rfl⟩
        rw [h2] at h
        cases r2 with
        | error e => simp at h
        | ok u2 =>
          simp only [Prod.mk.injEq, Except.ok.injEq] at h
          obtain ⟨rfl, rfl, rfl⟩ := h
          refine ⟨a0, r1, h0, h1, ?_, hl, h2⟩
          cases r1 with
          | ok v => exact Or.inl rfl
          | error e =>
            cases e <;> first | exact Or.inr rfl | simp [suppressed] at hr

/-- The parts of the loop. -/
theorem enterLoop_cons {self self' : Attrs V} {base b : Str} {p : Child V} {ps : List (Child V)} {as : List (Attrs V)}
    (h : enterLoop self base (p :: ps) = (self', as, .ok b)) :
    ∃ s1 a b1 as', enterPart self base p = (s1, a, .ok b1) ∧ enterLoop s1 b1 ps = (self', as', .ok b) ∧ as = a :: as' := by
  rw [enterLoop] at h
  obtain ⟨s1, a, r, h1⟩ : ∃ s1 a r, enterPart self base p = (s1, a, r) := ⟨_, _, _, rfl⟩
  rw [h1] at h
  cases r with
  | error e => simp at h
  | ok b1 =>
    obtain ⟨s2, as', r2, h2⟩ : ∃ s2 as' r2, enterLoop s1 b1 ps = (s2, as', r2) := ⟨_, _, _, rfl⟩
    simp only [h2, Prod.mk.injEq] at h
    obtain ⟨rfl, rfl, rfl⟩ := h
    exact ⟨s1, a, b1, as', h1, h2, rfl⟩

/-- The attributes of the specification are those of the model. -/
theorem seen_eq (self : Attrs V) (l : List (Child V × Attrs V)) (n : Str) : seen self l n =
    match l.reverse.find? fun q => n ∈ q.1.broadcast ∨ (n = inputDim ∧ (q.2 outputDim).isSome) with
    | some q => if n ∈ q.1.broadcast then q.2 n else q.2 outputDim
    | none => if n = inputDim then some .none else self n := rfl

/-- An attribute of the experiment after one more part. -/
theorem seen_step {self s0 s1 : Attrs V} {base b : Str} {p : Child V} {a : Attrs V} {l : List (Child V × Attrs V)}
    (hs : ∀ n, s0 n = seen self l n) (h : enterPart s0 base p = (s1, a, .ok b)) (n : Str) : s1 n = seen self (l ++ [(p, a)]) n := by
  obtain ⟨a0, r, -, -, -, -, h2⟩ := enterPart_ok h
  obtain ⟨g1, g2⟩ := getInherited_ok h2 n
  rw [seen_eq, List.reverse_append]
  simp only [List.reverse_cons, List.reverse_nil, List.nil_append, List.singleton_append, List.find?_cons]
  by_cases hb : n ∈ p.broadcast
  · obtain ⟨v, e1, e2⟩ := g1 hb
    simp [hb, e1, e2]
  · rw [g2 hb, takeDim]
    by_cases hi : n = inputDim
    · subst hi
      obtain ⟨o, ho⟩ : ∃ o, a outputDim = o := ⟨_, rfl⟩
      cases o with
      | some v => simp [hb, ho]
      | none =>
        have : decide (inputDim ∈ p.broadcast ∨ inputDim = inputDim ∧ (a outputDim).isSome = true) = false := by simp [hb, ho]
        rw [this, ho]; exact hs _
    · have : decide (n ∈ p.broadcast ∨ n = inputDim ∧ (a outputDim).isSome = true) = false := by simp [hb, hi]
      rw [this]
      have e : s0 n = seen self l n := hs n
      rw [seen_eq] at e
      cases ho : a outputDim with
      | none => exact e
      | some v => dsimp only; rw [Function.update_of_ne hi]; exact e

/-- The invariant of the loop for attributes. -/
theorem loop_seen {self s0 s1 : Attrs V} {base b : Str} {ps : List (Child V)} {as : List (Attrs V)} {l : List (Child V × Attrs V)}
    (hs : ∀ n, s0 n = seen self l n) (h : enterLoop s0 base ps = (s1, as, .ok b)) :
    as.length = ps.length ∧ (∀ n, s1 n = seen self (l ++ ps.zip as) n) ∧
      ∀ (i : ℕ) (p : Child V) (a : Attrs V), ps[i]? = some p → as[i]? = some a → ∀ n ∈ p.inherited, n ≠ baseDir → (∀ x, (p.enter x).1 n = x n) →
        ∃ v, seen self (l ++ (ps.zip as).take i) n = some v ∧ a n = some v := by
  induction ps generalizing s0 base as l with
  | nil =>
    simp only [enterLoop, Prod.mk.injEq] at h
    obtain ⟨rfl, rfl, -⟩ := h
    refine ⟨rfl, by simpa using hs, ?_⟩
    intro i p a hp; simp at hp
  | cons p ps ih =>
    obtain ⟨s2, a, b1, as', h1, h2, rfl⟩ := enterLoop_cons h
    obtain ⟨e1, e2, e3⟩ := ih (seen_step hs h1) h2
    refine ⟨by simp [e1], ?_, ?_⟩
    · intro n; rw [e2 n]; simp
    · intro i q c hq hc n hn hb hk
      cases i with
      | zero =>
        simp only [List.getElem?_cons_zero, Option.some.injEq] at hq hc
        subst hq; subst hc
        obtain ⟨a0, r, g1, g2, -, -, -⟩ := enterPart_ok h1
        obtain ⟨v, k1, k2⟩ := (setInherited_ok g1 n).2.2 hn hb
        refine ⟨v, by simpa [hs n] using k1, ?_⟩
        have e := hk a0
        rw [g2] at e
        exact e.trans k2
      | succ i =>
        simp only [List.getElem?_cons_succ] at hq hc
        obtain ⟨v, k1, k2⟩ := e3 i q c hq hc n hn hb hk
        exact ⟨v, by simpa using k1, k2⟩

/-- A slash at the end does not matter for `os.path.normpath`. -/
theorem normpath_join_nil {k : ℕ} (hk : k ≤ 2) {cs : List Str} (h : ∀ c ∈ cs, GoodComp c) (hne : k ≠ 0 ∨ cs ≠ []) :
    normpath (pathJoin2 (pathStr k cs) []) = pathStr k cs := by
  by_cases hc : cs = []
  · subst hc
    have : pathJoin2 (pathStr k []) [] = pathStr k [] := by
      rw [pathJoin2, if_neg (by simp), if_pos, List.append_nil]
      cases k with
      | zero => left; rfl
      | succ k => right; simp [pathStr, join, List.getLast?_replicate]
    rw [this, normpath_pathStr hk h hne]
  · obtain ⟨h1, h2⟩ := join_getLast hc h
    have e0 : pathJoin2 (pathStr k cs) [] = pathStr k cs ++ ['/'] := by
      rw [pathJoin2, if_neg (by simp), if_neg]
      rintro (e | e)
      · rw [pathStr, List.append_eq_nil_iff] at e; exact h2 e.2
      · rw [pathStr, List.getLast?_append_of_ne_nil _ h2] at e; exact h1 e
    have key := normpath_pathStr hk h hne
    rw [e0]
    have hn : pathStr k cs ≠ [] := by
      rw [pathStr]; intro e; exact h2 (List.append_eq_nil_iff.1 e).2
    -- the loop ends with an empty component
    have hsplit : ∀ s : Str, split '/' (s ++ ['/']) = split '/' s ++ [[]] := fun s => split_append_cons '/' s []
    have hloop : ∀ (r : Bool) (acc l : List Str), normLoop r acc (l ++ [[]]) = normLoop r acc l := by
      intro r acc l
      induction l generalizing acc with
      | nil => simp [normLoop]
      | cons c l ih =>
        rw [List.cons_append, normLoop, normLoop]
        split_ifs <;> exact ih _
    have hcs0 : ∃ x xs, join '/' cs = x :: xs ∧ x ≠ '/' := by
      have := join_head h
      cases hj : join '/' cs with
      | nil => exact absurd hj h2
      | cons x xs => rw [hj] at this; exact ⟨x, xs, rfl, by simpa using this⟩
    obtain ⟨x, xs, hx, hx'⟩ := hcs0
    have hsl : ∀ y ys, y ≠ '/' → (if (List.replicate k '/' ++ y :: ys).head? = some '/' then
        (if (List.replicate k '/' ++ y :: ys).take 2 = ['/', '/'] ∧ (List.replicate k '/' ++ y :: ys).take 3 ≠ ['/', '/', '/'] then 2 else 1) else 0) = k := by
      intro y ys hy
      rcases (by omega : k = 0 ∨ k = 1 ∨ k = 2) with rfl | rfl | rfl <;> simp [List.replicate, hy]
    have e1 : pathStr k cs = List.replicate k '/' ++ x :: xs := by rw [pathStr, hx]
    rw [e1] at key hn ⊢
    rw [normpath, if_neg hn] at key
    simp only [hsl x xs hx'] at key
    rw [normpath, if_neg (by simp), hsplit]
    simp only [List.append_assoc, List.cons_append, hsl x (xs ++ ['/']) hx', hloop]
    exact key

end Verif.Entering
