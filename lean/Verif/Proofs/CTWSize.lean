import Verif.Model.CTWSize
import Mathlib.Data.Set.Card
import Mathlib.Algebra.BigOperators.Fin

/-!
# Lemmas on the nodes of context trees
-/

namespace Verif

/-- The node that is reached from the root by a sequence of context symbols exists. -/
def HasNode {σ κ : Type} : List κ → CTWNode σ κ → Prop
  | [], _ => True
  | c :: p, n => ∃ m, n.children c = some m ∧ HasNode p m

/-- The positions of the nodes of a tree. -/
def nodesOf {σ κ : Type} (n : CTWNode σ κ) : Set (List κ) := {p | HasNode p n}

namespace CTWNode

variable {σ κ α : Type}

theorem hasNode_new (fresh : σ) (p : List κ) : HasNode p (new fresh) ↔ p = [] := by
  cases p with
  | nil => simp [HasNode]
  | cons c p => simp [HasNode, new, children]

theorem hasNode_congr {n m : CTWNode σ κ} (h : n.children = m.children) (p : List κ) : HasNode p n ↔ HasNode p m := by
  cases p with
  | nil => simp [HasNode]
  | cons c p => simp only [HasNode, h]

theorem nodesOf_new (fresh : σ) : nodesOf (new fresh : CTWNode σ κ) = {[]} := by
  ext p; exact hasNode_new fresh p

theorem hasNode_set [DecidableEq κ] {n n' : CTWNode σ κ} {fresh : σ} {c : κ} {cs : List κ} {ch : CTWNode σ κ}
    (hc : n'.children = Function.update n.children c (some ch))
    (h : ∀ p, HasNode p ch ↔ HasNode p ((n.children c).getD (new fresh)) ∨ p <+: cs) (p : List κ) :
    HasNode p n' ↔ HasNode p n ∨ p <+: c :: cs := by
  cases p with
  | nil => simp [HasNode]
  | cons d p =>
    simp only [HasNode, hc]
    by_cases hd : d = c
    · subst hd
      simp only [Function.update_self, Option.some.injEq, exists_eq_left', List.cons_prefix_cons, true_and]
      rw [h]
      cases hm : n.children d with
      | none =>
        simp only [Option.getD_none, hasNode_new, reduceCtorEq, false_and, exists_false, false_or]
        constructor
        · rintro (rfl | h)
          · simp
          · exact h
        · exact Or.inr
      | some m => simp
    · rw [Function.update_of_ne hd]
      simp only [List.cons_prefix_cons, hd, false_and, or_false]

theorem hasNode_update [DecidableEq κ] {P : Predictor σ α} {fresh : σ} {a : α} {h : List α} {w : ℝ} {cs : List κ}
    {n n' : CTWNode σ κ} {r : ℝ} (hu : n.update P fresh a h w cs = .ok (r, n')) (p : List κ) :
    HasNode p n' ↔ HasNode p n ∨ p <+: cs := by
  induction cs generalizing n n' r p with
  | nil =>
    simp only [update, bind_eq_ok, pure_eq_ok, Except.ok.injEq, Prod.mk.injEq, Prod.exists] at hu
    obtain ⟨r1, b, -, -, rfl⟩ := hu
    rw [hasNode_congr (n := mk b _ _ _ n.children) (m := n) rfl]
    constructor
    · exact Or.inl
    · rintro (h | h)
      · exact h
      · rw [List.prefix_nil.1 h]; trivial
  | cons c cs ih =>
    simp only [update, bind_eq_ok, pure_eq_ok, Except.ok.injEq, Prod.mk.injEq, Prod.exists] at hu
    obtain ⟨r1, b, -, r2, ch, h2, -, rfl⟩ := hu
    exact hasNode_set rfl (fun q => ih h2 q) p

theorem hasNode_predict [DecidableEq κ] {P : Predictor σ α} {fresh : σ} {a : α} {h : List α} {cs : List κ}
    {n n' : CTWNode σ κ} {r : ℝ} (hu : n.logPredict P fresh a h cs = .ok (r, n')) (p : List κ) :
    HasNode p n' ↔ HasNode p n ∨ p <+: cs := by
  induction cs generalizing n n' r p with
  | nil =>
    simp only [logPredict, bind_eq_ok, pure_eq_ok, Except.ok.injEq, Prod.mk.injEq, Prod.exists] at hu
    obtain ⟨r1, b, -, -, rfl⟩ := hu
    rw [hasNode_congr (n := mk b _ _ _ n.children) (m := n) rfl]
    constructor
    · exact Or.inl
    · rintro (h | h)
      · exact h
      · rw [List.prefix_nil.1 h]; trivial
  | cons c cs ih =>
    simp only [logPredict, bind_eq_ok, pure_eq_ok, Except.ok.injEq, Prod.mk.injEq, Prod.exists] at hu
    obtain ⟨r1, b, -, r2, ch, h2, -, rfl⟩ := hu
    exact hasNode_set rfl (fun q => ih h2 q) p

theorem cons_inj (c : κ) : Function.Injective (c :: ·) := fun _ _ h => (List.cons.inj h).2

theorem prefix_cons_set (c : κ) (cs : List κ) :
    {p : List κ | p <+: c :: cs} = insert [] ((c :: ·) '' {p | p <+: cs}) := by
  ext p
  cases p with
  | nil => simp
  | cons d p =>
    simp only [Set.mem_setOf_eq, List.cons_prefix_cons, Set.mem_insert_iff, reduceCtorEq, Set.mem_image, List.cons.injEq,
      false_or]
    constructor
    · rintro ⟨rfl, h⟩; exact ⟨p, h, rfl, rfl⟩
    · rintro ⟨q, h, rfl, rfl⟩; exact ⟨rfl, h⟩

theorem prefixes_finite (cs : List κ) : {p : List κ | p <+: cs}.Finite := by
  induction cs with
  | nil => simp
  | cons c cs ih => rw [prefix_cons_set]; exact (ih.image _).insert _

theorem prefixes_ncard (cs : List κ) : {p : List κ | p <+: cs}.ncard = cs.length + 1 := by
  induction cs with
  | nil => simp
  | cons c cs ih =>
    rw [prefix_cons_set, Set.ncard_insert_of_notMem (by simp) ((prefixes_finite cs).image _),
      Set.ncard_image_of_injective _ (cons_inj c), ih, List.length_cons]

/-- `created` counts the positions along the context that have no node yet. -/
theorem created_eq (cs : List κ) (n : CTWNode σ κ) : {p | p <+: cs ∧ ¬ HasNode p n}.ncard = created cs n := by
  induction cs generalizing n with
  | nil =>
    have : {p : List κ | p <+: [] ∧ ¬ HasNode p n} = ∅ := by
      ext p
      simp only [Set.mem_setOf_eq, List.prefix_nil, Set.mem_empty_iff_false, iff_false, not_and, not_not]
      rintro rfl; trivial
    rw [this, Set.ncard_empty, created]
  | cons c cs ih =>
    have : {p | p <+: c :: cs ∧ ¬ HasNode p n} =
        (c :: ·) '' {p | p <+: cs ∧ ¬ ∃ m, n.children c = some m ∧ HasNode p m} := by
      ext p
      cases p with
      | nil => simp [HasNode]
      | cons d p =>
        simp only [Set.mem_setOf_eq, List.cons_prefix_cons, Set.mem_image, List.cons.injEq, HasNode]
        constructor
        · rintro ⟨⟨rfl, h⟩, h'⟩; exact ⟨p, ⟨h, h'⟩, rfl, rfl⟩
        · rintro ⟨q, ⟨h, h'⟩, rfl, rfl⟩; exact ⟨⟨rfl, h⟩, h'⟩
    rw [this, Set.ncard_image_of_injective _ (cons_inj c), created]
    cases hm : n.children c with
    | none => simp [prefixes_ncard, Nat.add_comm]
    | some m => simpa using ih m

theorem nodesOf_grow {n n' : CTWNode σ κ} {cs : List κ} (hfin : (nodesOf n).Finite)
    (h : ∀ p, HasNode p n' ↔ HasNode p n ∨ p <+: cs) :
    (nodesOf n').Finite ∧ (nodesOf n').ncard = (nodesOf n).ncard + created cs n := by
  have hfin' : {p | p <+: cs ∧ ¬ HasNode p n}.Finite := (prefixes_finite cs).subset fun p hp => hp.1
  have : nodesOf n' = nodesOf n ∪ {p | p <+: cs ∧ ¬ HasNode p n} := by
    ext p
    simp only [nodesOf, Set.mem_setOf_eq, Set.mem_union, h]
    by_cases hp : HasNode p n <;> simp [hp]
  rw [this]
  refine ⟨hfin.union hfin', ?_⟩
  rw [Set.ncard_union_eq ?_ hfin hfin', created_eq]
  rw [Set.disjoint_left]
  intro p hp hp'
  exact hp'.2 hp

/-! ### `ctwnode_size` -/

theorem foldl_add {ι : Type} (f : ι → ℕ) (l : List ι) (s : ℕ) : l.foldl (fun s i => s + f i) s = s + (l.map f).sum := by
  induction l generalizing s with
  | nil => simp
  | cons i l ih => simp [ih, Nat.add_assoc]

/-- The positions below a child. -/
def belowPos {k : ℕ} (ch : Fin k → Option (CTWNode σ (Fin k))) (c : Fin k) : Set (List (Fin k)) :=
  {p | ∃ m, ch c = some m ∧ HasNode p m}

theorem nodesOf_mk {k : ℕ} (b : σ) (x y z : ℝ) (ch : Fin k → Option (CTWNode σ (Fin k))) :
    nodesOf (mk b x y z ch) = insert [] (⋃ c ∈ (Finset.univ : Finset (Fin k)), (c :: ·) '' belowPos ch c) := by
  ext p
  cases p with
  | nil => simp [nodesOf, HasNode]
  | cons d p =>
    simp only [nodesOf, Set.mem_setOf_eq, HasNode, children, Set.mem_insert_iff, reduceCtorEq, Finset.mem_univ,
      Set.iUnion_true, Set.mem_iUnion, Set.mem_image, List.cons.injEq, false_or, belowPos]
    constructor
    · rintro ⟨m, h1, h2⟩; exact ⟨d, p, ⟨m, h1, h2⟩, rfl, rfl⟩
    · rintro ⟨c, q, ⟨m, h1, h2⟩, rfl, rfl⟩; exact ⟨m, h1, h2⟩

mutual

theorem size_eq {k : ℕ} : ∀ n : CTWNode σ (Fin k), (nodesOf n).Finite ∧ (nodesOf n).ncard = size n
  | mk b x y z ch => by
    have hch : ∀ c, (belowPos ch c).Finite ∧ (belowPos ch c).ncard = sizeOpt (ch c) := fun c => sizeOpt_eq (ch c)
    have hfin : ∀ s : Finset (Fin k), (⋃ c ∈ s, (c :: ·) '' belowPos ch c).Finite := fun s =>
      s.finite_toSet.biUnion fun c _ => (hch c).1.image _
    have hsum : ∀ s : Finset (Fin k), (⋃ c ∈ s, (c :: ·) '' belowPos ch c).ncard = ∑ c ∈ s, sizeOpt (ch c) := by
      intro s
      induction s using Finset.induction_on with
      | empty => simp
      | insert c s hc ih =>
        rw [Finset.set_biUnion_insert, Finset.sum_insert hc, Set.ncard_union_eq ?_ ((hch c).1.image _) (hfin s), ih,
          Set.ncard_image_of_injective _ (cons_inj c), (hch c).2]
        rw [Set.disjoint_left]
        rintro p ⟨q, -, rfl⟩ h
        simp only [Set.mem_iUnion, Set.mem_image, List.cons.injEq, exists_prop] at h
        obtain ⟨d, hd, q', -, rfl, -⟩ := h
        exact hc hd
    rw [nodesOf_mk]
    refine ⟨(hfin _).insert _, ?_⟩
    rw [Set.ncard_insert_of_notMem (by simp) (hfin _), hsum, size, foldl_add, Nat.add_comm, Fin.sum_univ_def]

theorem sizeOpt_eq {k : ℕ} : ∀ o : Option (CTWNode σ (Fin k)),
    ({p | ∃ m, o = some m ∧ HasNode p m}).Finite ∧ ({p | ∃ m, o = some m ∧ HasNode p m}).ncard = sizeOpt o
  | none => by simp [sizeOpt]
  | some n => by
    have := size_eq n
    simpa [sizeOpt, nodesOf] using this

end

end CTWNode

end Verif
