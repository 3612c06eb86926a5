import Verif.Proofs.CTWSize
import Verif.Spec.Predictor

/-!
# C81: node counts
-/

namespace Verif

variable {σ κ α : Type}

open Predictor in
/-- The history that a call is made with. -/
def Predictor.Call.hist : Call α → List α
  | .update _ h _ => h
  | .predict _ h => h

/-- The state after a sequence of calls that all return. -/
inductive After (P : Predictor σ α) : σ → List (Predictor.Call α) → σ → Prop
  | nil (s : σ) : After P s [] s
  | cons {s s' t : σ} {c : Predictor.Call α} {cs : List (Predictor.Call α)} {r : ℝ} :
      P.step s c = .ok (r, s') → After P s' cs t → After P s (c :: cs) t

/-- C81. After any calls, the tree of a `CTW` has a node exactly at the root and at each position on the path of a context
that was used, whether for an update or for a prediction. -/
theorem C81_nodes [DecidableEq κ] (P : Predictor σ α) (fresh : σ) (ctx : List α → List κ) (cs : List (Predictor.Call α))
    (t : CTWNode σ κ) (h : After (CTW.predictor P fresh ctx) (CTW.init fresh) cs t) (p : List κ) :
    HasNode p t ↔ p = [] ∨ ∃ c ∈ cs, p <+: (ctx c.hist).reverse := by
  have key : ∀ s : CTWNode σ κ, After (CTW.predictor P fresh ctx) s cs t →
      (HasNode p t ↔ HasNode p s ∨ ∃ c ∈ cs, p <+: (ctx c.hist).reverse) := by
    intro s hs
    clear h
    induction hs with
    | nil s => simp
    | @cons s s' t c cs r h1 h2 ih =>
      have hstep : HasNode p s' ↔ HasNode p s ∨ p <+: (ctx c.hist).reverse := by
        cases c with
        | update a h w => exact CTWNode.hasNode_update h1 p
        | predict a h => exact CTWNode.hasNode_predict h1 p
      rw [ih, hstep]
      simp [or_assoc]
  rw [key _ h, CTW.init, CTWNode.hasNode_new]

/-- C81. `ctwnode_size` is the number of nodes of the tree. -/
theorem C81_size {k : ℕ} (t : CTWNode σ (Fin k)) : t.size = (nodesOf t).ncard := (CTWNode.size_eq t).2.symm

/-- C81. Hence `CTW_KT.size` is the number of different contexts of all lengths, at most one more than depth times the number
of calls, and at most the number of nodes of the complete tree. -/
theorem C81_size_bounds {k : ℕ} (P : Predictor σ α) (fresh : σ) (D : ℕ) (ctx : List α → List (Fin k))
    (hD : ∀ h, (ctx h).length ≤ D) (cs : List (Predictor.Call α)) (t : CTWNode σ (Fin k))
    (h : After (CTW.predictor P fresh ctx) (CTW.init fresh) cs t) :
    t.size = ({p | p = [] ∨ ∃ c ∈ cs, p <+: (ctx c.hist).reverse} : Set (List (Fin k))).ncard ∧
    t.size ≤ 1 + D * cs.length ∧ t.size ≤ ∑ i ∈ Finset.range (D + 1), k ^ i := by
  have hn : nodesOf t = {p | p = [] ∨ ∃ c ∈ cs, p <+: (ctx c.hist).reverse} := by
    ext p; exact C81_nodes P fresh ctx cs t h p
  refine ⟨by rw [C81_size, hn], ?_, ?_⟩
  · have key : ∀ (s : CTWNode σ (Fin k)), After (CTW.predictor P fresh ctx) s cs t →
        t.size ≤ s.size + D * cs.length := by
      intro s hs
      clear hn h
      induction hs with
      | nil s => simp
      | @cons s s' t c cs r h1 h2 ih =>
        have hstep : ∀ p, HasNode p s' ↔ HasNode p s ∨ p <+: (ctx c.hist).reverse := by
          cases c with
          | update a h w => exact CTWNode.hasNode_update h1
          | predict a h => exact CTWNode.hasNode_predict h1
        have h3 := (CTWNode.nodesOf_grow (CTWNode.size_eq s).1 hstep).2
        rw [← C81_size, ← C81_size] at h3
        have h4 : ∀ (l : List (Fin k)) (n : CTWNode σ (Fin k)), CTWNode.created l n ≤ l.length := by
          intro l
          induction l with
          | nil => intro n; simp [CTWNode.created]
          | cons x l ihl =>
            intro n
            rw [CTWNode.created]
            cases n.children x with
            | none => simp [Nat.add_comm]
            | some m => exact le_trans (ihl m) (by simp)
        have h5 := h4 (ctx c.hist).reverse s
        rw [List.length_reverse] at h5
        have h6 := hD c.hist
        have h7 := ih
        rw [List.length_cons, Nat.mul_add, Nat.mul_one]
        omega
    have h1 := key _ h
    have h2 : (CTW.init fresh : CTWNode σ (Fin k)).size = 1 := by
      rw [C81_size, CTW.init, CTWNode.nodesOf_new, Set.ncard_singleton]
    omega
  · have hsub : nodesOf t ⊆ ⋃ i ∈ Finset.range (D + 1), {p : List (Fin k) | p.length = i} := by
      intro p hp
      rw [hn] at hp
      simp only [Set.mem_iUnion, Finset.mem_range, Set.mem_setOf_eq, exists_prop, exists_eq_right']
      rcases hp with rfl | ⟨c, -, hc⟩
      · simp
      · have := hc.length_le
        rw [List.length_reverse] at this
        have := hD c.hist
        omega
    have hlen : ∀ i, {p : List (Fin k) | p.length = i}.Finite ∧ {p : List (Fin k) | p.length = i}.ncard = k ^ i := by
      intro i
      induction i with
      | zero =>
        have : {p : List (Fin k) | p.length = 0} = {[]} := by ext p; simp
        rw [this]; simp
      | succ i ih =>
        have : {p : List (Fin k) | p.length = i + 1} = (fun q : Fin k × List (Fin k) => q.1 :: q.2) ''
            ((Set.univ : Set (Fin k)) ×ˢ {p : List (Fin k) | p.length = i}) := by
          ext p
          cases p with
          | nil => simp
          | cons c p => simp
        have hinj : Function.Injective (fun q : Fin k × List (Fin k) => q.1 :: q.2) := by
          rintro ⟨a, b⟩ ⟨c, d⟩ h
          simpa using h
        rw [this]
        refine ⟨(Set.finite_univ.prod ih.1).image _, ?_⟩
        rw [Set.ncard_image_of_injective _ hinj, Set.ncard_prod, ih.2, Set.ncard_univ, Nat.card_eq_fintype_card,
          Fintype.card_fin, Nat.pow_succ, Nat.mul_comm]
    have hU : ∀ s : Finset ℕ, (⋃ i ∈ s, {p : List (Fin k) | p.length = i}).Finite ∧
        (⋃ i ∈ s, {p : List (Fin k) | p.length = i}).ncard ≤ ∑ i ∈ s, k ^ i := by
      intro s
      refine ⟨s.finite_toSet.biUnion fun i _ => (hlen i).1, ?_⟩
      induction s using Finset.induction_on with
      | empty => simp
      | insert i s hi ih =>
        rw [Finset.set_biUnion_insert, Finset.sum_insert hi]
        exact le_trans (Set.ncard_union_le _ _) (Nat.add_le_add (hlen i).2.le ih)
    rw [C81_size]
    exact le_trans (Set.ncard_le_ncard hsub (hU _).1) (hU _).2

/-! ### The attribute `size` of `model.CTW` -/

namespace SizedCTW

variable [DecidableEq κ]

/-- The invariant of a session. -/
structure Good (ms : List (SizedCTW σ κ α)) : Prop where
  finite : ∀ (i : ℕ) (s : SizedCTW σ κ α), ms[i]? = some s → (nodesOf s.tree).Finite
  owner : ∀ (i : ℕ) (s : SizedCTW σ κ α), ms[i]? = some s → ∃ o : SizedCTW σ κ α, ms[s.owner]? = some o ∧ o.owner = s.owner ∧ (nodesOf s.tree).ncard ≤ o.size
  alone : ∀ (i : ℕ) (s : SizedCTW σ κ α), ms[i]? = some s → (∀ (j : ℕ) (t : SizedCTW σ κ α), ms[j]? = some t → t.owner = i → j = i) → s.owner = i →
    s.size = (nodesOf s.tree).ncard

theorem getElem?_bump (ms : List (SizedCTW σ κ α)) (j m i : ℕ) :
    (bump ms j m)[i]? = (ms[i]?).map fun s => if i = j then { s with size := s.size + m } else s := by
  unfold bump
  cases hj : ms[j]? with
  | none =>
    by_cases h : i = j
    · subst h; simp [hj]
    · simp [h]
  | some s =>
    simp only
    rw [List.getElem?_set]
    by_cases h : j = i
    · subst h
      have : j < ms.length := by
        by_contra hc
        rw [List.getElem?_eq_none (by omega)] at hj
        cases hj
      rw [if_pos rfl, if_pos this, hj]; simp
    · rw [if_neg h]
      have h' : ¬ i = j := fun e => h e.symm
      simp [h']

/-- The models after an update or prediction. -/
theorem getElem?_grow {ms : List (SizedCTW σ κ α)} {i : ℕ} {s : SizedCTW σ κ α} (hs : ms[i]? = some s) (t : CTWNode σ κ)
    (m j : ℕ) {u : SizedCTW σ κ α} (hu : (bump (ms.set i { s with tree := t }) s.owner m)[j]? = some u) :
    ∃ v : SizedCTW σ κ α, ms[j]? = some v ∧ u.ctx = v.ctx ∧ u.owner = v.owner ∧ (u.tree = if j = i then t else v.tree) ∧
      u.size = if j = s.owner then v.size + m else v.size := by
  rw [getElem?_bump, List.getElem?_set] at hu
  have hlt : i < ms.length := by
    by_contra hc
    rw [List.getElem?_eq_none (by omega)] at hs
    cases hs
  by_cases h : i = j
  · subst h
    rw [if_pos rfl, if_pos hlt] at hu
    simp only [Option.map_some, Option.some.injEq] at hu
    refine ⟨s, hs, ?_⟩
    rw [← hu]
    by_cases ho : i = s.owner
    · simp [← ho]
    · simp [ho]
  · rw [if_neg h, Option.map_eq_some_iff] at hu
    obtain ⟨v, hv, hu⟩ := hu
    refine ⟨v, hv, ?_⟩
    have h' : ¬ j = i := fun e => h e.symm
    rw [← hu, if_neg h']
    by_cases ho : j = s.owner
    · simp [ho]
    · simp [ho]

theorem getElem?_grow_some {ms : List (SizedCTW σ κ α)} {i : ℕ} {s : SizedCTW σ κ α} (hs : ms[i]? = some s) (t : CTWNode σ κ)
    (m j : ℕ) {v : SizedCTW σ κ α} (hv : ms[j]? = some v) :
    ∃ u : SizedCTW σ κ α, (bump (ms.set i { s with tree := t }) s.owner m)[j]? = some u := by
  rw [getElem?_bump, List.getElem?_set]
  have hlt : i < ms.length := by
    by_contra hc
    rw [List.getElem?_eq_none (by omega)] at hs
    cases hs
  by_cases h : i = j
  · rw [if_pos h, if_pos hlt]; exact ⟨_, rfl⟩
  · rw [if_neg h, hv]; exact ⟨_, rfl⟩

theorem Good.grow {ms : List (SizedCTW σ κ α)} (hg : Good ms) {i : ℕ} {s : SizedCTW σ κ α} (hs : ms[i]? = some s)
    {t : CTWNode σ κ} {cs : List κ} (ht : ∀ p, HasNode p t ↔ HasNode p s.tree ∨ p <+: cs) :
    Good (bump (ms.set i { s with tree := t }) s.owner (s.tree.created cs)) := by
  obtain ⟨hf, hn⟩ := CTWNode.nodesOf_grow (hg.finite i s hs) ht
  refine ⟨?_, ?_, ?_⟩
  · intro j u hu
    obtain ⟨v, hv, -, -, h3, -⟩ := getElem?_grow hs t _ j hu
    rw [h3]
    by_cases hj : j = i
    · rw [if_pos hj]; exact hf
    · rw [if_neg hj]; exact hg.finite j v hv
  · intro j u hu
    obtain ⟨v, hv, -, h2, h3, -⟩ := getElem?_grow hs t _ j hu
    obtain ⟨o, ho, ho', hle⟩ := hg.owner j v hv
    obtain ⟨o2, ho2⟩ := getElem?_grow_some hs t (s.tree.created cs) v.owner ho
    obtain ⟨o3, ho3, -, h6, -, h8⟩ := getElem?_grow hs t _ _ ho2
    rw [ho] at ho3
    cases ho3
    refine ⟨o2, by rw [h2]; exact ho2, by rw [h6, ho', h2], ?_⟩
    rw [h3, h8]
    by_cases hj : j = i
    · subst hj
      rw [hs] at hv; cases hv
      rw [if_pos rfl, if_pos rfl, hn]
      omega
    · rw [if_neg hj]
      split_ifs <;> omega
  · intro j u hu hal howner
    obtain ⟨v, hv, -, h2, h3, h4⟩ := getElem?_grow hs t _ j hu
    have hal' : ∀ j' t', ms[j']? = some t' → t'.owner = j → j' = j := by
      intro j' t' ht' hto
      obtain ⟨u', hu'⟩ := getElem?_grow_some hs t (s.tree.created cs) j' ht'
      obtain ⟨v', hv', -, h2', -, -⟩ := getElem?_grow hs t _ j' hu'
      rw [ht'] at hv'; cases hv'
      exact hal j' u' hu' (by rw [h2', hto])
    rw [h2] at howner
    have hsz := hg.alone j v hv hal' howner
    rw [h3, h4]
    by_cases hj : j = i
    · subst hj
      rw [hs] at hv; cases hv
      rw [if_pos howner.symm, if_pos rfl, hn, hsz]
    · have : ¬ j = s.owner := fun e => hj (hal' i s hs e.symm).symm
      rw [if_neg this, if_neg hj, hsz]

theorem Good.step {P : Predictor σ α} {fresh : σ} {ms ms' : List (SizedCTW σ κ α)} (hg : Good ms) {op : SOp κ α}
    (h : step P fresh ms op = .ok ms') : Good ms' := by
  have hlt : ∀ {j : ℕ} {s : SizedCTW σ κ α}, ms[j]? = some s → j < ms.length := by
    intro j s hj
    by_contra hc
    rw [List.getElem?_eq_none (by omega)] at hj
    cases hj
  have happ : ∀ {u : SizedCTW σ κ α} {j : ℕ} {s : SizedCTW σ κ α}, (ms ++ [u])[j]? = some s →
      (ms[j]? = some s) ∨ (j = ms.length ∧ s = u) := by
    intro u j s hj
    rw [List.getElem?_append] at hj
    by_cases hl : j < ms.length
    · rw [if_pos hl] at hj; exact Or.inl hj
    · rw [if_neg hl, List.getElem?_singleton] at hj
      by_cases h0 : j - ms.length = 0
      · rw [if_pos h0] at hj
        cases hj
        exact Or.inr ⟨by omega, rfl⟩
      · rw [if_neg h0] at hj; cases hj
  have hold : ∀ {u : SizedCTW σ κ α} {j : ℕ} {s : SizedCTW σ κ α}, ms[j]? = some s → (ms ++ [u])[j]? = some s := by
    intro u j s hj
    rw [List.getElem?_append_left (hlt hj)]; exact hj
  cases op with
  | new ctx =>
    simp only [SizedCTW.step, pure_eq_ok, Except.ok.injEq] at h
    subst h
    have hnew : (ms ++ [(⟨ctx, CTW.init fresh, 1, ms.length⟩ : SizedCTW σ κ α)])[ms.length]? = some ⟨ctx, CTW.init fresh, 1, ms.length⟩ := by
      simp
    refine ⟨?_, ?_, ?_⟩
    · intro j s hj
      rcases happ hj with hj | ⟨-, rfl⟩
      · exact hg.finite j s hj
      · simp only [CTW.init, CTWNode.nodesOf_new]; exact Set.finite_singleton _
    · intro j s hj
      rcases happ hj with hj | ⟨-, rfl⟩
      · obtain ⟨o, ho, h1, h2⟩ := hg.owner j s hj
        exact ⟨o, hold ho, h1, h2⟩
      · refine ⟨_, hnew, rfl, ?_⟩
        simp only [CTW.init, CTWNode.nodesOf_new, Set.ncard_singleton, le_refl]
    · intro j s hj hal ho
      rcases happ hj with hj | ⟨-, rfl⟩
      · exact hg.alone j s hj (fun j' t ht hto => hal j' t (hold ht) hto) ho
      · simp only [CTW.init, CTWNode.nodesOf_new, Set.ncard_singleton]
  | copy i =>
    rw [SizedCTW.step] at h
    cases hs : ms[i]? with
    | none => rw [hs] at h; simp only [pure_eq_ok, Except.ok.injEq] at h; exact h ▸ hg
    | some s =>
      rw [hs] at h
      simp only [CTW.predictor, bind_eq_ok, pure_eq_ok, Except.ok.injEq] at h
      obtain ⟨t, ⟨b, -, rfl⟩, rfl⟩ := h
      have hnodes : nodesOf (CTWNode.mk b s.tree.baseLP s.tree.childrenLP s.tree.lp s.tree.children) = nodesOf s.tree := by
        ext p
        exact CTWNode.hasNode_congr (n := CTWNode.mk b _ _ _ s.tree.children) (m := s.tree) rfl p
      obtain ⟨o, ho, h1, h2⟩ := hg.owner i s hs
      refine ⟨?_, ?_, ?_⟩
      · intro j u hj
        rcases happ hj with hj | ⟨-, rfl⟩
        · exact hg.finite j u hj
        · simp only [hnodes]; exact hg.finite i s hs
      · intro j u hj
        rcases happ hj with hj | ⟨-, rfl⟩
        · obtain ⟨o, ho, h1, h2⟩ := hg.owner j u hj
          exact ⟨o, hold ho, h1, h2⟩
        · exact ⟨o, hold ho, h1, by simp only [hnodes]; exact h2⟩
      · intro j u hj hal hown
        rcases happ hj with hj | ⟨rfl, rfl⟩
        · exact hg.alone j u hj (fun j' t ht hto => hal j' t (hold ht) hto) hown
        · have := hlt ho
          simp only at hown
          omega
  | update i a hist w =>
    rw [SizedCTW.step] at h
    cases hs : ms[i]? with
    | none => rw [hs] at h; simp only [pure_eq_ok, Except.ok.injEq] at h; exact h ▸ hg
    | some s =>
      rw [hs] at h
      simp only [CTW.predictor, bind_eq_ok, pure_eq_ok, Except.ok.injEq, Prod.exists] at h
      obtain ⟨r, t, h1, rfl⟩ := h
      exact hg.grow hs (CTWNode.hasNode_update h1)
  | predict i a hist =>
    rw [SizedCTW.step] at h
    cases hs : ms[i]? with
    | none => rw [hs] at h; simp only [pure_eq_ok, Except.ok.injEq] at h; exact h ▸ hg
    | some s =>
      rw [hs] at h
      simp only [CTW.predictor, bind_eq_ok, pure_eq_ok, Except.ok.injEq, Prod.exists] at h
      obtain ⟨r, t, h1, rfl⟩ := h
      exact hg.grow hs (CTWNode.hasNode_predict h1)

theorem Good.steps {P : Predictor σ α} {fresh : σ} {ops : List (SOp κ α)} : ∀ {ms ms' : List (SizedCTW σ κ α)}, Good ms →
    steps P fresh ms ops = .ok ms' → Good ms' := by
  induction ops with
  | nil => intro ms ms' hg h; simp only [SizedCTW.steps, pure_eq_ok, Except.ok.injEq] at h; exact h ▸ hg
  | cons op ops ih =>
    intro ms ms' hg h
    simp only [SizedCTW.steps, bind_eq_ok] at h
    obtain ⟨ms1, h1, h2⟩ := h
    exact ih (hg.step h1) h2

theorem good_nil : Good ([] : List (SizedCTW σ κ α)) := ⟨by simp, by simp, by simp⟩

/-- A model whose nodes have another model's factory keeps its `size`. -/
theorem step_size {P : Predictor σ α} {fresh : σ} {ms ms' : List (SizedCTW σ κ α)} (hg : Good ms) {op : SOp κ α}
    (h : step P fresh ms op = .ok ms') {i : ℕ} {s : SizedCTW σ κ α} (hs : ms[i]? = some s) (ho : s.owner ≠ i) :
    ∃ s' : SizedCTW σ κ α, ms'[i]? = some s' ∧ s'.size = s.size ∧ s'.owner = s.owner := by
  have hlt : i < ms.length := by
    by_contra hc
    rw [List.getElem?_eq_none (by omega)] at hs
    cases hs
  have hgrow : ∀ {j : ℕ} {u : SizedCTW σ κ α} (hu : ms[j]? = some u) (t : CTWNode σ κ) (m : ℕ),
      ∃ s' : SizedCTW σ κ α, (bump (ms.set j { u with tree := t }) u.owner m)[i]? = some s' ∧ s'.size = s.size ∧ s'.owner = s.owner := by
    intro j u hu t m
    obtain ⟨s', hs'⟩ := getElem?_grow_some hu t m i hs
    obtain ⟨v, hv, -, h2, -, h4⟩ := getElem?_grow hu t m i hs'
    rw [hs] at hv; cases hv
    refine ⟨s', hs', ?_, h2⟩
    rw [h4, if_neg]
    rintro rfl
    obtain ⟨o, ho1, ho2, -⟩ := hg.owner j u hu
    rw [hs] at ho1; cases ho1
    exact ho ho2
  cases op with
  | new ctx =>
    simp only [SizedCTW.step, pure_eq_ok, Except.ok.injEq] at h
    subst h
    exact ⟨s, by rw [List.getElem?_append_left hlt]; exact hs, rfl, rfl⟩
  | copy j =>
    rw [SizedCTW.step] at h
    cases hu : ms[j]? with
    | none => rw [hu] at h; simp only [pure_eq_ok, Except.ok.injEq] at h; exact ⟨s, h ▸ hs, rfl, rfl⟩
    | some u =>
      rw [hu] at h
      simp only [bind_eq_ok, pure_eq_ok, Except.ok.injEq] at h
      obtain ⟨t, -, rfl⟩ := h
      exact ⟨s, by rw [List.getElem?_append_left hlt]; exact hs, rfl, rfl⟩
  | update j a hist w =>
    rw [SizedCTW.step] at h
    cases hu : ms[j]? with
    | none => rw [hu] at h; simp only [pure_eq_ok, Except.ok.injEq] at h; exact ⟨s, h ▸ hs, rfl, rfl⟩
    | some u =>
      rw [hu] at h
      simp only [bind_eq_ok, pure_eq_ok, Except.ok.injEq, Prod.exists] at h
      obtain ⟨r, t, -, rfl⟩ := h
      exact hgrow hu t _
  | predict j a hist =>
    rw [SizedCTW.step] at h
    cases hu : ms[j]? with
    | none => rw [hu] at h; simp only [pure_eq_ok, Except.ok.injEq] at h; exact ⟨s, h ▸ hs, rfl, rfl⟩
    | some u =>
      rw [hu] at h
      simp only [bind_eq_ok, pure_eq_ok, Except.ok.injEq, Prod.exists] at h
      obtain ⟨r, t, -, rfl⟩ := h
      exact hgrow hu t _

end SizedCTW

open SizedCTW

/-- C81. The attribute `size` of a `model.CTW` that was neither made by `copy` nor copied is the number of its nodes. -/
theorem C81_python_size_partial [DecidableEq κ] (P : Predictor σ α) (fresh : σ) (ops : List (SOp κ α))
    (hno : ∀ i, SOp.copy i ∉ ops) (ms : List (SizedCTW σ κ α)) (h : steps P fresh [] ops = .ok ms) (i : ℕ) (s : SizedCTW σ κ α)
    (hs : ms[i]? = some s) : s.size = (nodesOf s.tree).ncard := by
  have hown : ∀ (ops : List (SOp κ α)) (ms0 ms : List (SizedCTW σ κ α)), (∀ i, SOp.copy i ∉ ops) →
      (∀ (i : ℕ) (s : SizedCTW σ κ α), ms0[i]? = some s → s.owner = i) → steps P fresh ms0 ops = .ok ms →
      ∀ (i : ℕ) (s : SizedCTW σ κ α), ms[i]? = some s → s.owner = i := by
    intro ops
    induction ops with
    | nil => intro ms0 ms _ h0 h; simp only [steps, pure_eq_ok, Except.ok.injEq] at h; exact h ▸ h0
    | cons op ops ih =>
      intro ms0 ms hno h0 h
      simp only [steps, bind_eq_ok] at h
      obtain ⟨ms1, h1, h2⟩ := h
      refine ih ms1 ms (fun i hi => hno i (List.mem_cons_of_mem _ hi)) ?_ h2
      cases op with
      | copy i => exact absurd List.mem_cons_self (hno i)
      | new ctx =>
        simp only [SizedCTW.step, pure_eq_ok, Except.ok.injEq] at h1
        subst h1
        intro j u hj
        rw [List.getElem?_append] at hj
        by_cases hl : j < ms0.length
        · rw [if_pos hl] at hj; exact h0 j u hj
        · rw [if_neg hl, List.getElem?_singleton] at hj
          by_cases hz : j - ms0.length = 0
          · rw [if_pos hz] at hj
            cases hj
            simp only
            omega
          · rw [if_neg hz] at hj; cases hj
      | update j a hist w =>
        rw [SizedCTW.step] at h1
        cases hu : ms0[j]? with
        | none => rw [hu] at h1; simp only [pure_eq_ok, Except.ok.injEq] at h1; exact h1 ▸ h0
        | some u =>
          rw [hu] at h1
          simp only [bind_eq_ok, pure_eq_ok, Except.ok.injEq, Prod.exists] at h1
          obtain ⟨r, t, -, rfl⟩ := h1
          intro j' u' hj'
          obtain ⟨v, hv, -, h2', -, -⟩ := getElem?_grow hu t _ j' hj'
          rw [h2']; exact h0 j' v hv
      | predict j a hist =>
        rw [SizedCTW.step] at h1
        cases hu : ms0[j]? with
        | none => rw [hu] at h1; simp only [pure_eq_ok, Except.ok.injEq] at h1; exact h1 ▸ h0
        | some u =>
          rw [hu] at h1
          simp only [bind_eq_ok, pure_eq_ok, Except.ok.injEq, Prod.exists] at h1
          obtain ⟨r, t, -, rfl⟩ := h1
          intro j' u' hj'
          obtain ⟨v, hv, -, h2', -, -⟩ := getElem?_grow hu t _ j' hj'
          rw [h2']; exact h0 j' v hv
  have ho := hown ops [] ms hno (by simp) h
  exact (good_nil.steps h).alone i s hs (fun j t ht hto => by rw [← ho j t ht, hto]) (ho i s hs)

/-- C81. In general a tree has at most as many nodes as the `size` of the model that it was first built for; the `size` of a copy
stays what it was when it was copied, whatever is done afterwards. -/
theorem C81_python_size_copy [DecidableEq κ] (P : Predictor σ α) (fresh : σ) (ops ops' : List (SOp κ α))
    (ms ms' : List (SizedCTW σ κ α)) (h : steps P fresh [] ops = .ok ms) (h' : steps P fresh ms ops' = .ok ms') (i : ℕ)
    (s : SizedCTW σ κ α) (hs : ms[i]? = some s) :
    (∃ o : SizedCTW σ κ α, ms[s.owner]? = some o ∧ (nodesOf s.tree).ncard ≤ o.size) ∧
    (s.owner ≠ i → ∃ s' : SizedCTW σ κ α, ms'[i]? = some s' ∧ s'.size = s.size) := by
  have hg := good_nil.steps h
  constructor
  · obtain ⟨o, h1, -, h2⟩ := hg.owner i s hs
    exact ⟨o, h1, h2⟩
  · intro ho
    have key : ∀ (ops : List (SOp κ α)) (ms ms' : List (SizedCTW σ κ α)), Good ms → steps P fresh ms ops = .ok ms' →
        ∀ s : SizedCTW σ κ α, ms[i]? = some s → s.owner ≠ i → ∃ s' : SizedCTW σ κ α, ms'[i]? = some s' ∧ s'.size = s.size := by
      intro ops
      induction ops with
      | nil =>
        intro ms ms' _ h s hs _
        simp only [steps, pure_eq_ok, Except.ok.injEq] at h
        exact ⟨s, h ▸ hs, rfl⟩
      | cons op ops ih =>
        intro ms ms' hg h s hs ho
        simp only [steps, bind_eq_ok] at h
        obtain ⟨ms1, h1, h2⟩ := h
        obtain ⟨s1, hs1, e1, e2⟩ := step_size hg h1 hs ho
        obtain ⟨s2, hs2, e3⟩ := ih ms1 ms' (hg.step h1) h2 s1 hs1 (by rw [e2]; exact ho)
        exact ⟨s2, hs2, by rw [e3, e1]⟩
    exact key ops' ms ms' hg h' s hs ho

/-- C81. A copy has the `size` and the nodes of what was copied, and the other models are what they were. -/
theorem C81_python_size_copied [DecidableEq κ] (P : Predictor σ α) (fresh : σ) (ms ms' : List (SizedCTW σ κ α)) (i : ℕ)
    (s : SizedCTW σ κ α) (hs : ms[i]? = some s) (h : steps P fresh ms [.copy i] = .ok ms') :
    ∃ s', ms' = ms ++ [s'] ∧ s'.size = s.size ∧ s'.owner = s.owner ∧ nodesOf s'.tree = nodesOf s.tree := by
  simp only [steps, SizedCTW.step, hs, CTW.predictor, bind_eq_ok, pure_eq_ok, Except.ok.injEq] at h
  obtain ⟨ms1, ⟨t, ⟨b, -, rfl⟩, rfl⟩, rfl⟩ := h
  refine ⟨_, rfl, rfl, rfl, ?_⟩
  ext p
  exact CTWNode.hasNode_congr (n := CTWNode.mk b _ _ _ s.tree.children) (m := s.tree) rfl p

/-- C81. If a new model is copied and then the copy is used, the new nodes count for the original and not for the copy. -/
theorem C81_python_size_wrong [DecidableEq κ] (P : Predictor σ α) (fresh : σ) (ctx : List α → List κ) (a : α) (h : List α)
    (w : ℝ) (ms : List (SizedCTW σ κ α)) (hs : steps P fresh [] [.new ctx, .copy 0, .update 1 a h w] = .ok ms) :
    ∃ s0 s1, ms = [s0, s1] ∧ s0.size = 1 + (ctx h).length ∧ (nodesOf s0.tree).ncard = 1 ∧ s1.size = 1 ∧
      (nodesOf s1.tree).ncard = 1 + (ctx h).length := by
  simp only [steps, SizedCTW.step, List.length_nil, List.nil_append, pure_eq_ok, ok_bind, List.getElem?_cons_zero, CTW.predictor,
    bind_eq_ok, Except.ok.injEq, List.cons_append, List.getElem?_cons_succ, Prod.exists] at hs
  obtain ⟨ms1, ⟨t, ⟨b, -, rfl⟩, rfl⟩, ms2, hs, rfl⟩ := hs
  simp only [List.getElem?_cons_succ, List.getElem?_cons_zero, bind_eq_ok, Except.ok.injEq, Prod.exists] at hs
  obtain ⟨r, t, h1, rfl⟩ := hs
  have h2 := CTWNode.hasNode_update h1
  set n : CTWNode σ κ := CTWNode.mk b (CTW.init fresh : CTWNode σ κ).baseLP (CTW.init fresh : CTWNode σ κ).childrenLP
    (CTW.init fresh : CTWNode σ κ).lp (CTW.init fresh : CTWNode σ κ).children with hn
  have hn1 : nodesOf n = {[]} := by
    rw [← CTWNode.nodesOf_new (κ := κ) fresh]
    ext p
    exact CTWNode.hasNode_congr (n := n) (m := CTWNode.new fresh) rfl p
  have hcr : n.created (ctx h).reverse = (ctx h).length := by
    rw [← List.length_reverse]
    cases (ctx h).reverse with
    | nil => rfl
    | cons c cs =>
      have : n.children c = none := rfl
      rw [CTWNode.created, this, List.length_cons, Nat.add_comm]
  have h3 := (CTWNode.nodesOf_grow (by rw [hn1]; exact Set.finite_singleton _) h2).2
  rw [hn1, Set.ncard_singleton, hcr] at h3
  refine ⟨_, _, rfl, ?_, ?_, rfl, h3⟩
  · show 1 + n.created (ctx h).reverse = _
    rw [hcr]
  · show (nodesOf (CTW.init fresh : CTWNode σ κ)).ncard = 1
    rw [CTW.init, CTWNode.nodesOf_new, Set.ncard_singleton]

/-- Such a session, with `KTBinary` as base model. -/
example : ∃ ms, steps KTBinary.predictor ⟨1/2, 1/2⟩ [] [.new (CTW.mkcontext 2 false), .copy 0, .update 1 true [] 1] = .ok ms := by
  have h : KTBinary.logPredict ⟨1/2, 1/2⟩ true = .ok (Real.log (1/2)) := by
    simp only [KTBinary.logPredict, KTBinary.get, if_true]
    rw [pyDiv_of_ne (by norm_num), ok_bind, pyLog_of_pos (by norm_num)]
    norm_num
  have hc : (CTW.mkcontext 2 false []).reverse = [false, false] := by decide
  simp only [steps, SizedCTW.step, List.length_nil, List.nil_append, pure_eq_ok, ok_bind, List.getElem?_cons_zero, CTW.predictor,
    List.cons_append, List.getElem?_cons_succ, CTW.init, CTWNode.new, hc, CTWNode.update, CTWNode.base, CTWNode.children,
    KTBinary.predictor, KTBinary.update, h, Option.getD_none]
  exact ⟨_, rfl⟩

end Verif
