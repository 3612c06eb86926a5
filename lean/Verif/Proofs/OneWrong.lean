import Verif.Proofs.CTW
import Verif.Props.Order
import Verif.Proofs.CTWLawful

/-!
# How much a symbol more, less or another costs
-/

namespace Verif

namespace OneWrong

/-- A probability of lists that does not depend on the order and for which one more item costs a factor of at least one and at most
`c` times the length. -/
structure Slow {β : Type} (b : List β → ℝ) (V : β → Prop) (c : ℝ) : Prop where
  nonneg : ∀ l, 0 ≤ b l
  perm : ∀ xs ys : List β, xs.Perm ys → (∀ x ∈ xs, V x) → b xs = b ys
  le : ∀ l x, (∀ y ∈ l, V y) → V x → b (l ++ [x]) ≤ b l
  ge : ∀ l x, (∀ y ∈ l, V y) → V x → b l ≤ c * (l.length + 1) * b (l ++ [x])

variable {β : Type} {b : List β → ℝ} {V : β → Prop} {c : ℝ}

theorem perm_snoc (U T : List β) (x : β) : (U ++ x :: T).Perm (U ++ T ++ [x]) := by
  rw [List.append_assoc]
  exact List.Perm.append_left U (List.perm_append_singleton x T).symm

/-- One item more. -/
theorem Slow.insert (h : Slow b V c) (U T : List β) (x : β) (hv : ∀ y ∈ U ++ x :: T, V y) :
    b (U ++ x :: T) ≤ b (U ++ T) ∧ b (U ++ T) ≤ c * (U ++ x :: T).length * b (U ++ x :: T) := by
  have hp := perm_snoc U T x
  have hx : V x := hv x (by simp)
  have hv' : ∀ y ∈ U ++ T, V y := fun y hy => hv y (by
    simp only [List.mem_append, List.mem_cons] at hy ⊢
    tauto)
  rw [h.perm _ _ hp hv]
  refine ⟨h.le _ x hv' hx, (h.ge _ x hv' hx).trans_eq ?_⟩
  simp only [List.length_append, List.length_cons]
  push_cast
  ring

/-- Another item. -/
theorem Slow.replace (h : Slow b V c) (U T : List β) (x y : β) (hv : ∀ z ∈ U ++ x :: T, V z) (hy : V y) :
    b (U ++ x :: T) ≤ c * (U ++ x :: T).length * b (U ++ y :: T) := by
  have hv' : ∀ z ∈ U ++ y :: T, V z := by
    intro z hz
    simp only [List.mem_append, List.mem_cons] at hz
    rcases hz with hz | rfl | hz
    · exact hv z (by simp [hz])
    · exact hy
    · exact hv z (by simp [hz])
  refine (h.insert U T x hv).1.trans ((h.insert U T y hv').2.trans_eq ?_)
  simp

/-- The number of places at which two lists differ. -/
def diff [DecidableEq β] : List β → List β → ℕ
  | x :: xs, y :: ys => (if x = y then 0 else 1) + diff xs ys
  | _, _ => 0

/-- Several other items. -/
theorem Slow.replaceMany [DecidableEq β] (h : Slow b V c) (hc : 1 ≤ c) : ∀ (S T U : List β), S.length = T.length → (∀ z ∈ U ++ S, V z) → (∀ z ∈ T, V z) →
    b (U ++ S) ≤ (c * (U ++ S).length) ^ diff S T * b (U ++ T)
  | [], [], U, _, _, _ => by simp [diff]
  | [], _ :: _, _, e, _, _ => by simp at e
  | _ :: _, [], _, e, _, _ => by simp at e
  | x :: S, y :: T, U, e, hS, hT => by
    have hy : V y := hT y (by simp)
    have hyS : ∀ z ∈ (U ++ [y]) ++ S, V z := by
      intro z hz
      simp only [List.mem_append, List.mem_cons, List.not_mem_nil, or_false] at hz
      rcases hz with (hz | rfl) | hz
      · exact hS z (by simp [hz])
      · exact hy
      · exact hS z (by simp [hz])
    have ih := h.replaceMany hc S T (U ++ [y]) (by simpa using e) hyS (fun z hz => hT z (by simp [hz]))
    simp only [List.append_assoc, List.singleton_append] at ih
    by_cases hxy : x = y
    · subst hxy
      simpa [diff] using ih
    · have h1 := h.replace U S x y hS hy
      have hl : (U ++ y :: S).length = (U ++ x :: S).length := by simp
      rw [hl] at ih
      have h0 : (0 : ℝ) ≤ c * (U ++ x :: S).length := by positivity
      rw [diff, if_neg hxy, pow_add, pow_one, mul_assoc]
      exact h1.trans (mul_le_mul_of_nonneg_left ih h0)

section ctw

variable {κ : Type} [DecidableEq κ]

theorem subCtx_length (k : κ) (S : List (List κ × β)) : (subCtx k S).length ≤ S.length := List.length_filterMap_le _ _

theorem subCtx_valid {k : κ} {S : List (List κ × β)} (h : ∀ p ∈ S, V p.2) : ∀ p ∈ subCtx k S, V p.2 := by
  intro p hp
  obtain ⟨q, hq, e⟩ := List.mem_filterMap.mp hp
  split at e
  · cases e
  · split_ifs at e
    simp only [Option.some.injEq] at e
    rw [← e]
    exact h q hq

theorem ctw_nonneg (h : Slow b V c) : ∀ (d : ℕ) (S : List (List κ × β)), 0 ≤ ctwProb b d S
  | 0, S => h.nonneg _
  | d + 1, S => by
    have := h.nonneg (S.map Prod.snd)
    have := Finset.prod_nonneg (s := heads S) fun k _ => ctw_nonneg h d (subCtx k S)
    rw [ctwProb]
    positivity

theorem ctw_snoc (h : Slow b V c) (h1 : b [] = 1) (hc : 1 ≤ c) : ∀ (d : ℕ) (S : List (List κ × β)) (cs : List κ) (x : β), cs.length = d → (∀ p ∈ S, V p.2) → V x →
    ctwProb b d (S ++ [(cs, x)]) ≤ ctwProb b d S ∧ ctwProb b d S ≤ c * (S.length + 1) * ctwProb b d (S ++ [(cs, x)])
  | 0, S, cs, x, _, hS, hx => by
    have hS' : ∀ y ∈ S.map Prod.snd, V y := by
      intro y hy
      obtain ⟨p, hp, rfl⟩ := List.mem_map.1 hy
      exact hS p hp
    have g1 := h.le _ x hS' hx
    have g2 := h.ge _ x hS' hx
    simp only [ctwProb, List.map_append, List.map_cons, List.map_nil]
    exact ⟨g1, by simpa using g2⟩
  | d + 1, S, [], x, e, _, _ => by simp at e
  | d + 1, S, k :: cs, x, e, hS, hx => by
    have hS' : ∀ y ∈ S.map Prod.snd, V y := by
      intro y hy
      obtain ⟨p, hp, rfl⟩ := List.mem_map.1 hy
      exact hS p hp
    have g1 := h.le _ x hS' hx
    have g2 := h.ge _ x hS' hx
    rw [List.length_map] at g2
    obtain ⟨i1, i2⟩ := ctw_snoc h h1 hc d (subCtx k S) cs x (by simpa using e) (subCtx_valid hS) hx
    have hlen : ((subCtx k S).length : ℝ) ≤ S.length := by exact_mod_cast subCtx_length k S
    have f0 := ctw_nonneg (κ := κ) h d
    have i2' : ctwProb b d (subCtx k S) ≤ c * (S.length + 1) * ctwProb b d (subCtx k S ++ [(cs, x)]) := by
      refine i2.trans ?_
      have := f0 (subCtx k S ++ [(cs, x)])
      gcongr
    have p0 : ∏ j ∈ heads S, ctwProb b d (subCtx j S) = ∏ j ∈ insert k (heads S), ctwProb b d (subCtx j S) := by
      by_cases hk : k ∈ heads S
      · rw [Finset.insert_eq_of_mem hk]
      · rw [Finset.prod_insert hk, subCtx_eq_nil hk, ctwProb_nil h1, one_mul]
    have p1 : ∏ j ∈ insert k (heads S), ctwProb b d (subCtx j S) = ctwProb b d (subCtx k S) * ∏ j ∈ (insert k (heads S)).erase k, ctwProb b d (subCtx j S) :=
      (Finset.mul_prod_erase _ _ (Finset.mem_insert_self _ _)).symm
    have p2 : ∏ j ∈ insert k (heads S), ctwProb b d (subCtx j (S ++ [(k :: cs, x)])) =
        ctwProb b d (subCtx k S ++ [(cs, x)]) * ∏ j ∈ (insert k (heads S)).erase k, ctwProb b d (subCtx j S) := by
      rw [← Finset.mul_prod_erase _ _ (Finset.mem_insert_self k _), subCtx_append_self]
      congr 1
      refine Finset.prod_congr rfl fun j hj => ?_
      rw [subCtx_append_other (Finset.ne_of_mem_erase hj)]
    have q0 : 0 ≤ ∏ j ∈ (insert k (heads S)).erase k, ctwProb b d (subCtx j S) := Finset.prod_nonneg fun j _ => f0 _
    rw [ctwProb, ctwProb, heads_append, p0, p1, p2]
    simp only [List.map_append, List.map_cons, List.map_nil]
    refine ⟨?_, ?_⟩
    · have := mul_le_mul_of_nonneg_right i1 q0
      linarith
    · have := mul_le_mul_of_nonneg_right i2' q0
      linarith

/-- A context tree over a slow base model is slow. -/
theorem ctw_slow (h : Slow b V c) (h1 : b [] = 1) (hc : 1 ≤ c) (d : ℕ) :
    Slow (ctwProb (κ := κ) b d) (fun p => p.1.length = d ∧ V p.2) c where
  nonneg := ctw_nonneg h d
  perm S T hp hV := ctwProb_perm h.perm d S T hp fun p h => (hV p h).2
  le S p hS hp := (ctw_snoc h h1 hc d S p.1 p.2 hp.1 (fun q hq => (hS q hq).2) hp.2).1
  ge S p hS hp := (ctw_snoc h h1 hc d S p.1 p.2 hp.1 (fun q hq => (hS q hq).2) hp.2).2

theorem subCtx_map {γ : Type} (f : β → γ) (k : κ) (S : List (List κ × β)) :
    subCtx k (S.map fun p => (p.1, f p.2)) = (subCtx k S).map fun p => (p.1, f p.2) := by
  induction S with
  | nil => rfl
  | cons p S ih =>
    obtain ⟨l, x⟩ := p
    cases l with
    | nil => simpa [subCtx] using ih
    | cons j l =>
      by_cases hj : j = k
      · subst hj
        simpa [subCtx] using ih
      · simpa [subCtx, hj] using ih

theorem heads_map {γ : Type} (f : β → γ) (S : List (List κ × β)) : heads (S.map fun p => (p.1, f p.2)) = heads S := by
  simp [heads, List.filterMap_map, Function.comp_def]

/-- Only what the base model looks at matters. -/
theorem ctwProb_map {γ : Type} {f : β → γ} {base : List β → ℝ} {b' : List γ → ℝ} (hb : ∀ l, (∀ x ∈ l, V x) → base l = b' (l.map f)) :
    ∀ (d : ℕ) (S : List (List κ × β)), (∀ p ∈ S, V p.2) → ctwProb base d S = ctwProb b' d (S.map fun p => (p.1, f p.2))
  | 0, S, hS => by
    rw [ctwProb, ctwProb, hb _ (by
      intro x hx
      obtain ⟨p, hp, rfl⟩ := List.mem_map.1 hx
      exact hS p hp)]
    simp [Function.comp_def]
  | d + 1, S, hS => by
    rw [ctwProb, ctwProb, heads_map, hb _ (by
      intro x hx
      obtain ⟨p, hp, rfl⟩ := List.mem_map.1 hx
      exact hS p hp)]
    congr 2
    · simp [Function.comp_def]
    · refine Finset.prod_congr rfl fun k _ => ?_
      rw [subCtx_map, ctwProb_map hb d _ (subCtx_valid hS)]

end ctw

end OneWrong

end Verif
