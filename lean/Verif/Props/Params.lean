import Verif.Proofs.Params
import Verif.Props.Strings

/-!
# C74 to C79: sets of parameters
-/

namespace Verif
open Params

/-! ## C74: combinations of parameter values -/

namespace Params

theorem mem_product {V : Type} {ls : List (List V)} {x : List V} : x ∈ product ls ↔ List.Forall₂ (· ∈ ·) x ls := by
  induction ls generalizing x with
  | nil => simp [product]
  | cons l ls ih =>
    simp only [product, List.mem_flatMap, List.mem_map]
    constructor
    · rintro ⟨a, ha, y, hy, rfl⟩
      exact List.Forall₂.cons ha (ih.1 hy)
    · intro h
      cases h with
      | cons ha hy => exact ⟨_, ha, _, ih.2 hy, rfl⟩

theorem length_product {V : Type} (ls : List (List V)) : (product ls).length = (ls.map List.length).prod := by
  induction ls with
  | nil => rfl
  | cons l ls ih =>
    simp only [product, List.length_flatMap, List.length_map, ih, List.map_cons, List.prod_cons]
    simp

theorem nodup_product {V : Type} {ls : List (List V)} (h : ∀ l ∈ ls, l.Nodup) : (product ls).Nodup := by
  induction ls with
  | nil => simp [product]
  | cons l ls ih =>
    rw [product, List.nodup_flatMap]
    refine ⟨fun x _ => (ih fun l hl => h l (List.mem_cons_of_mem _ hl)).map (fun a b e => (List.cons.inj e).2), ?_⟩
    refine (h l (by simp)).imp fun {a b} hab => ?_
    intro y hy hy'
    obtain ⟨u, -, rfl⟩ := List.mem_map.1 hy
    obtain ⟨w, -, e⟩ := List.mem_map.1 hy'
    exact hab (List.cons.inj e).1.symm

theorem mem_uniqueDictSets {K V : Type} (d : PyDict K (List V)) (c : PyDict K V) :
    c ∈ uniqueDictSets d ↔ List.Forall₂ (fun kv kl => kv.1 = kl.1 ∧ kv.2 ∈ kl.2) c d := by
  have key : ∀ (d : PyDict K (List V)) (c : PyDict K V),
      (∃ x, List.Forall₂ (· ∈ ·) x (PyDict.values d) ∧ (PyDict.keys d).zip x = c) ↔
        List.Forall₂ (fun kv kl => kv.1 = kl.1 ∧ kv.2 ∈ kl.2) c d := by
    intro d
    induction d with
    | nil =>
      intro c
      constructor
      · rintro ⟨x, hx, rfl⟩; exact List.Forall₂.nil
      · intro h; cases h; exact ⟨[], List.Forall₂.nil, rfl⟩
    | cons a d ih =>
      intro c
      constructor
      · rintro ⟨x, hx, rfl⟩
        cases hx with
        | cons hv hx => exact List.Forall₂.cons ⟨rfl, hv⟩ ((ih _).1 ⟨_, hx, rfl⟩)
      · intro h
        cases h with
        | cons h1 h2 =>
          obtain ⟨x, hx, e⟩ := (ih _).2 h2
          refine ⟨_ :: x, List.Forall₂.cons h1.2 hx, ?_⟩
          show _ :: _ = _
          rw [← e, ← h1.1]; rfl
  rw [uniqueDictSets, List.mem_map, ← key]
  simp only [mem_product]

end Params

/-- C74. `unique_dict_sets` yields exactly the dictionaries that assign to each key one of its values. -/
theorem C74_combinations {K V : Type} [DecidableEq K] (d : PyDict K (List V)) (hd : d.keys.Nodup) (c : PyDict K V) :
    c ∈ uniqueDictSets d ↔ c.keys = d.keys ∧ ∀ k l, d.get? k = some l → ∃ v ∈ l, c.get? k = some v := by
  rw [mem_uniqueDictSets]
  induction d generalizing c with
  | nil =>
    constructor
    · intro h; cases h; exact ⟨rfl, by simp [PyDict.get?]⟩
    · rintro ⟨h, -⟩
      rw [PyDict.keys_nil, PyDict.keys, List.map_eq_nil_iff] at h
      subst h; exact List.Forall₂.nil
  | cons a d ih =>
    obtain ⟨k, l⟩ := a
    rw [PyDict.keys_cons, List.nodup_cons] at hd
    constructor
    · intro h
      cases h with
      | @cons x _ xs _ h1 h2 =>
        obtain ⟨j, v⟩ := x
        obtain ⟨rfl, hv⟩ := h1
        obtain ⟨hk, hg⟩ := (ih hd.2 xs).1 h2
        refine ⟨by rw [PyDict.keys_cons, PyDict.keys_cons, hk], fun j' l' hj => ?_⟩
        simp only [PyDict.get?] at hj ⊢
        by_cases e : j = j'
        · rw [if_pos e] at hj ⊢
          cases hj
          exact ⟨v, hv, rfl⟩
        · rw [if_neg e] at hj ⊢
          exact hg j' l' hj
    · rintro ⟨hk, hg⟩
      cases c with
      | nil => simp at hk
      | cons x xs =>
        obtain ⟨j, v⟩ := x
        rw [PyDict.keys_cons, PyDict.keys_cons, List.cons.injEq] at hk
        obtain ⟨rfl, hk⟩ := hk
        refine List.Forall₂.cons ⟨rfl, ?_⟩ ((ih hd.2 xs).2 ⟨hk, fun j' l' hj => ?_⟩)
        · obtain ⟨w, hw, e⟩ := hg j l (by simp [PyDict.get?])
          simp only [PyDict.get?, if_true] at e
          cases e
          exact hw
        · have hne : j ≠ j' := by
            rintro rfl
            exact hd.1 (PyDict.get?_isSome.1 ⟨l', hj⟩)
          have := hg j' l' (by simp only [PyDict.get?, if_neg hne]; exact hj)
          simpa only [PyDict.get?, if_neg hne] using this

/-- C74. Their number is the product of the numbers of values, and they are distinct if the values of each key are. -/
theorem C74_combinations_count {K V : Type} (d : PyDict K (List V)) :
    (uniqueDictSets d).length = (d.values.map List.length).prod ∧
    ((∀ l ∈ d.values, l.Nodup) → (uniqueDictSets d).Nodup) := by
  refine ⟨by rw [uniqueDictSets, List.length_map, length_product], fun h => ?_⟩
  have hlen : ∀ x ∈ product d.values, x.length = d.keys.length := by
    intro x hx
    rw [(mem_product.1 hx).length_eq]
    simp [PyDict.values, PyDict.keys]
  refine (nodup_product h).map_on fun x hx y hy e => ?_
  have h1 := congrArg (List.map Prod.snd) e
  rwa [List.map_snd_zip (by rw [hlen x hx]), List.map_snd_zip (by rw [hlen y hy])] at h1

/-- C74. The two versions agree except for no parameters: there is then one combination, which `get_all_combinations` lacks. -/
theorem C74_get_all_combinations {K V : Type} (d : PyDict K (List V)) :
    (d ≠ [] → getAllCombinations d = uniqueDictSets d) ∧
    getAllCombinations ([] : PyDict K (List V)) = [] ∧ uniqueDictSets ([] : PyDict K (List V)) = [[]] :=
  ⟨fun h => if_neg h, rfl, rfl⟩

/-- Six combinations. -/
example : uniqueDictSets [("a", [1, 2]), ("b", [3, 4, 5])] =
    [[("a", 1), ("b", 3)], [("a", 1), ("b", 4)], [("a", 1), ("b", 5)], [("a", 2), ("b", 3)], [("a", 2), ("b", 4)],
      [("a", 2), ("b", 5)]] := by decide

/-! ## C75: keys and values that parameter sets share -/

section Keys
variable {K V : Type} [LinearOrder K] [DecidableEq V]

omit [DecidableEq V] in
/-- C75. `get_shared_keys` gives, in order and once, the keys that are in every dictionary. -/
theorem C75_shared_keys (ps : List (PyDict K V)) (hne : ps ≠ []) (h : ∀ p ∈ ps, p.keys.Nodup) :
    ∃ r, getSharedKeys ps = some r ∧ r.Pairwise (· < ·) ∧ ∀ k, k ∈ r ↔ ∀ p ∈ ps, k ∈ p.keys := by
  cases ps with
  | nil => exact absurd rfl hne
  | cons p ps =>
    refine ⟨_, rfl, sorted_sortKeys (foldl_filter_nodup ps _ (h p (by simp))), fun k => ?_⟩
    rw [mem_sortKeys, foldl_filter_keys]
    simp

/-- C75. `get_unique_keys` gives, in order and once, the keys that are in some but not all dictionaries. -/
theorem C75_unique_keys (ps : List (PyDict K V)) (hne : ps ≠ []) (h : ∀ p ∈ ps, p.keys.Nodup) :
    ∃ r, getUniqueKeys ps = some r ∧ r.Pairwise (· < ·) ∧
      ∀ k, k ∈ r ↔ (∃ p ∈ ps, k ∈ p.keys) ∧ ∃ p ∈ ps, k ∉ p.keys := by
  obtain ⟨h1, h2, h3⟩ := foldl_bump (ps.flatMap PyDict.keys) [] (by simp : (PyDict.keys ([] : PyDict K ℕ)).Nodup)
  rw [← countKeys_eq] at h1 h2 h3
  refine ⟨_, by rw [getUniqueKeys, if_neg hne], ?_, fun k => ?_⟩
  · apply sorted_sortKeys
    exact h1.sublist (List.Sublist.map _ List.filter_sublist)
  · rw [mem_sortKeys]
    have hc : ∀ c, (k, c) ∈ countKeys ps ↔ k ∈ (countKeys ps).keys ∧ c = ps.countP (fun p => k ∈ p.keys) := by
      intro c
      have h3k := h3 k
      rw [count_flatMap_keys ps h] at h3k
      simp only [PyDict.get?, Option.getD_none, Nat.zero_add] at h3k
      constructor
      · intro hm
        have := PyDict.get?_of_mem h1 hm
        rw [this] at h3k
        exact ⟨PyDict.get?_isSome.1 ⟨c, this⟩, h3k⟩
      · rintro ⟨hk, rfl⟩
        obtain ⟨v, hv⟩ := PyDict.get?_isSome.2 hk
        rw [hv] at h3k
        rw [← h3k]
        exact PyDict.mem_of_get? hv
    simp only [List.mem_map, List.mem_filter, decide_eq_true_eq, Prod.exists, exists_and_right, exists_eq_right]
    have hk : k ∈ (countKeys ps).keys ↔ ∃ p ∈ ps, k ∈ p.keys := by
      rw [h2]; simp
    have hlt : ps.countP (fun p => k ∈ p.keys) < ps.length ↔ ∃ p ∈ ps, k ∉ p.keys := by
      have hle := List.countP_le_length (p := fun p => decide (k ∈ PyDict.keys p)) (l := ps)
      rw [lt_iff_le_and_ne, and_iff_right hle, ne_eq, List.countP_eq_length]
      simp
    constructor
    · rintro ⟨c, hc1, hc2⟩
      obtain ⟨ha, rfl⟩ := (hc c).1 hc1
      exact ⟨hk.1 ha, hlt.1 hc2⟩
    · rintro ⟨ha, hb⟩
      exact ⟨_, (hc _).2 ⟨hk.2 ha, rfl⟩, hlt.2 hb⟩

/-- C75. `get_shared_values` holds a key with a value exactly if every dictionary does. -/
theorem C75_shared_values (ps : List (PyDict K V)) (hne : ps ≠ []) (h : ∀ p ∈ ps, p.keys.Nodup) :
    ∃ r, getSharedValues ps = some r ∧ ∀ k v, r.get? k = some v ↔ ∀ p ∈ ps, p.get? k = some v := by
  cases ps with
  | nil => exact absurd rfl hne
  | cons p ps =>
    refine ⟨_, rfl, fun k v => ?_⟩
    have hp := h p (by simp)
    have hf : (PyDict.keys (p.filter fun kv => ps.all fun q => decide (kv.1 ∈ q.keys))).Nodup :=
      hp.sublist (List.Sublist.map _ List.filter_sublist)
    rw [(foldl_popUnequal (p :: ps) _ hf).2, get?_filter_keys p (fun k => ps.all fun q => decide (k ∈ q.keys)) k]
    constructor
    · rintro ⟨h1, h2⟩
      by_cases hall : (ps.all fun q => decide (k ∈ q.keys)) = true
      · rw [if_pos hall] at h1
        intro q hq
        rcases List.mem_cons.1 hq with rfl | hq'
        · exact h1
        · have hkq : k ∈ q.keys := by
            have := List.all_eq_true.1 hall q hq'
            simpa using this
          obtain ⟨u, hu⟩ := PyDict.get?_isSome.2 hkq
          rw [hu, h2 q hq u (PyDict.mem_of_get? hu)]
      · rw [if_neg hall] at h1; cases h1
    · intro hall
      have ha : (ps.all fun q => decide (k ∈ q.keys)) = true := by
        rw [List.all_eq_true]
        intro q hq
        have := PyDict.get?_isSome.1 ⟨v, hall q (List.mem_cons_of_mem _ hq)⟩
        simpa using this
      rw [if_pos ha]
      refine ⟨hall p (by simp), fun q hq v' hv' => ?_⟩
      have h1 := PyDict.get?_of_mem (h q hq) hv'
      rw [hall q hq] at h1
      exact (Option.some.inj h1).symm

omit [LinearOrder K] [DecidableEq V] in
/-- C75. For no dictionaries all three return `None`. -/
theorem C75_none [LinearOrder K] [DecidableEq V] : getSharedKeys ([] : List (PyDict K V)) = none ∧
    getUniqueKeys ([] : List (PyDict K V)) = none ∧ getSharedValues ([] : List (PyDict K V)) = none :=
  ⟨rfl, rfl, rfl⟩

end Keys

/-- Dictionaries that meet the hypotheses of C75. -/
example : ∀ p ∈ [[(0, 10), (1, 11)], [(1, 11), (2, 12)]], (PyDict.keys (κ := ℕ) (ν := ℕ) p).Nodup := by decide

/-! ## C76: grouping -/

/-- C76. `group_by_key` puts each parameter set, in order, into the group of the string of its value; sets without the key go
with those whose value prints as `None`. -/
theorem C76_group_by_key {K V : Type} [LinearOrder K] (str : V → Str) (ps : List (PyDict K V)) (key : K) (g : Str) :
    let label := fun p : PyDict K V => ((p.get? key).map str).getD "None".toList
    (groupByKey str ps key).get? g =
      if g = "None".toList ∨ ∃ p ∈ ps, label p = g then some (ps.filter fun p => label p = g) else none := by
  intro label
  have hfold : groupByKey str ps key = ps.foldl (fun g p => appendTo g (label p) p) [("None".toList, [])] := by
    rw [groupByKey]
    congr 1
    funext g p
    simp only [label]
    cases p.get? key <;> rfl
  have hnil : ps.filter (fun p => decide (label p = g)) = [] ↔ ¬ ∃ p ∈ ps, label p = g := by
    rw [List.filter_eq_nil_iff]; simp
  rw [hfold, get?_group]
  by_cases hg : g = "None".toList
  · subst hg
    rw [if_pos (Or.inl rfl)]
    by_cases hf : ps.filter (fun p => decide (label p = "None".toList)) = []
    · rw [if_pos hf, hf]; rfl
    · rw [if_neg hf]; rfl
  · have hget : PyDict.get? [("None".toList, ([] : List (PyDict K V)))] g = none := by
      have hg' : ¬ "None".toList = g := fun e => hg e.symm
      simp only [PyDict.get?, if_neg hg']
    by_cases hf : ps.filter (fun p => decide (label p = g)) = []
    · rw [if_pos hf, if_neg, hget]
      rintro (h | h)
      · exact hg h
      · exact hnil.1 hf h
    · rw [if_neg hf, hget, if_pos]
      · rfl
      · right
        by_contra hn
        exact hf (hnil.2 hn)

namespace Params

/-- The dictionary of the values of some keys (utilities.py:1535). -/
def selected {V : Type} (f : Str → Option V) (keys : List Str) : PyDict Str (Option V) :=
  keys.foldl (fun d k => d.set k (f k)) []

theorem selected_aux {V : Type} (f : Str → Option V) (keys : List Str) (d : PyDict Str (Option V))
    (hd : d.keys.Nodup) (hv : ∀ k v, d.get? k = some v → v = f k) :
    (keys.foldl (fun d k => d.set k (f k)) d).keys.Nodup ∧
    (∀ k v, (keys.foldl (fun d k => d.set k (f k)) d).get? k = some v → v = f k) ∧
    (∀ k, k ∈ (keys.foldl (fun d k => d.set k (f k)) d).keys ↔ k ∈ d.keys ∨ k ∈ keys) := by
  induction keys generalizing d with
  | nil => exact ⟨hd, hv, by simp⟩
  | cons a l ih =>
    obtain ⟨h1, h2, h3⟩ := ih (d.set a (f a)) (PyDict.nodup_keys_set hd) (fun k v h => by
      rw [PyDict.get?_set] at h
      by_cases hk : k = a
      · rw [if_pos hk] at h; rw [hk]; exact (Option.some.inj h).symm
      · rw [if_neg hk] at h; exact hv k v h)
    refine ⟨h1, h2, fun k => ?_⟩
    rw [List.foldl_cons, h3, PyDict.mem_keys_set, List.mem_cons]
    tauto

theorem selected_keys_congr {V : Type} (f g : Str → Option V) (keys : List Str) (d e : PyDict Str (Option V))
    (h : d.keys = e.keys) :
    (keys.foldl (fun d k => d.set k (f k)) d).keys = (keys.foldl (fun d k => d.set k (g k)) e).keys := by
  induction keys generalizing d e with
  | nil => exact h
  | cons a l ih =>
    refine ih _ _ ?_
    by_cases ha : a ∈ d.keys
    · rw [PyDict.keys_set_of_mem _ ha, PyDict.keys_set_of_mem _ (by rwa [← h]), h]
    · rw [PyDict.keys_set_of_not_mem _ ha, PyDict.keys_set_of_not_mem _ (by rwa [← h]), h]

/-- The label is the string of the sorted list of distinct keys with their values. -/
theorem joinParams_selected {V : Type} (items : Option V → Str) (f : Str → Option V) (keys : List Str) :
    ∃ ks : List Str, ks.Nodup ∧ (∀ k, k ∈ ks ↔ k ∈ keys) ∧ ∀ f : Str → Option V,
      joinParams items (selected f keys) = Str.join '_' ((ks.map fun k => (k, items (f k))).map Str.formatItem) := by
  obtain ⟨h1, -, h3⟩ := selected_aux f keys [] (by simp) (by simp [PyDict.get?])
  refine ⟨(selected f keys).keys.mergeSort (fun a b => decide (a ≤ b)), (List.mergeSort_perm _ _).nodup_iff.2 h1,
    fun k => by rw [List.mem_mergeSort, selected, h3]; simp, fun f' => ?_⟩
  have hk : (selected f keys).keys = (selected f' keys).keys := selected_keys_congr f f' keys [] [] rfl
  obtain ⟨-, h2, -⟩ := selected_aux f' keys [] (by simp) (by simp [PyDict.get?])
  rw [hk, joinParams, joinParams.join', List.map_map]
  congr 1
  show List.filterMap _ ((selected f' keys).keys.mergeSort _) = _
  have hmem : ∀ k ∈ (selected f' keys).keys.mergeSort (fun a b => decide (a ≤ b)),
      (selected f' keys).get? k = some (f' k) := by
    intro k hk
    rw [List.mem_mergeSort] at hk
    obtain ⟨v, hv⟩ := PyDict.get?_isSome.2 hk
    rw [hv, h2 k v hv]
  revert hmem
  generalize (selected f' keys).keys.mergeSort (fun a b => decide (a ≤ b)) = l
  intro hmem
  induction l with
  | nil => rfl
  | cons a l ih =>
    rw [List.filterMap_cons, hmem a (by simp), List.map_cons]
    simp only [Option.map_some]
    rw [ih fun k hk => hmem k (List.mem_cons_of_mem _ hk)]
    rfl

end Params

/-- The label that `group_by_keys` computes for a parameter set. -/
def groupLabel {V : Type} (items : Option V → Str) (keys : List Str) (p : PyDict Str V) : Str :=
  if keys.length > 0 then joinParams items (selected (fun k => p.get? k) keys) else []

/-- C76. `group_by_keys`: each group is the list, in order, of the parameter sets with its label. -/
theorem C76_group_by_keys {V : Type} (items : Option V → Str) (ps : List (PyDict Str V)) (keys : List Str) (g : Str) :
    (groupByKeys items ps keys).get? g =
      if ∃ p ∈ ps, groupLabel items keys p = g then some (ps.filter fun p => groupLabel items keys p = g) else none := by
  have hfold : groupByKeys items ps keys = ps.foldl (fun g p => appendTo g (groupLabel items keys p) p) [] := rfl
  have hnil : ps.filter (fun p => decide (groupLabel items keys p = g)) = [] ↔
      ¬ ∃ p ∈ ps, groupLabel items keys p = g := by
    rw [List.filter_eq_nil_iff]; simp
  rw [hfold, get?_group]
  by_cases hf : ps.filter (fun p => decide (groupLabel items keys p = g)) = []
  · rw [if_pos hf, if_neg (hnil.1 hf)]; rfl
  · rw [if_neg hf, if_pos]
    · rfl
    · by_contra hn; exact hf (hnil.2 hn)

/-- C76. Two parameter sets are in one group of `group_by_keys` exactly if the strings of their values agree for each of the
keys, provided keys have no dash and these strings no underscore. -/
theorem C76_group_by_keys_same {V : Type} (items : Option V → Str) (keys : List Str) (hk : ∀ k ∈ keys, '-' ∉ k)
    (hi : ∀ v, '_' ∉ items v) (p q : PyDict Str V) :
    groupLabel items keys p = groupLabel items keys q ↔ ∀ k ∈ keys, items (p.get? k) = items (q.get? k) := by
  by_cases hne : keys = []
  · subst hne; simp [groupLabel]
  · have hlen : keys.length > 0 := List.length_pos_of_ne_nil hne
    obtain ⟨ks, hn, hm, hj⟩ := joinParams_selected items (fun k => p.get? k) keys
    rw [groupLabel, groupLabel, if_pos hlen, if_pos hlen, hj, hj]
    have hks : ks ≠ [] := by
      rintro rfl
      obtain ⟨a, ha⟩ := List.exists_mem_of_ne_nil _ hne
      have := (hm a).2 ha
      simp at this
    have hsp : ∀ f : Str → Option V, Str.splitParams (Str.join '_' ((ks.map fun k => (k, items (f k))).map Str.formatItem)) =
        .ok ((ks.map fun k => (k, items (f k))).map fun kv => (kv.1, some kv.2)) := by
      intro f
      refine C72_split_params_roundtrip _ (by simpa using hks) ?_ ?_
      · intro kv hkv
        obtain ⟨k, hk', rfl⟩ := List.mem_map.1 hkv
        exact ⟨hk k ((hm k).1 hk'), hi _⟩
      · rw [List.map_map]
        have : (Prod.fst ∘ fun k => (k, items (f k))) = id := rfl
        rw [this, List.map_id]; exact hn
    constructor
    · intro h k hkk
      have h1 := hsp fun k => p.get? k
      rw [h, hsp fun k => q.get? k] at h1
      have h2 := Except.ok.inj h1
      rw [List.map_map, List.map_map] at h2
      have h3 := List.map_inj_left.1 h2 k ((hm k).2 hkk)
      simpa using h3.symm
    · intro h
      congr 2
      exact List.map_congr_left fun k hk' => by rw [h k ((hm k).1 hk')]

/-- C76. Values whose cleaned strings agree are merged, for instance `'x'` and `'x!'`; here values are strings. -/
theorem C76_group_by_keys_merged :
    let items : Option Str → Str := fun v => (v.getD "None".toList).filter Str.keepU
    groupByKeys items [[("a".toList, "x".toList)], [("a".toList, "x!".toList)]] ["a".toList] =
      [("a-x".toList, [[("a".toList, "x".toList)], [("a".toList, "x!".toList)]])] := by
  simp [groupByKeys, joinParams, joinParams.join', Str.join, appendTo, PyDict.get?, PyDict.set, Str.keepU, List.mergeSort]

/-! ## C77: setting attributes -/

section Attributes
variable {K V : Type} [DecidableEq K]

namespace Params

/-- The completed parameters. -/
theorem completeParams_ok (obj : PyDict K (Option V)) (valid : List K) (params r : PyDict K (Option V))
    (hp : params.keys.Nodup) (h : completeParams obj valid params = .ok r) :
    r.keys.Nodup ∧ (∀ k ∈ valid, k ∈ params.keys ∨ k ∈ obj.keys) ∧
    ∀ k, r.get? k = if k ∈ params.keys then params.get? k else if k ∈ valid then obj.get? k else none := by
  induction valid generalizing params with
  | nil =>
    cases h
    refine ⟨hp, by simp, fun k => ?_⟩
    by_cases hk : k ∈ r.keys
    · rw [if_pos hk]
    · rw [if_neg hk, PyDict.get?_eq_none.2 hk]; simp
  | cons a l ih =>
    rw [completeParams] at h
    cases ha : params.get? a with
    | some w =>
      rw [ha] at h
      obtain ⟨h1, h2, h3⟩ := ih params hp h
      have hak : a ∈ params.keys := PyDict.get?_isSome.1 ⟨w, ha⟩
      refine ⟨h1, fun k hk => ?_, fun k => ?_⟩
      · rcases List.mem_cons.1 hk with rfl | hk
        · exact Or.inl hak
        · exact h2 k hk
      · rw [h3]
        by_cases hk : k ∈ params.keys
        · rw [if_pos hk, if_pos hk]
        · rw [if_neg hk, if_neg hk]
          have hka : k ≠ a := by rintro rfl; exact hk hak
          simp [hka]
    | none =>
      rw [ha] at h
      cases ho : obj.get? a with
      | none => rw [ho] at h; cases h
      | some v =>
        rw [ho] at h
        have hna : a ∉ params.keys := PyDict.get?_eq_none.1 ha
        obtain ⟨h1, h2, h3⟩ := ih (params.set a v) (PyDict.nodup_keys_set hp) h
        refine ⟨h1, fun k hk => ?_, fun k => ?_⟩
        · rcases List.mem_cons.1 hk with rfl | hk
          · exact Or.inr (PyDict.get?_isSome.1 ⟨v, ho⟩)
          · rcases h2 k hk with h | h
            · rcases PyDict.mem_keys_set.1 h with rfl | h
              · exact Or.inr (PyDict.get?_isSome.1 ⟨v, ho⟩)
              · exact Or.inl h
            · exact Or.inr h
        · rw [h3, PyDict.get?_set]
          by_cases hk : k = a
          · subst hk
            rw [if_pos (PyDict.mem_keys_set.2 (Or.inl rfl)), if_pos rfl, if_neg hna, if_pos (by simp), ho]
          · have : k ∈ (params.set a v).keys ↔ k ∈ params.keys := by
              rw [PyDict.mem_keys_set]; simp [hk]
            simp only [this, List.mem_cons, hk, false_or, if_false]

theorem completeParams_error (obj : PyDict K (Option V)) (valid : List K) (params : PyDict K (Option V)) (e : AttrErr K)
    (h : completeParams obj valid params = .error e) :
    ∃ k ∈ valid, k ∉ params.keys ∧ k ∉ obj.keys ∧ e = .missing k := by
  induction valid generalizing params with
  | nil => cases h
  | cons a l ih =>
    rw [completeParams] at h
    cases ha : params.get? a with
    | some w =>
      rw [ha] at h
      obtain ⟨k, hk, h1⟩ := ih params h
      exact ⟨k, List.mem_cons_of_mem _ hk, h1⟩
    | none =>
      rw [ha] at h
      cases ho : obj.get? a with
      | none =>
        rw [ho] at h
        cases h
        exact ⟨a, by simp, PyDict.get?_eq_none.1 ha, PyDict.get?_eq_none.1 ho, rfl⟩
      | some v =>
        rw [ho] at h
        obtain ⟨k, hk, h1, h2⟩ := ih _ h
        exact ⟨k, List.mem_cons_of_mem _ hk, fun hm => h1 (PyDict.mem_keys_set.2 (Or.inr hm)), h2⟩

/-- Which parameters are set. -/
def Included (includeAll : Bool) (valid : List K) (k : K) : Prop := includeAll = true ∨ k ∈ valid

instance (includeAll : Bool) (valid : List K) (k : K) : Decidable (Included includeAll valid k) :=
  inferInstanceAs (Decidable (_ ∨ _))

/-- Which parameters are checked. -/
def Checked (validate : Bool) (valid : List K) (k : K) : Prop := validate = true ∧ (valid = [] ∨ k ∈ valid)

theorem skip_iff (includeAll : Bool) (valid : List K) (k : K) :
    (!includeAll && (valid.isEmpty || decide (k ∉ valid))) = true ↔ ¬ Included includeAll valid k := by
  cases valid with
  | nil => cases includeAll <;> simp [Included]
  | cons a l => cases includeAll <;> simp [Included]

theorem check_iff (validate : Bool) (valid : List K) (k : K) (v : Option V) :
    ((validate && (valid.isEmpty || decide (k ∈ valid))) && v.isNone) = true ↔ Checked validate valid k ∧ v = none := by
  cases valid with
  | nil => cases validate <;> cases v <;> simp [Checked]
  | cons a l => cases validate <;> cases v <;> simp [Checked]

theorem setLoop_spec (includeAll validate : Bool) (valid : List K) (params obj : PyDict K (Option V))
    (hp : params.keys.Nodup) :
    ((setLoop includeAll validate valid params obj).2 = none ↔
      ∀ k v, (k, v) ∈ params → Included includeAll valid k → Checked validate valid k → v ≠ none) ∧
    ((setLoop includeAll validate valid params obj).2 = none → ∀ k,
      (setLoop includeAll validate valid params obj).1.get? k =
        if k ∈ params.keys ∧ Included includeAll valid k then params.get? k else obj.get? k) := by
  classical
  induction params generalizing obj with
  | nil => simp [setLoop]
  | cons a l ih =>
    obtain ⟨j, u⟩ := a
    rw [PyDict.keys_cons, List.nodup_cons] at hp
    rw [setLoop]
    by_cases hs : (!includeAll && (valid.isEmpty || decide (j ∉ valid))) = true
    · rw [if_pos hs]
      have hs' := (skip_iff includeAll valid j).1 hs
      obtain ⟨h1, h2⟩ := ih obj hp.2
      constructor
      · rw [h1]
        constructor
        · intro h k v hm hi hc
          rcases List.mem_cons.1 hm with e | hm
          · cases e; exact absurd hi hs'
          · exact h k v hm hi hc
        · exact fun h k v hm => h k v (List.mem_cons_of_mem _ hm)
      · intro hn k
        rw [h2 hn k, PyDict.keys_cons]
        by_cases hk : k = j
        · subst hk; simp [hs']
        · have hk' : ¬ j = k := fun e => hk e.symm
          simp only [List.mem_cons, hk, false_or, PyDict.get?, if_neg hk']
    · rw [if_neg hs]
      have hi : Included includeAll valid j := by
        by_contra hc; exact hs ((skip_iff includeAll valid j).2 hc)
      by_cases hc : ((validate && (valid.isEmpty || decide (j ∈ valid))) && u.isNone) = true
      · rw [if_pos hc]
        obtain ⟨hc1, hc2⟩ := (check_iff validate valid j u).1 hc
        constructor
        · constructor
          · intro h; cases h
          · intro h; exact absurd hc2 (h j u (by simp) hi hc1)
        · intro h; cases h
      · rw [if_neg hc]
        obtain ⟨h1, h2⟩ := ih (obj.set j u) hp.2
        constructor
        · rw [h1]
          constructor
          · intro h k v hm hi' hc'
            rcases List.mem_cons.1 hm with e | hm
            · cases e
              intro hv
              exact hc ((check_iff validate valid _ _).2 ⟨hc', hv⟩)
            · exact h k v hm hi' hc'
          · exact fun h k v hm => h k v (List.mem_cons_of_mem _ hm)
        · intro hn k
          rw [h2 hn k, PyDict.keys_cons, PyDict.get?_set]
          by_cases hk : k = j
          · subst hk
            simp [hp.1, hi, PyDict.get?]
          · have hk' : ¬ j = k := fun e => hk e.symm
            simp only [List.mem_cons, hk, false_or, PyDict.get?, if_neg hk', if_false]

end Params

/-- C77. If `set_attributes` succeeds, the attributes named by the parameters have the given values, those that
`include_all=False` excludes and all others keep theirs. -/
theorem C77_set_attributes (obj : PyDict K (Option V)) (includeAll validate : Bool) (valid : List K)
    (params : PyDict K (Option V)) (hp : params.keys.Nodup)
    (h : (setAttributes obj includeAll validate valid params).2 = none) (k : K) :
    (k ∈ params.keys ∧ (includeAll = true ∨ k ∈ valid) →
      (setAttributes obj includeAll validate valid params).1.get? k = params.get? k) ∧
    (¬ (k ∈ params.keys ∧ (includeAll = true ∨ k ∈ valid)) →
      (setAttributes obj includeAll validate valid params).1.get? k = obj.get? k) := by
  classical
  rw [setAttributes] at h ⊢
  cases hc : completeParams obj valid params with
  | error e => rw [hc] at h; cases h
  | ok r =>
    rw [hc] at h
    obtain ⟨h1, h2, h3⟩ := completeParams_ok obj valid params r hp hc
    have hs := (setLoop_spec includeAll validate valid r obj h1).2 h k
    simp only [hs]
    have hr : k ∈ r.keys ↔ k ∈ params.keys ∨ (k ∈ valid ∧ k ∈ obj.keys) := by
      rw [← PyDict.get?_isSome, h3]
      by_cases hk : k ∈ params.keys
      · simp only [if_pos hk, hk, true_or, iff_true]; exact PyDict.get?_isSome.2 hk
      · rw [if_neg hk]
        by_cases hv : k ∈ valid
        · rw [if_pos hv, PyDict.get?_isSome]; simp [hk, hv]
        · rw [if_neg hv]; simp [hk, hv]
    constructor
    · rintro ⟨hk, hi⟩
      rw [if_pos (show k ∈ r.keys ∧ Included includeAll valid k from ⟨hr.2 (Or.inl hk), hi⟩), h3, if_pos hk]
    · intro hn
      by_cases hk : k ∈ r.keys ∧ Included includeAll valid k
      · rw [if_pos hk, h3]
        have hnp : k ∉ params.keys := fun hm => hn ⟨hm, hk.2⟩
        rcases hr.1 hk.1 with h | h
        · exact absurd h hnp
        · rw [if_neg hnp, if_pos h.1]
      · rw [if_neg hk]

/-- C77. It succeeds exactly if each valid parameter is given or is an attribute already and no parameter that is checked is
`None`. -/
theorem C77_set_attributes_iff (obj : PyDict K (Option V)) (includeAll validate : Bool) (valid : List K)
    (params : PyDict K (Option V)) (hp : params.keys.Nodup) :
    (setAttributes obj includeAll validate valid params).2 = none ↔
      (∀ k ∈ valid, k ∈ params.keys ∨ k ∈ obj.keys) ∧
      (validate = true → ∀ k, (k ∈ valid ∨ (valid = [] ∧ includeAll = true)) →
        params.get? k ≠ some none ∧ (k ∉ params.keys → k ∈ valid → obj.get? k ≠ some none)) := by
  classical
  rw [setAttributes]
  cases hc : completeParams obj valid params with
  | error e =>
    obtain ⟨k, hk, h1, h2, -⟩ := completeParams_error obj valid params e hc
    constructor
    · intro h; cases h
    · rintro ⟨h, -⟩
      rcases h k hk with h | h
      · exact absurd h h1
      · exact absurd h h2
  | ok r =>
    obtain ⟨h1, h2, h3⟩ := completeParams_ok obj valid params r hp hc
    simp only
    rw [(setLoop_spec includeAll validate valid r obj h1).1, and_iff_right h2]
    have hm : ∀ k v, (k, v) ∈ r ↔ r.get? k = some v := fun k v =>
      ⟨fun h => PyDict.get?_of_mem h1 h, PyDict.mem_of_get?⟩
    have hch : ∀ k, (Included includeAll valid k ∧ Checked validate valid k) ↔
        validate = true ∧ (k ∈ valid ∨ (valid = [] ∧ includeAll = true)) := by
      intro k
      simp only [Included, Checked]
      constructor
      · rintro ⟨ha, hb, hc⟩
        refine ⟨hb, ?_⟩
        rcases hc with rfl | hc
        · rcases ha with ha | ha
          · exact Or.inr ⟨rfl, ha⟩
          · exact Or.inl ha
        · exact Or.inl hc
      · rintro ⟨hb, hk | ⟨rfl, hi⟩⟩
        · exact ⟨Or.inr hk, hb, Or.inr hk⟩
        · exact ⟨Or.inl hi, hb, Or.inl rfl⟩
    constructor
    · intro h hv k hk
      obtain ⟨hi, hck⟩ := (hch k).2 ⟨hv, hk⟩
      constructor
      · intro hg
        have hkp : k ∈ params.keys := PyDict.get?_isSome.1 ⟨none, hg⟩
        have : r.get? k = some none := by rw [h3, if_pos hkp, hg]
        exact h k none ((hm k none).2 this) hi hck rfl
      · intro hkp hkv hg
        have : r.get? k = some none := by rw [h3, if_neg hkp, if_pos hkv, hg]
        exact h k none ((hm k none).2 this) hi hck rfl
    · intro h k v hkv hi hck hv
      subst hv
      obtain ⟨hva, hk⟩ := (hch k).1 ⟨hi, hck⟩
      obtain ⟨ha, hb⟩ := h hva k hk
      have hg := (hm k none).1 hkv
      rw [h3] at hg
      by_cases hkp : k ∈ params.keys
      · rw [if_pos hkp] at hg; exact ha hg
      · rw [if_neg hkp] at hg
        by_cases hkv : k ∈ valid
        · rw [if_pos hkv] at hg; exact hb hkp hkv hg
        · rw [if_neg hkv] at hg; cases hg

/-- C77. If a valid parameter is missing, the object is unchanged. -/
theorem C77_set_attributes_missing (obj : PyDict K (Option V)) (includeAll validate : Bool) (valid : List K)
    (params : PyDict K (Option V)) (h : ∃ k ∈ valid, k ∉ params.keys ∧ k ∉ obj.keys) (hp : params.keys.Nodup) :
    (setAttributes obj includeAll validate valid params).1 = obj ∧
    ∃ k, (setAttributes obj includeAll validate valid params).2 = some (.missing k) := by
  rw [setAttributes]
  cases hc : completeParams obj valid params with
  | error e =>
    obtain ⟨k, -, -, -, rfl⟩ := completeParams_error obj valid params e hc
    exact ⟨rfl, k, rfl⟩
  | ok r =>
    obtain ⟨k, hk, h1, h2⟩ := h
    rcases (completeParams_ok obj valid params r hp hc).2.1 k hk with h | h
    · exact absurd h h1
    · exact absurd h h2

end Attributes

/-- C77. If a value is `None`, the attributes before it have already been set. -/
theorem C77_set_attributes_not_atomic :
    setAttributes [("a", some 5)] true true [] [("a", some 6), ("b", none)] = ([("a", some 6)], some (.isNone "b")) := by
  rfl

/-- A call that succeeds. -/
example : setAttributes [("a", some 1), ("c", some 3)] false true ["a", "c"] [("a", some 4), ("b", some 4)] =
    ([("a", some 4), ("c", some 3)], none) := by rfl

end Verif
