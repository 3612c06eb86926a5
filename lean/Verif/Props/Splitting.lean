import Verif.Proofs.Splitting

/-!
# C62-C64: splitting data into training and test parts, regions of labels
-/

namespace Verif

open Splitting

/-- **C62 (half).** The split `'half'` cuts the data in two parts that give the data when joined; the second is at most one
row longer. -/
theorem C62_half {α : Type} (shuffle : List ℕ → List ℕ) (gap nsample : ℕ) (data : List α) :
    ∃ a b, split shuffle .half gap nsample data = .ok (a, b) ∧ a ++ b = data ∧
      a.length ≤ b.length ∧ b.length ≤ a.length + 1 := by
  refine ⟨_, _, rfl, List.take_append_drop _ _, ?_, ?_⟩
  · simp only [List.length_take, List.length_drop]; omega
  · simp only [List.length_take, List.length_drop]; omega

/-- **C62 (sample).** For every shuffle that permutes its argument the split `'sample'` returns: both parts are increasing
lists of rows without repetition; every training row is more than `gap` away from every test row; the first `gap` and the
last `gap` rows are not used; together the parts are the samples, whatever the shuffle; and the parts have the sizes of
the two halves of the samples. -/
theorem C62_sample (shuffle : List ℕ → List ℕ) (hsh : ∀ l, (shuffle l).Perm l) (gap nsample n : ℕ)
    (hpos : 0 < gap + nsample) :
    ∃ tr te fs, sampleSplit shuffle gap nsample n = .ok (tr, te) ∧ firsts gap nsample n = .ok fs ∧
      tr.Pairwise (· < ·) ∧ te.Pairwise (· < ·) ∧
      (∀ a ∈ tr, ∀ b ∈ te, a + gap < b ∨ b + gap < a) ∧
      (∀ a, a ∈ tr ∨ a ∈ te → gap ≤ a ∧ a + gap < n) ∧
      (∀ a, a ∈ tr ∨ a ∈ te ↔ ∃ i, a ≥ gap + i * (gap + nsample) ∧ a < gap + i * (gap + nsample) + nsample ∧
        gap + i * (gap + nsample) + (gap + nsample) < n) ∧
      tr.length = (fs.length - fs.length / 2) * nsample ∧ te.length = fs.length / 2 * nsample := by
  set fs := rangeStep gap (n - (gap + nsample)) (gap + nsample) with hfs
  have h1 : firsts gap nsample n = .ok fs := by rw [firsts, if_neg (by omega)]
  have hlen : (shuffle fs).length = fs.length := (hsh fs).length_eq
  have hmem : ∀ x, x ∈ shuffle fs ↔ x + (gap + nsample) < n ∧ ∃ i, x = gap + i * (gap + nsample) := by
    intro x
    rw [(hsh fs).mem_iff, hfs, mem_rangeStep _ _ _ _ hpos]
    constructor
    · rintro ⟨h, hi⟩; exact ⟨by omega, hi⟩
    · rintro ⟨h, hi⟩; exact ⟨by omega, hi⟩
  have hpw : (shuffle fs).Pairwise fun a b => a + (gap + nsample) ≤ b ∨ b + (gap + nsample) ≤ a := by
    have : fs.Pairwise fun a b => a + (gap + nsample) ≤ b ∨ b + (gap + nsample) ≤ a :=
      (pairwise_rangeStep _ _ _).imp fun h => Or.inl h
    exact ((hsh fs).pairwise_iff (by intro a b h; exact h.symm)).mpr this
  have hpw2 : (shuffle fs).Pairwise fun a b => a + nsample ≤ b ∨ b + nsample ≤ a := hpw.imp fun h => by omega
  have hsplit : ∀ a ∈ (shuffle fs).take (fs.length / 2), ∀ b ∈ (shuffle fs).drop (fs.length / 2),
      a + (gap + nsample) ≤ b ∨ b + (gap + nsample) ≤ a := by
    rw [← List.take_append_drop (fs.length / 2) (shuffle fs), List.pairwise_append] at hpw
    exact hpw.2.2
  have hstrict : ∀ l, l.Sublist (shuffle fs) → (sampleRows nsample l).Pairwise (· < ·) := by
    intro l hl
    have a := sorted_sampleRows nsample l
    have b := nodup_sampleRows nsample l (hpw2.sublist hl)
    exact (a.and b).imp fun h => lt_of_le_of_ne h.1 h.2
  refine ⟨sampleRows nsample ((shuffle fs).drop (fs.length / 2)), sampleRows nsample ((shuffle fs).take (fs.length / 2)), fs,
    ?_, h1, hstrict _ (List.drop_sublist _ _), hstrict _ (List.take_sublist _ _), ?_, ?_, ?_, ?_, ?_⟩
  · simp only [sampleSplit, h1, ok_bind, hlen, pure_eq_ok]
  · intro a ha b hb
    rw [mem_sampleRows] at ha hb
    obtain ⟨f, hf, _, _⟩ := ha
    obtain ⟨g, hg, _, _⟩ := hb
    have := hsplit g hg f hf
    omega
  · intro a ha
    have : ∃ f ∈ shuffle fs, f ≤ a ∧ a < f + nsample := by
      rcases ha with ha | ha
      · rw [mem_sampleRows] at ha
        obtain ⟨f, hf, h⟩ := ha
        exact ⟨f, List.mem_of_mem_drop hf, h⟩
      · rw [mem_sampleRows] at ha
        obtain ⟨f, hf, h⟩ := ha
        exact ⟨f, List.mem_of_mem_take hf, h⟩
    obtain ⟨f, hf, h2, h3⟩ := this
    rw [hmem] at hf
    obtain ⟨h4, i, rfl⟩ := hf
    constructor
    · have : 0 ≤ i * (gap + nsample) := Nat.zero_le _
      omega
    · omega
  · intro a
    have : (a ∈ sampleRows nsample ((shuffle fs).drop (fs.length / 2)) ∨
        a ∈ sampleRows nsample ((shuffle fs).take (fs.length / 2))) ↔ ∃ f ∈ shuffle fs, f ≤ a ∧ a < f + nsample := by
      rw [mem_sampleRows, mem_sampleRows]
      constructor
      · rintro (⟨f, hf, h⟩ | ⟨f, hf, h⟩)
        · exact ⟨f, List.mem_of_mem_drop hf, h⟩
        · exact ⟨f, List.mem_of_mem_take hf, h⟩
      · rintro ⟨f, hf, h⟩
        rw [← List.take_append_drop (fs.length / 2) (shuffle fs), List.mem_append] at hf
        rcases hf with hf | hf
        · exact Or.inr ⟨f, hf, h⟩
        · exact Or.inl ⟨f, hf, h⟩
    rw [this]
    constructor
    · rintro ⟨f, hf, h2, h3⟩
      rw [hmem] at hf
      obtain ⟨h4, i, rfl⟩ := hf
      exact ⟨i, h2, h3, h4⟩
    · rintro ⟨i, h2, h3, h4⟩
      exact ⟨_, (hmem _).mpr ⟨h4, i, rfl⟩, h2, h3⟩
  · rw [length_sampleRows, List.length_drop, hlen]
  · rw [length_sampleRows, List.length_take, hlen, min_eq_left (by omega)]

/-- The rows are all there: the split of the data returns the rows with these numbers. -/
theorem C62_sample_rows {α : Type} (shuffle : List ℕ → List ℕ) (hsh : ∀ l, (shuffle l).Perm l) (gap nsample : ℕ)
    (hpos : 0 < gap + nsample) (data : List α) :
    ∃ tr te a b, sampleSplit shuffle gap nsample data.length = .ok (tr, te) ∧
      split shuffle .sample gap nsample data = .ok (a, b) ∧
      a.map some = tr.map (data[·]?) ∧ b.map some = te.map (data[·]?) := by
  obtain ⟨tr, te, fs, h1, -, -, -, -, h2, -⟩ := C62_sample shuffle hsh gap nsample data.length hpos
  have key : ∀ l : List ℕ, (∀ i ∈ l, i < data.length) → ∃ a, l.mapM (pyGet data) = .ok a ∧ a.map some = l.map (data[·]?) := by
    intro l
    induction l with
    | nil => intro _; exact ⟨[], rfl, rfl⟩
    | cons i l ih =>
      intro hl
      obtain ⟨a, ha, hb⟩ := ih fun j hj => hl j (by simp [hj])
      have hi := hl i (by simp)
      refine ⟨data[i] :: a, ?_, by simp [hb, hi]⟩
      rw [List.mapM_cons]
      simp only [pyGet, List.getElem?_eq_getElem hi, ok_bind] at ha ⊢
      rw [ha]
      rfl
  obtain ⟨a, ha, ha2⟩ := key tr fun i hi => by have := (h2 i (Or.inl hi)).2; omega
  obtain ⟨b, hb, hb2⟩ := key te fun i hi => by have := (h2 i (Or.inr hi)).2; omega
  refine ⟨tr, te, a, b, h1, ?_, ha2, hb2⟩
  simp only [split, h1, ok_bind, ha, hb, pure_eq_ok]

/-- Reversing is a shuffle; with gap 1 and samples of 2 out of 12 rows there are three samples. -/
example : (∀ l : List ℕ, l.reverse.Perm l) ∧ sampleSplit List.reverse 1 2 12 = .ok ([1, 2, 4, 5], [7, 8]) :=
  ⟨fun l => List.reverse_perm l, by
    simp [sampleSplit, firsts, rangeStep, sampleRows, ok_bind, pure_eq_ok, List.range_succ, List.mergeSort, List.merge,
      List.MergeSort.Internal.splitInTwo]⟩

/-- **C62 (other).** Any other kind uses all the data for both. -/
theorem C62_other {α : Type} (shuffle : List ℕ → List ℕ) (gap nsample : ℕ) (data : List α) :
    split shuffle .other gap nsample data = .ok (data, data) := rfl

variable {L : Type} [DecidableEq L]

/-- **C63.** For every list of labels that is not empty, `get_regions` returns a dictionary whose keys are the labels, each
once, and which lists for each label exactly the maximal blocks of rows with that label, in order. -/
theorem C63_regions (labels : List L) (h : labels ≠ []) :
    ∃ d, getRegions labels = .ok d ∧ (d.map Prod.fst).Nodup ∧ (∀ c, c ∈ d.map Prod.fst ↔ c ∈ labels) ∧
      ∀ c rs, (c, rs) ∈ d → rs.Pairwise (fun x y => x.2 < y.1) ∧ ∀ a b, (a, b) ∈ rs ↔ IsRun labels c a b := by
  obtain ⟨d, h1, h2, h3, h4⟩ := getRegions_collected labels h
  have hmemrs : ∀ c a b, (c, (a, b)) ∈ ((bounds labels).zip (bounds labels).tail).filterMap
      (fun r => labels[r.1]?.map fun c => (c, r)) ↔ IsRun labels c a b := by
    intro c a b
    rw [← region_iff labels h, List.mem_filterMap]
    constructor
    · rintro ⟨⟨x, y⟩, hr, he⟩
      simp only [Option.map_eq_some_iff, Prod.mk.injEq] at he
      obtain ⟨c', hc', rfl, rfl, rfl⟩ := he
      exact ⟨hr, hc'⟩
    · rintro ⟨hr, hc⟩
      exact ⟨(a, b), hr, by simp [hc]⟩
  refine ⟨d, h1, h2, ?_, ?_⟩
  · intro c
    rw [h3]
    constructor
    · intro hc
      obtain ⟨⟨c', a, b⟩, hp, rfl⟩ := List.mem_map.mp hc
      have hr := (hmemrs _ _ _).mp hp
      exact List.mem_of_getElem? (hr.inside a le_rfl hr.lt)
    · intro hc
      obtain ⟨i, hi, rfl⟩ := List.getElem_of_mem hc
      obtain ⟨a, b, hr, -, -⟩ := exists_run labels i hi
      exact List.mem_map.mpr ⟨(labels[i], (a, b)), (hmemrs _ _ _).mpr hr, rfl⟩
  · intro c rs hrs
    obtain ⟨-, rfl⟩ := (h4 c rs).mp hrs
    have hm : ∀ a b, (a, b) ∈ ((((bounds labels).zip (bounds labels).tail).filterMap
        fun r => labels[r.1]?.map fun c => (c, r)).filter fun p => decide (p.1 = c)).map Prod.snd ↔ IsRun labels c a b := by
      intro a b
      rw [← hmemrs c a b, List.mem_map]
      constructor
      · rintro ⟨⟨c', r⟩, hp, rfl⟩
        rw [List.mem_filter] at hp
        obtain ⟨hp, he⟩ := hp
        simp only [decide_eq_true_eq] at he
        subst he
        exact hp
      · intro hp
        exact ⟨(c, (a, b)), by rw [List.mem_filter]; exact ⟨hp, by simp⟩, rfl⟩
    refine ⟨?_, hm⟩
    -- the regions come in increasing order
    have hz : ((bounds labels).zip (bounds labels).tail).Pairwise fun x y => x.1 < y.1 := by
      have hb := bounds_sorted labels h
      rw [List.pairwise_iff_getElem] at hb ⊢
      intro i j hi hj hij
      simp only [List.length_zip] at hi hj
      simp only [List.getElem_zip]
      exact hb i j (by omega) (by omega) hij
    have hf : (((((bounds labels).zip (bounds labels).tail).filterMap
        fun r => labels[r.1]?.map fun c => (c, r)).filter fun p => decide (p.1 = c)).map Prod.snd).Pairwise
          fun x y => x.1 < y.1 := by
      rw [List.pairwise_map]
      apply List.Pairwise.filter
      rw [List.pairwise_filterMap]
      refine hz.imp ?_
      intro x y hxy u hu v hv
      simp only [Option.map_eq_some_iff] at hu hv
      obtain ⟨_, _, rfl⟩ := hu
      obtain ⟨_, _, rfl⟩ := hv
      exact hxy
    have hand : ∀ x ∈ ((((bounds labels).zip (bounds labels).tail).filterMap
        fun r => labels[r.1]?.map fun c => (c, r)).filter fun p => decide (p.1 = c)).map Prod.snd,
        IsRun labels c x.1 x.2 := fun x hx => (hm x.1 x.2).mp hx
    exact hf.imp_of_mem fun {x y} hx hy hxy => run_order labels c _ _ _ _ (hand x hx) (hand y hy) hxy

/-- The runs of the docstring example. -/
example : getRegions [0, 1, 1, 1, 0] = .ok [(0, [(0, 1), (4, 5)]), (1, [(1, 4)])] := by decide +kernel

/-- **C63 (cover).** Every row lies in a region of its label. -/
theorem C63_cover (labels : List L) (i : ℕ) (hi : i < labels.length) :
    ∃ d rs a b, getRegions labels = .ok d ∧ (labels[i], rs) ∈ d ∧ (a, b) ∈ rs ∧ a ≤ i ∧ i < b := by
  have h : labels ≠ [] := by rintro rfl; simp at hi
  obtain ⟨d, h1, _, h3, h4⟩ := C63_regions labels h
  obtain ⟨a, b, hr, ha, hb⟩ := exists_run labels i hi
  have := (h3 labels[i]).mpr (List.getElem_mem hi)
  obtain ⟨⟨c, rs⟩, hc, he⟩ := List.mem_map.mp this
  simp only at he
  subst he
  exact ⟨d, rs, a, b, h1, hc, ((h4 _ _ hc).2 a b).mpr hr, ha, hb⟩

/-- **C63 (no labels).** An empty list raises IndexError. -/
theorem C63_empty : getRegions ([] : List L) = .error .indexError := rfl

/-- **C64.** For two labels that occur, `get_outer_boundaries` returns the rows from `f` to `l` such that between the first
and the last row labelled `cls` and these bounds there are only rest rows, and the bounds cannot be moved outwards. -/
theorem C64_outer (labels : List L) (cls rest : L) (hc : cls ∈ labels) (hrst : rest ∈ labels) :
    ∃ d f l s e, getRegions labels = .ok d ∧ getOuterBoundaries d cls rest = .ok (f, l) ∧
      (labels[s]? = some cls ∧ ∀ i < s, labels[i]? ≠ some cls) ∧
      (s < e ∧ labels[e - 1]? = some cls ∧ ∀ i, e ≤ i → labels[i]? ≠ some cls) ∧
      f ≤ s ∧ (∀ i, f ≤ i → i < s → labels[i]? = some rest) ∧ (f = 0 ∨ labels[f - 1]? ≠ some rest) ∧
      e ≤ l ∧ (∀ i, e ≤ i → i < l → labels[i]? = some rest) ∧ labels[l]? ≠ some rest := by
  have h : labels ≠ [] := List.ne_nil_of_mem hc
  obtain ⟨d, h1, h2, h3, h4⟩ := C63_regions labels h
  have hget : ∀ c ∈ labels, ∃ rs, dictGet d c = .ok rs ∧ (c, rs) ∈ d := by
    intro c hcl
    have := (h3 c).mpr hcl
    cases hf : d.find? (fun p => decide (p.1 = c)) with
    | none =>
      rw [List.find?_eq_none] at hf
      obtain ⟨p, hp, rfl⟩ := List.mem_map.mp this
      exact absurd (hf p hp) (by simp)
    | some p =>
      have hpm := List.mem_of_find?_eq_some hf
      have hpk := List.find?_some hf
      simp only [decide_eq_true_eq] at hpk
      obtain ⟨k, rs⟩ := p
      simp only at hpk
      subst hpk
      exact ⟨rs, by simp only [dictGet, hf], hpm⟩
  obtain ⟨mine, hm1, hm2⟩ := hget cls hc
  obtain ⟨rs, hr1, hr2⟩ := hget rest hrst
  obtain ⟨hmp, hmr⟩ := h4 _ _ hm2
  obtain ⟨hrp, hrr⟩ := h4 _ _ hr2
  -- the regions of cls
  obtain ⟨i0, hi0, he0⟩ := List.getElem_of_mem hc
  obtain ⟨a0, b0, hrun0, -, -⟩ := exists_run labels i0 hi0
  rw [he0] at hrun0
  have hne : mine ≠ [] := List.ne_nil_of_mem ((hmr a0 b0).mpr hrun0)
  obtain ⟨⟨s, b1⟩, tl, rfl⟩ := List.exists_cons_of_ne_nil hne
  set mine := (s, b1) :: tl with hmine
  obtain ⟨⟨a2, e⟩, hlast⟩ : ∃ x, mine.getLast? = some x := ⟨_, List.getLast?_eq_some_getLast hne⟩
  have hrs : IsRun labels cls s b1 := (hmr s b1).mp (by simp [hmine])
  have hre : IsRun labels cls a2 e := (hmr a2 e).mp (List.mem_of_getLast? hlast)
  -- every region of cls lies between
  have hbefore : ∀ a b, (a, b) ∈ mine → s ≤ a := by
    intro a b hab
    rcases List.mem_cons.mp hab with he | hm
    · rw [(Prod.mk.inj he).1]
    · have := (List.pairwise_cons.mp hmp).1 (a, b) hm
      simp only at this
      have := hrs.lt
      omega
  have hafter : ∀ a b, (a, b) ∈ mine → b ≤ e := by
    intro a b hab
    obtain ⟨ys, hys⟩ := List.getLast?_eq_some_iff.mp hlast
    rw [hys] at hab hmp
    rcases List.mem_append.mp hab with hm | hm
    · have := (List.pairwise_append.mp hmp).2.2 (a, b) hm (a2, e) (by simp)
      simp only at this
      have := hre.lt
      omega
    · rw [List.mem_singleton] at hm
      rw [(Prod.mk.inj hm).2]
  have hcover : ∀ i, labels[i]? = some cls → s ≤ i ∧ i < e := by
    intro i hi
    obtain ⟨hil, hie⟩ := List.getElem?_eq_some_iff.mp hi
    obtain ⟨a, b, hrun, ha, hb⟩ := exists_run labels i hil
    rw [hie] at hrun
    have hm := (hmr a b).mpr hrun
    have := hbefore a b hm
    have := hafter a b hm
    omega
  have hse : s < e := by
    have := hcover (e - 1) (hre.inside (e - 1) (by have := hre.lt; omega) (by have := hre.lt; omega))
    omega
  have hloop := outerLoop_eq s e hse rs (fun r hr => ((hrr r.1 r.2).mp hr).lt) hrp s e
  obtain ⟨hl1, hl2⟩ := hloop
  refine ⟨d, (outerLoop s e rs (s, e)).1, (outerLoop s e rs (s, e)).2, s, e, h1, ?_, ⟨?_, ?_⟩, ⟨hse, ?_, ?_⟩, ?_⟩
  · simp only [getOuterBoundaries, hm1, ok_bind, hmine, pyGet, List.getElem?_cons_zero]
    rw [← hmine, hlast]
    simp only [hr1, ok_bind, pure_eq_ok]
  · exact hrs.inside s le_rfl hrs.lt
  · intro i hi he
    have := (hcover i he).1
    omega
  · exact hre.inside (e - 1) (by have := hre.lt; omega) (by have := hre.lt; omega)
  · intro i hi he
    have := (hcover i he).2
    omega
  · have hfirst : (outerLoop s e rs (s, e)).1 ≤ s ∧
        (∀ i, (outerLoop s e rs (s, e)).1 ≤ i → i < s → labels[i]? = some rest) ∧
        ((outerLoop s e rs (s, e)).1 = 0 ∨ labels[(outerLoop s e rs (s, e)).1 - 1]? ≠ some rest) := by
      rcases hl1 with ⟨x, hx, hx2⟩ | ⟨hx, hx2⟩
      · rw [hx2]
        have hrun := (hrr x s).mp hx
        exact ⟨hrun.lt.le, hrun.inside, hrun.before⟩
      · rw [hx2]
        refine ⟨le_rfl, fun i h1 h2 => by omega, ?_⟩
        by_cases hs0 : s = 0
        · exact Or.inl hs0
        · right
          intro he
          obtain ⟨hil, hie⟩ := List.getElem?_eq_some_iff.mp he
          obtain ⟨a, b, hrun, ha, hb⟩ := exists_run labels (s - 1) hil
          rw [hie] at hrun
          have hbs : b = s := by
            by_contra hne
            have hsr : labels[s]? = some rest := hrun.inside s (by omega) (by omega)
            have hsc := hrs.inside s le_rfl hrs.lt
            rw [hsr, Option.some.injEq] at hsc
            rw [hsc] at he
            have := (hcover (s - 1) he).1
            omega
          rw [hbs] at hrun
          exact hx a ((hrr a s).mpr hrun)
    have hsecond : e ≤ (outerLoop s e rs (s, e)).2 ∧
        (∀ i, e ≤ i → i < (outerLoop s e rs (s, e)).2 → labels[i]? = some rest) ∧
        labels[(outerLoop s e rs (s, e)).2]? ≠ some rest := by
      rcases hl2 with ⟨y, hy, hy2⟩ | ⟨hy, hy2⟩
      · rw [hy2]
        have hrun := (hrr e y).mp hy
        exact ⟨hrun.lt.le, hrun.inside, hrun.after⟩
      · rw [hy2]
        refine ⟨le_rfl, fun i h1 h2 => by omega, ?_⟩
        intro he
        obtain ⟨hil, hie⟩ := List.getElem?_eq_some_iff.mp he
        obtain ⟨a, b, hrun, ha, hb⟩ := exists_run labels e hil
        rw [hie] at hrun
        have hae : a = e := by
          by_contra hne
          have h5 : labels[e - 1]? = some rest := hrun.inside (e - 1) (by omega) (by omega)
          have h6 := hre.inside (e - 1) (by have := hre.lt; omega) (by have := hre.lt; omega)
          rw [h5, Option.some.injEq] at h6
          rw [h6] at he
          have := (hcover e he).2
          omega
        rw [hae] at hrun
        exact hy b ((hrr e b).mpr hrun)
    exact ⟨hfirst.1, hfirst.2.1, hfirst.2.2, hsecond⟩

/-- The docstring example. -/
example : (do let d ← getRegions [0, 0, 0, 1, 1, 0, 0, 1, 1, 1, 0, 0, 2, 0, 3, 3, 0, 4]
              getOuterBoundaries d 1 0) = .ok (0, 12) := by decide +kernel

end Verif
