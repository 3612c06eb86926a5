import Verif.Model.OutOfRange

/-!
# Lemmas for C135: what infinities and NaN do to a context tree of `modelfast`
-/

namespace Verif

namespace Dbl

/-- −∞ or NaN. -/
def Bad (a : Dbl) : Prop := a = ninf ∨ a = nan

/-- A finite number that is not positive, −∞ or NaN. -/
def Low : Dbl → Prop
  | fin x => x ≤ 0
  | ninf => True
  | nan => True
  | pinf => False

theorem Bad.ne_pinf {a : Dbl} (h : Bad a) : a ≠ pinf := by rcases h with rfl | rfl <;> simp

theorem Low.ne_pinf {a : Dbl} (h : Low a) : a ≠ pinf := by rintro rfl; exact h

theorem Bad.low {a : Dbl} (h : Bad a) : Low a := by rcases h with rfl | rfl <;> trivial

theorem add_ne_pinf {a b : Dbl} (ha : a ≠ pinf) (hb : b ≠ pinf) : a.add b ≠ pinf := by
  cases a <;> cases b <;> simp_all [add]

theorem Bad.add {a b : Dbl} (ha : Bad a) (hb : b ≠ pinf) : Bad (a.add b) := by
  rcases ha with rfl | rfl <;> cases b <;> simp_all [Dbl.add, Bad]

theorem add_bad {a b : Dbl} (ha : a ≠ pinf) (hb : Bad b) : Bad (a.add b) := by
  rcases hb with rfl | rfl <;> cases a <;> simp_all [Dbl.add, Bad]

theorem Bad.sub {a b : Dbl} (ha : Bad a) (hb : Bad b) : a.sub b = nan := by
  rcases ha with rfl | rfl <;> rcases hb with rfl | rfl <;> rfl

theorem sub_nan (a : Dbl) : a.sub nan = nan := by cases a <;> rfl

theorem nan_sub (a : Dbl) : nan.sub a = nan := by cases a <;> rfl

theorem add_nan (a : Dbl) : a.add nan = nan := by cases a <;> rfl

/-- Finite or NaN. -/
def Mild (a : Dbl) : Prop := (∃ x, a = fin x) ∨ a = nan

theorem Mild.sub {a b : Dbl} (ha : Mild a) (hb : Mild b) : Mild (a.sub b) := by
  rcases ha with ⟨x, rfl⟩ | rfl <;> rcases hb with ⟨y, rfl⟩ | rfl
  · exact Or.inl ⟨_, rfl⟩
  all_goals exact Or.inr rfl

theorem Mild.ne_pinf {a : Dbl} (h : Mild a) : a ≠ pinf := by rcases h with ⟨x, rfl⟩ | rfl <;> simp

theorem log_half : log (fin (1 / 2)) = fin (Real.log (1 / 2)) := by norm_num [log]

theorem log_one_add_exp (x : ℝ) : log (fin (1 + Real.exp x)) = fin (Real.log (1 + Real.exp x)) := by
  have := Real.exp_pos x
  simp only [log]
  rw [if_neg (by linarith), if_neg (by linarith)]

theorem logsumexp2_fin (x y : ℝ) : logsumexp2 (fin x) (fin y) = fin (Verif.logsumexp2 x y) := by
  unfold logsumexp2 Verif.logsumexp2
  rcases lt_trichotomy x y with h | h | h
  · rw [if_neg (show ¬ gt (fin x) (fin y) from not_lt.mpr h.le), if_pos h]
    simp only [sub, neg, add, exp, log_one_add_exp, fin.injEq, ← sub_eq_add_neg]
    ring
  · subst h
    rw [if_neg (show ¬ gt (fin x) (fin x) from lt_irrefl x), if_neg (lt_irrefl x)]
    simp only [sub, neg, add, exp, log_one_add_exp, fin.injEq, ← sub_eq_add_neg]
    ring
  · rw [if_pos (show gt (fin x) (fin y) from h), if_neg (not_lt.mpr h.le)]
    simp only [sub, neg, add, exp, log_one_add_exp, fin.injEq, ← sub_eq_add_neg]
    ring

theorem logsumexp2_bad {a b : Dbl} (ha : Bad a) (hb : Bad b) : logsumexp2 a b = nan := by
  rcases ha with rfl | rfl <;> rcases hb with rfl | rfl <;> simp [logsumexp2, gt, sub, neg, add, exp, log]

theorem logsumexp2_mild {a b : Dbl} (ha : a ≠ pinf) (hb : b ≠ pinf) : Mild (logsumexp2 a b) := by
  cases a with
  | pinf => exact absurd rfl ha
  | nan => right; cases b <;> simp [logsumexp2, gt, sub, neg, add, exp, log]
  | ninf =>
    cases b with
    | pinf => exact absurd rfl hb
    | nan => right; simp [logsumexp2, gt, sub, neg, add, exp, log]
    | ninf => right; simp [logsumexp2, gt, sub, neg, add, exp, log]
    | fin y => left; norm_num [logsumexp2, gt, sub, neg, add, exp, log]
  | fin x =>
    cases b with
    | pinf => exact absurd rfl hb
    | nan => right; simp [logsumexp2, gt, sub, neg, add, exp, log]
    | ninf => left; norm_num [logsumexp2, gt, sub, neg, add, exp, log]
    | fin y => exact Or.inl ⟨_, logsumexp2_fin x y⟩

/-- What `log(0.5) + logsumexp2(a, b)` is. -/
theorem half_mild {a b : Dbl} (ha : a ≠ pinf) (hb : b ≠ pinf) : Mild ((log (fin (1 / 2))).add (logsumexp2 a b)) := by
  rw [log_half]
  rcases logsumexp2_mild ha hb with ⟨x, h⟩ | h <;> rw [h]
  · exact Or.inl ⟨_, rfl⟩
  · exact Or.inr rfl

theorem half_bad {a b : Dbl} (ha : Bad a) (hb : Bad b) : (log (fin (1 / 2))).add (logsumexp2 a b) = nan := by
  rw [log_half, logsumexp2_bad ha hb]; rfl

/-- The logarithm of a quotient that is at most zero. -/
theorem Low.log_div {a : Dbl} (ha : Low a) {y : ℝ} (hy : 0 < y) : Bad (log (a.div (fin y))) := by
  cases a with
  | pinf => exact absurd ha id
  | nan => exact Or.inr rfl
  | ninf => simp [div, not_lt.mpr hy.le, log, Bad]
  | fin x =>
    simp only [div, hy.ne', if_false, log]
    have hx : x ≤ 0 := ha
    by_cases h : x / y = 0
    · rw [if_pos h]; exact Or.inl rfl
    · rw [if_neg h, if_pos (lt_of_le_of_ne (div_nonpos_of_nonpos_of_nonneg hx hy.le) h)]; exact Or.inr rfl

theorem log_div_fin {x y : ℝ} (hx : 0 < x) (hy : 0 < y) : log ((fin x).div (fin y)) = fin (Real.log (x / y)) := by
  have := div_pos hx hy
  simp [div, hy.ne', log, hx.ne', not_lt.mpr this.le]

theorem Low.add {a : Dbl} (ha : Low a) {x : ℝ} (hx : x ≤ 0) : Low (a.add (fin x)) := by
  cases a with
  | fin y => exact add_nonpos ha hx
  | ninf => trivial
  | nan => trivial
  | pinf => exact absurd ha id

end Dbl

namespace WNode

open Dbl

variable {k : ℕ}

@[simp] theorem counts_mk (c : Fin k → Dbl) (x y z : Dbl) (ch : Fin k → Option (WNode k)) : (mk c x y z ch).counts = c := rfl
@[simp] theorem baseLP_mk (c : Fin k → Dbl) (x y z : Dbl) (ch : Fin k → Option (WNode k)) : (mk c x y z ch).baseLP = x := rfl
@[simp] theorem childrenLP_mk (c : Fin k → Dbl) (x y z : Dbl) (ch : Fin k → Option (WNode k)) : (mk c x y z ch).childrenLP = y := rfl
@[simp] theorem lp_mk (c : Fin k → Dbl) (x y z : Dbl) (ch : Fin k → Option (WNode k)) : (mk c x y z ch).lp = z := rfl
@[simp] theorem children_mk (c : Fin k → Dbl) (x y z : Dbl) (ch : Fin k → Option (WNode k)) : (mk c x y z ch).children = ch := rfl

theorem update_nil {n m : WNode k} {i : ℕ} {w : ℝ} (h : n.baseUpdate i w = some m) :
    n.update i w [] = some (m.baseLP.sub n.lp, mk m.counts m.baseLP m.childrenLP m.baseLP m.children) := by
  simp only [update, h]; rfl

theorem update_cons {n m x : WNode k} {i : ℕ} {w : ℝ} {c : Fin k} {cs : List (Fin k)} {r : Dbl} (h : n.baseUpdate i w = some m)
    (hx : update i w cs ((m.children c).getD (new k)) = some (r, x)) :
    n.update i w (c :: cs) =
      some (((Dbl.log (.fin (1 / 2))).add (Dbl.logsumexp2 m.baseLP (m.childrenLP.add r))).sub n.lp,
        mk m.counts m.baseLP (m.childrenLP.add r) ((Dbl.log (.fin (1 / 2))).add (Dbl.logsumexp2 m.baseLP (m.childrenLP.add r)))
          (Function.update m.children c (some x))) := by
  rw [update, h]
  simp only [Option.bind_eq_bind, Option.bind_some, hx]
  rfl

theorem logPredict_nil {n : WNode k} {i : ℕ} {v : Dbl} (h : n.read i = some v) :
    n.logPredict i [] = some ((n.baseLP.add (Dbl.log (v.div n.sumCounts))).sub n.lp, n) := by
  simp only [logPredict, h]; rfl

theorem logPredict_cons {n x : WNode k} {i : ℕ} {c : Fin k} {cs : List (Fin k)} {r v : Dbl} (h : n.read i = some v)
    (hx : logPredict i cs ((n.children c).getD (new k)) = some (r, x)) :
    n.logPredict i (c :: cs) =
      some (((Dbl.log (.fin (1 / 2))).add (Dbl.logsumexp2 (n.baseLP.add (Dbl.log (v.div n.sumCounts))) (n.childrenLP.add r))).sub n.lp,
        mk n.counts n.baseLP n.childrenLP n.lp (Function.update n.children c (some x))) := by
  rw [logPredict, h]
  simp only [Option.bind_eq_bind, Option.bind_some, hx]
  rfl

theorem read_fin (n : WNode k) (i : Fin k) : n.read i = some (n.counts i) := by simp [read]

/-- The counts are positive numbers. -/
def Counts (n : WNode k) : Prop := ∃ c : Fin k → ℝ, n.counts = (fun i => fin (c i)) ∧ ∀ i, 0 < c i

theorem sum_fin (c : Fin k → ℝ) : ∀ (l : List (Fin k)) (x : ℝ), l.foldl (fun s i => s.add (fin (c i))) (fin x) = fin (x + (l.map c).sum) := by
  intro l
  induction l with
  | nil => simp
  | cons a l ih => intro x; rw [List.foldl_cons, Dbl.add, ih, List.map_cons, List.sum_cons, add_assoc]

theorem sumCounts_fin {n : WNode k} {c : Fin k → ℝ} (h : n.counts = fun i => fin (c i)) :
    n.sumCounts = fin ((List.finRange k).map c).sum := by
  rw [sumCounts, h, sum_fin, zero_add]

theorem sum_bounds {c : Fin k → ℝ} (h : ∀ i, 0 < c i) (i : Fin k) : c i ≤ ((List.finRange k).map c).sum :=
  List.single_le_sum (l := (List.finRange k).map c) (by simp; exact fun a => (h a).le) _ (List.mem_map_of_mem (List.mem_finRange i))

/-- The states that calls with symbols up to `ALPHABET_SIZE` lead to; the number is the length of the context. -/
def Sound : ℕ → WNode k → Prop
  | 0, n => n.Counts ∧ Low n.baseLP ∧ n.lp = n.baseLP
  | d + 1, n => n.Counts ∧ Low n.baseLP ∧ n.childrenLP ≠ pinf ∧ Mild n.lp ∧ ∀ c m, n.children c = some m → Sound d m

/-- The states after a call with the symbol `ALPHABET_SIZE`. -/
def Poisoned : ℕ → WNode k → Prop
  | 0, n => Bad n.baseLP
  | _ + 1, n => Bad n.baseLP ∧ Bad n.childrenLP ∧ n.lp = nan

theorem Sound.counts {d : ℕ} {n : WNode k} (h : Sound d n) : n.Counts := by cases d <;> exact h.1
theorem Sound.low {d : ℕ} {n : WNode k} (h : Sound d n) : Low n.baseLP := by cases d <;> exact h.2.1
theorem Poisoned.bad {d : ℕ} {n : WNode k} (h : Poisoned d n) : Bad n.baseLP := by cases d; exacts [h, h.1]

theorem sound_new [NeZero k] (d : ℕ) : Sound d (new k) := by
  have hc : (new k).Counts := ⟨fun _ => 1 / k, rfl, fun _ => by
    have : (0 : ℝ) < k := by exact_mod_cast Nat.pos_of_ne_zero (NeZero.ne k)
    positivity⟩
  cases d with
  | zero => exact ⟨hc, le_refl (0 : ℝ), rfl⟩
  | succ d => exact ⟨hc, le_refl (0 : ℝ), by simp [new, childrenLP], Or.inl ⟨0, rfl⟩, fun c m h => by simp [new, children] at h⟩

theorem baseUpdate_valid {n : WNode k} (hc : n.Counts) (hl : Low n.baseLP) (i : Fin k) {w : ℝ} (hw : 0 ≤ w) :
    ∃ m, n.baseUpdate i w = some m ∧ m.Counts ∧ Low m.baseLP ∧ (Bad n.baseLP → Bad m.baseLP) ∧
      (∃ x, m.baseLP = n.baseLP.add (fin x)) ∧
      m.childrenLP = n.childrenLP ∧ m.children = n.children := by
  obtain ⟨c, hcc, hpos⟩ := hc
  have hs := sum_bounds hpos i
  have hlog : Real.log (c i / ((List.finRange k).map c).sum) ≤ 0 :=
    Real.log_nonpos (div_nonneg (hpos i).le ((hpos i).le.trans hs)) ((div_le_one ((hpos i).trans_le hs)).mpr hs)
  have e : n.baseUpdate i w = some (mk (Function.update n.counts i (fin (c i + w)))
      (n.baseLP.add (fin (Real.log (c i / ((List.finRange k).map c).sum)))) n.childrenLP n.lp n.children) := by
    simp only [baseUpdate, read, i.isLt, dif_pos, write, Option.bind_eq_bind, Option.bind_some, sumCounts_fin hcc]
    have h1 : ((n.counts i).div (fin ((List.finRange k).map c).sum)).log = fin (Real.log (c i / ((List.finRange k).map c).sum)) := by
      rw [hcc]; exact log_div_fin (hpos i) ((hpos i).trans_le hs)
    have h2 : (n.counts i).add (fin w) = fin (c i + w) := by rw [hcc]; rfl
    simp [h1, h2]
  refine ⟨_, e, ⟨Function.update c i (c i + w), ?_, ?_⟩, hl.add hlog, fun hb => hb.add (by simp), ⟨_, rfl⟩, rfl, rfl⟩
  · funext j
    by_cases h : j = i
    · subst h; simp
    · simp [h, hcc]
  · intro j
    by_cases h : j = i
    · subst h; simp; linarith [hpos j]
    · simp [h, hpos]

theorem baseUpdate_beyond [NeZero k] {n : WNode k} (hc : n.Counts) (hl : Low n.baseLP) {w : ℝ} :
    ∃ m, n.baseUpdate k w = some m ∧ m.Counts ∧ Bad m.baseLP ∧ m.childrenLP = n.childrenLP ∧ m.children = n.children := by
  obtain ⟨c, hcc, hpos⟩ := hc
  have hs := (hpos 0).trans_le (sum_bounds hpos 0)
  have e : n.baseUpdate k w = some (mk n.counts ((n.baseLP.add (Dbl.log (n.baseLP.div n.sumCounts))).add (fin w)) n.childrenLP n.lp n.children) := by
    simp only [baseUpdate, read, lt_irrefl, dif_neg, not_false_eq_true, if_true, write, Option.bind_eq_bind, Option.bind_some]
    rfl
  refine ⟨_, e, ⟨c, hcc, hpos⟩, ?_, rfl, rfl⟩
  rw [sumCounts_fin hcc]
  exact (add_bad hl.ne_pinf (hl.log_div hs)).add (by simp)

/-- One call of `update`. -/
theorem update_sound [NeZero k] {i : ℕ} (hi : i ≤ k) {w : ℝ} (hw : 0 ≤ w) : ∀ (cs : List (Fin k)) (n : WNode k), Sound cs.length n →
    ∃ r n', n.update i w cs = some (r, n') ∧ Sound cs.length n' ∧ r ≠ pinf ∧
      (i = k → Poisoned cs.length n' ∧ Bad r) ∧ (Poisoned cs.length n → Poisoned cs.length n' ∧ r = nan) := by
  have hbase : ∀ n : WNode k, n.Counts → Low n.baseLP → ∃ m, n.baseUpdate i w = some m ∧ m.Counts ∧ Low m.baseLP ∧
      (Bad n.baseLP ∨ i = k → Bad m.baseLP) ∧ m.childrenLP = n.childrenLP ∧ m.children = n.children := by
    intro n hc hl
    rcases hi.lt_or_eq with h | rfl
    · obtain ⟨m, h1, h2, h3, h4, -, h6, h7⟩ := baseUpdate_valid hc hl ⟨i, h⟩ hw
      exact ⟨m, h1, h2, h3, fun hb => h4 (hb.resolve_right h.ne), h6, h7⟩
    · obtain ⟨m, h1, h2, h3, h4, h5⟩ := baseUpdate_beyond (w := w) hc hl
      exact ⟨m, h1, h2, h3.low, fun _ => h3, h4, h5⟩
  intro cs
  induction cs with
  | nil =>
    intro n hn
    obtain ⟨m, h1, h2, h3, h4, h5, h6⟩ := hbase n hn.1 hn.2.1
    have hsub : m.baseLP.sub n.lp ≠ pinf := by
      rw [hn.2.2]
      have hl := hn.2.1
      cases hx : n.baseLP with
      | pinf => rw [hx] at hl; exact absurd hl id
      | nan => rw [sub_nan]; simp
      | ninf => rw [(h4 (Or.inl (Or.inl hx))).sub (Or.inl rfl)]; simp
      | fin x => exact add_ne_pinf h3.ne_pinf (by simp [neg])
    refine ⟨_, _, update_nil h1, ⟨h2, h3, rfl⟩, hsub, fun h => ⟨h4 (Or.inr h), ?_⟩, fun h => ⟨h4 (Or.inl h), ?_⟩⟩
    · rw [hn.2.2]
      have hb := h4 (Or.inr h)
      have hl := hn.2.1
      cases hx : n.baseLP with
      | pinf => rw [hx] at hl; exact absurd hl id
      | nan => rw [sub_nan]; exact Or.inr rfl
      | ninf => rw [hb.sub (Or.inl rfl)]; exact Or.inr rfl
      | fin x => exact hb.add (by simp [neg])
    · rw [hn.2.2]; exact (h4 (Or.inl h)).sub h
  | cons c cs ih =>
    intro n hn
    obtain ⟨m, h1, h2, h3, h4, h5, h6⟩ := hbase n hn.1 hn.2.1
    have hch : Sound cs.length ((m.children c).getD (new k)) := by
      cases h : m.children c with
      | none => exact sound_new _
      | some x => rw [h6] at h; exact hn.2.2.2.2 c x h
    obtain ⟨r, x, j1, j2, j3, j4, j5⟩ := ih _ hch
    have hclp : m.childrenLP.add r ≠ pinf := add_ne_pinf (by rw [h5]; exact hn.2.2.1) j3
    have hmild := half_mild h3.ne_pinf hclp
    refine ⟨_, _, update_cons h1 j1, ⟨h2, h3, hclp, hmild, ?_⟩, (hmild.sub hn.2.2.2.1).ne_pinf, ?_, ?_⟩
    · intro c' y hy
      simp only [children_mk] at hy
      by_cases hc : c' = c
      · subst hc
        rw [Function.update_self] at hy
        cases hy; exact j2
      · rw [Function.update_of_ne hc] at hy
        exact hn.2.2.2.2 c' y (by rw [← h6]; exact hy)
    · intro hik
      have hb := h4 (Or.inr hik)
      have hbc : Bad (m.childrenLP.add r) := add_bad (by rw [h5]; exact hn.2.2.1) (j4 hik).2
      have hnan := half_bad hb hbc
      refine ⟨⟨hb, hbc, hnan⟩, ?_⟩
      rw [hnan, nan_sub]; exact Or.inr rfl
    · intro hp
      have hb := h4 (Or.inl hp.1)
      have hbc : Bad (m.childrenLP.add r) := by rw [h5]; exact hp.2.1.add j3
      have hnan := half_bad hb hbc
      refine ⟨⟨hb, hbc, hnan⟩, ?_⟩
      rw [hnan, nan_sub]

/-- One call of `log_predict`. -/
theorem logPredict_sound [NeZero k] (i : Fin k) : ∀ (cs : List (Fin k)) (n : WNode k), Sound cs.length n →
    ∃ r n', n.logPredict i cs = some (r, n') ∧ Sound cs.length n' ∧ (Poisoned cs.length n → Poisoned cs.length n' ∧ r = nan) := by
  intro cs
  induction cs with
  | nil =>
    intro n hn
    refine ⟨_, n, logPredict_nil (read_fin n i), hn, fun h => ⟨h, ?_⟩⟩
    obtain ⟨c, hcc, hpos⟩ := hn.1
    rw [hn.2.2, sumCounts_fin hcc, hcc, log_div_fin (hpos i) ((hpos i).trans_le (sum_bounds hpos i))]
    exact (Bad.add h (by simp)).sub h
  | cons c cs ih =>
    intro n hn
    have hch : Sound cs.length ((n.children c).getD (new k)) := by
      cases h : n.children c with
      | none => exact sound_new _
      | some x => exact hn.2.2.2.2 c x h
    obtain ⟨r, x, j1, j2, -⟩ := ih _ hch
    refine ⟨_, _, logPredict_cons (read_fin n i) j1, ⟨hn.1, hn.2.1, hn.2.2.1, hn.2.2.2.1, ?_⟩, ?_⟩
    · intro c' y hy
      simp only [children_mk] at hy
      by_cases hc : c' = c
      · subst hc
        rw [Function.update_self] at hy
        cases hy; exact j2
      · rw [Function.update_of_ne hc] at hy
        exact hn.2.2.2.2 c' y hy
    · intro hp
      refine ⟨⟨hp.1, hp.2.1, hp.2.2⟩, ?_⟩
      rw [hp.2.2, sub_nan]

end WNode

end Verif
