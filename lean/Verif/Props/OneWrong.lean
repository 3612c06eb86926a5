import Verif.Proofs.OneWrong
import Verif.Props.PTWBeyond

/-!
# C155: one wrong symbol costs little
-/

namespace Verif

open Predictor Redundancy

namespace OneWrong

variable {α : Type} [DecidableEq α]

theorem drawn_sym : ∀ (h x : List α), (drawn h x).map Obs.sym = x
  | _, [] => rfl
  | h, a :: x => by simp [drawn, drawn_sym (h ++ [a]) x]

theorem drawn_weight : ∀ (h x : List α), ∀ o ∈ drawn h x, o.weight = 1
  | _, [], o, ho => by simp [drawn] at ho
  | h, a :: x, o, ho => by
    rw [drawn, List.mem_cons] at ho
    rcases ho with rfl | ho
    · rfl
    · exact drawn_weight _ x o ho

theorem drawn_good {A : List α} {h x : List α} (hx : ∀ a ∈ x, a ∈ A) : GoodObs A (fun w => w = 1) (drawn h x) := by
  intro o ho
  refine ⟨hx _ ?_, drawn_weight h x o ho⟩
  rw [← drawn_sym h x]
  exact List.mem_map_of_mem ho

theorem mem_mid {β : Type} {A u v : List β} {a : β} (ha : a ∈ A) (hu : ∀ x ∈ u ++ v, x ∈ A) : ∀ x ∈ u ++ a :: v, x ∈ A := by
  intro x hx
  simp only [List.mem_append, List.mem_cons] at hx
  rcases hx with hx | rfl | hx
  · exact hu x (by simp [hx])
  · exact ha
  · exact hu x (by simp [hx])

/-- The probability of a word. -/
noncomputable def word (s0 : KT α) (l : List α) : ℝ := KT.predictor.seqProb s0 (drawn [] l)

theorem seqProb_word (s0 : KT α) (xs : List (Obs α)) (hw : ∀ o ∈ xs, o.weight = 1) : KT.predictor.seqProb s0 xs = word s0 (xs.map Obs.sym) := by
  rw [word, seqProb, seqProb, KT.run_eq_runSyms hw, KT.run_eq_runSyms (drawn_weight _ _), drawn_sym]

section kt

variable {A : List α} (hA : A.Nodup) (hne : A ≠ []) {s0 : KT α} (h0 : KT.init A none = .ok s0)
include hA hne h0

theorem kt_run {xs : List (Obs α)} (hx : GoodObs A (fun w => w = 1) xs) : ∃ r s, KT.predictor.run s0 xs = .ok (r, s) ∧ KT.Good A s := by
  rw [KT.init_default hA hne, Except.ok.injEq] at h0
  subst h0
  obtain ⟨r, s, h, g⟩ := (KT.lawful hA hne).run_ok (KT.good_default hne) (xs := xs) fun o ho => ⟨(hx o ho).1, by rw [(hx o ho).2]; exact zero_le_one⟩
  exact ⟨r, s, h, g⟩

theorem word_snoc {l : List α} (hl : ∀ x ∈ l, x ∈ A) {a : α} (ha : a ∈ A) :
    word s0 (l ++ [a]) = word s0 l * ((l.count a + 1 / (A.length : ℝ)) / (l.length + 1)) := by
  obtain ⟨r, s, hr, hg⟩ := kt_run hA hne h0 (drawn_good (h := []) hl)
  have hx : GoodObs A (fun w => w = 1) (drawn [] l ++ [⟨a, [], 1⟩]) := by
    intro o ho
    rcases List.mem_append.1 ho with ho | ho
    · exact drawn_good hl o ho
    · rw [List.mem_singleton.1 ho]
      exact ⟨ha, rfl⟩
  have e : word s0 (l ++ [a]) = KT.predictor.seqProb s0 (drawn [] l ++ [⟨a, [], 1⟩]) := by
    rw [seqProb_word _ _ fun o ho => (hx o ho).2]
    simp [drawn_sym]
  obtain ⟨q, t, hu, -⟩ := (KT.lawfulFull hA hne).update_ok s a [] 1 hg ha zero_le_one
  obtain ⟨t', hp⟩ := (KT.lawfulFull hA hne).coherent s a [] 1 hg ha zero_le_one q t hu
  have hc := C03_KT_closed_form A hA hne s0 s h0 (drawn [] l) (fun o ho => ⟨(drawn_good hl o ho).1, by rw [(drawn_good hl o ho).2]; exact zero_le_one⟩) r hr a ha []
  rw [predict, hp] at hc
  simp only [ok_bind, pure_eq_ok, Except.ok.injEq, Prod.mk.injEq] at hc
  have h2 : KT.predictor.run s0 (drawn [] l ++ [⟨a, [], 1⟩]) = .ok (r + (q + 0), t) :=
    run_append_ok.mpr ⟨r, s, q + 0, hr, run_cons_ok.mpr ⟨q, t, 0, hu, rfl, rfl⟩, rfl⟩
  have w1 : ∀ h, weightOf a (drawn h l) = l.count a := by
    clear hr hx e hc h2 hl
    induction l with
    | nil => intro h; simp [drawn, weightOf]
    | cons b l ih =>
      intro h
      have := ih (h ++ [b])
      by_cases hb : b = a
      · subst hb
        simp_all [drawn, weightOf]
        ring
      · simp_all [drawn, weightOf]
  have w2 : ∀ h, totalWeight (drawn h l) = l.length := by
    clear hr hx e hc h2 hl w1
    induction l with
    | nil => intro h; simp [drawn, totalWeight]
    | cons b l ih =>
      intro h
      have := ih (h ++ [b])
      simp_all [drawn, totalWeight]
      ring
  rw [e, seqProb_of_run h2, add_zero, Real.exp_add, hc.1, w1, w2, word, seqProb_of_run hr]

theorem word_perm (xs ys : List α) (hp : xs.Perm ys) (hx : ∀ x ∈ xs, x ∈ A) : word s0 xs = word s0 ys := by
  obtain ⟨r, s, h1, h2⟩ := C03_KT_exchangeable A hA hne none trivial s0 h0 1 zero_le_one (drawn [] xs) (drawn [] ys) (drawn_good hx) (drawn_weight _ _)
    (by rw [drawn_sym, drawn_sym]; exact hp)
  rw [word, word, seqProb_of_run h1, seqProb_of_run h2]

/-- `KT` is slow. -/
theorem kt_slow : Slow (word s0) (fun a => a ∈ A) A.length where
  nonneg l := seqProb_nonneg _ _ _
  perm := word_perm hA hne h0
  le l x hl hx := by
    rw [word_snoc hA hne h0 hl hx]
    have hk : (1 : ℝ) ≤ A.length := by exact_mod_cast List.length_pos_iff.2 hne
    have hw : 0 ≤ word s0 l := seqProb_nonneg _ _ _
    have hc : (l.count x : ℝ) ≤ l.length := by exact_mod_cast List.count_le_length
    refine mul_le_of_le_one_right hw ((div_le_one (by positivity)).2 ?_)
    have : 1 / (A.length : ℝ) ≤ 1 := (div_le_one (by linarith)).2 hk
    linarith
  ge l x hl hx := by
    rw [word_snoc hA hne h0 hl hx]
    have hk : (1 : ℝ) ≤ A.length := by exact_mod_cast List.length_pos_iff.2 hne
    have hw : 0 ≤ word s0 l := seqProb_nonneg _ _ _
    have e : (A.length : ℝ) * (l.length + 1) * (word s0 l * ((l.count x + 1 / (A.length : ℝ)) / (l.length + 1))) = word s0 l * (A.length * l.count x + 1) := by
      have h1 : (A.length : ℝ) ≠ 0 := by linarith
      have h2 : (l.length : ℝ) + 1 ≠ 0 := by positivity
      field_simp
    rw [e]
    have : 0 ≤ (A.length : ℝ) * l.count x := by positivity
    nlinarith

theorem word_mid {u v : List α} {a : α} (ha : a ∈ A) (hu : ∀ x ∈ u ++ v, x ∈ A) :
    word s0 (u ++ a :: v) = word s0 (u ++ v) * (((u ++ v).count a + 1 / (A.length : ℝ)) / ((u ++ v).length + 1)) := by
  rw [← word_snoc hA hne h0 hu ha]
  refine word_perm hA hne h0 _ _ (perm_snoc u v a) fun x hx => ?_
  simp only [List.mem_append, List.mem_cons] at hx
  rcases hx with hx | rfl | hx
  · exact hu x (by simp [hx])
  · exact ha
  · exact hu x (by simp [hx])

end kt

end OneWrong

open OneWrong

section KT

variable {α : Type} [DecidableEq α] (A : List α) (hA : A.Nodup) (hne : A ≠ []) (s0 : KT α) (h0 : KT.init A none = .ok s0) (h h' u v : List α) (a b : α)
  (ha : a ∈ A) (hb : b ∈ A) (hu : ∀ x ∈ u ++ v, x ∈ A)
include hA hne h0 ha hu

/-- **C155 (KT, one more).** What one symbol more costs, wherever it is. -/
theorem C155_KT_one_more : ∃ r s r' s', KT.predictor.run s0 (drawn h (u ++ a :: v)) = .ok (r, s) ∧ KT.predictor.run s0 (drawn h' (u ++ v)) = .ok (r', s') ∧
    r' - r = Real.log ((u.length + v.length + 1) * A.length / (A.length * (u.count a + v.count a) + 1)) ∧
    0 ≤ r' - r ∧ r' - r ≤ Real.log (A.length * (u.length + v.length + 1)) := by
  obtain ⟨r, s, hr, -⟩ := kt_run hA hne h0 (drawn_good (h := h) (mem_mid ha hu))
  obtain ⟨r', s', hr', -⟩ := kt_run hA hne h0 (drawn_good (h := h') hu)
  have e := seqProb_word s0 _ (drawn_weight h (u ++ a :: v))
  have e' := seqProb_word s0 _ (drawn_weight h' (u ++ v))
  rw [drawn_sym, seqProb_of_run hr, word_mid hA hne h0 ha hu] at e
  rw [drawn_sym, seqProb_of_run hr'] at e'
  rw [← e'] at e
  have hk : (1 : ℝ) ≤ A.length := by exact_mod_cast List.length_pos_iff.2 hne
  have h1 : (A.length : ℝ) ≠ 0 := by linarith
  have key : r' - r = Real.log ((u.length + v.length + 1) * A.length / (A.length * (u.count a + v.count a) + 1)) := by
    refine Real.exp_injective ?_
    rw [Real.exp_log (by positivity), Real.exp_sub, e]
    have := (Real.exp_pos r').ne'
    push_cast [List.count_append, List.length_append]
    field_simp
  have hc : (u.count a : ℝ) ≤ u.length := by exact_mod_cast List.count_le_length
  have hc' : (v.count a : ℝ) ≤ v.length := by exact_mod_cast List.count_le_length
  refine ⟨r, s, r', s', hr, hr', key, ?_, ?_⟩
  · rw [key]
    refine Real.log_nonneg ((one_le_div (by positivity)).2 ?_)
    nlinarith
  · rw [key]
    refine Real.log_le_log (by positivity) ((div_le_iff₀ (by positivity)).2 ?_)
    have : (0:ℝ) ≤ (A.length : ℝ) * (u.count a + v.count a) := by positivity
    have : (0:ℝ) ≤ (A.length : ℝ) * (u.length + v.length + 1) := by positivity
    nlinarith

include hb

/-- **C155 (KT).** What it costs when one symbol is another: never more than the logarithm of `k (n - 1) + 1` for `n` symbols from an alphabet of `k`. -/
theorem C155_KT : ∃ r s r' s', KT.predictor.run s0 (drawn h (u ++ a :: v)) = .ok (r, s) ∧ KT.predictor.run s0 (drawn h' (u ++ b :: v)) = .ok (r', s') ∧
    r' - r = Real.log ((A.length * (u.count b + v.count b) + 1) / (A.length * (u.count a + v.count a) + 1)) ∧
    |r' - r| ≤ Real.log (A.length * (u.length + v.length) + 1) := by
  obtain ⟨r, s, q, t, hr, hq, e, -⟩ := C155_KT_one_more A hA hne s0 h0 h h u v a ha hu
  obtain ⟨r', s', q', t', hr', hq', e', -⟩ := C155_KT_one_more A hA hne s0 h0 h' h u v b hb hu
  rw [hq, Except.ok.injEq, Prod.mk.injEq] at hq'
  obtain ⟨rfl, rfl⟩ := hq'
  have hk : (1 : ℝ) ≤ A.length := by exact_mod_cast List.length_pos_iff.2 hne
  have h1 : (A.length : ℝ) ≠ 0 := by linarith
  have key : r' - r = Real.log (A.length * (u.count b + v.count b) + 1) - Real.log (A.length * (u.count a + v.count a) + 1) := by
    have : r' - r = (q - r) - (q - r') := by ring
    rw [this, e, e', Real.log_div (by positivity) (by positivity), Real.log_div (by positivity) (by positivity)]
    ring
  refine ⟨r, s, r', s', hr, hr', by rw [key, Real.log_div (by positivity) (by positivity)], ?_⟩
  have bound : ∀ c : α, 0 ≤ Real.log (A.length * (u.count c + v.count c) + 1) ∧
      Real.log (A.length * (u.count c + v.count c) + 1) ≤ Real.log (A.length * (u.length + v.length) + 1) := by
    intro c
    have hc : (u.count c : ℝ) ≤ u.length := by exact_mod_cast List.count_le_length
    have hc' : (v.count c : ℝ) ≤ v.length := by exact_mod_cast List.count_le_length
    have h2 : (0:ℝ) ≤ (A.length : ℝ) * (u.count c + v.count c) := by positivity
    refine ⟨Real.log_nonneg (by linarith), Real.log_le_log (by positivity) ?_⟩
    have : (A.length : ℝ) * (u.count c + v.count c) ≤ A.length * (u.length + v.length) := mul_le_mul_of_nonneg_left (by linarith) (by linarith)
    linarith
  have b1 := bound a
  have b2 := bound b
  rw [key, abs_le]
  constructor <;> linarith

end KT

section Averager

variable {σ α : Type} (P : Predictor σ α)

/-- **C155 (Averager).** An average loses no more than each of its models, by whatever the sequences differ. -/
theorem C155_Averager (ms : List σ) (s0 : Averager σ) (h0 : Averager.init ms = .ok s0) (xs ys : List (Obs α)) (L : ℝ)
    (hm : ∀ m ∈ ms, ∃ r s r' s', P.run m xs = .ok (r, s) ∧ P.run m ys = .ok (r', s') ∧ |r' - r| ≤ L) :
    ∃ r s r' s', (Averager.predictor P).run s0 xs = .ok (r, s) ∧ (Averager.predictor P).run s0 ys = .ok (r', s') ∧ |r' - r| ≤ L := by
  have hne : ms ≠ [] := (Averager.init_ok.mp h0).1
  have hrun : ∀ zs, (∀ m ∈ ms, ∃ r t, P.run m zs = .ok (r, t)) →
      ∃ r s, (Averager.predictor P).run s0 zs = .ok (r, s) ∧ Real.exp r = (ms.map fun m => P.seqProb m zs).sum / ms.length := by
    intro zs hz
    obtain ⟨_, a1, a3, a2⟩ := C08_Averager_mixture P ms hne zs
    rw [h0, Except.ok.injEq] at a1
    subst a1
    obtain ⟨r, s, hr⟩ := a3.mpr hz
    exact ⟨r, s, hr, (a2 r s hr).1⟩
  obtain ⟨r, s, hr, e⟩ := hrun xs fun m h => by
    obtain ⟨r, s, _, _, h1, -⟩ := hm m h
    exact ⟨r, s, h1⟩
  obtain ⟨r', s', hr', e'⟩ := hrun ys fun m h => by
    obtain ⟨_, _, r, s, _, h1, -⟩ := hm m h
    exact ⟨r, s, h1⟩
  have half : ∀ xs ys : List (Obs α), (∀ m ∈ ms, P.seqProb m xs ≤ Real.exp L * P.seqProb m ys) →
      (ms.map fun m => P.seqProb m xs).sum / ms.length ≤ Real.exp L * ((ms.map fun m => P.seqProb m ys).sum / ms.length) := by
    intro xs ys h
    rw [← mul_div_assoc, ← List.sum_map_mul_left]
    gcongr
    exact List.sum_le_sum h
  have g1 := half xs ys fun m h => by
    obtain ⟨r, s, r', s', h1, h2, h3⟩ := hm m h
    rw [seqProb_of_run h1, seqProb_of_run h2, ← Real.exp_add, Real.exp_le_exp]
    linarith [(abs_le.1 h3).1]
  have g2 := half ys xs fun m h => by
    obtain ⟨r, s, r', s', h1, h2, h3⟩ := hm m h
    rw [seqProb_of_run h1, seqProb_of_run h2, ← Real.exp_add, Real.exp_le_exp]
    linarith [(abs_le.1 h3).2]
  rw [← e, ← e', ← Real.exp_add, Real.exp_le_exp] at g1 g2
  exact ⟨r, s, r', s', hr, hr', abs_le.2 ⟨by linarith, by linarith⟩⟩

end Averager

namespace OneWrong

variable {α : Type} [DecidableEq α]

/-- The contexts and the symbols of a word. -/
def items (depth : ℕ) (zero : α) (h x : List α) : List (List α × α) :=
  (drawn h x).map fun o => ((CTW.mkcontext depth zero o.hist).reverse, o.sym)

theorem items_length (depth : ℕ) (zero : α) (h x : List α) : (items depth zero h x).length = x.length := by
  rw [items, List.length_map, ← List.length_map (f := Obs.sym), drawn_sym]

theorem drawn_append : ∀ (h x y : List α), drawn h (x ++ y) = drawn h x ++ drawn (h ++ x) y
  | h, [], y => by simp [drawn]
  | h, a :: x, y => by simp [drawn, drawn_append (h ++ [a]) x y]

theorem mkcontext_append {depth : ℕ} (hd : 1 ≤ depth) (zero : α) (p q w : List α) (hw : depth ≤ w.length) :
    CTW.mkcontext depth zero (p ++ w) = CTW.mkcontext depth zero (q ++ w) := by
  have h0 : depth ≠ 0 := by omega
  have e : ∀ p : List α, CTW.mkcontext depth zero (p ++ w) = w.drop (w.length - depth) := by
    intro p
    have h1 : depth - (p ++ w).length = 0 := by rw [List.length_append]; omega
    simp only [CTW.mkcontext, h1, List.replicate_zero, List.nil_append, pyTail, if_neg h0]
    rw [List.drop_append, List.drop_eq_nil_of_le (by rw [List.length_append]; omega), List.nil_append]
    congr 1
    rw [List.length_append]
    omega
  rw [e, e]

/-- Whatever came before, only the contexts of the next few symbols differ. -/
theorem diff_items {depth : ℕ} (hd : 1 ≤ depth) (zero : α) (p q : List α) : ∀ v w : List α,
    diff (items depth zero (p ++ w) v) (items depth zero (q ++ w) v) ≤ depth - w.length
  | [], w => by simp [items, drawn, diff]
  | a :: v, w => by
    have ih := diff_items hd zero p q v (w ++ [a])
    have e : ∀ p, items depth zero (p ++ w) (a :: v) = ((CTW.mkcontext depth zero (p ++ w)).reverse, a) :: items depth zero (p ++ (w ++ [a])) v := by
      intro p
      simp [items, drawn]
    rw [e, e, diff]
    rw [List.length_append, List.length_singleton] at ih
    rcases Nat.lt_or_ge w.length depth with hw | hw
    · split_ifs <;> omega
    · rw [if_pos (by rw [mkcontext_append hd zero p q w hw])]
      omega

variable {A : List α} (hA : A.Nodup) (hne : A ≠ []) {s0 : KT α} (h0 : KT.init A none = .ok s0) {depth : ℕ} (hd : 1 ≤ depth) (zero : α)
include hA hne h0 hd

theorem ctw_items {h x : List α} (hx : ∀ a ∈ x, a ∈ A) : ∃ r n, (CTW.predictor KT.predictor s0 (CTW.mkcontext depth zero)).run (CTW.init s0) (drawn h x) = .ok (r, n) ∧
    Real.exp r = ctwProb (word s0) depth (items depth zero h x) := by
  have hk := KT.init_default hA hne
  rw [h0, Except.ok.injEq] at hk
  obtain ⟨r, n, hr⟩ := C13_CTW_run_succeeds KT.predictor s0 (CTW.mkcontext depth zero) (KT.Good A) A _ (KT.lawful hA hne) (by rw [hk]; exact KT.good_default hne) depth
    (fun h => (C18_mkcontext_partial depth hd zero h).1) (drawn h x) fun o ho => ⟨(drawn_good hx o ho).1, by rw [(drawn_good hx o ho).2]; exact zero_le_one⟩
  refine ⟨r, n, hr, ?_⟩
  rw [C13_CTW_closed_form KT.predictor s0 _ depth _ (fun o _ => (C18_mkcontext_partial depth hd zero o.hist).1) r n hr,
    ctwProb_map (V := fun o : Obs α => o.weight = 1) (f := Obs.sym) (b' := word s0) (fun l hl => seqProb_word s0 l hl)]
  · simp [withCtx, items, Function.comp_def]
  · intro p hp
    obtain ⟨o, ho, rfl⟩ := List.mem_map.1 hp
    exact drawn_weight _ _ o ho

omit hA hne h0 in
theorem items_valid {h x : List α} (hx : ∀ a ∈ x, a ∈ A) : ∀ p ∈ items depth zero h x, p.1.length = depth ∧ p.2 ∈ A := by
  intro p hp
  obtain ⟨o, ho, rfl⟩ := List.mem_map.1 hp
  exact ⟨by rw [List.length_reverse]; exact (C18_mkcontext_partial depth hd zero o.hist).1, (drawn_good hx o ho).1⟩

theorem ctw_kt_slow : Slow (ctwProb (κ := α) (word s0) depth) (fun p => p.1.length = depth ∧ p.2 ∈ A) A.length :=
  ctw_slow (kt_slow hA hne h0) (by simp [word, drawn, seqProb, Predictor.run, probOf]) (by exact_mod_cast List.length_pos_iff.2 hne) depth

/-- Lists of as many items, of which at most `m` differ. -/
theorem ctw_many {S T U : List (List α × α)} (e : S.length = T.length) (hS : ∀ p ∈ U ++ S, p.1.length = depth ∧ p.2 ∈ A) (hT : ∀ p ∈ T, p.1.length = depth ∧ p.2 ∈ A)
    {m : ℕ} (hm : diff S T ≤ m) (hn : 1 ≤ (U ++ S).length) :
    ctwProb (word s0) depth (U ++ S) ≤ (A.length * (U ++ S).length) ^ m * ctwProb (word s0) depth (U ++ T) := by
  have hs := ctw_kt_slow hA hne h0 hd
  have hk : (1 : ℝ) ≤ A.length := by exact_mod_cast List.length_pos_iff.2 hne
  have hn' : (1 : ℝ) ≤ (U ++ S).length := by exact_mod_cast hn
  refine (hs.replaceMany hk S T U e hS hT).trans (mul_le_mul_of_nonneg_right (pow_le_pow_right₀ (by nlinarith) hm) (hs.nonneg _))

end OneWrong

section CTW

variable {α : Type} [DecidableEq α] (A : List α) (hA : A.Nodup) (hne : A ≠ []) (s0 : KT α) (h0 : KT.init A none = .ok s0) (depth : ℕ) (hd : 1 ≤ depth) (zero : α)
include hA hne h0 hd

/-- **C155 (CTW).** Over `KT`, one wrong symbol costs a context tree at most `depth + 1` times the logarithm of `k n`, although it changes the contexts of symbols
after it. -/
theorem C155_CTW (h u v : List α) (a b : α) (ha : a ∈ A) (hb : b ∈ A) (hu : ∀ x ∈ u ++ v, x ∈ A) :
    ∃ r s r' s', (CTW.predictor KT.predictor s0 (CTW.mkcontext depth zero)).run (CTW.init s0) (drawn h (u ++ a :: v)) = .ok (r, s) ∧
      (CTW.predictor KT.predictor s0 (CTW.mkcontext depth zero)).run (CTW.init s0) (drawn h (u ++ b :: v)) = .ok (r', s') ∧
      |r' - r| ≤ (depth + 1) * Real.log (A.length * (u.length + v.length + 1)) := by
  obtain ⟨r, s, hr, e⟩ := ctw_items hA hne h0 hd zero (h := h) (mem_mid ha hu)
  obtain ⟨r', s', hr', e'⟩ := ctw_items hA hne h0 hd zero (h := h) (mem_mid hb hu)
  have hk : (1 : ℝ) ≤ A.length := by exact_mod_cast List.length_pos_iff.2 hne
  have sp : ∀ c, items depth zero h (u ++ c :: v) = items depth zero h u ++ (((CTW.mkcontext depth zero (h ++ u)).reverse, c) :: items depth zero (h ++ u ++ [c]) v) := by
    intro c
    simp [items, drawn_append, drawn]
  have half : ∀ a b, a ∈ A → b ∈ A → ctwProb (word s0) depth (items depth zero h (u ++ a :: v)) ≤
      (A.length * (u.length + v.length + 1)) ^ (depth + 1) * ctwProb (word s0) depth (items depth zero h (u ++ b :: v)) := by
    intro a b ha hb
    have va := items_valid hd zero (h := h) (mem_mid ha hu)
    have vb := items_valid hd zero (h := h) (mem_mid hb hu)
    have hl := items_length depth zero h (u ++ a :: v)
    rw [sp] at va vb hl ⊢
    rw [sp b]
    have d := diff_items hd zero (h ++ u ++ [a]) (h ++ u ++ [b]) v []
    simp only [List.append_nil, List.length_nil, Nat.sub_zero] at d
    have := ctw_many hA hne h0 hd (U := items depth zero h u) (m := depth + 1)
      (S := ((CTW.mkcontext depth zero (h ++ u)).reverse, a) :: items depth zero (h ++ u ++ [a]) v)
      (T := ((CTW.mkcontext depth zero (h ++ u)).reverse, b) :: items depth zero (h ++ u ++ [b]) v)
      (by simp [items_length]) va (fun p hp => vb p (List.mem_append_right _ hp)) (by rw [diff]; split_ifs <;> omega) (by rw [hl]; simp; omega)
    rw [hl] at this
    simp only [List.length_append, List.length_cons] at this
    push_cast at this
    rw [← add_assoc] at this
    exact this
  have hp : (0 : ℝ) < A.length * (u.length + v.length + 1) := by positivity
  have ep : (((A.length : ℝ) * (u.length + v.length + 1)) ^ (depth + 1)) = Real.exp ((depth + 1) * Real.log (A.length * (u.length + v.length + 1))) := by
    rw [← Real.exp_log (pow_pos hp _), Real.log_pow]
    push_cast
    rfl
  have g1 := half a b ha hb
  have g2 := half b a hb ha
  rw [← e, ← e', ep, ← Real.exp_add, Real.exp_le_exp] at g1 g2
  exact ⟨r, s, r', s', hr, hr', abs_le.2 ⟨by linarith, by linarith⟩⟩

/-- **C155 (CTW, one more).** One symbol more makes a sequence more probable by a factor of at most `(k n) ^ depth` and less by one of at most `(k n) ^ (depth + 1)`. -/
theorem C155_CTW_one_more (h u v : List α) (a : α) (ha : a ∈ A) (hu : ∀ x ∈ u ++ v, x ∈ A) :
    ∃ r s r' s', (CTW.predictor KT.predictor s0 (CTW.mkcontext depth zero)).run (CTW.init s0) (drawn h (u ++ a :: v)) = .ok (r, s) ∧
      (CTW.predictor KT.predictor s0 (CTW.mkcontext depth zero)).run (CTW.init s0) (drawn h (u ++ v)) = .ok (r', s') ∧
      r - r' ≤ depth * Real.log (A.length * (u.length + v.length + 1)) ∧
      r' - r ≤ (depth + 1) * Real.log (A.length * (u.length + v.length + 1)) := by
  obtain ⟨r, s, hr, e⟩ := ctw_items hA hne h0 hd zero (h := h) (mem_mid ha hu)
  obtain ⟨r', s', hr', e'⟩ := ctw_items hA hne h0 hd zero (h := h) hu
  have hs := ctw_kt_slow hA hne h0 hd
  have hk : (1 : ℝ) ≤ A.length := by exact_mod_cast List.length_pos_iff.2 hne
  have sp : items depth zero h (u ++ a :: v) = items depth zero h u ++ (((CTW.mkcontext depth zero (h ++ u)).reverse, a) :: items depth zero (h ++ u ++ [a]) v) := by
    simp [items, drawn_append, drawn]
  have sp' : items depth zero h (u ++ v) = items depth zero h u ++ items depth zero (h ++ u) v := by
    simp [items, drawn_append]
  have va := items_valid hd zero (h := h) (mem_mid ha hu)
  have vb := items_valid hd zero (h := h) hu
  have hl := items_length depth zero h (u ++ a :: v)
  rw [sp] at va hl e
  rw [sp'] at vb e'
  have d := diff_items hd zero (h ++ u ++ [a]) (h ++ u) v []
  have d' := diff_items hd zero (h ++ u) (h ++ u ++ [a]) v []
  simp only [List.append_nil, List.length_nil, Nat.sub_zero] at d d'
  -- the list of the longer sequence's items without the new one
  have vc : ∀ p ∈ items depth zero h u ++ ((CTW.mkcontext depth zero (h ++ u)).reverse, a) :: items depth zero (h ++ u) v, p.1.length = depth ∧ p.2 ∈ A := by
    intro p hp
    simp only [List.mem_append, List.mem_cons] at hp
    rcases hp with hp | rfl | hp
    · exact vb p (by simp [hp])
    · exact va _ (by simp)
    · exact vb p (by simp [hp])
  have i := hs.insert (items depth zero h u) (items depth zero (h ++ u) v) _ vc
  have hlc : (items depth zero h u ++ ((CTW.mkcontext depth zero (h ++ u)).reverse, a) :: items depth zero (h ++ u) v).length = (u ++ a :: v).length := by
    simp [items_length]
  have m1 := ctw_many hA hne h0 hd (U := items depth zero h u) (m := depth)
      (S := ((CTW.mkcontext depth zero (h ++ u)).reverse, a) :: items depth zero (h ++ u ++ [a]) v)
      (T := ((CTW.mkcontext depth zero (h ++ u)).reverse, a) :: items depth zero (h ++ u) v)
      (by simp [items_length]) va (fun p hp => vc p (List.mem_append_right _ hp)) (by rw [diff, if_pos rfl]; omega) (by rw [hl]; simp; omega)
  have m2 := ctw_many hA hne h0 hd (U := items depth zero h u) (m := depth)
      (S := ((CTW.mkcontext depth zero (h ++ u)).reverse, a) :: items depth zero (h ++ u) v)
      (T := ((CTW.mkcontext depth zero (h ++ u)).reverse, a) :: items depth zero (h ++ u ++ [a]) v)
      (by simp [items_length]) vc (fun p hp => va p (List.mem_append_right _ hp)) (by rw [diff, if_pos rfl]; omega) (by rw [hlc]; simp; omega)
  rw [hl] at m1
  rw [hlc] at m2 i
  have hp : (0 : ℝ) < A.length * (u.length + v.length + 1) := by positivity
  have en : ((A.length : ℝ) * ((u ++ a :: v).length : ℕ)) = Real.exp (Real.log (A.length * (u.length + v.length + 1))) := by
    rw [Real.exp_log hp]
    simp only [List.length_append, List.length_cons]
    push_cast
    ring
  rw [en, ← Real.exp_nat_mul] at m1 m2
  rw [en] at i
  have g1 := m1.trans (mul_le_mul_of_nonneg_left i.1 (Real.exp_pos _).le)
  have g2 := i.2.trans (mul_le_mul_of_nonneg_left m2 (Real.exp_pos _).le)
  rw [← e, ← e', ← Real.exp_add, Real.exp_le_exp] at g1
  rw [← e, ← e', ← Real.exp_add, ← Real.exp_add, Real.exp_le_exp] at g2
  exact ⟨r, s, r', s', hr, hr', by linarith, by linarith⟩

/-- **C155 (CTW, before).** What came before the first symbol matters by at most a factor of `(k n) ^ depth`. -/
theorem C155_CTW_history (h h' x : List α) (hx : ∀ a ∈ x, a ∈ A) :
    ∃ r s r' s', (CTW.predictor KT.predictor s0 (CTW.mkcontext depth zero)).run (CTW.init s0) (drawn h x) = .ok (r, s) ∧
      (CTW.predictor KT.predictor s0 (CTW.mkcontext depth zero)).run (CTW.init s0) (drawn h' x) = .ok (r', s') ∧
      |r' - r| ≤ depth * Real.log (A.length * x.length) := by
  obtain ⟨r, s, hr, e⟩ := ctw_items hA hne h0 hd zero (h := h) hx
  obtain ⟨r', s', hr', e'⟩ := ctw_items hA hne h0 hd zero (h := h') hx
  rcases x with _ | ⟨a, x⟩
  · simp only [drawn, Predictor.run, pure_eq_ok, Except.ok.injEq, Prod.mk.injEq] at hr hr'
    exact ⟨r, s, r', s', by simp [drawn, Predictor.run, hr], by simp [drawn, Predictor.run, hr'], by rw [← hr.1, ← hr'.1]; simp⟩
  have hk : (1 : ℝ) ≤ A.length := by exact_mod_cast List.length_pos_iff.2 hne
  have half : ∀ h h', ctwProb (word s0) depth (items depth zero h (a :: x)) ≤
      (A.length * ((a :: x).length : ℕ)) ^ depth * ctwProb (word s0) depth (items depth zero h' (a :: x)) := by
    intro h h'
    have d := diff_items hd zero h h' (a :: x) []
    simp only [List.append_nil, List.length_nil, Nat.sub_zero] at d
    have hl := items_length depth zero h (a :: x)
    have := ctw_many hA hne h0 hd (U := []) (m := depth) (S := items depth zero h (a :: x)) (T := items depth zero h' (a :: x)) (by simp [items_length])
      (items_valid hd zero hx) (items_valid hd zero hx) d (by rw [List.nil_append, hl]; simp)
    rwa [List.nil_append, List.nil_append, hl] at this
  have hp : (0 : ℝ) < A.length * ((a :: x).length : ℕ) := by
    have : (0 : ℝ) < ((a :: x).length : ℕ) := by exact_mod_cast Nat.succ_pos _
    positivity
  have ep : (((A.length : ℝ) * ((a :: x).length : ℕ)) ^ depth) = Real.exp (depth * Real.log (A.length * ((a :: x).length : ℕ))) := by
    rw [← Real.exp_log (pow_pos hp _), Real.log_pow]
  have g1 := half h h'
  have g2 := half h' h
  rw [← e, ← e', ep, ← Real.exp_add, Real.exp_le_exp] at g1 g2
  exact ⟨r, s, r', s', hr, hr', abs_le.2 ⟨by linarith, by linarith⟩⟩

end CTW

namespace OneWrong

/-- A partition tree over blocks for which another item costs a factor of at most `C`. -/
theorem ptw_replace {β : Type} {p : List β → ℝ} {V : β → Prop} {N : ℕ} {C : ℝ} (hC : 1 ≤ C) (h0 : ∀ l, 0 ≤ p l) {a b : β}
    (hp : ∀ u v : List β, u.length + v.length ≤ N → (∀ x ∈ u ++ v, V x) → p (u ++ a :: v) ≤ C * p (u ++ b :: v)) (m : ℕ) :
    ∀ (k t : ℕ) (u v : List β), u.length + v.length ≤ N → (∀ x ∈ u ++ v, V x) →
      ptwProb (fun _ => p) m k t (u ++ a :: v) ≤ C * ptwProb (fun _ => p) m k t (u ++ b :: v) := by
  have hn : ∀ (k t : ℕ) (l : List β), 0 ≤ ptwProb (fun _ => p) m k t l := by
    intro k
    induction k with
    | zero => exact fun t l => h0 l
    | succ k ih =>
      intro t l
      have h1 := ih t (l.take (2 ^ (m + k)))
      have h2 := ih (t + 2 ^ (m + k)) (l.drop (2 ^ (m + k)))
      have h3 := h0 l
      rw [ptwProb]
      positivity
  intro k
  induction k with
  | zero => exact fun t u v hl hV => hp u v hl hV
  | succ k ih =>
    intro t u v hl hV
    rw [ptwProb, ptwProb]
    generalize 2 ^ (m + k) = B
    have g0 := hp u v hl hV
    rcases Nat.lt_or_ge u.length B with hB | hB
    · have e : ∀ c : β, (u ++ c :: v).take B = u ++ c :: v.take (B - u.length - 1) ∧ (u ++ c :: v).drop B = v.drop (B - u.length - 1) := by
        intro c
        obtain ⟨j, hj⟩ : ∃ j, B - u.length = j + 1 := ⟨B - u.length - 1, by omega⟩
        rw [List.take_append, List.drop_append, List.take_of_length_le hB.le, List.drop_eq_nil_of_le hB.le, hj]
        simp
      rw [(e a).1, (e a).2, (e b).1, (e b).2]
      have g := ih t u (v.take (B - u.length - 1)) (by rw [List.length_take]; omega) fun x hx => hV x (by
        rcases List.mem_append.1 hx with hx | hx
        · exact List.mem_append_left _ hx
        · exact List.mem_append_right _ (List.mem_of_mem_take hx))
      have := mul_le_mul_of_nonneg_right g (hn k (t + B) (v.drop (B - u.length - 1)))
      linarith
    · have e : ∀ c : β, (u ++ c :: v).take B = u.take B ∧ (u ++ c :: v).drop B = u.drop B ++ c :: v := by
        intro c
        rw [List.take_append, List.drop_append, Nat.sub_eq_zero_of_le hB]
        simp
      rw [(e a).1, (e a).2, (e b).1, (e b).2]
      have g := ih (t + B) (u.drop B) v (by rw [List.length_drop]; omega) fun x hx => hV x (by
        rcases List.mem_append.1 hx with hx | hx
        · exact List.mem_append_left _ (List.mem_of_mem_drop hx)
        · exact List.mem_append_right _ hx)
      have := mul_le_mul_of_nonneg_left g (hn k t (u.take B))
      linarith

theorem ptwProb_map {β γ : Type} {V : β → Prop} {f : β → γ} {p : List β → ℝ} {q : List γ → ℝ} (hb : ∀ l, (∀ x ∈ l, V x) → p l = q (l.map f)) (m : ℕ) :
    ∀ (k t : ℕ) (l : List β), (∀ x ∈ l, V x) → ptwProb (fun _ => p) m k t l = ptwProb (fun _ => q) m k t (l.map f) := by
  intro k
  induction k with
  | zero => exact fun t l hl => hb l hl
  | succ k ih =>
    intro t l hl
    rw [ptwProb, ptwProb, hb l hl, ih _ _ fun x hx => hl x (List.mem_of_mem_take hx), ih _ _ fun x hx => hl x (List.mem_of_mem_drop hx), List.map_take, List.map_drop]

end OneWrong

/-- **C155 (PTWFixedLength).** One wrong symbol costs a partition tree over `KT` no more than it can cost `KT` itself. -/
theorem C155_PTWFixedLength {α : Type} [DecidableEq α] (A : List α) (hA : A.Nodup) (hne : A ≠ []) (s0 : KT α) (h0 : KT.init A none = .ok s0) (m height : ℕ)
    (h u v : List α) (a b : α) (ha : a ∈ A) (hb : b ∈ A) (hu : ∀ x ∈ u ++ v, x ∈ A) :
    ∃ r s r' s', (PTWFixedLength.predictor KT.predictor s0 m height).run (PTW.init s0 m) (drawn h (u ++ a :: v)) = .ok (r, s) ∧
      (PTWFixedLength.predictor KT.predictor s0 m height).run (PTW.init s0 m) (drawn h (u ++ b :: v)) = .ok (r', s') ∧
      |r' - r| ≤ Real.log (A.length * (u.length + v.length) + 1) := by
  have hi := KT.init_default hA hne
  rw [h0, Except.ok.injEq] at hi
  have hk : (1 : ℝ) ≤ A.length := by exact_mod_cast List.length_pos_iff.2 hne
  have hlen : ∀ c, (drawn h (u ++ c :: v)).length = u.length + v.length + 1 := by
    intro c
    rw [← List.length_map (f := Obs.sym), drawn_sym]
    simp only [List.length_append, List.length_cons]
    omega
  have run : ∀ c, c ∈ A → ∃ r s, (PTWFixedLength.predictor KT.predictor s0 m height).run (PTW.init s0 m) (drawn h (u ++ c :: v)) = .ok (r, s) ∧
      Real.exp r = ptwProb (fun _ => word s0) m (max (height - m) (levelsFor m (u.length + v.length + 1))) 0 (u ++ c :: v) := by
    intro c hc
    obtain ⟨r, s, hr, -⟩ := PTWFixedLength.all_run (m := m) (height := height) (fresh := s0) (KT.lawful hA hne) (by rw [hi]; exact KT.good_default hne) (drawn h (u ++ c :: v)) (PTW.init s0 m)
      (by rw [hi]; exact KT.good_default hne) (fun o ho => ⟨(drawn_good (mem_mid hc hu) o ho).1, by rw [drawn_weight _ _ o ho]; exact zero_le_one⟩)
    refine ⟨r, s, hr, ?_⟩
    rw [C130_closed_form m height _ r s hr, hlen,
      ptwProb_map (V := fun o : Obs α => o.weight = 1) (f := Obs.sym) (q := word s0) (fun l hl => seqProb_word s0 l hl) _ _ _ _ (drawn_weight _ _), drawn_sym]
  obtain ⟨r, s, hr, e⟩ := run a ha
  obtain ⟨r', s', hr', e'⟩ := run b hb
  have hC : (1 : ℝ) ≤ A.length * (u.length + v.length) + 1 := by
    have : (0:ℝ) ≤ (A.length : ℝ) * (u.length + v.length) := by positivity
    linarith
  have half : ∀ a b, a ∈ A → b ∈ A → ptwProb (fun _ => word s0) m (max (height - m) (levelsFor m (u.length + v.length + 1))) 0 (u ++ a :: v) ≤
      (A.length * (u.length + v.length) + 1) * ptwProb (fun _ => word s0) m (max (height - m) (levelsFor m (u.length + v.length + 1))) 0 (u ++ b :: v) := by
    intro a b ha hb
    refine ptw_replace (V := fun x => x ∈ A) (N := u.length + v.length) hC (fun l => seqProb_nonneg _ _ _) ?_ m _ 0 u v le_rfl hu
    intro u' v' hl' hV
    obtain ⟨q, t, q', t', h1, h2, -, h3⟩ := C155_KT A hA hne s0 h0 [] [] u' v' a b ha hb hV
    change KT.predictor.seqProb s0 _ ≤ _ * KT.predictor.seqProb s0 _
    rw [seqProb_of_run h1, seqProb_of_run h2]
    have : (u'.length : ℝ) + v'.length ≤ u.length + v.length := by exact_mod_cast hl'
    have h4 : Real.log (A.length * (u'.length + v'.length) + 1) ≤ Real.log (A.length * (u.length + v.length) + 1) := by
      refine Real.log_le_log (by positivity) ?_
      have := mul_le_mul_of_nonneg_left this (by linarith : (0:ℝ) ≤ A.length)
      linarith
    rw [← Real.exp_log (by linarith : (0:ℝ) < A.length * (u.length + v.length) + 1), ← Real.exp_add, Real.exp_le_exp]
    linarith [(abs_le.1 h3).1]
  have g1 := half a b ha hb
  have g2 := half b a hb ha
  rw [← e, ← e', ← Real.exp_log (by linarith : (0:ℝ) < A.length * (u.length + v.length) + 1), ← Real.exp_add, Real.exp_le_exp] at g1 g2
  exact ⟨r, s, r', s', hr, hr', abs_le.2 ⟨by linarith, by linarith⟩⟩

/-- **C155 (KT, reached).** The cost of one wrong symbol for `KT` cannot be bounded by less: among equal symbols it is as large as that. -/
theorem C155_KT_reached {α : Type} [DecidableEq α] (A : List α) (hA : A.Nodup) (hne : A ≠ []) (s0 : KT α) (h0 : KT.init A none = .ok s0) (h : List α) (a b : α) (ha : a ∈ A)
    (hb : b ∈ A) (hab : a ≠ b) (i j : ℕ) :
    ∃ r s r' s', KT.predictor.run s0 (drawn h (List.replicate i b ++ a :: List.replicate j b)) = .ok (r, s) ∧
      KT.predictor.run s0 (drawn h (List.replicate i b ++ b :: List.replicate j b)) = .ok (r', s') ∧
      r' - r = Real.log (A.length * (i + j) + 1) := by
  obtain ⟨r, s, r', s', h1, h2, h3, -⟩ := C155_KT A hA hne s0 h0 h h (List.replicate i b) (List.replicate j b) a b ha hb (by
    intro x hx
    rcases List.mem_append.1 hx with hx | hx <;> rw [List.eq_of_mem_replicate hx] <;> exact hb)
  refine ⟨r, s, r', s', h1, h2, ?_⟩
  rw [h3]
  simp [List.count_replicate, hab.symm]

/-- Three symbols, `0 1 0 0` instead of `0 2 0 0`: no difference, as neither occurs elsewhere; `0 0 0 0` instead of either: a factor of ten. -/
example : ∃ s0 r s r' s' r'' s'', KT.init [0, 1, 2] none = .ok s0 ∧ KT.predictor.run s0 (drawn [] [0, 1, 0, 0]) = .ok (r, s) ∧
    KT.predictor.run s0 (drawn [] [0, 2, 0, 0]) = .ok (r', s') ∧ KT.predictor.run s0 (drawn [] [0, 0, 0, 0]) = .ok (r'', s'') ∧ r' = r ∧ r'' - r = Real.log 10 := by
  have h0 := KT.init_default (A := [0, 1, 2]) (by decide) (by decide)
  obtain ⟨r, s, r', s', h1, h2, h3, -⟩ := C155_KT [0, 1, 2] (by decide) (by decide) _ h0 [] [] [0] [0, 0] 1 2 (by decide) (by decide) (by decide)
  obtain ⟨q, t, r'', s'', g1, g2, g3, -⟩ := C155_KT [0, 1, 2] (by decide) (by decide) _ h0 [] [] [0] [0, 0] 1 0 (by decide) (by decide) (by decide)
  have e := h1.symm.trans g1
  rw [Except.ok.injEq, Prod.mk.injEq] at e
  obtain ⟨rfl, rfl⟩ := e
  refine ⟨_, r, s, r', s', r'', s'', h0, h1, h2, g2, ?_, ?_⟩
  · norm_num at h3
    linarith
  · rw [g3]
    norm_num

/-- A context tree of depth two: a wrong symbol in ten costs a factor of at most `8000`. -/
example : ∃ s0, KT.init [false, true] none = .ok s0 ∧ ∃ r s r' s',
    (CTW.predictor KT.predictor s0 (CTW.mkcontext 2 false)).run (CTW.init s0) (drawn [] [false, true, false, true, false, true, false, true, false, true]) = .ok (r, s) ∧
    (CTW.predictor KT.predictor s0 (CTW.mkcontext 2 false)).run (CTW.init s0) (drawn [] [false, true, false, true, true, true, false, true, false, true]) = .ok (r', s') ∧
    |r' - r| ≤ 3 * Real.log 20 := by
  have h0 := KT.init_default (A := [false, true]) (by decide) (by decide)
  obtain ⟨r, s, r', s', h1, h2, h3⟩ := C155_CTW [false, true] (by decide) (by decide) _ h0 2 (by decide) false [] [false, true, false, true] [true, false, true, false, true]
    false true (by decide) (by decide) (by decide)
  refine ⟨_, h0, r, s, r', s', h1, h2, h3.trans_eq ?_⟩
  norm_num

end Verif
