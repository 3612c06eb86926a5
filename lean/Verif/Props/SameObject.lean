import Verif.Model.SameObject
import Verif.Props.Histories

/-!
# C170: a factory that returns the same object

A factory passed to `CTW` has to make a new model at every call.
-/

namespace Verif

namespace SameObject

variable {κ : Type} [DecidableEq κ]

/-- The parts of a node fit together, for contexts of length `d`. -/
def Fits : ℕ → CTWNode Unit κ → Prop
  | 0, n => n.lp = n.baseLP
  | d + 1, n => n.lp = log05 + logsumexp2 n.baseLP n.childrenLP ∧ ∀ c m, n.children c = some m → Fits d m

theorem fits_new (d : ℕ) : Fits d (CTWNode.new () : CTWNode Unit κ) := by
  cases d with
  | zero => rfl
  | succ d =>
    refine ⟨?_, fun c m h => ?_⟩
    · exact (logsumexp2_self 0).symm
    · cases h

/-- The share of a symbol in the counts. -/
noncomputable def share (s : KTBinary) (b : Bool) : ℝ := s.get b / (s.c0 + s.c1)

/-- The probability of `b` reported when `b` has been counted `k` times before, with weight `w`, and its sum over both symbols. -/
theorem share_sum (s : KTBinary) (h0 : 0 < s.c0) (h1 : 0 < s.c1) {x : ℝ} (hx : 0 ≤ x) :
    share (s.bump false x) false + share (s.bump true x) true = 1 + x / (s.c0 + s.c1 + x) := by
  have hp : s.c0 + s.c1 + x ≠ 0 := by positivity
  have e1 : s.c0 + x + s.c1 = s.c0 + s.c1 + x := by ring
  have e2 : s.c0 + (s.c1 + x) = s.c0 + s.c1 + x := by ring
  simp only [share, KTBinary.bump, KTBinary.get, Bool.false_eq_true, if_false, if_true, e1, e2]
  field_simp
  ring

theorem bump_bump (s : KTBinary) (b : Bool) (x y : ℝ) : (s.bump b x).bump b y = s.bump b (x + y) := by
  cases b <;> simp only [KTBinary.bump, Bool.false_eq_true, if_false, if_true, add_assoc]

theorem bump_pos {s : KTBinary} (h0 : 0 < s.c0) (h1 : 0 < s.c1) (b : Bool) {x : ℝ} (hx : 0 ≤ x) : 0 < (s.bump b x).c0 ∧ 0 < (s.bump b x).c1 := by
  cases b
  · exact ⟨by change 0 < s.c0 + x; linarith, h1⟩
  · exact ⟨h0, by change 0 < s.c1 + x; linarith⟩

theorem up {s : KTBinary} (h0 : 0 < s.c0) (h1 : 0 < s.c1) (b : Bool) (h : List Bool) (w : ℝ) :
    KTBinary.predictor.update s b h w = .ok (Real.log (share s b), s.bump b w) := Histories.kt_up h0 h1 b h w

theorem share_pos {s : KTBinary} (h0 : 0 < s.c0) (h1 : 0 < s.c1) (b : Bool) : 0 < share s b := by
  cases b
  · exact div_pos h0 (by linarith)
  · exact div_pos h1 (by linarith)

/-- An update counts the symbol once for each node on the path. -/
theorem total (a : Bool) (h : List Bool) {w : ℝ} (hw : 0 ≤ w) (cs : List κ) (n : CTWNode Unit κ) (s : KTBinary) (h0 : 0 < s.c0) (h1 : 0 < s.c1)
    (hn : Fits cs.length n) : ∃ r n', n.updateOne KTBinary.predictor a h w cs s = .ok (r, n', s.bump a ((cs.length + 1) * w)) ∧
      Fits cs.length n' := by
  induction cs generalizing n s with
  | nil =>
    refine ⟨n.baseLP + Real.log (share s a) - n.lp, .mk () (n.baseLP + Real.log (share s a)) n.childrenLP (n.baseLP + Real.log (share s a)) n.children,
      ?_, rfl⟩
    simp only [CTWNode.updateOne, up h0 h1, ok_bind, pure_eq_ok, List.length_nil, Nat.cast_zero, zero_add, one_mul]
  | cons c cs ih =>
    have hc : Fits cs.length ((n.children c).getD (CTWNode.new ())) := by
      cases hm : n.children c with
      | none => exact fits_new _
      | some m => exact hn.2 c m hm
    obtain ⟨g0, g1⟩ := bump_pos h0 h1 a hw
    obtain ⟨rc, n', h2, h3⟩ := ih _ _ g0 g1 hc
    refine ⟨log05 + logsumexp2 (n.baseLP + Real.log (share s a)) (n.childrenLP + rc) - n.lp,
      .mk () (n.baseLP + Real.log (share s a)) (n.childrenLP + rc) (log05 + logsumexp2 (n.baseLP + Real.log (share s a)) (n.childrenLP + rc))
        (Function.update n.children c (some n')), ?_, ?_⟩
    · simp only [CTWNode.updateOne, up h0 h1, ok_bind, pure_eq_ok, h2, bump_bump, List.length_cons]
      push_cast
      rw [show w + ((cs.length : ℝ) + 1) * w = ((cs.length : ℝ) + 1 + 1) * w by ring]
    · refine ⟨rfl, fun c' m hm => ?_⟩
      simp only [CTWNode.children, Function.update_apply] at hm
      split_ifs at hm with e
      · cases hm; exact h3
      · exact hn.2 c' m hm

/-- What the reports sum to if each symbol has been counted before, at nodes above. -/
theorem excess (h : List Bool) {w : ℝ} (hw : 0 < w) (cs : List κ) (n : CTWNode Unit κ) (s : KTBinary) (h0 : 0 < s.c0) (h1 : 0 < s.c1)
    (hn : Fits cs.length n) {x : ℝ} (hx : 0 ≤ x) {rf rt : ℝ} {nf nt : CTWNode Unit κ} {sf st : KTBinary}
    (hf : n.updateOne KTBinary.predictor false h w cs (s.bump false x) = .ok (rf, nf, sf))
    (ht : n.updateOne KTBinary.predictor true h w cs (s.bump true x) = .ok (rt, nt, st)) :
    1 + x / (s.c0 + s.c1 + x) ≤ Real.exp rf + Real.exp rt ∧ (cs ≠ [] → 1 + x / (s.c0 + s.c1 + x) < Real.exp rf + Real.exp rt) := by
  induction cs generalizing n x rf rt nf nt sf st with
  | nil =>
    have key : ∀ b r n' s', n.updateOne KTBinary.predictor b h w ([] : List κ) (s.bump b x) = .ok (r, n', s') →
        Real.exp r = share (s.bump b x) b := by
      intro b r n' s' hk
      obtain ⟨g0, g1⟩ := bump_pos h0 h1 b hx
      simp only [CTWNode.updateOne, up g0 g1, ok_bind, pure_eq_ok, Except.ok.injEq, Prod.mk.injEq] at hk
      rw [← hk.1, show n.lp = n.baseLP from hn, add_sub_cancel_left, Real.exp_log (share_pos g0 g1 b)]
    rw [key _ _ _ _ hf, key _ _ _ _ ht, share_sum s h0 h1 hx]
    exact ⟨le_rfl, fun h => absurd rfl h⟩
  | cons c cs ih =>
    have hc : Fits cs.length ((n.children c).getD (CTWNode.new ())) := by
      cases hm : n.children c with
      | none => exact fits_new _
      | some m => exact hn.2 c m hm
    have key : ∀ b r n' s', n.updateOne KTBinary.predictor b h w (c :: cs) (s.bump b x) = .ok (r, n', s') →
        ∃ rc n1 s1, CTWNode.updateOne KTBinary.predictor b h w cs ((n.children c).getD (CTWNode.new ())) (s.bump b (x + w)) =
          .ok (rc, n1, s1) ∧ Real.exp r * (Real.exp n.baseLP + Real.exp n.childrenLP) =
            Real.exp n.baseLP * share (s.bump b x) b + Real.exp n.childrenLP * Real.exp rc := by
      intro b r n' s' hk
      obtain ⟨g0, g1⟩ := bump_pos h0 h1 b hx
      simp only [CTWNode.updateOne, up g0 g1, ok_bind, pure_eq_ok, bump_bump, bind_eq_ok, Except.ok.injEq, Prod.mk.injEq, Prod.exists] at hk
      obtain ⟨rc, n1, s1, k1, k2, -, -⟩ := hk
      refine ⟨rc, n1, s1, k1, ?_⟩
      rw [← k2, hn.1, Real.exp_sub, Real.exp_add, Real.exp_add, exp_logsumexp2, exp_logsumexp2, exp_log05, Real.exp_add,
        Real.exp_log (share_pos g0 g1 b), Real.exp_add]
      have := Real.exp_pos n.baseLP
      have := Real.exp_pos n.childrenLP
      field_simp
    obtain ⟨rcf, nf', sf', k1, k2⟩ := key _ _ _ _ hf
    obtain ⟨rct, nt', st', k3, k4⟩ := key _ _ _ _ ht
    have hi := (ih _ hc (show 0 ≤ x + w by linarith) k1 k3).1
    have hsum := share_sum s h0 h1 hx
    have hB := Real.exp_pos n.baseLP
    have hC := Real.exp_pos n.childrenLP
    have hlt : 1 + x / (s.c0 + s.c1 + x) < 1 + (x + w) / (s.c0 + s.c1 + (x + w)) := by
      have : x / (s.c0 + s.c1 + x) < (x + w) / (s.c0 + s.c1 + (x + w)) := by
        rw [div_lt_div_iff₀ (by linarith) (by linarith)]
        nlinarith
      linarith
    have hgt : 1 + x / (s.c0 + s.c1 + x) < Real.exp rf + Real.exp rt := by
      have e : (Real.exp rf + Real.exp rt) * (Real.exp n.baseLP + Real.exp n.childrenLP) =
          Real.exp n.baseLP * (1 + x / (s.c0 + s.c1 + x)) + Real.exp n.childrenLP * (Real.exp rcf + Real.exp rct) := by
        rw [← hsum]; linarith
      have : (1 + x / (s.c0 + s.c1 + x)) * (Real.exp n.baseLP + Real.exp n.childrenLP) <
          (Real.exp rf + Real.exp rt) * (Real.exp n.baseLP + Real.exp n.childrenLP) := by
        rw [e]
        nlinarith [mul_lt_mul_of_pos_left (lt_of_lt_of_le hlt hi) hC]
      exact lt_of_mul_lt_mul_right this (by linarith)
    exact ⟨hgt.le, fun _ => hgt⟩

end SameObject

open SameObject

variable {κ : Type} [DecidableEq κ]

/-- **C170 (one object for all nodes).** A `CTW` of depth at least one whose factory returns the same `KTBinary` at every call raises nothing, but it is no
model: after any updates, with whatever history comes next, the probabilities that it reports for the two symbols sum to more than one.  An update counts
its symbol once for every node that it visits. -/
theorem C170_same_object (base : KTBinary) (h0 : 0 < base.c0) (h1 : 0 < base.c1) (d : ℕ) (hd : 1 ≤ d) (ctx : List Bool → List κ)
    (hctx : ∀ h, (ctx h).length = d) (xs : List (Obs Bool)) (hx : ∀ o ∈ xs, 0 < o.weight) (h : List Bool) (w : ℝ) (hw : 0 < w) :
    ∃ s, (OneCTW.init base).updates KTBinary.predictor ctx xs = .ok s ∧ ∃ rf rt sf st,
      s.update KTBinary.predictor ctx false h w = .ok (rf, sf) ∧ s.update KTBinary.predictor ctx true h w = .ok (rt, st) ∧
      1 < Real.exp rf + Real.exp rt ∧ sf.base = s.base.bump false ((d + 1) * w) ∧ st.base = s.base.bump true ((d + 1) * w) := by
  have run : ∀ (xs : List (Obs Bool)), (∀ o ∈ xs, 0 < o.weight) → ∀ s : OneCTW KTBinary κ, 0 < s.base.c0 → 0 < s.base.c1 → Fits d s.tree →
      ∃ s', s.updates KTBinary.predictor ctx xs = .ok s' ∧ 0 < s'.base.c0 ∧ 0 < s'.base.c1 ∧ Fits d s'.tree := by
    intro xs
    induction xs with
    | nil => exact fun _ s g0 g1 g2 => ⟨s, rfl, g0, g1, g2⟩
    | cons o os ih =>
      intro hx s g0 g1 g2
      have hl : (ctx o.hist).reverse.length = d := by rw [List.length_reverse, hctx]
      have hw := hx o (by simp)
      obtain ⟨r, n', k1, k2⟩ := total o.sym o.hist hw.le (ctx o.hist).reverse s.tree s.base g0 g1 (by rw [hl]; exact g2)
      obtain ⟨q0, q1⟩ := bump_pos g0 g1 o.sym (show 0 ≤ (((ctx o.hist).reverse.length : ℝ) + 1) * o.weight by positivity)
      obtain ⟨s', k3, k4⟩ := ih (fun o ho => hx o (List.mem_cons_of_mem _ ho))
        ⟨s.base.bump o.sym ((((ctx o.hist).reverse.length : ℝ) + 1) * o.weight), n'⟩ q0 q1 (by rw [hl] at k2; exact k2)
      exact ⟨s', by simp only [OneCTW.updates, OneCTW.update, k1, ok_bind, pure_eq_ok, k3], k4⟩
  obtain ⟨s, k1, g0, g1, g2⟩ := run xs hx (OneCTW.init base) h0 h1 (fits_new d)
  have hl : (ctx h).reverse.length = d := by rw [List.length_reverse, hctx]
  obtain ⟨rf, nf, q1, -⟩ := total false h hw.le (ctx h).reverse s.tree s.base g0 g1 (by rw [hl]; exact g2)
  obtain ⟨rt, nt, q2, -⟩ := total true h hw.le (ctx h).reverse s.tree s.base g0 g1 (by rw [hl]; exact g2)
  have b0 : ∀ b, s.base.bump b 0 = s.base := by intro b; cases b <;> simp [KTBinary.bump]
  have he := (excess h hw (ctx h).reverse s.tree s.base g0 g1 (by rw [hl]; exact g2) le_rfl (by rw [b0]; exact q1) (by rw [b0]; exact q2)).2 (by
    intro e
    rw [e] at hl
    simp at hl
    omega)
  rw [hl] at q1 q2
  refine ⟨s, k1, rf, rt, ⟨s.base.bump false ((d + 1) * w), nf⟩, ⟨s.base.bump true ((d + 1) * w), nt⟩,
    by simp only [OneCTW.update, q1, ok_bind, pure_eq_ok], by simp only [OneCTW.update, q2, ok_bind, pure_eq_ok], ?_, rfl, rfl⟩
  simpa using he

/-- A new `CTW` of depth 1, before and after the bit 1 with history 0. -/
example : ∃ s, (OneCTW.init (KTBinary.init none)).updates KTBinary.predictor (fun h => [h.getLastD false]) [⟨true, [false], 1⟩] = .ok s ∧
    ∃ rf rt sf st, s.update KTBinary.predictor (fun h => [h.getLastD false]) false [false, true] 1 = .ok (rf, sf) ∧
      s.update KTBinary.predictor (fun h => [h.getLastD false]) true [false, true] 1 = .ok (rt, st) ∧ 1 < Real.exp rf + Real.exp rt ∧
      sf.base = s.base.bump false (((1 : ℕ) + 1) * 1) ∧ st.base = s.base.bump true (((1 : ℕ) + 1) * 1) :=
  C170_same_object (KTBinary.init none) (by norm_num [KTBinary.init]) (by norm_num [KTBinary.init]) 1 le_rfl _ (fun _ => rfl) _ (by simp) _ 1 one_pos

end Verif
