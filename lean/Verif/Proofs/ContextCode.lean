import Verif.Proofs.CTWLawful

set_option linter.unusedSectionVars false

/-! `CTW` with contexts of different lengths. -/

namespace Verif

open Predictor

namespace CTWNode

variable {σ κ α : Type} [DecidableEq κ] {P : Predictor σ α} {fresh : σ}

/-- The node at the end of a path, or a new one. -/
def down (fresh : σ) : List κ → CTWNode σ κ → CTWNode σ κ
  | [], n => n
  | c :: cs, n => down fresh cs ((n.children c).getD (new fresh))

theorem down_new (p : List κ) : down fresh p (new fresh : CTWNode σ κ) = new fresh := by
  induction p with
  | nil => rfl
  | cons c cs ih => exact ih

/-- A tree for the reversed contexts `C`: nodes at the end of a context have the probability of their base model, nodes on the way to one the
average with their children. -/
def Coded (fresh : σ) (I : σ → Prop) (C : List κ → Prop) (n : CTWNode σ κ) : Prop :=
  ∀ p, I (down fresh p n).base ∧ (C p → (down fresh p n).lp = (down fresh p n).baseLP) ∧
    ((∃ c q, C (p ++ c :: q)) → (down fresh p n).lp = log05 + logsumexp2 (down fresh p n).baseLP (down fresh p n).childrenLP)

theorem Coded.new {I : σ → Prop} (hI : I fresh) (C : List κ → Prop) : Coded fresh I C (new fresh : CTWNode σ κ) := by
  intro p
  rw [down_new]
  refine ⟨hI, fun _ => rfl, fun _ => ?_⟩
  change (0 : ℝ) = log05 + logsumexp2 0 0
  rw [logsumexp2_self]

/-- What follows a context symbol. -/
theorem Coded.child {I : σ → Prop} {C : List κ → Prop} {n : CTWNode σ κ} (h : Coded fresh I C n) (c : κ) :
    Coded fresh I (fun l => C (c :: l)) ((n.children c).getD (CTWNode.new fresh)) := fun p => h (c :: p)

/-- No context is the beginning of another. -/
def PrefixFree (C : List κ → Prop) : Prop := ∀ p q, C p → C (p ++ q) → q = []

theorem PrefixFree.child {C : List κ → Prop} (h : PrefixFree C) (c : κ) : PrefixFree fun l => C (c :: l) :=
  fun p q h1 h2 => h (c :: p) q h1 h2

theorem Coded.update_ok {I : σ → Prop} {A : List α} {W : ℝ → Prop} (hP : P.UpdateLawful I A W) {C : List κ → Prop} (hC : PrefixFree C)
    {n : CTWNode σ κ} {ctx : List κ} (h : Coded fresh I C n) (hctx : C ctx) {a : α} (ha : a ∈ A) (hi : List α) {w : ℝ} (hw : W w) :
    ∃ r n', n.update P fresh a hi w ctx = .ok (r, n') ∧ Coded fresh I C n' := by
  induction ctx generalizing n C with
  | nil =>
    obtain ⟨h1, -, -⟩ := h []
    obtain ⟨r, b, hb, hbI⟩ := hP.total n.base a hi w h1 ha hw
    refine ⟨_, mk b (n.baseLP + r) n.childrenLP (n.baseLP + r) n.children, by simp only [CTWNode.update, hb, ok_bind]; rfl, ?_⟩
    rintro (_ | ⟨c, p⟩)
    · refine ⟨hbI, fun _ => rfl, ?_⟩
      rintro ⟨c, q, hq⟩
      exact absurd (hC [] (c :: q) hctx hq) (by simp)
    · exact h (c :: p)
  | cons c cs ih =>
    obtain ⟨h1, -, -⟩ := h []
    obtain ⟨r, b, hb, hbI⟩ := hP.total n.base a hi w h1 ha hw
    obtain ⟨rc, ch', hch, hwf⟩ := ih (hC.child c) (h.child c) hctx
    refine ⟨_, mk b (n.baseLP + r) (n.childrenLP + rc) (log05 + logsumexp2 (n.baseLP + r) (n.childrenLP + rc))
      (Function.update n.children c (some ch')),
      by simp only [CTWNode.update, hb, hch, ok_bind]; rfl, ?_⟩
    rintro (_ | ⟨c', p⟩)
    · refine ⟨hbI, fun h0 => ?_, fun _ => rfl⟩
      exact absurd (hC [] (c :: cs) h0 hctx) (by simp)
    · by_cases hcc : c' = c
      · subst hcc
        simpa [down] using hwf p
      · have := h (c' :: p)
        simpa [down, Function.update_of_ne hcc] using this

theorem Coded.predict_ok {I : σ → Prop} {A : List α}
    (hP : ∀ s a h, I s → a ∈ A → ∃ r s', P.logPredict s a h = .ok (r, s') ∧ I s') {C : List κ → Prop}
    {n : CTWNode σ κ} {ctx : List κ} (h : Coded fresh I C n) {a : α} (ha : a ∈ A) (hi : List α) :
    ∃ r n', n.logPredict P fresh a hi ctx = .ok (r, n') ∧ Coded fresh I C n' := by
  induction ctx generalizing n C with
  | nil =>
    obtain ⟨h1, h2, h3⟩ := h []
    obtain ⟨r, b, hb, hbI⟩ := hP n.base a hi h1 ha
    refine ⟨_, mk b n.baseLP n.childrenLP n.lp n.children, by simp only [CTWNode.logPredict, hb, ok_bind]; rfl, ?_⟩
    rintro (_ | ⟨c, p⟩)
    · exact ⟨hbI, h2, h3⟩
    · exact h (c :: p)
  | cons c cs ih =>
    obtain ⟨h1, h2, h3⟩ := h []
    obtain ⟨r, b, hb, hbI⟩ := hP n.base a hi h1 ha
    obtain ⟨rc, ch', hch, hwf⟩ := ih (h.child c)
    refine ⟨_, mk b n.baseLP n.childrenLP n.lp (Function.update n.children c (some ch')),
      by simp only [CTWNode.logPredict, hb, hch, ok_bind]; rfl, ?_⟩
    rintro (_ | ⟨c', p⟩)
    · exact ⟨hbI, h2, h3⟩
    · by_cases hcc : c' = c
      · subst hcc
        simpa [down] using hwf p
      · have := h (c' :: p)
        simpa [down, Function.update_of_ne hcc] using this

theorem Coded.logPredict_of_update {I : σ → Prop} {A : List α} {W : ℝ → Prop} (hP : P.Coherent I A W) {C : List κ → Prop}
    {n n' : CTWNode σ κ} {ctx : List κ} (h : Coded fresh I C n) {a : α} (ha : a ∈ A)
    (hi : List α) {w r : ℝ} (hw : W w) (hu : n.update P fresh a hi w ctx = .ok (r, n')) :
    ∃ t, n.logPredict P fresh a hi ctx = .ok (r, t) := by
  induction ctx generalizing n n' r C with
  | nil =>
    simp only [CTWNode.update, bind_eq_ok, pure_eq_ok, Except.ok.injEq, Prod.mk.injEq, Prod.exists] at hu
    obtain ⟨q, b, hb, rfl, rfl⟩ := hu
    obtain ⟨t, ht⟩ := hP n.base a hi w (h []).1 ha hw q b hb
    exact ⟨_, by simp only [CTWNode.logPredict, ht, ok_bind]; rfl⟩
  | cons c cs ih =>
    simp only [CTWNode.update, bind_eq_ok, pure_eq_ok, Except.ok.injEq, Prod.mk.injEq, Prod.exists] at hu
    obtain ⟨q, b, hb, rc, ch', hch, rfl, rfl⟩ := hu
    obtain ⟨t, ht⟩ := hP n.base a hi w (h []).1 ha hw q b hb
    obtain ⟨tc, htc⟩ := ih (h.child c) hch
    exact ⟨_, by simp only [CTWNode.logPredict, ht, htc, ok_bind]; rfl⟩

theorem Coded.mass {A : List α} {f : List κ → CTWNode σ κ → α → Py (ℝ × CTWNode σ κ)} {g : σ → α → Py (ℝ × σ)}
    (h0 : ∀ n a, ∀ r b, g n.base a = .ok (r, b) →
      probOf (f [] n a) * Real.exp n.lp = Real.exp n.baseLP * Real.exp r)
    (h1 : ∀ c cs n a, ∀ r b rc ch, g n.base a = .ok (r, b) →
      f cs ((n.children c).getD (CTWNode.new fresh)) a = .ok (rc, ch) →
      probOf (f (c :: cs) n a) * Real.exp n.lp =
        1/2 * (Real.exp n.baseLP * Real.exp r) + 1/2 * (Real.exp n.childrenLP * Real.exp rc))
    {I : σ → Prop} (hg : ∀ s, I s → (A.map fun a => probOf (g s a)).sum = 1)
    (hgt : ∀ s a, I s → a ∈ A → ∃ r b, g s a = .ok (r, b))
    (hft : ∀ (C : List κ → Prop) cs (n : CTWNode σ κ) a, PrefixFree C → Coded fresh I C n → C cs → a ∈ A → ∃ r b, f cs n a = .ok (r, b))
    {C : List κ → Prop} (hC : PrefixFree C) {ctx : List κ} {n : CTWNode σ κ} (h : Coded fresh I C n) (hctx : C ctx) :
    (A.map fun a => probOf (f ctx n a)).sum = 1 := by
  induction ctx generalizing n C with
  | nil =>
    obtain ⟨b1, b2, -⟩ := h []
    have e : (A.map fun a => probOf (f [] n a) * Real.exp n.lp).sum = Real.exp n.lp := by
      rw [List.map_congr_left (g := fun a => Real.exp n.baseLP * probOf (g n.base a))]
      · rw [List.sum_map_mul_left, hg n.base b1, mul_one]
        exact (congrArg Real.exp (b2 hctx)).symm
      · intro a ha
        obtain ⟨r, b, hb⟩ := hgt n.base a b1 ha
        rw [h0 n a r b hb, hb, probOf_ok]
    rw [List.sum_map_mul_right] at e
    exact mul_right_cancel₀ (Real.exp_pos n.lp).ne' (by rw [e, one_mul])
  | cons c cs ih =>
    obtain ⟨b1, -, b3⟩ := h []
    have b3' : n.lp = log05 + logsumexp2 n.baseLP n.childrenLP := b3 ⟨c, cs, hctx⟩
    have e : (A.map fun a => probOf (f (c :: cs) n a) * Real.exp n.lp).sum = Real.exp n.lp := by
      rw [List.map_congr_left (g := fun a => 1/2 * (Real.exp n.baseLP * probOf (g n.base a)) +
        1/2 * (Real.exp n.childrenLP * probOf (f cs ((n.children c).getD (CTWNode.new fresh)) a)))]
      · rw [List.sum_map_add, List.sum_map_mul_left, List.sum_map_mul_left, List.sum_map_mul_left,
          List.sum_map_mul_left, hg n.base b1, ih (hC.child c) (h.child c) hctx, b3', exp_half_lse2]
        ring
      · intro a ha
        obtain ⟨r, b, hb⟩ := hgt n.base a b1 ha
        obtain ⟨rc, ch, hc⟩ := hft _ cs _ a (hC.child c) (h.child c) hctx ha
        rw [h1 c cs n a r b rc ch hb hc, hb, hc, probOf_ok, probOf_ok]
    rw [List.sum_map_mul_right] at e
    exact mul_right_cancel₀ (Real.exp_pos n.lp).ne' (by rw [e, one_mul])

theorem Coded.lawful {I : σ → Prop} {A : List α} {W : ℝ → Prop} (hP : P.Lawful I A W) {C : List κ → Prop} (hC : PrefixFree C)
    {ctx : List α → List κ} (hc : ∀ h, C (ctx h).reverse) :
    (CTW.predictor P fresh ctx).Lawful (Coded fresh I C) A W where
  update_ok := fun n a h w hn ha hw => hn.update_ok hP.updateLawful hC (hc h) ha h hw
  predict_ok := fun n a h hn ha => hn.predict_ok hP.predict_ok ha h
  coherent := fun n a h w hn ha hw r n' hu => hn.logPredict_of_update hP.coherent ha h hw hu
  normalised := by
    intro n h hn
    refine Coded.mass (f := fun cs n a => n.logPredict P fresh a h cs) (g := fun s a => P.logPredict s a h)
      ?_ ?_ (hP.normalised · h) ?_ ?_ hC hn (hc h)
    · intro n a r b hb
      simp only [CTWNode.logPredict, hb, ok_bind, pure_eq_ok, probOf_ok]
      rw [← Real.exp_add, ← Real.exp_add]
      congr 1
      ring
    · intro c cs n a r b rc ch hb hch
      simp only [CTWNode.logPredict, hb, hch, ok_bind, pure_eq_ok, probOf_ok]
      rw [Real.exp_sub, exp_half_lse2, Real.exp_add, Real.exp_add, div_mul_cancel₀ _ (Real.exp_pos _).ne']
    · intro s a hs ha
      obtain ⟨r, b, hb, _⟩ := hP.predict_ok s a h hs ha
      exact ⟨r, b, hb⟩
    · intro C cs n a _ hn _ ha
      obtain ⟨r, b, hb, _⟩ := hn.predict_ok (ctx := cs) hP.predict_ok ha h
      exact ⟨r, b, hb⟩

theorem Coded.updateLawful {I : σ → Prop} {A : List α} {W : ℝ → Prop} (hP : P.UpdateLawful I A W) {C : List κ → Prop} (hC : PrefixFree C)
    {ctx : List α → List κ} (hc : ∀ h, C (ctx h).reverse) :
    (CTW.predictor P fresh ctx).UpdateLawful (Coded fresh I C) A W where
  total := fun n a h w hn ha hw => hn.update_ok hP hC (hc h) ha h hw
  normalised := by
    intro n h w hn hw f hf
    rw [← Coded.mass (f := fun cs n a => n.update P fresh a h w cs) (g := fun s a => P.update s a h w)
      ?_ ?_ (fun s hs => hP.sum_probOf hs hw h) ?_ ?_ hC hn (hc h)]
    · congr 1
      apply List.map_congr_left
      intro a ha
      obtain ⟨n', hn'⟩ := hf a ha
      change Real.exp (f a) = probOf ((CTW.predictor P fresh ctx).update n a h w)
      rw [hn', probOf_ok]
    · intro n a r b hb
      simp only [CTWNode.update, hb, ok_bind, pure_eq_ok, probOf_ok]
      rw [← Real.exp_add, ← Real.exp_add]
      congr 1
      ring
    · intro c cs n a r b rc ch hb hch
      simp only [CTWNode.update, hb, hch, ok_bind, pure_eq_ok, probOf_ok]
      rw [Real.exp_sub, exp_half_lse2, Real.exp_add, Real.exp_add, div_mul_cancel₀ _ (Real.exp_pos _).ne']
    · intro s a hs ha
      obtain ⟨r, b, hb, _⟩ := hP.total s a h w hs ha hw
      exact ⟨r, b, hb⟩
    · intro C cs n a hC hn hcs ha
      obtain ⟨r, b, hb, _⟩ := hn.update_ok hP hC hcs ha h hw
      exact ⟨r, b, hb⟩

end CTWNode

end Verif
