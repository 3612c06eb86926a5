import Mathlib.Analysis.SpecialFunctions.Log.Base
import Verif.Proofs.ACBytes
import Verif.Proofs.CtwCTW
import Verif.Props.Estimators

/-! How much of the interval the encoder keeps, compared with the probability of the symbol. -/

namespace Verif

open Predictor AC

variable {σ : Type} {P : Predictor σ Bool} {N : ℕ} {I : σ → Prop} {W : ℝ → Prop}

/-- The observations that the coder passes to the model: no history, weight one. -/
def plainObs (bits : List Bool) : List (Obs Bool) := bits.map fun b => ⟨b, [], 1⟩

/-- At every symbol of the message, the interval times the probability of the symbol is at least `M` units wide. -/
def Wide (P : Predictor σ Bool) (N fuel : ℕ) (M : ℝ) : Enc → σ → List Bool → Prop
  | _, _, [] => True
  | s, st, b :: bs => ∀ r st' o s', P.update st b [] 1 = .ok (r, st') → encodeWith N fuel s (encP r b) b = .ok (o, s') →
      M ≤ ((s.high - s.low : ℤ) : ℝ) * Real.exp r ∧ Wide P N fuel M s' st' bs

namespace AC

/-- The part of the interval that is kept for a symbol. -/
noncomputable def kept (s : Enc) (p : ℝ) (b : Bool) : ℤ :=
  if b then s.high - encSplit s.low s.high p else encSplit s.low s.high p - s.low

/-- At every symbol the encoder keeps at least `c` times what the probability asks for. -/
def Keeps (P : Predictor σ Bool) (N fuel : ℕ) (c : ℝ) : Enc → σ → List Bool → Prop
  | _, _, [] => True
  | s, st, b :: bs => ∀ r st' o s', P.update st b [] 1 = .ok (r, st') → encodeWith N fuel s (encP r b) b = .ok (o, s') →
      c * (((s.high - s.low : ℤ) : ℝ) * Real.exp r) ≤ ((kept s (encP r b) b : ℤ) : ℝ) ∧ Keeps P N fuel c s' st' bs

theorem floor_cases {x : ℝ} (hx : 0 < x) :
    (x < 1 ∧ max 1 (pyInt x) = 1) ∨ (1 ≤ x ∧ ((max 1 (pyInt x) : ℤ) : ℝ) ≤ x ∧ x < ((max 1 (pyInt x) : ℤ) : ℝ) + 1) := by
  have e : pyInt x = ⌊x⌋ := by rw [pyInt, if_pos hx.le]
  rw [e]
  rcases lt_or_ge x 1 with h | h
  · left
    have : ⌊x⌋ = 0 := by rw [Int.floor_eq_zero_iff]; exact ⟨hx.le, h⟩
    exact ⟨h, by rw [this]; rfl⟩
  · right
    have : 1 ≤ ⌊x⌋ := by rw [Int.le_floor]; exact_mod_cast h
    rw [max_eq_right this]
    exact ⟨h, Int.floor_le x, Int.lt_floor_add_one x⟩

/-- What is kept for a symbol of probability `exp r`, in an interval of width `R ≥ 2`: at least half of `R exp r`, and at
least `R exp r - 1`. -/
theorem kept_ge {s : Enc} (hR : 2 ≤ s.high - s.low) {r : ℝ} (hr : Real.exp r < 1) (b : Bool) :
    1 / 2 * (((s.high - s.low : ℤ) : ℝ) * Real.exp r) ≤ ((kept s (encP r b) b : ℤ) : ℝ) ∧
      ((s.high - s.low : ℤ) : ℝ) * Real.exp r - 1 ≤ ((kept s (encP r b) b : ℤ) : ℝ) := by
  have hR' : (2 : ℝ) ≤ ((s.high - s.low : ℤ) : ℝ) := by exact_mod_cast hR
  generalize hw : ((s.high - s.low : ℤ) : ℝ) = R at *
  have hp := Real.exp_pos r
  cases b with
  | false =>
    have hk : kept s (encP r false) false = max 1 (pyInt (R * Real.exp r)) := by
      simp only [kept, encP, Bool.false_eq_true, if_false, encSplit, hw]
      omega
    rw [hk]
    rcases floor_cases (x := R * Real.exp r) (by positivity) with ⟨h1, h2⟩ | ⟨h1, h2, h3⟩
    · rw [h2]
      push_cast
      constructor <;> linarith
    · have h4 : (1 : ℝ) ≤ ((max 1 (pyInt (R * Real.exp r)) : ℤ) : ℝ) := by exact_mod_cast le_max_left _ _
      constructor <;> linarith
  | true =>
    have hk : ((kept s (encP r true) true : ℤ) : ℝ) = R - ((max 1 (pyInt (R * (1 - Real.exp r))) : ℤ) : ℝ) := by
      have : kept s (encP r true) true = (s.high - s.low) - max 1 (pyInt (R * (1 - Real.exp r))) := by
        simp only [kept, encP, if_true, encSplit, hw]
        omega
      rw [this, Int.cast_sub, hw]
    rw [hk]
    rcases floor_cases (x := R * (1 - Real.exp r)) (by nlinarith) with ⟨h1, h2⟩ | ⟨h1, h2, h3⟩
    · rw [h2]
      push_cast
      constructor <;> nlinarith
    · constructor <;> nlinarith

/-- Keeping at least `c` times what is asked for, over a whole message. -/
theorem encodeAll_keeps (hN : 1 ≤ N) (hP : P.UpdateLawful I [false, true] W) (hw : W 1) {fuel : ℕ} {c : ℝ} (hc : 0 ≤ c)
    {s s' : Enc} (hs : s.Ok N) {st st' : σ} (hst : I st) {bits o : List Bool} (hk : Keeps P N fuel c s st bits)
    (h : encodeAll P N fuel s st bits = .ok (o, s', st')) :
    ∃ r, P.run st (plainObs bits) = .ok (r, st') ∧
      ((s.high - s.low : ℤ) : ℝ) * Real.exp r * c ^ bits.length * 2 ^ o.length ≤ ((s'.high - s'.low : ℤ) : ℝ) := by
  induction bits generalizing s st o with
  | nil =>
    simp only [encodeAll, pure_eq_ok, Except.ok.injEq, Prod.mk.injEq] at h
    obtain ⟨rfl, rfl, rfl⟩ := h
    exact ⟨0, rfl, by simp⟩
  | cons b bs ih =>
    simp only [encodeAll, encode, bind_eq_ok, pure_eq_ok, Except.ok.injEq, Prod.mk.injEq, Prod.exists] at h
    obtain ⟨o1, s1, st1, ⟨r1, st1', hu, o1', s1', he, rfl, rfl, rfl⟩, o2, s2, st2, h2, rfl, rfl, rfl⟩ := h
    rw [liftRun_ok] at hu
    obtain ⟨e1, i1⟩ := exp_update_lt hP hw hst hu
    obtain ⟨k1, k2⟩ := hk _ _ _ _ hu he
    obtain ⟨ok1, wd⟩ := encodeWith_ok hN hs (encP_lt e1 b).1 he
    obtain ⟨r2, hr2, hle⟩ := ih ok1 i1 k2 h2
    refine ⟨r1 + r2, ?_, le_trans ?_ hle⟩
    · simp only [plainObs, List.map_cons, Predictor.run, hu, ok_bind]
      change (do let (r', s'') ← P.run st1' (plainObs bs); pure (r1 + r', s'')) = _
      rw [hr2]
      rfl
    · have wd' : ((s1'.high - s1'.low : ℤ) : ℝ) = ((kept s (encP r1 b) b : ℤ) : ℝ) * 2 ^ o1'.length := by
        rw [wd]
        push_cast [kept]
        rfl
      rw [wd', Real.exp_add, List.length_cons, List.length_append, pow_succ, pow_add]
      have hp := Real.exp_pos r2
      calc _ = (c * (((s.high - s.low : ℤ) : ℝ) * Real.exp r1)) *
            (Real.exp r2 * c ^ bs.length * (2 ^ o1'.length * 2 ^ o2.length)) := by ring
        _ ≤ ((kept s (encP r1 b) b : ℤ) : ℝ) * (Real.exp r2 * c ^ bs.length * (2 ^ o1'.length * 2 ^ o2.length)) :=
            mul_le_mul_of_nonneg_right k1 (by positivity)
        _ = _ := by ring

theorem Enc.Ok.two_le (hN : 1 ≤ N) {s : Enc} (hs : s.Ok N) : 2 ≤ s.high - s.low := by
  have := hs.straddle
  omega

theorem keeps_half (hN : 1 ≤ N) (hP : P.UpdateLawful I [false, true] W) (hw : W 1) {fuel : ℕ} {s : Enc} (hs : s.Ok N)
    {st : σ} (hst : I st) (bits : List Bool) : Keeps P N fuel (1 / 2) s st bits := by
  induction bits generalizing s st with
  | nil => trivial
  | cons b bs ih =>
    intro r st' o s' hu he
    obtain ⟨e1, i1⟩ := exp_update_lt hP hw hst hu
    exact ⟨(kept_ge (hs.two_le hN) e1 b).1, ih (encodeWith_ok hN hs (encP_lt e1 b).1 he).1 i1⟩

theorem keeps_wide (hN : 1 ≤ N) (hP : P.UpdateLawful I [false, true] W) (hw : W 1) {fuel : ℕ} {M : ℝ} (hM : 1 < M)
    {s : Enc} (hs : s.Ok N) {st : σ} (hst : I st) {bits : List Bool} (h : Wide P N fuel M s st bits) :
    Keeps P N fuel ((M - 1) / M) s st bits := by
  induction bits generalizing s st with
  | nil => trivial
  | cons b bs ih =>
    intro r st' o s' hu he
    obtain ⟨e1, i1⟩ := exp_update_lt hP hw hst hu
    obtain ⟨m1, m2⟩ := h _ _ _ _ hu he
    refine ⟨le_trans ?_ (kept_ge (hs.two_le hN) e1 b).2, ih (encodeWith_ok hN hs (encP_lt e1 b).1 he).1 i1 m2⟩
    rw [div_mul_eq_mul_div, div_le_iff₀ (by linarith)]
    nlinarith

/-- From what is kept to the length of the code. -/
theorem length_of_keeps (hN : 1 ≤ N) (hP : P.UpdateLawful I [false, true] W) (hw : W 1) {fuel : ℕ} {c : ℝ} (hc : 0 < c)
    {st : σ} (hst : I st) {msg code : List Bool} (hk : Keeps P N fuel c (Enc.init N) st msg)
    (h : compress P N fuel st msg = .ok code) :
    ∃ r st', P.run st (plainObs msg) = .ok (r, st') ∧
      (code.length : ℝ) ≤ 2 + -Real.logb 2 (Real.exp r) + msg.length * -Real.logb 2 c := by
  simp only [compress, bind_eq_ok, pure_eq_ok, Except.ok.injEq, Prod.exists] at h
  obtain ⟨o, s, t, h, rfl⟩ := h
  have hs := (encodeAll_ok hN hP hw (Enc.ok_init hN) hst h).1
  have hfl : (s.flush N).length = 2 := by
    unfold Enc.flush
    rw [hs.follow]
    split_ifs <;> rfl
  obtain ⟨r, hr, hle⟩ := encodeAll_keeps hN hP hw hc.le (Enc.ok_init hN) hst hk h
  refine ⟨r, t, hr, ?_⟩
  have hT : (0 : ℝ) < ((top N : ℤ) : ℝ) := by
    have := top_eq hN
    have := half_pos hN
    exact_mod_cast (by omega : 0 < top N)
  have hle' : ((s.high - s.low : ℤ) : ℝ) ≤ ((top N : ℤ) : ℝ) := by
    have := hs.high
    have := hs.low
    exact_mod_cast (by omega : s.high - s.low ≤ top N)
  have htop : ((Enc.init N).high - (Enc.init N).low : ℤ) = top N := by simp [Enc.init]
  rw [htop] at hle
  have hb : Real.exp r * c ^ msg.length * 2 ^ o.length ≤ 1 := by
    have h1 := hle.trans hle'
    by_contra hcon
    push Not at hcon
    nlinarith [mul_lt_mul_of_pos_left hcon hT]
  have hlog : Real.logb 2 (Real.exp r * c ^ msg.length * 2 ^ o.length) ≤ 0 :=
    Real.logb_nonpos (by norm_num) (by positivity) hb
  rw [Real.logb_mul (by positivity) (by positivity), Real.logb_mul (by positivity) (by positivity), Real.logb_pow,
    Real.logb_pow, Real.logb_self_eq_one (by norm_num), mul_one] at hlog
  rw [List.length_append, hfl]
  push_cast
  linarith

end AC

/-! ## The default models as binary KT estimators -/

namespace CKT

/-- `ctw.KT` over two symbols is `KTBinary`. -/
theorem homBinary : Hom (probSeq (α := Bool)).toPredictor KTBinary.predictor id (fun w => 0 ≤ w)
    (fun s t => Same [false, true] s t.toKT) where
  update := by
    intro s t a h w hs hw
    have h1 := (hom [false, true]).update s t.toKT a h w hs hw
    rw [id_eq, (C04_KTBinary_eq_KT.2.2 t a (h.map id) w).1] at h1
    rw [id_eq]
    cases h2 : KTBinary.predictor.update t a (h.map id) w with
    | error e =>
      rw [h2] at h1
      rcases corrRes_cases h1 with ⟨e', g1, g2⟩ | ⟨r, s', t', _, g2, _⟩
      · simp only [Except.map, Except.error.injEq] at g2
        rw [g1, g2]
        exact rfl
      · simp [Except.map] at g2
    | ok p =>
      rw [h2] at h1
      rcases corrRes_cases h1 with ⟨e, _, g⟩ | ⟨r, s', t', g1, g2, g3⟩
      · simp [Except.map] at g
      · simp only [Except.map, Except.ok.injEq, Prod.mk.injEq] at g2
        rw [g1]
        exact ⟨g2.1.symm, show Same _ s' p.2.toKT by rw [g2.2]; exact g3⟩
  predict := by
    intro s t a h hs
    have h1 := (hom [false, true]).predict s t.toKT a h hs
    rw [id_eq, (C04_KTBinary_eq_KT.2.2 t a (h.map id) 1).2] at h1
    rw [id_eq]
    cases h2 : KTBinary.predictor.logPredict t a (h.map id) with
    | error e =>
      rw [h2] at h1
      rcases corrRes_cases h1 with ⟨e', g1, g2⟩ | ⟨r, s', t', _, g2, _⟩
      · simp only [Except.map, Except.error.injEq] at g2
        rw [g1, g2]
        exact rfl
      · simp [Except.map] at g2
    | ok p =>
      rw [h2] at h1
      rcases corrRes_cases h1 with ⟨e, _, g⟩ | ⟨r, s', t', g1, g2, g3⟩
      · simp [Except.map] at g
      · simp only [Except.map, Except.ok.injEq, Prod.mk.injEq] at g2
        rw [g1]
        exact ⟨g2.1.symm, show Same _ s' p.2.toKT by rw [g2.2]; exact g3⟩

theorem sameBinary {s : CKT Bool} (h : CKT.init [false, true] none = .ok s) :
    Same [false, true] s (KTBinary.init none).toKT := by
  rw [CKT.init_default (by simp) (by simp), Except.ok.injEq] at h
  subst h
  have h2 := C04_KTBinary_eq_KT.1
  rw [KT.init_default (by decide) (by decide), Except.ok.injEq] at h2
  rw [← h2]
  exact same_default (by simp)

end CKT

end Verif
