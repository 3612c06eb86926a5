import Verif.Proofs.ACTotal
import Verif.Proofs.CtwBase

/-! The coder driven by `ctw.KT`, in integer arithmetic; runs of the decoder that do not end. -/

namespace Verif

open Predictor

namespace AC

/-! ## Runs that do not end -/

section Diverge

variable {σ : Type} {P : Predictor σ Bool} {N : ℕ}

/-- If zero's part of the interval rounds to nothing from now on, the loop never ends. -/
theorem decodeLoop_stuck (J : σ → Prop) {d : Dec} (hd : d.low < half N ∧ half N < d.high) (hv : d.low ≤ d.value)
    (hJ : ∀ t, J t → ∃ q t1 r t2, P.logPredict t false [] = .ok (q, t1) ∧
      ((d.high - d.low : ℤ) : ℝ) * Real.exp q < 1 ∧ P.update t1 true [] 1 = .ok (r, t2) ∧ J t2) {t : σ} (ht : J t) (fuel : ℕ) :
    decodeLoop P N fuel d t = .error .timeout := by
  induction fuel generalizing t with
  | zero => rfl
  | succ fuel ih =>
    obtain ⟨q, t1, r, t2, h1, h2, h3, h4⟩ := hJ t ht
    have hR : (0 : ℝ) < ((d.high - d.low : ℤ) : ℝ) := by
      have : 0 < d.high - d.low := by omega
      exact_mod_cast this
    have hs : decSplit d.low d.high (Real.exp q) = d.low := by
      unfold decSplit pyInt
      rw [if_pos (mul_nonneg hR.le (Real.exp_pos q).le)]
      have : ⌊((d.high - d.low : ℤ) : ℝ) * Real.exp q⌋ = 0 := by
        rw [Int.floor_eq_zero_iff]
        exact ⟨mul_nonneg hR.le (Real.exp_pos q).le, h2⟩
      omega
    rw [decodeLoop, if_pos hd]
    simp only [h1, liftRun, ok_bind, hs]
    rw [decide_eq_true (by omega)]
    simp only [h3, ok_bind, if_true]
    rw [ih h4]
    rfl

/-- A loop that has not ended after some steps. -/
theorem flushLoop_diverges {d : Dec} {st : σ} {n : ℤ} {out : List Bool} (hn : (out.length : ℤ) < n)
    (h : ∀ fuel, decode P N fuel d st false = .error .timeout) (fuel k : ℕ) :
    flushLoop P N fuel n k d st out = .error .timeout := by
  cases k with
  | zero => rfl
  | succ k =>
    rw [flushLoop, if_pos hn, h fuel]
    rfl

theorem flushLoop_step_diverges {d d' : Dec} {st st' : σ} {n : ℤ} {out o : List Bool} (hn : (out.length : ℤ) < n) {f0 : ℕ}
    (h : decode P N f0 d st false = .ok (o, d', st')) {fuel : ℕ}
    (hk : ∀ k, flushLoop P N fuel n k d' st' (out ++ o) = .error .timeout) (k : ℕ) :
    flushLoop P N fuel n k d st out = .error .timeout := by
  cases k with
  | zero => rfl
  | succ k =>
    rw [flushLoop, if_pos hn]
    rcases decodeLoop_fuel h fuel with h1 | ⟨_, h1⟩
    · rw [show decode P N fuel d st false = .ok (o, d', st') from h1]
      exact hk k
    · rw [show decode P N fuel d st false = .error .timeout from h1]
      rfl

/-- Bits that leave the interval in the lower half produce nothing. -/
theorem decode_quiet {d : Dec} {st : σ} {bit : Bool} (h : ¬ ((d.shift N).low * 2 < half N ∧ half N < (d.shift N).high * 2))
    (k : ℕ) : decode P N (k + 1) d st bit = .ok ([], (d.shift N).push bit, st) := by
  rw [decode, decodeLoop]
  rw [if_neg (by simpa [Dec.push] using h)]
  rfl

end Diverge

/-! ## Models with rational probabilities, in integers -/

/-- A model whose probability of zero is a rational function of what it has seen (most recent symbol first). -/
structure Rational {σ : Type} (P : Predictor σ Bool) (num den : List Bool → ℕ) where
  rep : List Bool → σ → Prop
  den_pos : ∀ h, 0 < den h
  update : ∀ h s b, rep h s → ∃ r s', P.update s b [] 1 = .ok (r, s') ∧ rep (b :: h) s' ∧
    encP r b = (num h : ℝ) / (den h : ℝ)
  predict : ∀ h s, rep h s → ∃ q s', P.logPredict s false [] = .ok (q, s') ∧ rep h s' ∧
    Real.exp q = (num h : ℝ) / (den h : ℝ)

namespace Sim

variable (num den : List Bool → ℕ)

/-- The part of an interval of width `R` that belongs to zero. -/
def cut (R : ℤ) (h : List Bool) : ℤ := R * num h / den h

/-- The encoder's loop in integers. -/
def encodeAll (N fuel : ℕ) : Enc → List Bool → List Bool → Option (List Bool × Enc × List Bool)
  | s, h, [] => some ([], s, h)
  | s, h, b :: bs =>
    if s.high - s.low < 0 then none
    else
      match normLoop N fuel (if b then { s with low := s.low + max 1 (cut num den (s.high - s.low) h) }
          else { s with high := s.low + max 1 (cut num den (s.high - s.low) h) }) with
      | .error _ => none
      | .ok (o, s') =>
        match encodeAll N fuel s' (b :: h) bs with
        | none => none
        | some (o', s'', h'') => some (o ++ o', s'', h'')

def compress (N fuel : ℕ) (bits : List Bool) : Option (List Bool) :=
  match encodeAll num den N fuel (Enc.init N) [] bits with
  | none => none
  | some (o, s, _) => some (o ++ s.flush N)

/-- The decoder's loop in integers. -/
def decodeLoop (N : ℕ) : ℕ → Dec → List Bool → Option (List Bool × Dec × List Bool)
  | 0, _, _ => none
  | k + 1, d, h =>
    if d.low < half N ∧ half N < d.high then
      let split := d.low + cut num den (d.high - d.low) h
      let b : Bool := decide (¬ d.value < split)
      match decodeLoop N k (if b then { d with low := split } else { d with high := split }) (b :: h) with
      | none => none
      | some (o, d', h') => some (b :: o, d', h')
    else some ([], d, h)

def decodeAll (N fuel : ℕ) : Dec → List Bool → List Bool → Option (List Bool × Dec × List Bool)
  | d, h, [] => some ([], d, h)
  | d, h, b :: bs =>
    match decodeLoop num den N fuel ((d.shift N).push b) h with
    | none => none
    | some (o, d', h') =>
      match decodeAll N fuel d' h' bs with
      | none => none
      | some (o', d'', h'') => some (o ++ o', d'', h'')

def flushLoop (N fuel : ℕ) (nbits : ℤ) : ℕ → Dec → List Bool → List Bool → Option (List Bool)
  | 0, _, _, _ => none
  | k + 1, d, h, out =>
    if (out.length : ℤ) < nbits then
      match decodeLoop num den N fuel ((d.shift N).push false) h with
      | none => none
      | some (o, d', h') => flushLoop N fuel nbits k d' h' (out ++ o)
    else some out

def decompress (N fuel : ℕ) (bits : List Bool) (msglen : ℕ) : Option (List Bool) :=
  match decodeAll num den N fuel Dec.init [] bits with
  | none => none
  | some (o, d, h) =>
    match flushLoop num den N fuel ((msglen : ℤ) - (o.length : ℤ)) fuel d h [] with
    | none => none
    | some f => some (o ++ pyTake f ((msglen : ℤ) - (o.length : ℤ)))

/-- After `k` more symbols the loop is stuck. -/
def stuck (N : ℕ) : ℕ → Dec → List Bool → Option (Dec × List Bool)
  | 0, d, h => if d.low < half N ∧ half N < d.high ∧ d.low ≤ d.value then some (d, h) else none
  | k + 1, d, h =>
    if d.low < half N ∧ half N < d.high then
      let split := d.low + cut num den (d.high - d.low) h
      let b : Bool := decide (¬ d.value < split)
      stuck N k (if b then { d with low := split } else { d with high := split }) (b :: h)
    else none

variable {num den} {σ : Type} {P : Predictor σ Bool}

theorem pyInt_cut {R : ℤ} (hR : 0 ≤ R) {h : List Bool} (hd : 0 < den h) :
    pyInt ((R : ℝ) * ((num h : ℝ) / (den h : ℝ))) = cut num den R h := by
  have hR' : (0 : ℝ) ≤ R := by exact_mod_cast hR
  have hD : (0 : ℤ) < (den h : ℤ) := by exact_mod_cast hd
  have hDc : (0 : ℝ) < (den h : ℝ) := by exact_mod_cast hd
  unfold pyInt cut
  rw [if_pos (by positivity), Int.floor_eq_iff]
  have e : (R : ℝ) * ((num h : ℝ) / (den h : ℝ)) = ((R * num h : ℤ) : ℝ) / (den h : ℝ) := by
    push_cast
    ring
  rw [e, le_div_iff₀ hDc, div_lt_iff₀ hDc]
  constructor
  · exact_mod_cast Int.ediv_mul_le _ hD.ne'
  · exact_mod_cast Int.lt_ediv_add_one_mul_self _ hD

theorem encodeAll_sound (hP : Rational P num den) {N fuel : ℕ} {s s' : Enc} {h h' bits o : List Bool}
    (he : encodeAll num den N fuel s h bits = some (o, s', h')) {st : σ} (hr : hP.rep h st) :
    ∃ st', AC.encodeAll P N fuel s st bits = .ok (o, s', st') ∧ hP.rep h' st' := by
  induction bits generalizing s h o st with
  | nil =>
    simp only [encodeAll, Option.some.injEq, Prod.mk.injEq] at he
    obtain ⟨rfl, rfl, rfl⟩ := he
    exact ⟨st, rfl, hr⟩
  | cons b bs ih =>
    rw [encodeAll] at he
    by_cases hR : s.high - s.low < 0
    · rw [if_pos hR] at he
      simp at he
    rw [if_neg hR] at he
    obtain ⟨r, st1, h1, h1', h2⟩ := hP.update h st b hr
    have hsp : encSplit s.low s.high (encP r b) = s.low + max 1 (cut num den (s.high - s.low) h) := by
      rw [h2, encSplit, pyInt_cut (by omega) (hP.den_pos h)]
    have hE : encodeWith N fuel s (encP r b) b = normLoop N fuel (if b then
        { s with low := s.low + max 1 (cut num den (s.high - s.low) h) } else
        { s with high := s.low + max 1 (cut num den (s.high - s.low) h) }) := by
      rw [encodeWith, hsp]
    cases hn : normLoop N fuel (if b then
        { s with low := s.low + max 1 (cut num den (s.high - s.low) h) } else
        { s with high := s.low + max 1 (cut num den (s.high - s.low) h) }) with
    | error e => simp [hn] at he
    | ok v =>
      obtain ⟨o1, s1⟩ := v
      rw [hn] at he
      simp only at he
      cases hr2 : encodeAll num den N fuel s1 (b :: h) bs with
      | none => simp [hr2] at he
      | some v =>
        obtain ⟨o2, s2, k⟩ := v
        rw [hr2] at he
        simp only [Option.some.injEq, Prod.mk.injEq] at he
        obtain ⟨rfl, rfl, rfl⟩ := he
        obtain ⟨st2, h3, h4⟩ := ih hr2 h1'
        refine ⟨st2, ?_, h4⟩
        rw [hn] at hE
        simp only [AC.encodeAll, encode, h1, liftRun, ok_bind, hE, pure_eq_ok, h3]

theorem compress_sound (hP : Rational P num den) {N fuel : ℕ} {bits c : List Bool}
    (h : compress num den N fuel bits = some c) {st : σ} (hr : hP.rep [] st) : AC.compress P N fuel st bits = .ok c := by
  unfold compress at h
  cases hr2 : encodeAll num den N fuel (Enc.init N) [] bits with
  | none => simp [hr2] at h
  | some v =>
    obtain ⟨o, s, m⟩ := v
    rw [hr2] at h
    simp only [Option.some.injEq] at h
    subst h
    obtain ⟨st', h1, _⟩ := encodeAll_sound hP hr2 hr
    simp only [AC.compress, h1, ok_bind, pure_eq_ok]

theorem loop_step (hP : Rational P num den) {N : ℕ} {d : Dec} {h : List Bool} {st : σ} (hr : hP.rep h st)
    (hc : d.low < half N ∧ half N < d.high) :
    ∃ st2, hP.rep (decide (¬ d.value < d.low + cut num den (d.high - d.low) h) :: h) st2 ∧ ∀ k,
      AC.decodeLoop P N (k + 1) d st = (do
        let (o, d', st') ← AC.decodeLoop P N k
          (if decide (¬ d.value < d.low + cut num den (d.high - d.low) h) then
            { d with low := d.low + cut num den (d.high - d.low) h } else
            { d with high := d.low + cut num den (d.high - d.low) h }) st2
        pure (decide (¬ d.value < d.low + cut num den (d.high - d.low) h) :: o, d', st')) := by
  obtain ⟨q, st1, h1, h1', h2⟩ := hP.predict h st hr
  have hs : decSplit d.low d.high (Real.exp q) = d.low + cut num den (d.high - d.low) h := by
    rw [decSplit, h2, pyInt_cut (by omega) (hP.den_pos h)]
  obtain ⟨r, st2, h3, h4, _⟩ := hP.update h st1 (decide (¬ d.value < d.low + cut num den (d.high - d.low) h)) h1'
  refine ⟨st2, h4, fun k => ?_⟩
  rw [AC.decodeLoop, if_pos hc]
  simp only [h1, liftRun, ok_bind, hs, h3]

theorem decodeLoop_sound (hP : Rational P num den) {N k : ℕ} {d d' : Dec} {h h' o : List Bool}
    (hd : decodeLoop num den N k d h = some (o, d', h')) {st : σ} (hr : hP.rep h st) :
    ∃ st', AC.decodeLoop P N k d st = .ok (o, d', st') ∧ hP.rep h' st' := by
  induction k generalizing d h o st with
  | zero => simp [decodeLoop] at hd
  | succ k ih =>
    rw [decodeLoop] at hd
    by_cases hc : d.low < half N ∧ half N < d.high
    · rw [if_pos hc] at hd
      obtain ⟨st2, h1, h2⟩ := loop_step hP hr hc
      rw [h2]
      simp only at hd
      generalize decide (¬ d.value < d.low + cut num den (d.high - d.low) h) = b at *
      cases hr2 : decodeLoop num den N k (if b then { d with low := d.low + cut num den (d.high - d.low) h } else
          { d with high := d.low + cut num den (d.high - d.low) h }) (b :: h) with
      | none => simp [hr2] at hd
      | some v =>
        obtain ⟨o2, d2, k2⟩ := v
        rw [hr2] at hd
        simp only [Option.some.injEq, Prod.mk.injEq] at hd
        obtain ⟨rfl, rfl, rfl⟩ := hd
        obtain ⟨st3, h4, h5⟩ := ih hr2 h1
        exact ⟨st3, by simp only [h4, ok_bind, pure_eq_ok], h5⟩
    · rw [if_neg hc] at hd
      rw [AC.decodeLoop, if_neg hc]
      simp only [Option.some.injEq, Prod.mk.injEq] at hd
      obtain ⟨rfl, rfl, rfl⟩ := hd
      exact ⟨st, rfl, hr⟩

theorem decodeAll_sound (hP : Rational P num den) {N fuel : ℕ} {d d' : Dec} {h h' bits o : List Bool}
    (hd : decodeAll num den N fuel d h bits = some (o, d', h')) {st : σ} (hr : hP.rep h st) :
    ∃ st', AC.decodeAll P N fuel d st bits = .ok (o, d', st') ∧ hP.rep h' st' := by
  induction bits generalizing d h o st with
  | nil =>
    simp only [decodeAll, Option.some.injEq, Prod.mk.injEq] at hd
    obtain ⟨rfl, rfl, rfl⟩ := hd
    exact ⟨st, rfl, hr⟩
  | cons b bs ih =>
    rw [decodeAll] at hd
    cases hr1 : decodeLoop num den N fuel ((d.shift N).push b) h with
    | none => simp [hr1] at hd
    | some v =>
      obtain ⟨o1, d1, k1⟩ := v
      rw [hr1] at hd
      simp only at hd
      cases hr2 : decodeAll num den N fuel d1 k1 bs with
      | none => simp [hr2] at hd
      | some v =>
        obtain ⟨o2, d2, k2⟩ := v
        rw [hr2] at hd
        simp only [Option.some.injEq, Prod.mk.injEq] at hd
        obtain ⟨rfl, rfl, rfl⟩ := hd
        obtain ⟨st1, h1, i1⟩ := decodeLoop_sound hP hr1 hr
        obtain ⟨st2, h2, i2⟩ := ih hr2 i1
        exact ⟨st2, by simp only [AC.decodeAll, decode, h1, ok_bind, h2, pure_eq_ok], i2⟩

theorem flushLoop_sound (hP : Rational P num den) {N fuel k : ℕ} {nbits : ℤ} {d : Dec} {h out f : List Bool}
    (hd : flushLoop num den N fuel nbits k d h out = some f) {st : σ} (hr : hP.rep h st) :
    AC.flushLoop P N fuel nbits k d st out = .ok f := by
  induction k generalizing d h out st with
  | zero => simp [flushLoop] at hd
  | succ k ih =>
    rw [flushLoop] at hd
    rw [AC.flushLoop]
    split_ifs at hd ⊢ with hc
    · cases hr1 : decodeLoop num den N fuel ((d.shift N).push false) h with
      | none => simp [hr1] at hd
      | some v =>
        obtain ⟨o1, d1, k1⟩ := v
        rw [hr1] at hd
        simp only at hd
        obtain ⟨st1, h1, i1⟩ := decodeLoop_sound hP hr1 hr
        simp only [decode, h1, ok_bind]
        exact ih hd i1
    · simp only [Option.some.injEq] at hd
      rw [hd]
      rfl

theorem decompress_sound (hP : Rational P num den) {N fuel : ℕ} {bits r : List Bool} {n : ℕ}
    (h : decompress num den N fuel bits n = some r) {st : σ} (hr : hP.rep [] st) :
    AC.decompress P N fuel st bits n = .ok r := by
  unfold decompress at h
  cases hr1 : decodeAll num den N fuel Dec.init [] bits with
  | none => simp [hr1] at h
  | some v =>
    obtain ⟨o, d, m⟩ := v
    rw [hr1] at h
    simp only at h
    cases hr2 : flushLoop num den N fuel ((n : ℤ) - (o.length : ℤ)) fuel d m [] with
    | none => simp [hr2] at h
    | some f =>
      rw [hr2] at h
      simp only [Option.some.injEq] at h
      subst h
      obtain ⟨st1, h1, i1⟩ := decodeAll_sound hP hr1 hr
      simp only [AC.decompress, h1, ok_bind, flushLoop_sound hP hr2 i1, pure_eq_ok]

theorem stuck_sound (hP : Rational P num den) {N k : ℕ} {d d' : Dec} {h h' : List Bool}
    (hs : stuck num den N k d h = some (d', h'))
    (hk : ∀ n, (d'.high - d'.low) * num (List.replicate n true ++ h') < den (List.replicate n true ++ h')) {st : σ}
    (hr : hP.rep h st) (fuel : ℕ) : AC.decodeLoop P N fuel d st = .error .timeout := by
  induction k generalizing d h st fuel with
  | zero =>
    simp only [stuck] at hs
    split_ifs at hs with hc
    simp only [Option.some.injEq, Prod.mk.injEq] at hs
    obtain ⟨rfl, rfl⟩ := hs
    obtain ⟨h1, h2, h3⟩ := hc
    refine decodeLoop_stuck (fun t => ∃ n, hP.rep (List.replicate n true ++ h) t) ⟨h1, h2⟩ h3 ?_ ⟨0, hr⟩ fuel
    rintro t ⟨n, hn⟩
    obtain ⟨q, t1, g1, g2, g3⟩ := hP.predict _ t hn
    obtain ⟨r, t2, g4, g5, _⟩ := hP.update _ t1 true g2
    refine ⟨q, t1, r, t2, g1, ?_, g4, n + 1, g5⟩
    rw [g3, mul_div_assoc', div_lt_one (by exact_mod_cast hP.den_pos _)]
    exact_mod_cast hk n
  | succ k ih =>
    simp only [stuck] at hs
    by_cases hc : d.low < half N ∧ half N < d.high
    · rw [if_pos hc] at hs
      cases fuel with
      | zero => rfl
      | succ fuel =>
        obtain ⟨st2, h1, h2⟩ := loop_step hP hr hc
        rw [h2, ih hs h1 fuel]
        rfl
    · rw [if_neg hc] at hs
      simp at hs

end Sim

/-! ## `ctw.KT` -/

namespace KTI

/-- A binary `ctw.KT` that has seen `n0` zeros and `n1` ones. -/
noncomputable def state (n0 n1 : ℕ) (lp : ℝ) : CKT Bool := ⟨[(false, (n0 : ℝ) + 1 / 2), (true, (n1 : ℝ) + 1 / 2)], lp⟩

def num (h : List Bool) : ℕ := 2 * h.count false + 1

def den (h : List Bool) : ℕ := 2 * (h.count false + h.count true + 1)

theorem update_eq (n0 n1 : ℕ) (lp : ℝ) (b : Bool) :
    ∃ r lp', (CKT.probSeq (α := Bool)).toPredictor.update (state n0 n1 lp) b [] 1 =
      .ok (r, state (if b then n0 else n0 + 1) (if b then n1 + 1 else n1) lp') ∧
      encP r b = (2 * n0 + 1) / (2 * (n0 + n1 + 1)) := by
  have h0 : (0 : ℝ) < (n0 : ℝ) + 1 / 2 := by positivity
  have h1 : (0 : ℝ) < (n1 : ℝ) + 1 / 2 := by positivity
  have hs : (0 : ℝ) < (n0 : ℝ) + 1 / 2 + ((n1 : ℝ) + 1 / 2) := by positivity
  change ∃ r lp', (state n0 n1 lp).update b 1 = _ ∧ _
  cases b with
  | false =>
    refine ⟨Real.log ((n0 : ℝ) + 1 / 2) - Real.log ((n0 : ℝ) + 1 / 2 + ((n1 : ℝ) + 1 / 2)),
      lp + (Real.log ((n0 : ℝ) + 1 / 2) - Real.log ((n0 : ℝ) + 1 / 2 + ((n1 : ℝ) + 1 / 2))), ?_, ?_⟩
    · simp only [CKT.update, CKT.logPredict, state, PyDict.getE, PyDict.get?, PyDict.set, PyDict.values]
      simp [-one_div, pyLog_of_pos h0, pyLog_of_pos hs]
      ring
    · simp only [encP, Bool.false_eq_true, if_false]
      rw [Real.exp_sub, Real.exp_log h0, Real.exp_log hs]
      field_simp
      ring
  | true =>
    refine ⟨Real.log ((n1 : ℝ) + 1 / 2) - Real.log ((n0 : ℝ) + 1 / 2 + ((n1 : ℝ) + 1 / 2)),
      lp + (Real.log ((n1 : ℝ) + 1 / 2) - Real.log ((n0 : ℝ) + 1 / 2 + ((n1 : ℝ) + 1 / 2))), ?_, ?_⟩
    · simp only [CKT.update, CKT.logPredict, state, PyDict.getE, PyDict.get?, PyDict.set, PyDict.values]
      simp [-one_div, pyLog_of_pos h1, pyLog_of_pos hs]
      ring
    · simp only [encP, if_true]
      rw [Real.exp_sub, Real.exp_log h1, Real.exp_log hs]
      field_simp
      ring

theorem predict_eq (n0 n1 : ℕ) (lp : ℝ) :
    ∃ q, (CKT.probSeq (α := Bool)).toPredictor.logPredict (state n0 n1 lp) false [] = .ok (q, state n0 n1 lp) ∧
      Real.exp q = (2 * n0 + 1) / (2 * (n0 + n1 + 1)) := by
  have h0 : (0 : ℝ) < (n0 : ℝ) + 1 / 2 := by positivity
  have hs : (0 : ℝ) < (n0 : ℝ) + 1 / 2 + ((n1 : ℝ) + 1 / 2) := by positivity
  refine ⟨Real.log ((n0 : ℝ) + 1 / 2) - Real.log ((n0 : ℝ) + 1 / 2 + ((n1 : ℝ) + 1 / 2)), ?_, ?_⟩
  · simp only [ProbSeq.toPredictor, CKT.probSeq, CKT.logPredict, state, PyDict.getE, PyDict.get?, PyDict.values]
    simp [-one_div, pyLog_of_pos h0, pyLog_of_pos hs]
  · rw [Real.exp_sub, Real.exp_log h0, Real.exp_log hs]
    field_simp
    ring

theorem init_eq : CKT.init [false, true] none = .ok (state 0 0 0) := by
  rw [CKT.init_default (by simp) (by simp)]
  simp [state]

/-- `ctw.KT` in integers. -/
noncomputable def rational : Rational (CKT.probSeq (α := Bool)).toPredictor num den where
  rep h s := ∃ lp, s = state (h.count false) (h.count true) lp
  den_pos h := by unfold den; omega
  update := by
    rintro h s b ⟨lp, rfl⟩
    obtain ⟨r, lp', h1, h2⟩ := update_eq (h.count false) (h.count true) lp b
    refine ⟨r, _, h1, ⟨lp', ?_⟩, ?_⟩
    · cases b <;> simp
    · rw [h2]
      simp [num, den]
  predict := by
    rintro h s ⟨lp, rfl⟩
    obtain ⟨q, h1, h2⟩ := predict_eq (h.count false) (h.count true) lp
    refine ⟨q, _, h1, ⟨lp, rfl⟩, ?_⟩
    rw [h2]
    simp [num, den]

/-- The code of the message 1 1. -/
theorem compress_11 : Sim.compress num den 32 3 [true, true] = some [true, true, false] := by decide +kernel

theorem read_110 : Sim.decodeAll num den 32 1 Dec.init [] [true, true, false] = some ([], ⟨0, 8, 6⟩, []) := by
  decide +kernel

/-- Where decoding the second symbol ends up: the interval has width 12 and zero has probability 11/144. -/
theorem stuck_11 : (Sim.stuck num den 32 70 ⟨0, 2 ^ 32, 2 ^ 31⟩ [true]).map
    (fun x => (x.1.high - x.1.low, x.2.count false, x.2.count true)) = some (12, 5, 66) := by decide +kernel

theorem flush_hangs (fuel k : ℕ) (lp : ℝ) :
    AC.flushLoop (CKT.probSeq (α := Bool)).toPredictor 32 fuel 2 k ⟨0, 8, 6⟩ (state 0 0 lp) [] = .error .timeout := by
  have hh : half 32 = 2 ^ 31 := half_succ 31
  have hq : quarter 32 = 2 ^ 30 := quarter_succ 30
  -- the first symbol
  have last : ∀ lp k, AC.flushLoop (CKT.probSeq (α := Bool)).toPredictor 32 fuel 2 k ⟨0, 2 ^ 31, 6 * 2 ^ 28⟩ (state 0 0 lp) [] =
      .error .timeout := by
    intro lp
    have h1 : Sim.decodeLoop num den 32 2 ⟨0, 2 ^ 32, 6 * 2 ^ 29⟩ [] =
        some ([true], ⟨2 ^ 31, 2 ^ 32, 6 * 2 ^ 29⟩, [true]) := by decide +kernel
    obtain ⟨st1, h2, h3⟩ := Sim.decodeLoop_sound rational h1 ⟨lp, rfl⟩
    refine flushLoop_step_diverges (f0 := 2) (by simp) (d' := ⟨2 ^ 31, 2 ^ 32, 6 * 2 ^ 29⟩) (st' := st1) (o := [true]) ?_ ?_
    · rw [decode, ← h2]
      congr 1
    · intro k
      refine flushLoop_diverges (by simp) (fun f => ?_) fuel k
      rw [decode]
      have e : (Dec.push (Dec.shift 32 ⟨2 ^ 31, 2 ^ 32, 6 * 2 ^ 29⟩) false) = ⟨0, 2 ^ 32, 2 ^ 31⟩ := by
        unfold Dec.shift
        simp only
        rw [if_pos (by rw [hh])]
        simp only [Dec.push, Dec.mk.injEq, hh]
        norm_num
      rw [e]
      cases hs : Sim.stuck num den 32 70 ⟨0, 2 ^ 32, 2 ^ 31⟩ [true] with
      | none =>
        have := stuck_11
        rw [hs] at this
        simp at this
      | some x =>
        obtain ⟨d, h⟩ := x
        have h11 := stuck_11
        rw [hs] at h11
        simp only [Option.map_some, Option.some.injEq, Prod.mk.injEq] at h11
        obtain ⟨e1, e2, e3⟩ := h11
        refine Sim.stuck_sound rational hs (fun n => ?_) h3 f
        rw [e1]
        simp only [num, den, List.count_append, e2, e3, List.count_replicate]
        simp
        omega
  have step : ∀ i, i ≤ 28 → ∀ lp k, AC.flushLoop (CKT.probSeq (α := Bool)).toPredictor 32 fuel 2 k
      ⟨0, 2 ^ (3 + (28 - i)), 6 * 2 ^ (28 - i)⟩ (state 0 0 lp) [] = .error .timeout := by
    intro i
    induction i with
    | zero => intro _; exact last
    | succ i ih =>
      intro hi lp
      have hpos : (0 : ℤ) < 2 ^ (28 - (i + 1)) := by positivity
      have hlt : (2 : ℤ) ^ (3 + (28 - i)) ≤ 2 ^ 31 := pow_le_pow_right₀ (by norm_num) (by omega)
      have e1 : (2 : ℤ) ^ (3 + (28 - i)) = 2 ^ (3 + (28 - (i + 1))) * 2 := by
        rw [← pow_succ]
        congr 1
        omega
      have e2 : (2 : ℤ) ^ (28 - i) = 2 ^ (28 - (i + 1)) * 2 := by
        rw [← pow_succ]
        congr 1
        omega
      have hshift : Dec.shift 32 ⟨0, 2 ^ (3 + (28 - (i + 1))), 6 * 2 ^ (28 - (i + 1))⟩ =
          ⟨0, 2 ^ (3 + (28 - (i + 1))), 6 * 2 ^ (28 - (i + 1))⟩ := by
        unfold Dec.shift
        simp only
        rw [if_neg (by rw [hh]; norm_num), if_neg (by rw [hq]; norm_num)]
      refine flushLoop_step_diverges (f0 := 1) (by simp) (decode_quiet (by
        rw [hshift, hh]
        simp only
        omega) 0) ?_
      rw [hshift]
      have := ih (by omega) lp
      simp only [Dec.push, Bool.toNat_false, List.append_nil]
      rw [← e1, zero_mul, Nat.cast_zero, add_zero, mul_assoc, ← e2]
      exact this
  have := step 28 le_rfl lp k
  norm_num at this
  exact this

end KTI

end AC

namespace CCTW

variable {σ α : Type} [DecidableEq α] {Q : ProbSeq σ α} {fresh : σ} {d : ℕ} {zero : α}

/-- `log_predict` has no observable effect. -/
theorem predict_indist (hQ : Q.Tracks) (hL : ∀ s a r t, Q.logPredict s a = .ok (r, t) → Q.lp t = Q.lp s)
    (hP : Q.toPredictor.PurePredict) (hf : Q.lp fresh = 0) {s t : CCTW σ α} {m : CTWNode σ α}
    (hr : CCTWNode.Rel Q d s.tree m) {a : α} {h : List α} {r : ℝ}
    (hp : (probSeq Q fresh d zero).toPredictor.logPredict s a h = .ok (r, t)) :
    Indist (probSeq Q fresh d zero).toPredictor s t := by
  have hB := CTWNode.eqvAll_bisimulation (P := Q.toPredictor) (fresh := fresh) (recent d zero)
  refine ⟨fun s t => s.history = t.history ∧ ∃ m m', CCTWNode.Rel Q d s.tree m ∧ CCTWNode.Rel Q d t.tree m' ∧
    CTWNode.EqvAll Q.toPredictor fresh m m', ?_, ?_⟩
  · rintro s t ⟨hh, m, m', h1, h2, h3⟩
    constructor
    · intro a h w
      change SameResult _ (s.update Q fresh d zero a w) (t.update Q fresh d zero a w)
      have hb := (hB m m' h3).1 a s.history w
      rcases corrRes_cases (corr_update (zero := zero) hQ hf h1 a w) with ⟨e, g1, g2⟩ | ⟨r, s', x, g1, g2, g3, g4⟩ <;>
        rcases corrRes_cases (corr_update (zero := zero) hQ hf h2 a w) with ⟨e', k1, k2⟩ | ⟨r', t', y, k1, k2, k3, k4⟩ <;>
        rw [g2, hh, k2] at hb <;> rw [g1, k1]
      · exact hb
      · exact hb
      · exact hb
      · exact ⟨hb.1, by rw [g4, k4, hh], x, y, g3, k3, hb.2⟩
    · intro a h
      change SameResult _ (s.logPredict Q fresh d zero a) (t.logPredict Q fresh d zero a)
      have hb := (hB m m' h3).2 a s.history
      rcases corrRes_cases (corr_predict (zero := zero) hL hf h1 a) with ⟨e, g1, g2⟩ | ⟨r, s', x, g1, g2, g3, g4, _⟩ <;>
        rcases corrRes_cases (corr_predict (zero := zero) hL hf h2 a) with ⟨e', k1, k2⟩ | ⟨r', t', y, k1, k2, k3, k4, _⟩ <;>
        rw [g2, hh, k2] at hb <;> rw [g1, k1]
      · exact hb
      · exact hb
      · exact hb
      · exact ⟨hb.1, by rw [g4, k4, hh], x, y, g3, k3, hb.2⟩
  · have hp' : s.logPredict Q fresh d zero a = .ok (r, t) := hp
    rcases corrRes_cases (corr_predict (zero := zero) hL hf hr a) with ⟨e, g1, _⟩ | ⟨r', s', x, g1, g2, g3, g4, _⟩
    · rw [hp'] at g1; simp at g1
    · rw [hp'] at g1
      simp only [Except.ok.injEq, Prod.mk.injEq] at g1
      obtain ⟨rfl, rfl⟩ := g1
      exact ⟨g4.symm, m, x, hr, g3, CTWNode.logPredict_eqv hP g2⟩

end CCTW

end Verif
