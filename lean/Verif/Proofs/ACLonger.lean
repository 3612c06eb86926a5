import Verif.Proofs.ACTotal

/-! The decoder ends when the last symbol of the message made the code longer; it also ends when the code ends with a one
and the model never gives zero too little. -/

namespace Verif

open Predictor

namespace AC

variable {σ : Type} {P : Predictor σ Bool} {N : ℕ} {I : σ → Prop} {W : ℝ → Prop}

/-- A trace in which at least one bit follows the last symbol before the end, or the end of the code points to the first
quarter and the model never gives zero less than one over a quarter of the range. -/
inductive Closed (P : Predictor σ Bool) (I : σ → Prop) (N : ℕ) (S : ℤ → ℤ → ℝ → ℤ) : ℤ → ℤ → σ → List Bool → List Bool → Prop
  | stop {low high : ℤ} {st : σ} {out : List Bool} : high ≤ half N ∨ half N ≤ low → Closed P I N S low high st [] out
  | low {low high : ℤ} {st : σ} {out : List Bool} :
      (∀ s r t, I s → P.logPredict s false [] = .ok (r, t) → 1 ≤ (quarter N : ℝ) * Real.exp r) → low ≤ win N out →
      win N out ≤ quarter N → Closed P I N S low high st [] out
  | zero {low high : ℤ} {st : σ} {syms out : List Bool} : high ≤ half N → Closed P I N S (low * 2) (high * 2) st syms out →
      Closed P I N S low high st syms (false :: out)
  | one {low high : ℤ} {st : σ} {syms out : List Bool} : half N ≤ low →
      Closed P I N S ((low - half N) * 2) ((high - half N) * 2) st syms out → Closed P I N S low high st syms (true :: out)
  | sym {low high split : ℤ} {st st' : σ} {r : ℝ} {b : Bool} {syms out : List Bool} : low < half N → half N < high →
      P.update st b [] 1 = .ok (r, st') → split = S low high (encP r b) →
      Closed P I N S (if b then split else low) (if b then high else split) st' syms out →
      Closed P I N S low high st (b :: syms) out

/-- Nothing is left to decode, and the code is not at its end; or the trace is closed. -/
def Going (P : Predictor σ Bool) (I : σ → Prop) (N : ℕ) (low high : ℤ) (st : σ) (syms out : List Bool) : Prop :=
  Closed P I N decSplit low high st syms out ∨ (syms = [] ∧ N ≤ out.length)

/-- The decoder's loop ends if the value is in the first quarter and zero never has too little. -/
theorem decodeLoop_low (hN : 2 ≤ N) (hP : P.Lawful I [false, true] W) (hw : W 1)
    (hp : ∀ s r t, I s → P.logPredict s false [] = .ok (r, t) → 1 ≤ (quarter N : ℝ) * Real.exp r) {fuel : ℕ} {d : Dec} {t : σ}
    (ht : I t) (hv : d.low ≤ d.value) (hq : d.value ≤ quarter N) (hf : (d.high - d.low).toNat < fuel) :
    ∃ ys d' t', decodeLoop P N fuel d t = .ok (ys, d', t') := by
  induction fuel generalizing d t with
  | zero => omega
  | succ fuel ih =>
    rw [decodeLoop]
    have hh := half_eq hN
    have hq0 := quarter_pos hN
    split_ifs with hc
    · obtain ⟨q, t1, h1, i1⟩ := hP.predict_ok t false [] ht (by simp)
      have hq1 := (exp_predict_lt hP ht h1).1
      have hq2 := hp t q t1 ht h1
      have g1 : 1 ≤ pyInt (((d.high - d.low : ℤ) : ℝ) * Real.exp q) := by
        apply one_le_pyInt
        have : (quarter N : ℝ) ≤ ((d.high - d.low : ℤ) : ℝ) := by exact_mod_cast (by omega : quarter N ≤ d.high - d.low)
        nlinarith [Real.exp_pos q]
      have g2 := pyInt_lt (R := d.high - d.low) (by omega) hq1
      obtain ⟨r, t2, h2, i2⟩ := hP.update_ok t1 (decide (¬ d.value < decSplit d.low d.high (Real.exp q))) [] 1 i1
        (by cases decide (¬ d.value < decSplit d.low d.high (Real.exp q)) <;> simp) hw
      obtain ⟨ys, d', t', h3⟩ := ih (d := if decide (¬ d.value < decSplit d.low d.high (Real.exp q)) then
        { d with low := decSplit d.low d.high (Real.exp q) } else { d with high := decSplit d.low d.high (Real.exp q) })
        i2 (by
          split_ifs with hb
          · simp only [decide_eq_true_eq] at hb
            simp only
            omega
          · exact hv) (by split_ifs <;> exact hq) (by
          unfold decSplit
          split_ifs <;> simp only <;> omega)
      refine ⟨decide (¬ d.value < decSplit d.low d.high (Real.exp q)) :: ys, d', t', ?_⟩
      simp only [h1, h2, liftRun, ok_bind, h3, pure_eq_ok]
    · exact ⟨_, _, _, rfl⟩

theorem decodeLoop_closed (hN : 2 ≤ N) (hP : P.Lawful I [false, true] W) (hw : W 1)
    (hpure : ∀ s r t, I s → P.logPredict s false [] = .ok (r, t) → Indist P s t) {fuel : ℕ} {d : Dec} {t : σ}
    {low high : ℤ} {st : σ} {syms out : List Bool} (hi : DInv P I N low high st syms out d t)
    (ht : I t) (hg : Going P I N low high st syms out) (hf : syms.length + (top N).toNat < fuel) :
    ∃ ys d' t', decodeLoop P N fuel d t = .ok (ys, d', t') ∧ ((∃ low' high' st' rest, syms = ys ++ rest ∧
      DInv P I N low' high' st' rest out d' t' ∧ I t' ∧ (high' ≤ half N ∨ half N ≤ low') ∧
      (Closed P I N decSplit low' high' st' rest out ∨ rest = [])) ∨ (out.length < N ∧ ∃ extra, ys = syms ++ extra)) := by
  induction fuel generalizing d t low high st syms with
  | zero => omega
  | succ fuel ih =>
    rw [decodeLoop]
    have htop := top_eq (N := N) (by omega)
    have hi0 := hi
    obtain ⟨htr, hgood, hind, hlow, hlt, hhigh, hrel⟩ := hi
    split_ifs with hc
    · have hd : d = ⟨low, high, win N out⟩ := by
        rcases hrel with hd | ⟨h1, hd⟩
        · exact hd
        · rw [hd] at hc
          simp only at hc
          omega
      subst hd
      simp only at hc
      cases htr with
      | zero hb _ => omega
      | one hb _ => omega
      | done _ _ _ _ hl =>
        rcases hg with hg | ⟨_, hg⟩
        · cases hg with
          | stop h => omega
          | zero hb _ => omega
          | one hb _ => omega
          | low hp hv hq =>
            obtain ⟨ys, d', t', hd⟩ := decodeLoop_low hN hP hw hp (fuel := fuel + 1) (d := ⟨low, high, win N out⟩) ht hv hq
              (by simp only; omega)
            rw [decodeLoop, if_pos hc] at hd
            exact ⟨ys, d', t', hd, .inr ⟨hl, ys, rfl⟩⟩
        · omega
      | @sym _ _ split _ st' r b syms' _ hl1 hl2 hu hsp hs1 hs2 htr' =>
        obtain ⟨q, t1, h1, i1⟩ := hP.predict_ok t false [] ht (by simp)
        obtain ⟨e1, e2, e3, t2', e4, e5⟩ := decoder_step hP hw hpure hgood hind hu h1
        have hbd := htr'.bounds (by omega)
        have hds : decSplit low high (Real.exp q) = split := by
          rw [hsp, e1]
        have hb : decide (¬ win N out < decSplit low high (Real.exp q)) = b := by
          rw [hds]
          cases b with
          | false =>
            simp only [Bool.false_eq_true, if_false] at hbd
            simp only [decide_eq_false_iff_not]
            omega
          | true =>
            simp only [if_true] at hbd
            simp only [decide_eq_true_eq]
            omega
        have hnew : DInv P I N (if b then split else low) (if b then high else split) st' syms' out
            (if b then ⟨split, high, win N out⟩ else ⟨low, split, win N out⟩) t2' := by
          refine ⟨htr', e3, e5, ?_, ?_, ?_, ?_⟩
          · cases b <;> simp <;> omega
          · cases b <;> simp <;> omega
          · cases b <;> simp <;> omega
          · left
            cases b <;> rfl
        have hgo : Going P I N (if b then split else low) (if b then high else split) st' syms' out := by
          rcases hg with hg | ⟨hg, _⟩
          · cases hg with
            | zero hb _ => omega
            | one hb _ => omega
            | @sym _ _ split2 _ st2 r2 _ _ _ _ _ hu2 hsp2 hcl =>
              rw [hu] at hu2
              simp only [Except.ok.injEq, Prod.mk.injEq] at hu2
              obtain ⟨rfl, rfl⟩ := hu2
              rw [← hsp] at hsp2
              subst hsp2
              exact .inl hcl
          · simp at hg
        obtain ⟨r2, t3, e6, i2⟩ := hP.update_ok t1 b [] 1 i1 (by cases b <;> simp) hw
        rw [e4] at e6
        simp only [Except.ok.injEq, Prod.mk.injEq] at e6
        obtain ⟨rfl, rfl⟩ := e6
        obtain ⟨ys, d', t', k1, k2⟩ := ih hnew i2 hgo (by
          simp only [List.length_cons] at hf
          omega)
        refine ⟨b :: ys, d', t', ?_, ?_⟩
        · rw [hds] at hb
          simp only [h1, liftRun, ok_bind, hds, hb, e4, k1, pure_eq_ok]
        · rcases k2 with ⟨l, h, s, rest, k2, k3⟩ | ⟨k2, extra, k3⟩
          · exact .inl ⟨l, h, s, rest, by rw [k2]; rfl, k3⟩
          · exact .inr ⟨k2, extra, by rw [k3]; rfl⟩
    · refine ⟨[], d, t, rfl, .inl ⟨low, high, st, syms, rfl, hi0, ht, ?_, ?_⟩⟩
      · rcases hrel with hd | ⟨h1, hd⟩
        · rw [hd] at hc
          simp only at hc
          omega
        · exact .inr h1
      · rcases hg with hg | ⟨hg, _⟩
        · exact .inl hg
        · exact .inr hg

/-- Reading a bit keeps a trace with symbols to come closed. -/
theorem push_closed (hN : 2 ≤ N) {low high : ℤ} {st t : σ} {syms out : List Bool} {d : Dec}
    (hi : DInv P I N low high st syms out d t) (hns : high ≤ half N ∨ half N ≤ low)
    (hcl : Closed P I N decSplit low high st syms out ∨ syms = []) :
    ∃ c out' low' high', out = c :: out' ∧
      DInv P I N low' high' st syms out' ((d.shift N).push (out.getD N false)) t ∧
      (Closed P I N decSplit low' high' st syms out' ∨ syms = []) := by
  obtain ⟨c, out', l, h, rfl, h2, h3⟩ := push_cases hN hi hns
  refine ⟨c, out', l, h, rfl, h2, ?_⟩
  rcases hcl with hcl | hcl
  · have hlt := hi.lt
    rcases h3 with ⟨rfl, h4, rfl, rfl⟩ | ⟨rfl, h4, rfl, rfl⟩
    · cases hcl with
      | stop _ => exact .inr rfl
      | low _ _ _ => exact .inr rfl
      | zero _ hcl => exact .inl hcl
      | sym h1 h2 => omega
    · cases hcl with
      | stop _ => exact .inr rfl
      | low _ _ _ => exact .inr rfl
      | one _ hcl => exact .inl hcl
      | sym h1 h2 => omega
  · exact .inr hcl

theorem decodeAll_closed (hN : 2 ≤ N) (hP : P.Lawful I [false, true] W) (hw : W 1)
    (hpure : ∀ s r t, I s → P.logPredict s false [] = .ok (r, t) → Indist P s t) {fuel : ℕ} {bits : List Bool}
    {low high : ℤ} {st t : σ} {syms out : List Bool} {d : Dec} (hi : DInv P I N low high st syms out d t) (ht : I t)
    (hns : high ≤ half N ∨ half N ≤ low) (hcl : Closed P I N decSplit low high st syms out ∨ syms = [])
    (hb : out.drop N = bits) (hf : syms.length + (top N).toNat < fuel) :
    ∃ ys d' t' low' high' st' rest out', decodeAll P N fuel d t bits = .ok (ys, d', t') ∧ syms = ys ++ rest ∧
      DInv P I N low' high' st' rest out' d' t' ∧ I t' ∧ (high' ≤ half N ∨ half N ≤ low') ∧ out'.length ≤ N ∧
      (Closed P I N decSplit low' high' st' rest out' ∨ rest = []) := by
  induction bits generalizing d t low high st syms out with
  | nil => exact ⟨[], d, t, low, high, st, syms, out, rfl, rfl, hi, ht, hns, List.drop_eq_nil_iff.mp hb, hcl⟩
  | cons b bs ih =>
    obtain ⟨g1, g2, g3⟩ := getD_drop hb
    obtain ⟨c, out', l', h', rfl, hi', hcl'⟩ := push_closed hN hi hns hcl
    rw [g1] at hi'
    simp only [List.length_cons] at g2
    have hgo : Going P I N l' h' st syms out' := by
      rcases hcl' with h | h
      · exact .inl h
      · exact .inr ⟨h, by omega⟩
    obtain ⟨ys, d1, t1, k1, ⟨l1, h1, st1, rest, k2, k3, k3', k4, k5⟩ | ⟨k2, -⟩⟩ := decodeLoop_closed hN hP hw hpure hi' ht hgo hf
    · obtain ⟨ys2, d2, t2, l2, h2, st2, rest2, out2, m1, m2, m3, m3', m4, m5, m6⟩ := ih k3 k3' k4 k5 (by simpa using g3) (by
        rw [k2] at hf
        simp only [List.length_append] at hf
        omega)
      refine ⟨ys ++ ys2, d2, t2, l2, h2, st2, rest2, out2, ?_, by rw [k2, m2, List.append_assoc], m3, m3', m4, m5, m6⟩
      simp only [decodeAll, decode, k1, ok_bind, m1, pure_eq_ok]
    · omega

theorem flushLoop_closed (hN : 2 ≤ N) (hP : P.Lawful I [false, true] W) (hw : W 1)
    (hpure : ∀ s r t, I s → P.logPredict s false [] = .ok (r, t) → Indist P s t) {fuel k : ℕ} {d : Dec} {t : σ}
    {acc rest : List Bool} {n : ℕ} {low high : ℤ} {st : σ} {out : List Bool} (hi : DInv P I N low high st rest out d t) (ht : I t)
    (hns : high ≤ half N ∨ half N ≤ low) (hcl : Closed P I N decSplit low high st rest out ∨ rest = [])
    (hl : out.length ≤ N) (hn : n = (acc ++ rest).length) (hf : rest.length + (top N).toNat < fuel) (hk : out.length + 1 < k) :
    ∃ f, flushLoop P N fuel n k d t acc = .ok f := by
  induction k generalizing d t acc low high st rest out with
  | zero => omega
  | succ k ih =>
    rw [flushLoop]
    split_ifs with hc
    · have hne : rest ≠ [] := by
        rintro rfl
        rw [hn] at hc
        simp at hc
      obtain ⟨c, out', l', h', rfl, hi', hcl'⟩ := push_closed hN hi hns hcl
      have hg : (c :: out').getD N false = false := by
        rw [List.getD_eq_getElem?_getD, List.getElem?_eq_none hl]
        rfl
      rw [hg] at hi'
      simp only [List.length_cons] at hl hk
      have hgo : Going P I N l' h' st rest out' := .inl (hcl'.resolve_right hne)
      obtain ⟨ys, d1, t1, k1, ⟨l1, h1, st1, rest2, k2, k3, k3', k4, k5⟩ | ⟨k2, extra, k3⟩⟩ :=
        decodeLoop_closed hN hP hw hpure hi' ht hgo hf
      · simp only [decode, hg, k1, ok_bind]
        rw [k2, ← List.append_assoc] at hn
        exact ih k3 k3' k4 k5 (by omega) hn (by
          rw [k2] at hf
          simp only [List.length_append] at hf
          omega) (by omega)
      · simp only [decode, hg, k1, ok_bind]
        cases k with
        | zero => omega
        | succ k =>
          rw [flushLoop, if_neg (by
            rw [hn, k3]
            simp only [List.length_append]
            push_cast
            omega)]
          exact ⟨_, rfl⟩
    · exact ⟨_, rfl⟩

theorem Closed.prepend_zeros {n k : ℕ} (h : k + n = N) {st : σ} {syms out : List Bool}
    (ht : Closed P I N decSplit 0 (top N) st syms out) : Closed P I N decSplit 0 (2 ^ k) st syms (List.replicate n false ++ out) := by
  induction n generalizing k with
  | zero =>
    have : k = N := by omega
    subst this
    exact ht
  | succ n ih =>
    rw [List.replicate_succ, List.cons_append]
    refine .zero ?_ ?_
    · obtain ⟨m, rfl⟩ := Nat.exists_eq_add_of_le' (show 1 ≤ N by omega)
      rw [half_succ]
      exact pow_le_pow_right₀ (by norm_num) (by omega)
    · rw [zero_mul, ← pow_succ]
      exact ih (by omega)

theorem decompress_closed (hN : 2 ≤ N) (hP : P.Lawful I [false, true] W) (hw : W 1)
    (hpure : ∀ s r t, I s → P.logPredict s false [] = .ok (r, t) → Indist P s t) {st : σ} (hst : I st)
    {msg code : List Bool} {fuel : ℕ} (hf : N + 1 < fuel) (hf2 : msg.length + (top N).toNat < fuel) (ht : Trace P N decSplit 0 (top N) st msg code)
    (hcl : Closed P I N decSplit 0 (top N) st msg code ∨ msg = []) : decompress P N fuel st code msg.length = .ok msg := by
  have hh := half_pos (N := N) (by omega)
  have hi := dinv_init (by omega) hst ht
  have hcl0 : Closed P I N decSplit 0 1 st msg (List.replicate N false ++ code) ∨ msg = [] := by
    rcases hcl with h | h
    · have := Closed.prepend_zeros (k := 0) (n := N) (by omega) h
      rw [pow_zero] at this
      exact .inl this
    · exact .inr h
  obtain ⟨o, d, t, l, h', st', rest, out', h1, g1, g2, g2', g3, g4, g5⟩ := decodeAll_closed hN hP hw hpure (fuel := fuel)
    (bits := code) hi hst (.inl (by omega)) hcl0 (by simp) hf2
  have hn : (msg.length : ℤ) - (o.length : ℤ) = ((rest.length : ℕ) : ℤ) := by
    rw [g1, List.length_append]
    push_cast
    ring
  obtain ⟨f, hfl⟩ := flushLoop_closed hN hP hw hpure (fuel := fuel) (k := fuel) (acc := []) (n := rest.length)
    g2 g2' g3 g5 g4 (by simp) (by
      rw [g1] at hf2
      simp only [List.length_append] at hf2
      omega) (by omega)
  have hd : decompress P N fuel st code msg.length = .ok (o ++ pyTake f rest.length) := by
    simp only [decompress, h1, ok_bind, hn, hfl, pure_eq_ok]
  rw [hd, decompress_trace hN hP hw hpure hst ht hd]

/-! ## The encoder -/

theorem Closed.prepend_norm (hN : 1 ≤ N) {k : ℕ} {s s' : Enc} {o : List Bool} (hf : s.follow = 0)
    (h : normLoop N k s = .ok (o, s')) {st : σ} {syms out : List Bool} (ht : Closed P I N decSplit s'.low s'.high st syms out) :
    Closed P I N decSplit s.low s.high st syms (o ++ out) := by
  induction k generalizing s o with
  | zero => simp [normLoop] at h
  | succ k ih =>
    rw [normLoop] at h
    split_ifs at h with c1 c2 c3
    · simp only [bind_eq_ok, pure_eq_ok, Except.ok.injEq, Prod.mk.injEq, Prod.exists] at h
      obtain ⟨o', s1, h2, rfl, rfl⟩ := h
      rw [hf]
      exact .zero c1 (ih rfl h2)
    · simp only [bind_eq_ok, pure_eq_ok, Except.ok.injEq, Prod.mk.injEq, Prod.exists] at h
      obtain ⟨o', s1, h2, rfl, rfl⟩ := h
      rw [hf]
      exact .one c2 (ih rfl h2)
    · exfalso
      have := top_eq hN
      have : enc34 N = half N := by unfold enc34; omega
      omega
    · simp only [pure_eq_ok, Except.ok.injEq, Prod.mk.injEq] at h
      obtain ⟨rfl, rfl⟩ := h
      exact ht

/-- If the loop of `encode` puts out a bit then the interval does not contain the midpoint. -/
theorem Closed.of_norm (hN : 1 ≤ N) {k : ℕ} {s s' : Enc} {o : List Bool} (h : normLoop N k s = .ok (o, s')) (ho : o ≠ []) {st : σ}
    {out : List Bool} : Closed P I N decSplit s.low s.high st [] out := by
  cases k with
  | zero => simp [normLoop] at h
  | succ k =>
    rw [normLoop] at h
    split_ifs at h with c1 c2 c3
    · exact .stop (.inl c1)
    · exact .stop (.inr c2)
    · exfalso
      have := top_eq hN
      have : enc34 N = half N := by unfold enc34; omega
      omega
    · simp only [pure_eq_ok, Except.ok.injEq, Prod.mk.injEq] at h
      exact absurd h.1.symm ho

theorem encodeAll_closed (hN : 1 ≤ N) (hP : P.UpdateLawful I [false, true] W) (hw : W 1) {fuel : ℕ} {s s0 s1 : Enc}
    (hs : s.Ok N) {st st0 st1 : σ} (hst : I st) {bs o0 o1 out : List Bool} {b : Bool}
    (hroom : Splits P N fuel decSplit s st (bs ++ [b])) (h0 : encodeAll P N fuel s st bs = .ok (o0, s0, st0))
    (h1 : encodeAll P N fuel s st (bs ++ [b]) = .ok (o1, s1, st1)) (hl : o0.length < o1.length) :
    Closed P I N decSplit s.low s.high st (bs ++ [b]) (o1 ++ out) := by
  induction bs generalizing s st o0 o1 with
  | nil =>
    simp only [encodeAll, pure_eq_ok, Except.ok.injEq, Prod.mk.injEq] at h0
    obtain ⟨rfl, rfl, rfl⟩ := h0
    simp only [List.nil_append, encodeAll, encode, bind_eq_ok, pure_eq_ok, Except.ok.injEq, Prod.mk.injEq, Prod.exists] at h1
    obtain ⟨o1, s1, st1, ⟨r, st2, h1, o2, s2, h2, rfl, rfl, rfl⟩, o3, s3, st3, ⟨rfl, rfl, rfl⟩, rfl, rfl, rfl⟩ := h1
    have hu := liftRun_ok.mp h1
    have hr := hroom r st2 o2 s2 hu h2
    have hne : o2 ≠ [] := by
      rintro rfl
      simp at hl
    refine .sym hs.straddle.1 hs.straddle.2 hu hr.1.symm ?_
    unfold encodeWith at h2
    cases b with
    | true => exact Closed.of_norm hN h2 hne
    | false => exact Closed.of_norm hN h2 hne
  | cons a bs ih =>
    simp only [encodeAll, encode, bind_eq_ok, pure_eq_ok, Except.ok.injEq, Prod.mk.injEq, Prod.exists] at h0
    obtain ⟨oa, sa, sta, ⟨r, st2, h1', o2, s2, h2, rfl, rfl, rfl⟩, o3, s3, st3, h3, rfl, rfl, rfl⟩ := h0
    simp only [List.cons_append, encodeAll, encode, h1', ok_bind, h2, bind_eq_ok, pure_eq_ok, Except.ok.injEq, Prod.mk.injEq,
      Prod.exists] at h1
    obtain ⟨o4, s4, st4, h4, rfl, rfl, rfl⟩ := h1
    have hu := liftRun_ok.mp h1'
    obtain ⟨g1, g2⟩ := hroom r st2 o2 s2 hu h2
    obtain ⟨e1, i1⟩ := exp_update_lt hP hw hst hu
    have hcl := ih (encodeWith_ok hN hs (encP_lt e1 a).1 h2).1 i1 g2 h3 h4 (by
      simp only [List.length_append] at hl
      omega)
    rw [List.append_assoc]
    refine .sym hs.straddle.1 hs.straddle.2 hu g1.symm ?_
    unfold encodeWith at h2
    cases a with
    | true => exact Closed.prepend_norm (s := ⟨encSplit s.low s.high (encP r true), s.high, s.follow⟩) hN hs.follow h2 hcl
    | false => exact Closed.prepend_norm (s := ⟨s.low, encSplit s.low s.high (encP r false), s.follow⟩) hN hs.follow h2 hcl

/-- The end of the code points to the first quarter if its last bit is one. -/
theorem encodeAll_low (hN : 3 ≤ N) (hP : P.UpdateLawful I [false, true] W) (hw : W 1)
    (hp : ∀ s r t, I s → P.logPredict s false [] = .ok (r, t) → 1 ≤ (quarter N : ℝ) * Real.exp r) {fuel : ℕ} {s s' : Enc}
    (hs : s.Ok N) {st st' : σ} (hst : I st) {bits o : List Bool} (hroom : Splits P N fuel decSplit s st bits)
    (h : encodeAll P N fuel s st bits = .ok (o, s', st')) (hl : (s'.flush N).getLast? = some true) :
    Closed P I N decSplit s.low s.high st bits (o ++ s'.flush N) := by
  induction bits generalizing s st o with
  | nil =>
    simp only [encodeAll, pure_eq_ok, Except.ok.injEq, Prod.mk.injEq] at h
    obtain ⟨rfl, rfl, rfl⟩ := h
    obtain ⟨w1, w2, w3⟩ := win_flush hN s hs.follow
    have hc : s.low < quarter N := by
      by_contra hc
      unfold Enc.flush at hl
      rw [if_neg hc, hs.follow] at hl
      simp at hl
    have := w2 hc
    rw [List.nil_append]
    exact .low hp (by omega) (by omega)
  | cons b bs ih =>
    simp only [encodeAll, encode, bind_eq_ok, pure_eq_ok, Except.ok.injEq, Prod.mk.injEq, Prod.exists] at h
    obtain ⟨o1, s1, st1, ⟨r, st2, h1, o2, s2, h2, rfl, rfl, rfl⟩, o3, s3, st3, h3, rfl, rfl, rfl⟩ := h
    have hu := liftRun_ok.mp h1
    obtain ⟨e1, i1⟩ := exp_update_lt hP hw hst hu
    obtain ⟨g1, g2⟩ := hroom r st2 o2 s2 hu h2
    have hcl := ih (encodeWith_ok (by omega) hs (encP_lt e1 b).1 h2).1 i1 g2 h3
    rw [List.append_assoc]
    refine .sym hs.straddle.1 hs.straddle.2 hu g1.symm ?_
    unfold encodeWith at h2
    cases b with
    | true => exact Closed.prepend_norm (s := ⟨encSplit s.low s.high (encP r true), s.high, s.follow⟩) (by omega) hs.follow h2 hcl
    | false => exact Closed.prepend_norm (s := ⟨s.low, encSplit s.low s.high (encP r false), s.follow⟩) (by omega) hs.follow h2 hcl

theorem compress_parts {fuel : ℕ} {st : σ} {bits code : List Bool} (hN : 1 ≤ N) (hP : P.UpdateLawful I [false, true] W) (hw : W 1)
    (hst : I st) (h : compress P N fuel st bits = .ok code) :
    ∃ o s st', encodeAll P N fuel (Enc.init N) st bits = .ok (o, s, st') ∧ code = o ++ s.flush N ∧ (s.flush N).length = 2 := by
  simp only [compress, bind_eq_ok, pure_eq_ok, Except.ok.injEq, Prod.exists] at h
  obtain ⟨o, s, t, h, rfl⟩ := h
  have hs := (encodeAll_ok hN hP hw (Enc.ok_init hN) hst h).1
  refine ⟨o, s, t, h, rfl, ?_⟩
  unfold Enc.flush
  rw [hs.follow]
  split_ifs <;> rfl

end AC

end Verif
