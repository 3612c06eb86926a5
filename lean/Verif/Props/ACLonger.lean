import Verif.Proofs.ACLonger
import Verif.Props.AC

/-! When decompression returns: C42 for models that may give zero less than one half. -/

namespace Verif

open Predictor AC

variable {σ : Type} {P : Predictor σ Bool} {N : ℕ} {I : σ → Prop} {W : ℝ → Prop}

theorem AC.toNat_top (N : ℕ) : (top N).toNat = 2 ^ N := by
  unfold top
  rw [show (2 : ℤ) ^ N = ((2 ^ N : ℕ) : ℤ) by push_cast; rfl, Int.toNat_natCast]

/-- **C42 (messages that come back).** Let every interval that the encoder split be wide enough for zero's part to contain an
integer.  If the last symbol made the code longer then `decompress` returns, and it returns the message.  (The code of the
message `[true, true]` in `C42_ctw_KT_never_decodes` is as long as that of `[true]`.) -/
theorem C42_round_trip_longer (hN : 3 ≤ N) (hP : P.Lawful I [false, true] W) (hw : W 1)
    (hpure : ∀ s r t, I s → P.logPredict s false [] = .ok (r, t) → Indist P s t) (st : σ) (hst : I st)
    (bs : List Bool) (b : Bool) (shorter code : List Bool) (f : ℕ) (hroom : Roomy P N f (Enc.init N) st (bs ++ [b]))
    (h0 : compress P N f st bs = .ok shorter) (h1 : compress P N f st (bs ++ [b]) = .ok code)
    (hl : shorter.length < code.length) (fuel : ℕ) (hf : bs.length + 1 + 2 ^ N + N + 1 < fuel) :
    decompress P N fuel st code (bs.length + 1) = .ok (bs ++ [b]) := by
  obtain ⟨o0, s0, t0, e0, rfl, l0⟩ := compress_parts (by omega) hP.updateLawful hw hst h0
  obtain ⟨o1, s1, t1, e1, rfl, l1⟩ := compress_parts (by omega) hP.updateLawful hw hst h1
  simp only [List.length_append] at hl
  have ht := encodeAll_trace hN hP.updateLawful hw (Enc.ok_init (by omega)) hst hroom.splits e1
  have hcl := encodeAll_closed (out := s1.flush N) (by omega) hP.updateLawful hw (Enc.ok_init (by omega)) hst hroom.splits e0 e1
    (by omega)
  have hT := toNat_top N
  have := decompress_closed (fuel := fuel) (by omega) hP hw hpure hst (by omega) (by
    rw [List.length_append, List.length_singleton, hT]
    omega) ht (.inl hcl)
  rwa [List.length_append, List.length_singleton] at this

/-- **C42 (messages that come back).** If the model never gives zero less than `4 / 2 ^ N` and there is room for zero in every
interval, then a message whose code ends with the bit one comes back. -/
theorem C42_round_trip_last_bit (hN : 3 ≤ N) (hP : P.Lawful I [false, true] W) (hw : W 1)
    (hpure : ∀ s r t, I s → P.logPredict s false [] = .ok (r, t) → Indist P s t)
    (hp : ∀ s r t, I s → P.logPredict s false [] = .ok (r, t) → 4 / 2 ^ N ≤ Real.exp r) (st : σ) (hst : I st)
    (msg code : List Bool) (f : ℕ) (hroom : Roomy P N f (Enc.init N) st msg) (h : compress P N f st msg = .ok code)
    (hlast : code.getLast? = some true) (fuel : ℕ) (hf : msg.length + 2 ^ N + N + 1 < fuel) :
    decompress P N fuel st code msg.length = .ok msg := by
  obtain ⟨o, s, t, e, rfl, l⟩ := compress_parts (by omega) hP.updateLawful hw hst h
  have ht := encodeAll_trace hN hP.updateLawful hw (Enc.ok_init (by omega)) hst hroom.splits e
  have hne : s.flush N ≠ [] := by
    intro hc
    rw [hc] at l
    simp at l
  have hq : ∀ s r t, I s → P.logPredict s false [] = .ok (r, t) → 1 ≤ (quarter N : ℝ) * Real.exp r := by
    intro s r t hs hr
    have := hp s r t hs hr
    obtain ⟨n, rfl⟩ := Nat.exists_eq_add_of_le' (show 2 ≤ N by omega)
    rw [quarter_succ]
    push_cast
    rw [pow_add, div_le_iff₀ (by positivity)] at this
    norm_num at this
    linarith
  have hcl := encodeAll_low hN hP.updateLawful hw hq (Enc.ok_init (by omega)) hst hroom.splits e (by
    rw [List.getLast?_append_of_ne_nil _ hne] at hlast
    exact hlast)
  have hT := toNat_top N
  exact decompress_closed (by omega) hP hw hpure hst (by omega) (by omega) ht (.inl hcl)

/-- The empty message always comes back. -/
theorem C42_round_trip_empty (hN : 3 ≤ N) (hP : P.Lawful I [false, true] W) (hw : W 1)
    (hpure : ∀ s r t, I s → P.logPredict s false [] = .ok (r, t) → Indist P s t) (st : σ) (hst : I st) (code : List Bool) (f : ℕ)
    (h : compress P N f st [] = .ok code) (fuel : ℕ) (hf : 2 ^ N + N + 1 < fuel) : decompress P N fuel st code 0 = .ok [] := by
  obtain ⟨o, s, t, e, rfl, l⟩ := compress_parts (by omega) hP.updateLawful hw hst h
  have ht := encodeAll_trace (S := decSplit) hN hP.updateLawful hw (Enc.ok_init (by omega)) hst (show Splits P N f decSplit (Enc.init N) st [] from trivial) e
  have hT := toNat_top N
  exact decompress_closed (msg := []) (by omega) hP hw hpure hst (by omega) (by simpa [hT] using by omega) ht (.inr rfl)

/-- With `ctw.KT`. -/
theorem C42_ctw_KT_round_trip_longer (hN : 3 ≤ N) (st : CKT Bool) (hst : CKT.init [false, true] none = .ok st)
    (bs : List Bool) (b : Bool) (shorter code : List Bool) (f : ℕ)
    (hroom : Roomy (CKT.probSeq (α := Bool)).toPredictor N f (Enc.init N) st (bs ++ [b]))
    (h0 : compress (CKT.probSeq (α := Bool)).toPredictor N f st bs = .ok shorter)
    (h1 : compress (CKT.probSeq (α := Bool)).toPredictor N f st (bs ++ [b]) = .ok code) (hl : shorter.length < code.length)
    (fuel : ℕ) (hf : bs.length + 1 + 2 ^ N + N + 1 < fuel) :
    decompress (CKT.probSeq (α := Bool)).toPredictor N fuel st code (bs.length + 1) = .ok (bs ++ [b]) := by
  rw [CKT.init_default (by simp) (by simp), Except.ok.injEq] at hst
  subst hst
  exact C42_round_trip_longer hN (CKT.lawful (by simp) (by simp)) zero_le_one (fun s r t _ h => CKT.pure s _ _ _ _ h) _
    (CKT.good_default (by simp)) bs b shorter code f hroom h0 h1 hl fuel hf

/-- With `ctw.CTW` of any depth over it. -/
theorem C42_ctw_CTW_round_trip_longer (hN : 3 ≤ N) (d : ℕ) (fr : CKT Bool) (hfr : CKT.init [false, true] none = .ok fr)
    (bs : List Bool) (b : Bool) (shorter code : List Bool) (f : ℕ)
    (hroom : Roomy (CCTW.probSeq CKT.probSeq fr d false).toPredictor N f (Enc.init N) (CCTW.init fr) (bs ++ [b]))
    (h0 : compress (CCTW.probSeq CKT.probSeq fr d false).toPredictor N f (CCTW.init fr) bs = .ok shorter)
    (h1 : compress (CCTW.probSeq CKT.probSeq fr d false).toPredictor N f (CCTW.init fr) (bs ++ [b]) = .ok code)
    (hl : shorter.length < code.length) (fuel : ℕ) (hf : bs.length + 1 + 2 ^ N + N + 1 < fuel) :
    decompress (CCTW.probSeq CKT.probSeq fr d false).toPredictor N fuel (CCTW.init fr) code (bs.length + 1) = .ok (bs ++ [b]) := by
  rw [CKT.init_default (by simp) (by simp), Except.ok.injEq] at hfr
  have hlp : (CKT.probSeq (α := Bool)).lp fr = 0 := by subst hfr; rfl
  have hg : CKT.Good [false, true] fr := by subst hfr; exact CKT.good_default (by simp)
  refine C42_round_trip_longer hN
    (CCTW.lawful (d := d) (zero := false) (fresh := fr) CKT.tracks (fun s a r t h => CKT.predict_lp h) hlp
      (CKT.lawful (by simp) (by simp))) zero_le_one ?_ _
    ⟨_, CCTWNode.Rel.new (Q := CKT.probSeq) (fresh := fr) hlp d, CTWNode.WF.new hg d⟩ bs b shorter code f hroom h0 h1 hl fuel hf
  rintro s r t ⟨m, hm, _⟩ h
  exact CCTW.predict_indist CKT.tracks (fun s a r t h => CKT.predict_lp h) CKT.pure hlp hm h

namespace AC.Sim

/-- The check for room, in integers. -/
def roomy (num den : List Bool → ℕ) (N fuel : ℕ) : Enc → List Bool → List Bool → Bool
  | _, _, [] => true
  | s, h, b :: bs =>
    decide (0 ≤ s.high - s.low) && decide ((den h : ℤ) ≤ (s.high - s.low) * num h) &&
      match normLoop N fuel (if b then { s with low := s.low + max 1 (cut num den (s.high - s.low) h) }
          else { s with high := s.low + max 1 (cut num den (s.high - s.low) h) }) with
      | .error _ => true
      | .ok (_, s') => roomy num den N fuel s' (b :: h) bs

theorem roomy_sound {num den : List Bool → ℕ} (hP : Rational P num den) {fuel : ℕ} {s : Enc} {h bits : List Bool}
    (hr : roomy num den N fuel s h bits = true) {st : σ} (hs : hP.rep h st) : Roomy P N fuel s st bits := by
  induction bits generalizing s h st with
  | nil => trivial
  | cons b bs ih =>
    intro r st' o s' h1 h2
    obtain ⟨r2, st2, g1, g2, g3⟩ := hP.update h st b hs
    rw [h1] at g1
    simp only [Except.ok.injEq, Prod.mk.injEq] at g1
    obtain ⟨rfl, rfl⟩ := g1
    rw [roomy] at hr
    simp only [Bool.and_eq_true, decide_eq_true_eq] at hr
    obtain ⟨⟨k1, k2⟩, k3⟩ := hr
    have hsp : encSplit s.low s.high (encP r b) = s.low + max 1 (cut num den (s.high - s.low) h) := by
      rw [g3, encSplit, pyInt_cut k1 (hP.den_pos h)]
    rw [encodeWith, hsp] at h2
    rw [h2] at k3
    refine ⟨?_, ih k3 g2⟩
    have hD : (0 : ℝ) < (den h : ℝ) := by exact_mod_cast hP.den_pos h
    rw [g3, ← mul_div_assoc, le_div_iff₀ hD, one_mul]
    exact_mod_cast k2

end AC.Sim

/-- With `ctw.KT` the message 1 1 never comes back (`C42_ctw_KT_never_decodes`), but 1 1 0 does. -/
example : ∃ code, compress (CKT.probSeq (α := Bool)).toPredictor 32 100 (KTI.state 0 0 0) [true, true, false] = .ok code ∧
    ∀ fuel, 2 ^ 33 ≤ fuel →
      decompress (CKT.probSeq (α := Bool)).toPredictor 32 fuel (KTI.state 0 0 0) code 3 = .ok [true, true, false] := by
  have hroom : Sim.roomy KTI.num KTI.den 32 100 (Enc.init 32) [] ([true, true] ++ [false]) = true := by decide +kernel
  have h0 : Sim.compress KTI.num KTI.den 32 100 [true, true] = some [true, true, false] := by decide +kernel
  cases h1 : Sim.compress KTI.num KTI.den 32 100 ([true, true] ++ [false]) with
  | none =>
    have : Sim.compress KTI.num KTI.den 32 100 ([true, true] ++ [false]) ≠ none := by decide +kernel
    exact absurd h1 this
  | some code =>
    have hl : (Sim.compress KTI.num KTI.den 32 100 ([true, true] ++ [false])).all (fun c => decide (3 < c.length)) = true := by
      decide +kernel
    rw [h1] at hl
    refine ⟨code, Sim.compress_sound KTI.rational h1 ⟨0, rfl⟩, fun fuel hf => ?_⟩
    exact C42_ctw_KT_round_trip_longer (by norm_num) _ KTI.init_eq [true, true] false _ code 100
      (Sim.roomy_sound KTI.rational hroom ⟨0, rfl⟩) (Sim.compress_sound KTI.rational h0 ⟨0, rfl⟩)
      (Sim.compress_sound KTI.rational h1 ⟨0, rfl⟩) (by simpa using hl) fuel (by
        simp only [List.length_cons, List.length_nil]
        omega)

/-- A model that always gives zero one eighth: the code of the message 1 is as long as that of the empty message, but it ends
with a one. -/
example : compress (scripted fun _ => ((1 : ℕ) : ℝ) / ((8 : ℕ) : ℝ)) 32 100 [] [true] = .ok [false, true] ∧
    ∀ fuel, 2 ^ 33 ≤ fuel →
      decompress (scripted fun _ => ((1 : ℕ) : ℝ) / ((8 : ℕ) : ℝ)) 32 fuel [] [false, true] 1 = .ok [true] := by
  have hroom : Sim.roomy (fun _ => 1) (fun _ => 8) 32 100 (Enc.init 32) [] [true] = true := by decide +kernel
  have h1 : Sim.compress (fun _ => 1) (fun _ => 8) 32 100 [true] = some [false, true] := by decide +kernel
  have hc := Sim.compress_sound (scriptedRational (num := fun _ => 1) (den := fun _ => 8) (fun _ => by norm_num)) h1
    (st := []) rfl
  refine ⟨hc, fun fuel hf => ?_⟩
  refine C42_round_trip_last_bit (I := fun _ => True) (W := fun _ => True) (by norm_num) (scripted_lawful (fun _ => by norm_num))
    trivial (fun s r t _ h => ?_) (fun s r t _ h => ?_) [] trivial [true] [false, true] 100
    (Sim.roomy_sound (scriptedRational (num := fun _ => 1) (den := fun _ => 8) (fun _ => by norm_num)) hroom rfl) hc rfl fuel
    (by simp only [List.length_singleton]; omega)
  · exact scripted_pure _ s _ _ _ _ h
  · simp only [scripted, Except.ok.injEq, Prod.mk.injEq, Bool.false_eq_true, if_false] at h
    rw [← h.1, Real.exp_log (by norm_num)]
    norm_num

end Verif
