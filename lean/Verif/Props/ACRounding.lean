import Verif.Props.AC

/-!
# C101: the arithmetic coder with rounded probabilities
-/

namespace Verif

open Predictor AC

namespace AC

/-- A model whose `update` and `log_predict` agree, but whose probabilities of 0 and 1, `q` and `1 - p`, need not sum to exactly 1. -/
noncomputable def rounded (p q : List Bool → ℝ) : Predictor (List Bool) Bool where
  update h b _ _ := .ok (Real.log (if b then 1 - p h else q h), b :: h)
  logPredict h b _ := .ok (Real.log (if b then 1 - p h else q h), h)
  copy h := .ok h

theorem rounded_decodeLoop (p q : List Bool → ℝ) (N k : ℕ) (d : Dec) (st : List Bool) :
    decodeLoop (rounded p q) N k d st = decodeLoop (scripted q) N k d st := by
  induction k generalizing d st with
  | zero => rfl
  | succ k ih =>
    simp only [decodeLoop, ih]
    rfl

theorem rounded_decodeAll (p q : List Bool → ℝ) (N k : ℕ) (d : Dec) (st : List Bool) (bits : List Bool) :
    decodeAll (rounded p q) N k d st bits = decodeAll (scripted q) N k d st bits := by
  induction bits generalizing d st with
  | nil => rfl
  | cons b bs ih => simp only [decodeAll, decode, rounded_decodeLoop, ih]

theorem rounded_flushLoop (p q : List Bool → ℝ) (N f : ℕ) (n : ℤ) (k : ℕ) (d : Dec) (st : List Bool) (out : List Bool) :
    flushLoop (rounded p q) N f n k d st out = flushLoop (scripted q) N f n k d st out := by
  induction k generalizing d st out with
  | zero => rfl
  | succ k ih => simp only [flushLoop, decode, rounded_decodeLoop, ih]

theorem rounded_decompress (p q : List Bool → ℝ) (N f : ℕ) (st : List Bool) (bits : List Bool) (n : ℕ) :
    decompress (rounded p q) N f st bits n = decompress (scripted q) N f st bits n := by
  simp only [decompress, rounded_decodeAll, rounded_flushLoop]

/-- Whenever a 1 of the message is encoded, the two probabilities give the same integer split. -/
def Agree (p q : List Bool → ℝ) (N fuel : ℕ) : Enc → List Bool → List Bool → Prop
  | _, _, [] => True
  | s, h, b :: bs => (b = true → encSplit s.low s.high (p h) = encSplit s.low s.high (q h)) ∧
      ∀ o s', encodeWith N fuel s (q h) b = .ok (o, s') → Agree p q N fuel s' (b :: h) bs

theorem rounded_encodeAll {p q : List Bool → ℝ} (hp : ∀ h, p h < 1) (hq : ∀ h, 0 < q h ∧ q h < 1) {N fuel : ℕ} {s : Enc} {h msg : List Bool}
    (ha : Agree p q N fuel s h msg) : encodeAll (rounded p q) N fuel s h msg = encodeAll (scripted q) N fuel s h msg := by
  induction msg generalizing s h with
  | nil => rfl
  | cons b bs ih =>
    obtain ⟨h1, h2⟩ := ha
    have e1 : encode (rounded p q) N fuel s h b = encode (scripted q) N fuel s h b := by
      cases b with
      | false => rfl
      | true =>
        simp only [encode, rounded, scripted, if_true, liftRun, ok_bind, encP, Real.exp_log (sub_pos.mpr (hp h)),
          Real.exp_log (sub_pos.mpr (hq h).2), sub_sub_cancel, encodeWith, h1 rfl]
    have e2 : ∀ o s' h', encode (scripted q) N fuel s h b = .ok (o, s', h') → h' = b :: h ∧ encodeWith N fuel s (q h) b = .ok (o, s') := by
      intro o s' h' he
      simp only [encode, scripted, liftRun, ok_bind, bind_eq_ok, pure_eq_ok, Except.ok.injEq, Prod.mk.injEq, Prod.exists] at he
      obtain ⟨_, _, h3, rfl, rfl, rfl⟩ := he
      refine ⟨rfl, ?_⟩
      rw [← h3]
      congr 1
      cases b with
      | false => simp [encP, Real.exp_log (hq h).1]
      | true => simp [encP, Real.exp_log (sub_pos.mpr (hq h).2)]
    simp only [encodeAll, e1]
    cases he : encode (scripted q) N fuel s h b with
    | error e => rfl
    | ok x =>
      obtain ⟨o, s', h'⟩ := x
      obtain ⟨rfl, h4⟩ := e2 _ _ _ he
      simp only [ok_bind, ih (h2 o s' h4)]

/-- The probabilities of zero as the encoder sees them: `1/4` less one unit in the last place at first, then so little that zero gets one
integer. -/
def nudgeNum : List Bool → ℕ
  | [] => 2 ^ 51 - 1
  | _ => 1

def nudgeDen : List Bool → ℕ
  | [] => 2 ^ 53
  | [true] => 3 * 2 ^ 30 + 1
  | _ => 2

/-- The probabilities of zero as the decoder sees them. -/
def quarterNum : List Bool → ℕ := fun _ => 1

def quarterDen : List Bool → ℕ
  | [] => 4
  | [true] => 3 * 2 ^ 30 + 1
  | _ => 2

theorem nudge_pos (h : List Bool) : 0 < nudgeNum h ∧ nudgeNum h < nudgeDen h := by
  unfold nudgeNum nudgeDen
  split <;> split <;> simp_all

theorem quart_pos (h : List Bool) : 0 < quarterNum h ∧ quarterNum h < quarterDen h := by
  unfold quarterNum quarterDen
  split <;> simp_all

end AC

/-- **C101 (one rounding error loses the message).** There is a model whose `update` always returns what `log_predict` does, whose predictions change nothing, and
whose probabilities of 0 and 1 sum to 1 up to an error of `2 ^ -53`, one half unit in the last place of the number 1, such that the code of the message 1 0 is decoded as another message:
the encoder computes the probability of 0 as one minus that of 1, the decoder asks for it. -/
theorem C101_one_rounding_error :
    ∃ P : Predictor (List Bool) Bool, P.Coherent (fun _ => True) [false, true] (fun _ => True) ∧ P.PurePredict ∧
      (∀ h, ∃ p0 p1, P.logPredict h false [] = .ok (p0, h) ∧ P.logPredict h true [] = .ok (p1, h) ∧
        |Real.exp p0 + Real.exp p1 - 1| ≤ 2⁻¹ ^ 53) ∧
      ∃ code res, compress P 32 40 [] [true, false] = .ok code ∧ decompress P 32 40 [] code 2 = .ok res ∧ res ≠ [true, false] := by
  have hp : ∀ h, (0 : ℝ) < (nudgeNum h : ℝ) / nudgeDen h ∧ (nudgeNum h : ℝ) / nudgeDen h < 1 := by
    intro h
    have h1 := nudge_pos h
    have h2 : (0 : ℝ) < nudgeNum h := by exact_mod_cast h1.1
    have h3 : (nudgeNum h : ℝ) < nudgeDen h := by exact_mod_cast h1.2
    exact ⟨div_pos h2 (by linarith), (div_lt_one (by linarith)).mpr h3⟩
  have hq : ∀ h, (0 : ℝ) < (quarterNum h : ℝ) / quarterDen h ∧ (quarterNum h : ℝ) / quarterDen h < 1 := by
    intro h
    have h1 := quart_pos h
    have h2 : (0 : ℝ) < quarterNum h := by exact_mod_cast h1.1
    have h3 : (quarterNum h : ℝ) < quarterDen h := by exact_mod_cast h1.2
    exact ⟨div_pos h2 (by linarith), (div_lt_one (by linarith)).mpr h3⟩
  set p : List Bool → ℝ := fun h => (nudgeNum h : ℝ) / (nudgeDen h : ℝ) with hpd
  set q : List Bool → ℝ := fun h => (quarterNum h : ℝ) / (quarterDen h : ℝ) with hqd
  have hpq : ∀ h, h ≠ [] → p h = q h := by
    intro h hh
    cases h with
    | nil => exact absurd rfl hh
    | cons a h =>
      simp only [hpd, hqd, nudgeNum, nudgeDen, quarterNum]
      cases a <;> cases h <;> rfl
  have hpq0 : p [] = q [] - 2⁻¹ ^ 53 := by
    simp only [hpd, hqd, nudgeNum, nudgeDen, quarterNum, quarterDen]
    norm_num
  refine ⟨rounded p q, ?_, ?_, fun h => ?_, ?_⟩
  · intro s a h w _ _ _ r s' hu
    simp only [rounded, Except.ok.injEq, Prod.mk.injEq] at hu
    exact ⟨s, by simp [rounded, ← hu.1]⟩
  · apply PurePredict.of_id
    intro s a h r t ht
    simp only [rounded, Except.ok.injEq, Prod.mk.injEq] at ht
    exact ht.2.symm
  · refine ⟨_, _, rfl, rfl, ?_⟩
    simp only [Bool.false_eq_true, if_false, if_true]
    rw [Real.exp_log (hq h).1, Real.exp_log (sub_pos.mpr (hp h).2)]
    change |q h + (1 - p h) - 1| ≤ _
    cases h with
    | nil =>
      rw [hpq0, show q [] + (1 - (q [] - 2⁻¹ ^ 53)) - 1 = 2⁻¹ ^ 53 by ring, abs_of_pos (by norm_num)]
    | cons a h =>
      rw [hpq (a :: h) (by simp), show q (a :: h) + (1 - q (a :: h)) - 1 = 0 by ring]
      norm_num
  · have hcode : compress (rounded p q) 32 40 [] [true, false] = compress (scripted p) 32 40 [] [true, false] := by
      simp only [compress, encodeAll, encode, rounded, scripted, Bool.false_eq_true, if_false, if_true, liftRun, ok_bind]
      cases encodeWith 32 40 (Enc.init 32) (encP (Real.log (1 - p [])) true) true with
      | error e => rfl
      | ok x =>
        simp only [ok_bind, pure_eq_ok]
        rw [hpq [true] (by simp)]
    have hc : Sim.compress nudgeNum nudgeDen 32 40 [true, false] ≠ none := by decide +kernel
    cases hc' : Sim.compress nudgeNum nudgeDen 32 40 [true, false] with
    | none => exact absurd hc' hc
    | some code =>
      have hd : ((Sim.compress nudgeNum nudgeDen 32 40 [true, false]).bind
        (fun c => Sim.decompress quarterNum quarterDen 32 40 c 2)).map (fun r => decide (r = [true, false])) = some false := by decide +kernel
      rw [hc'] at hd
      simp only [Option.bind_some, Option.map_eq_some_iff, decide_eq_false_iff_not] at hd
      obtain ⟨res, hd, hne⟩ := hd
      refine ⟨code, res, ?_, ?_, hne⟩
      · rw [hcode]
        exact Sim.compress_sound (scriptedRational nudge_pos) hc' rfl
      · rw [rounded_decompress]
        exact Sim.decompress_sound (scriptedRational quart_pos) hd rfl

/-- **C101 (what suffices).** If at every 1 of the message the two ways of computing the probability of 0 give the same integer split, and there is room for zero,
then `decompress` returns the message whenever it returns. -/
theorem C101_same_splits (p q : List Bool → ℝ) (hp : ∀ h, p h < 1) (hq : ∀ h, 0 < q h ∧ q h < 1) (N : ℕ) (hN : 3 ≤ N) (msg code res : List Bool)
    (f g : ℕ) (ha : Agree p q N f (Enc.init N) [] msg) (hroom : Roomy (scripted q) N f (Enc.init N) [] msg)
    (hc : compress (rounded p q) N f [] msg = .ok code) (hd : decompress (rounded p q) N g [] code msg.length = .ok res) : res = msg := by
  rw [rounded_decompress] at hd
  simp only [compress, rounded_encodeAll hp hq ha] at hc
  refine C42_round_trip_partial hN (scripted_lawful hq) trivial ?_ [] trivial msg code res f g hroom hc hd
  intro s r t _ h
  exact scripted_pure q s _ _ _ _ h

/-- **C101 (when splits are the same).** If the product of the width and one probability is further from every integer than the width times the
difference of the probabilities, the two splits are the same. -/
theorem C101_split_stable (low high : ℤ) (p q : ℝ) (hp : 0 ≤ p) (hq : 0 ≤ q) (hw : low ≤ high) (k : ℤ)
    (h1 : k + (high - low : ℤ) * |p - q| ≤ (high - low : ℤ) * q) (h2 : (high - low : ℤ) * q + (high - low : ℤ) * |p - q| < k + 1) :
    encSplit low high p = encSplit low high q := by
  have hw' : (0 : ℝ) ≤ ((high - low : ℤ) : ℝ) := by exact_mod_cast (by omega)
  have ha := abs_le.1 (le_refl |p - q|)
  have a1 := mul_le_mul_of_nonneg_left ha.1 hw'
  have a2 := mul_le_mul_of_nonneg_left ha.2 hw'
  have a3 : 0 ≤ ((high - low : ℤ) : ℝ) * |p - q| := mul_nonneg hw' (abs_nonneg _)
  have e1 : pyInt (((high - low : ℤ) : ℝ) * p) = k := by
    rw [pyInt, if_pos (mul_nonneg hw' hp), Int.floor_eq_iff]
    constructor <;> linarith
  have e2 : pyInt (((high - low : ℤ) : ℝ) * q) = k := by
    rw [pyInt, if_pos (mul_nonneg hw' hq), Int.floor_eq_iff]
    constructor <;> linarith
  rw [encSplit, encSplit, e1, e2]

/-- Probabilities that differ by a rounding error but give the same split of the first interval. -/
example : encSplit 0 (2 ^ 32) (1 / 3 - 2⁻¹ ^ 53) = encSplit 0 (2 ^ 32) (1 / 3) := by
  apply C101_split_stable 0 (2 ^ 32) _ _ (by norm_num) (by norm_num) (by norm_num) 1431655765
  · rw [show (1 / 3 - 2⁻¹ ^ 53 - 1 / 3 : ℝ) = -(2⁻¹ ^ 53) by ring, abs_neg, abs_of_pos (by norm_num)]
    norm_num
  · rw [show (1 / 3 - 2⁻¹ ^ 53 - 1 / 3 : ℝ) = -(2⁻¹ ^ 53) by ring, abs_neg, abs_of_pos (by norm_num)]
    norm_num

/-- The message 1 for `p = 1 / 3 - 2 ^ -53` and `q = 1 / 3` meets the hypothesis about the splits. -/
example (f : ℕ) : Agree (fun _ => 1 / 3 - 2⁻¹ ^ 53) (fun _ => 1 / 3) 32 f (Enc.init 32) [] [true] := by
  refine ⟨fun _ => ?_, fun _ _ _ => trivial⟩
  have h1 : ∀ p : ℝ, encSplit (Enc.init 32).low (Enc.init 32).high p = encSplit 0 (2 ^ 32) p := fun _ => rfl
  rw [h1, h1]
  apply C101_split_stable 0 (2 ^ 32) _ _ (by norm_num) (by norm_num) (by norm_num) 1431655765
  · rw [show (1 / 3 - 2⁻¹ ^ 53 - 1 / 3 : ℝ) = -(2⁻¹ ^ 53) by ring, abs_neg, abs_of_pos (by norm_num)]
    norm_num
  · rw [show (1 / 3 - 2⁻¹ ^ 53 - 1 / 3 : ℝ) = -(2⁻¹ ^ 53) by ring, abs_neg, abs_of_pos (by norm_num)]
    norm_num

end Verif
