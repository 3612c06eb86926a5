import Verif.Spec.Frozen
import Verif.Props.Compose
import Verif.Props.PTWPredictMore
import Verif.Props.CTW

/-!
# C174: what `log_predict_seq` returns
-/

namespace Verif

open Predictor

namespace Frozen

variable {σ α : Type} {P : Predictor σ α}

theorem probOf_eq {s t : σ} (h : Indist P s t) (a : α) (hi : List α) : probOf (P.logPredict t a hi) = probOf (P.logPredict s a hi) := by
  have := (indist_bisimulation P s t h).2 a hi
  cases e1 : P.logPredict s a hi with
  | error x =>
    cases e2 : P.logPredict t a hi with
    | error y => rfl
    | ok y => rw [e1, e2] at this; exact this.elim
  | ok x =>
    cases e2 : P.logPredict t a hi with
    | error y => rw [e1, e2] at this; exact this.elim
    | ok y =>
      rw [e1, e2] at this
      rw [probOf, probOf, this.1]

theorem loop (hP : P.PurePredict) : ∀ (seq : List α) (s : σ) (h : List α) (rv : ℝ),
    probOf (P.logPredictSeqLoop s seq h rv) = Real.exp rv * frozenProb (fun a h => probOf (P.logPredict s a h)) h seq
  | [], s, h, rv => by simp [logPredictSeqLoop, frozenProb, probOf, pure_eq_ok]
  | a :: seq, s, h, rv => by
    rw [logPredictSeqLoop, frozenProb]
    cases e : P.logPredict s a h with
    | error x => simp [probOf, bind, Except.bind]
    | ok x =>
      obtain ⟨r, t⟩ := x
      have hi := hP s a h r t e
      have ef : (fun a h => probOf (P.logPredict t a h)) = fun a h => probOf (P.logPredict s a h) := by
        funext b h'
        exact probOf_eq hi b h'
      simp only [ok_bind]
      rw [loop hP seq t (h ++ [a]) (rv + r), ef, Real.exp_add, probOf_ok]
      ring

theorem loop_outputs (hP : P.PurePredict) (cs : List (Call α)) : ∀ (seq : List α) (s t : σ) (h h' : List α) (rv r : ℝ),
    P.logPredictSeqLoop s seq h rv = .ok (r, t, h') → P.outputs t cs = P.outputs s cs
  | [], s, t, h, h', rv, r, e => by
    simp only [logPredictSeqLoop, pure_eq_ok, Except.ok.injEq, Prod.mk.injEq] at e
    rw [e.2.1]
  | a :: seq, s, t, h, h', rv, r, e => by
    rw [logPredictSeqLoop] at e
    obtain ⟨⟨q, u⟩, h1, h2⟩ := bind_eq_ok.mp e
    rw [loop_outputs hP cs seq u t _ _ _ _ h2, (hP s a h q u h1).outputs_eq cs]

theorem sum_words (p : α → List α → ℝ) (A : List α) : ∀ (n : ℕ) (h : List α),
    ((words A (n + 1)).map (frozenProb p h)).sum =
      (A.map fun a => p a h * ((words A n).map (frozenProb p (h ++ [a]))).sum).sum := by
  intro n h
  rw [words, List.map_flatMap, Compose.sum_flatMap]
  congr 1
  apply List.map_congr_left
  intro a _
  rw [List.map_map, ← List.sum_map_mul_left]
  rfl

theorem sum_const (p : α → List α → ℝ) (A : List α) (c : ℝ) (hc : ∀ h, (A.map fun a => p a h).sum = c) : ∀ (n : ℕ) (h : List α),
    ((words A n).map (frozenProb p h)).sum = c ^ n
  | 0, h => by simp [words, frozenProb]
  | n + 1, h => by
    rw [sum_words]
    simp only [sum_const p A c hc n]
    rw [List.sum_map_mul_right, hc, pow_succ]
    ring

theorem sum_gt (p : α → List α → ℝ) (A : List α) (h0 : ∀ a ∈ A, ∀ h, 0 ≤ p a h) (h1 : ∀ h, 1 < (A.map fun a => p a h).sum) :
    ∀ (n : ℕ) (h : List α), 1 < ((words A (n + 1)).map (frozenProb p h)).sum
  | 0, h => by
    rw [sum_words]
    simpa [words, frozenProb] using h1 h
  | n + 1, h => by
    rw [sum_words]
    refine (h1 h).trans_le (List.sum_le_sum fun a ha => ?_)
    exact le_mul_of_one_le_right (h0 a ha h) (sum_gt p A h0 h1 n (h ++ [a])).le

theorem frozen_append (p : α → List α → ℝ) : ∀ (xs ys h : List α), frozenProb p h (xs ++ ys) = frozenProb p h xs * frozenProb p (h ++ xs) ys
  | [], ys, h => by simp [frozenProb]
  | a :: xs, ys, h => by
    rw [List.cons_append, frozenProb, frozen_append p xs ys, frozenProb, List.append_assoc, List.singleton_append, mul_assoc]

theorem frozen_iid (p : α → ℝ) : ∀ (xs h : List α), frozenProb (fun a _ => p a) h xs = (xs.map p).prod
  | [], h => rfl
  | a :: xs, h => by rw [frozenProb, frozen_iid p xs, List.map_cons, List.prod_cons]

theorem probOf_seq (s : σ) (seq h : List α) : probOf (P.logPredictSeq s seq h) = probOf (P.logPredictSeqLoop s seq h 0) := by
  rw [logPredictSeq]
  cases P.logPredictSeqLoop s seq h 0 <;> rfl

end Frozen

open Frozen

variable {σ α : Type} {P : Predictor σ α}

/-- **C174 (frozen).** `log_predict_seq` asks the model as it is, without learning: what it returns is the logarithm of the product of the
predictions that the model itself gives, before the call, for each symbol after the history and the symbols before it.  It raises if one
of these predictions raises (then both sides are 0). -/
theorem C174_frozen (hP : P.PurePredict) (s : σ) (seq h : List α) :
    probOf (P.logPredictSeq s seq h) = frozenProb (fun a h' => probOf (P.logPredict s a h')) h seq := by
  rw [probOf_seq, loop hP, Real.exp_zero, one_mul]

/-- **C174 (no effect).** After `log_predict_seq` every sequence of calls gives what it would have given without it. -/
theorem C174_no_effect (hP : P.PurePredict) (s t : σ) (seq h h' : List α) (r : ℝ) (e : P.logPredictSeq s seq h = .ok (r, t, h'))
    (cs : List (Call α)) : P.outputs t cs = P.outputs s cs := by
  rw [logPredictSeq] at e
  obtain ⟨⟨q, u, k⟩, h1, h2⟩ := bind_eq_ok.mp e
  simp only [pure_eq_ok, Except.ok.injEq, Prod.mk.injEq] at h2
  rw [← h2.2.1]
  exact loop_outputs hP cs seq s u h k 0 q h1

/-- **C174 (in parts).** A sequence can be given in parts, each with the parts before it appended to the history. -/
theorem C174_parts (hP : P.PurePredict) (s : σ) (xs ys h : List α) :
    probOf (P.logPredictSeq s (xs ++ ys) h) = probOf (P.logPredictSeq s xs h) * probOf (P.logPredictSeq s ys (h ++ xs)) := by
  rw [C174_frozen hP, C174_frozen hP, C174_frozen hP, frozen_append]

/-- **C174 (a distribution).** For an object put together from the classes of model.py without partition trees and forget-me-not models,
after any training, the probabilities that `log_predict_seq` gives to all the sequences of `n` symbols sum to one. -/
theorem C174_distribution [DecidableEq α] {s : σ} {A : List α} {cp : Bool} (hA : A.Nodup) (hne : A ≠ []) (hb : Built A cp true σ P s)
    (xs : List (Obs α)) (hx : ∀ o ∈ xs, o.sym ∈ A ∧ 0 ≤ o.weight) :
    ∃ r t, P.run s xs = .ok (r, t) ∧ ∀ n h, ((words A n).map fun seq => probOf (P.logPredictSeq t seq h)).sum = 1 := by
  obtain ⟨r, t, h1, -, h2⟩ := C153_predictions hA hne hb xs hx
  refine ⟨r, t, h1, fun n h => ?_⟩
  simp only [C174_frozen (C153_asking hb)]
  rw [sum_const _ A 1 h2 n h, one_pow]

/-- **C174 (partition trees).** For `PTW` at the end of a block of minimum length they sum to more than one, for every `n`: because the
model does not learn, every symbol of the sequence is predicted as the first of a new block (C27). -/
theorem C174_PTW (fresh : σ) (hpure : P.PurePredict) (I : σ → Prop) (A : List α) (W : ℝ → Prop) (hP : P.Lawful I A W) (hf : I fresh)
    (hA : 2 ≤ A.length) (m : ℕ) (xs : List (Obs α)) (hx : ∀ o ∈ xs, o.sym ∈ A ∧ W o.weight) (hne : xs ≠ [])
    (hb : 2 ^ m ∣ xs.length) (r : ℝ) (s : PTW σ) (hr : (PTW.predictor P fresh m).run (PTW.init fresh m) xs = .ok (r, s)) (w : ℝ)
    (hw : W w) (n : ℕ) (hn : n ≠ 0) (h : List α) :
    1 < ((words A n).map fun seq => probOf ((PTW.predictor P fresh m).logPredictSeq s seq h)).sum := by
  obtain ⟨n, rfl⟩ := Nat.exists_eq_succ_of_ne_zero hn
  simp only [C174_frozen (PTW.purePredict hpure fresh m)]
  refine sum_gt _ A (fun a _ h' => ?_) (fun h' => ?_) n h
  · unfold probOf
    split
    · exact (Real.exp_pos _).le
    · exact le_rfl
  · exact C27_predictions_exceed_one I A W hP hf hA m xs hx hne hb r s hr h' w hw

/-- **C174 (forget-me-not).** The same for `FMN` with `LogStore`. -/
theorem C174_FMN (hpure : P.PurePredict) (hcopy : P.FaithfulCopy fun _ => True) (I : σ → Prop) (A : List α) (W : ℝ → Prop)
    (hP : P.Lawful I A W) (hC : P.Copyable I) (f : σ) (hf : I f) (hA : 2 ≤ A.length) (m : ℕ) (xs : List (Obs α))
    (hx : ∀ o ∈ xs, o.sym ∈ A ∧ W o.weight) (hne : xs ≠ []) (hb : 2 ^ m ∣ xs.length) (r : ℝ) (s0 s : FMN (LogStore σ) σ)
    (h0 : FMN.init (LogStore.store σ) P f m = .ok s0) (hr : (FMN.predictor (LogStore.store σ) P m).run s0 xs = .ok (r, s)) (w : ℝ)
    (hw : W w) (n : ℕ) (hn : n ≠ 0) (h : List α) :
    1 < ((words A n).map fun seq => probOf ((FMN.predictor (LogStore.store σ) P m).logPredictSeq s seq h)).sum := by
  obtain ⟨n, rfl⟩ := Nat.exists_eq_succ_of_ne_zero hn
  simp only [C174_frozen (FMN.purePredict hpure hcopy (LogStore.respects (Indist.refl P)) m)]
  refine sum_gt _ A (fun a _ h' => ?_) (fun h' => ?_) n h
  · unfold probOf
    split
    · exact (Real.exp_pos _).le
    · exact le_rfl
  · exact C27_FMN_exceed_one (LogStore.lawful σ) I A W hP hC f hf hA m xs hx hne hb r s0 s h0 hr h' w hw

/-- **C174 (estimators).** For `KT`, `KTBinary` and `SAD` in any state the symbols are independent draws with the present predictions as
probabilities; so the order of the sequence does not matter. -/
theorem C174_estimators [DecidableEq α] (k : KT α) (d : SAD α) (b : KTBinary) (seq h : List α) (bits h' : List Bool) :
    probOf (KT.predictor.logPredictSeq k seq h) = (seq.map fun a => probOf (KT.predictor.logPredict k a [])).prod ∧
    probOf (SAD.predictor.logPredictSeq d seq h) = (seq.map fun a => probOf (SAD.predictor.logPredict d a [])).prod ∧
    probOf (KTBinary.predictor.logPredictSeq b bits h') = (bits.map fun a => probOf (KTBinary.predictor.logPredict b a [])).prod ∧
    ∀ seq', seq.Perm seq' → probOf (KT.predictor.logPredictSeq k seq h) = probOf (KT.predictor.logPredictSeq k seq' h) := by
  have h1 := KT.pure (α := α)
  have h2 := SAD.pure (α := α)
  have h3 := KTBinary.pure
  have e : ∀ l : List α, probOf (KT.predictor.logPredictSeq k l h) = (l.map fun a => probOf (KT.predictor.logPredict k a [])).prod := by
    intro l
    rw [C174_frozen (by assumption)]
    exact frozen_iid (fun a => probOf (KT.predictor.logPredict k a [])) l h
  refine ⟨e seq, ?_, ?_, ?_⟩
  · rw [C174_frozen (by assumption)]
    exact frozen_iid (fun a => probOf (SAD.predictor.logPredict d a [])) seq h
  · rw [C174_frozen (by assumption)]
    exact frozen_iid (fun a => probOf (KTBinary.predictor.logPredict b a [])) bits h'
  · intro seq' hp
    rw [e, e]
    exact (hp.map _).prod_eq

/-- **C174 (not the probability of the sequence).** A new `KTBinary` gives `0 0` the probability 3/8 if it learns (`update_seq`) and 1/4
if it does not (`log_predict_seq`), and every sequence of `n` bits the probability `2 ^ -n` if it does not learn. -/
theorem C174_learning : probOf (KTBinary.predictor.updateSeq (KTBinary.init none) [false, false] [] 1) = 3 / 8 ∧
    ∀ bits h, probOf (KTBinary.predictor.logPredictSeq (KTBinary.init none) bits h) = (1 / 2) ^ bits.length := by
  constructor
  · have e1 : KTBinary.predictor.update (KTBinary.init none) false [] 1 = .ok (Real.log (1/2), ⟨3/2, 1/2⟩) := by
      norm_num [KTBinary.predictor, KTBinary.update, KTBinary.logPredict, KTBinary.init, KTBinary.get, pyDiv, pyLog, KTBinary.bump]
    have e2 : KTBinary.predictor.update ⟨3/2, 1/2⟩ false [false] 1 = .ok (Real.log (3/4), ⟨5/2, 1/2⟩) := by
      norm_num [KTBinary.predictor, KTBinary.update, KTBinary.logPredict, KTBinary.init, KTBinary.get, pyDiv, pyLog, KTBinary.bump]
    simp only [updateSeq, updateSeqLoop, e1, ok_bind, List.nil_append, e2, pure_eq_ok, probOf_ok]
    rw [zero_add, ← Real.log_mul (by norm_num) (by norm_num), Real.exp_log (by norm_num)]
    norm_num
  · intro bits h
    have e : ∀ a, probOf (KTBinary.predictor.logPredict (KTBinary.init none) a []) = 1 / 2 := by
      intro a
      have : KTBinary.predictor.logPredict (KTBinary.init none) a [] = .ok (Real.log (1/2), KTBinary.init none) := by
        cases a <;> norm_num [KTBinary.predictor, KTBinary.logPredict, KTBinary.init, KTBinary.get, pyDiv, pyLog]
      rw [this, probOf_ok, Real.exp_log (by norm_num)]
    rw [(C174_estimators (⟨[], 0⟩ : KT Bool) ⟨0, [], 0⟩ (KTBinary.init none) [] [] bits h).2.2.1]
    simp only [e, List.map_const', List.prod_replicate]

/-- `C174_PTW` for the default `PTW` after one symbol: over the sequences of three symbols its answers sum to more than one. -/
example : ∃ r s, (PTW.predictor KTBinary.predictor (KTBinary.init none) 0).run (PTW.init (KTBinary.init none) 0) [⟨false, [], 1⟩] = .ok (r, s) ∧
    1 < ((words [false, true] 3).map fun seq =>
      probOf ((PTW.predictor KTBinary.predictor (KTBinary.init none) 0).logPredictSeq s seq [false])).sum := by
  obtain ⟨r, s, h1, -⟩ := C27_witness
  refine ⟨r, s, h1, C174_PTW (KTBinary.init none) KTBinary.pure _ [false, true] (fun w => 0 ≤ w)
    KTBinary.lawful (by norm_num [KTBinary.init]) (by simp) 0 _ (by simp) (by simp) (by simp) r s h1 1 zero_le_one 3 (by norm_num) _⟩

end Verif
