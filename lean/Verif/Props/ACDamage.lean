import Verif.Proofs.ACDamage
import Verif.Proofs.ACMirror
import Verif.Proofs.Z
import Verif.Props.AC
import Mathlib.Data.Fintype.BigOperators

/-!
# C143: damaged codes; C144: no model shortens all messages
-/

namespace Verif

open Predictor AC

variable {σ : Type} {P : Predictor σ Bool} {N : ℕ} {I : σ → Prop} {W : ℝ → Prop}

/-! ## C143 -/

theorem AC.encodeAll_append {fuel : ℕ} {s s' : Enc} {st st' : σ} {xs ys o : List Bool} (h : encodeAll P N fuel s st (xs ++ ys) = .ok (o, s', st')) :
    ∃ o1 s1 st1 o2, encodeAll P N fuel s st xs = .ok (o1, s1, st1) ∧ encodeAll P N fuel s1 st1 ys = .ok (o2, s', st') ∧ o = o1 ++ o2 := by
  induction xs generalizing s st o with
  | nil => exact ⟨[], s, st, o, rfl, h, rfl⟩
  | cons b bs ih =>
    rw [List.cons_append] at h
    simp only [encodeAll, bind_eq_ok, pure_eq_ok, Except.ok.injEq, Prod.mk.injEq, Prod.exists] at h
    obtain ⟨o1, s1, st1, h1, o3, s3, st3, h3, rfl, rfl, rfl⟩ := h
    obtain ⟨o4, s4, st4, o5, g1, g2, rfl⟩ := ih h3
    refine ⟨o1 ++ o4, s4, st4, o5, ?_, g2, by rw [List.append_assoc]⟩
    simp only [encodeAll, h1, ok_bind, g1, pure_eq_ok]

/-- **C143 (damage).** Let the first bits of a code be intact, as many as the code of a beginning `xs` of the message has, plus the `N - 2` bits that the
decoder looks ahead.  Whatever bits follow, and whatever number of symbols is asked for, what `decompress` returns begins with `xs`. -/
theorem C143_damage (hN : 3 ≤ N) (hP : P.Lawful I [false, true] W) (hw : W 1)
    (hpure : ∀ s r t, I s → P.logPredict s false [] = .ok (r, t) → Indist P s t) (st : σ) (hst : I st)
    (xs ys cx intact rest damaged res : List Bool) (f g n : ℕ) (hroom : Roomy P N f (Enc.init N) st xs)
    (hx : compress P N f st xs = .ok cx) (hc : compress P N f st (xs ++ ys) = .ok (intact ++ rest))
    (hl : cx.length + N ≤ intact.length + 2) (hn : xs.length ≤ n)
    (hd : decompress P N g st (intact ++ damaged) n = .ok res) : xs <+: res := by
  simp only [compress, bind_eq_ok, pure_eq_ok, Except.ok.injEq, Prod.exists] at hx hc
  obtain ⟨o, s, t, h, e⟩ := hc
  obtain ⟨o1, s1, st1, o2, h1, h2, rfl⟩ := encodeAll_append h
  obtain ⟨o', s', t', h', rfl⟩ := hx
  rw [h1] at h'
  simp only [Except.ok.injEq, Prod.mk.injEq] at h'
  obtain ⟨rfl, rfl, rfl⟩ := h'
  have hok := encodeAll_ok (by omega) hP.updateLawful hw (Enc.ok_init (N := N) (by omega)) hst h1
  rw [List.length_append, (win_flush hN s1 hok.1.follow).1] at hl
  -- the intact part begins with what was written for `xs`
  have ho : o1 <+: intact := by
    refine List.prefix_of_prefix_length_le (l₃ := intact ++ rest) ?_ (List.prefix_append _ _) (by omega)
    rw [← e, List.append_assoc]
    exact List.prefix_append _ _
  obtain ⟨z, rfl⟩ := ho
  have hz : N ≤ z.length := by
    rw [List.length_append] at hl
    omega
  rw [List.append_assoc, List.append_assoc] at e
  have e' := List.append_cancel_left e
  have hb := (encodeAll_trace hN hP.updateLawful hw hok.1 hok.2 (splits_enc _ _ _) h2).bounds (by omega)
  rw [e', win_append hz] at hb
  rw [List.append_assoc] at hd
  refine decompress_path (by omega) hP hw hpure hst (encodeAll_path (by omega) hP.updateLawful hw (Enc.ok_init (by omega)) hst hroom.splits h1
    (z := z ++ damaged) ?_) hn hd
  rw [win_append hz]
  exact hb

/-- **C143 (bits after the code).** If the code ends with a one, then any bits may follow: what is decoded begins with the message. -/
theorem C143_followed (hN : 3 ≤ N) (hP : P.Lawful I [false, true] W) (hw : W 1)
    (hpure : ∀ s r t, I s → P.logPredict s false [] = .ok (r, t) → Indist P s t) (st : σ) (hst : I st)
    (msg c more res : List Bool) (f g n : ℕ) (hroom : Roomy P N f (Enc.init N) st msg)
    (hc : compress P N f st msg = .ok (c ++ [true])) (hn : msg.length ≤ n)
    (hd : decompress P N g st (c ++ [true] ++ more) n = .ok res) : msg <+: res := by
  simp only [compress, bind_eq_ok, pure_eq_ok, Except.ok.injEq, Prod.exists] at hc
  obtain ⟨o, s, t, h, e⟩ := hc
  have hok := (encodeAll_ok (by omega) hP.updateLawful hw (Enc.ok_init (N := N) (by omega)) hst h).1
  rw [← e, List.append_assoc] at hd
  refine decompress_path (by omega) hP hw hpure hst (encodeAll_path (by omega) hP.updateLawful hw (Enc.ok_init (by omega)) hst hroom.splits h
    (z := s.flush N ++ more) ?_) hn hd
  have hq := half_eq (N := N) (by omega)
  have hstr := hok.straddle
  unfold Enc.flush at e ⊢
  rw [hok.follow] at e ⊢
  by_cases hlow : s.low < quarter N
  · rw [if_pos hlow]
    obtain ⟨k, rfl⟩ := Nat.exists_eq_add_of_le' (show 2 ≤ N by omega)
    have := win_range k more
    rw [quarter_succ] at *
    simp [win]
    omega
  · rw [if_neg hlow] at e
    exfalso
    have := congrArg List.getLast? e
    simp at this

/-- **C143 (zeros after the code).** Zeros may always follow. -/
theorem C143_zeros (hN : 3 ≤ N) (hP : P.Lawful I [false, true] W) (hw : W 1)
    (hpure : ∀ s r t, I s → P.logPredict s false [] = .ok (r, t) → Indist P s t) (st : σ) (hst : I st)
    (msg code res : List Bool) (f g n k : ℕ) (hroom : Roomy P N f (Enc.init N) st msg)
    (hc : compress P N f st msg = .ok code) (hn : msg.length ≤ n)
    (hd : decompress P N g st (code ++ List.replicate k false) n = .ok res) : msg <+: res := by
  simp only [compress, bind_eq_ok, pure_eq_ok, Except.ok.injEq, Prod.exists] at hc
  obtain ⟨o, s, t, h, rfl⟩ := hc
  have hok := encodeAll_ok (by omega) hP.updateLawful hw (Enc.ok_init (N := N) (by omega)) hst h
  rw [List.append_assoc] at hd
  refine decompress_path (by omega) hP hw hpure hst (encodeAll_path (by omega) hP.updateLawful hw (Enc.ok_init (by omega)) hst hroom.splits h
    (z := s.flush N ++ List.replicate k false) ?_) hn hd
  rw [win_append_zeros]
  have := (encodeAll_trace (bits := []) (fuel := f) hN hP.updateLawful hw hok.1 hok.2 (splits_enc _ _ _) rfl).bounds (by omega)
  simpa using this

/-- **C143 (other bits after the code).** But not any bits if it ends with a zero: with the default `ctw.KT`, the code of 00001 is 010, and 010111 is
decoded as 00110.  So codes cannot be written one after the other. -/
theorem C143_not_followed :
    compress (CKT.probSeq (α := Bool)).toPredictor 32 100 (KTI.state 0 0 0) [false, false, false, false, true] = .ok [false, true, false] ∧
    decompress (CKT.probSeq (α := Bool)).toPredictor 32 100 (KTI.state 0 0 0) ([false, true, false] ++ [true, true, true]) 5 =
      .ok [false, false, true, true, false] := by
  have h1 : Sim.compress KTI.num KTI.den 32 100 [false, false, false, false, true] = some [false, true, false] := by decide +kernel
  have h2 : Sim.decompress KTI.num KTI.den 32 100 ([false, true, false] ++ [true, true, true]) 5 = some [false, false, true, true, false] := by
    decide +kernel
  exact ⟨Sim.compress_sound KTI.rational h1 ⟨0, rfl⟩, Sim.decompress_sound KTI.rational h2 ⟨0, rfl⟩⟩

/-- **C143 (no bits make it hang).** For models that never give zero less than one half, `decompress` returns for all bits and lengths, at least as many
symbols as asked for. -/
theorem C143_any_bits (hN : 2 ≤ N) (hP : P.Lawful I [false, true] W) (hw : W 1)
    (hhalf : ∀ s r t, I s → P.logPredict s false [] = .ok (r, t) → 1 / 2 ≤ Real.exp r) (st : σ) (hst : I st) (bits : List Bool) (n fuel : ℕ)
    (hf : 2 ^ N + (n + 1) * (N + 1) < fuel) : ∃ res, decompress P N fuel st bits n = .ok res ∧ n ≤ res.length := by
  have htop : (top N).toNat = 2 ^ N := by
    unfold top
    rw [show (2 : ℤ) ^ N = ((2 ^ N : ℕ) : ℤ) by push_cast; rfl, Int.toNat_natCast]
  obtain ⟨res, h⟩ := decompress_any hN hP hw hhalf hst bits n (fuel := fuel) (by omega) (by omega)
  exact ⟨res, h, decompress_length h⟩

/-- Eight bits of code for six symbols that are equally probable, of which the last three are damaged: the first two symbols come back, as the coder of three
bits looks ahead by one bit. -/
example (damaged : List Bool) : ∃ res, decompress (scripted fun _ => 1 / 2) 3 1000 [] ([true, false, true, true, true] ++ damaged) 6 = .ok res ∧
    [true, false] <+: res := by
  have hP : (scripted fun _ => 1 / 2).Lawful (fun _ => True) [false, true] (fun _ => True) := scripted_lawful (fun _ => by norm_num)
  have hU : ∀ s r t, True → (scripted fun _ => 1 / 2).logPredict s false [] = .ok (r, t) → Real.exp r = 1 / 2 := by
    intro s r t _ h
    simp only [scripted, Bool.false_eq_true, if_false, Except.ok.injEq, Prod.mk.injEq] at h
    rw [← h.1, Real.exp_log (by norm_num)]
  have hpure : ∀ s r t, True → (scripted fun _ => 1 / 2).logPredict s false [] = .ok (r, t) → Indist (scripted fun _ => 1 / 2) s t :=
    fun s r t _ h => scripted_pure _ s _ _ _ _ h
  obtain ⟨res, h1, _⟩ := C143_any_bits (N := 3) (by norm_num) hP trivial (fun s r t hs h => (hU s r t hs h).ge) [] trivial
    ([true, false, true, true, true] ++ damaged) 6 1000 (by norm_num)
  refine ⟨res, h1, ?_⟩
  have c1 := uniform_compress (N := 3) (by norm_num) hP trivial hU (st := []) trivial 0 [true, false]
  have c2 := uniform_compress (N := 3) (by norm_num) hP trivial hU (st := []) trivial 0 ([true, false] ++ [true, true, true, true])
  exact C143_damage (N := 3) (by norm_num) hP trivial hpure [] trivial [true, false] [true, true, true, true] _ [true, false, true, true, true] _
    damaged res _ 1000 6 (roomy_of_half (by norm_num) hP trivial (fun s r t hs h => (hU s r t hs h).ge) (Enc.ok_init (by norm_num)) trivial _) c1 c2
    (by simp) (by simp) h1

/-! ## C144 -/

/-- **C144 (counting).** Of the messages of one length, at most `2 ^ k` have codes of at most `k` bits, whatever the model. -/
theorem C144_count (hN : 3 ≤ N) (hP : P.UpdateLawful I [false, true] W) (hw : W 1) (st : σ) (hst : I st) (n k : ℕ) (msgs : Finset (List Bool))
    (hl : ∀ m ∈ msgs, m.length = n) (hc : ∀ m ∈ msgs, ∃ f code, compress P N f st m = .ok code ∧ code.length ≤ k) : msgs.card ≤ 2 ^ k := by
  classical
  have hcard : Fintype.card (Fin k → Bool) = 2 ^ k := by simp
  choose! f code h1 h2 using hc
  rw [← hcard, ← Finset.card_univ]
  refine Finset.card_le_card_of_injOn (fun m i => (code m).getD i false) (fun _ _ => Finset.mem_coe.mpr (Finset.mem_univ _)) ?_
  intro a ha b hb hab
  rw [Finset.mem_coe] at ha hb
  refine compress_inj_padded hN hP hw hst (by rw [hl a ha, hl b hb]) (h1 a ha) (h1 b hb) (fun i => ?_)
  by_cases hi : i < k
  · exact congrFun hab ⟨i, hi⟩
  · rw [List.getD_eq_getElem?_getD, List.getD_eq_getElem?_getD, List.getElem?_eq_none (by have := h2 a ha; omega),
      List.getElem?_eq_none (by have := h2 b hb; omega)]

/-- All messages of `n` bits. -/
def allMessages (n : ℕ) : Finset (List Bool) := (Finset.univ : Finset (Fin n → Bool)).image List.ofFn

theorem mem_allMessages {n : ℕ} {m : List Bool} : m ∈ allMessages n ↔ m.length = n := by
  simp only [allMessages, Finset.mem_image, Finset.mem_univ, true_and]
  constructor
  · rintro ⟨a, rfl⟩
    simp
  · rintro rfl
    exact ⟨m.get, List.ofFn_get m⟩

theorem card_allMessages (n : ℕ) : (allMessages n).card = 2 ^ n := by
  rw [allMessages, Finset.card_image_of_injective _ List.ofFn_injective, Finset.card_univ]
  simp

/-- **C144 (random data).** At most one in `2 ^ j` of the messages of `n` bits is shortened by `j` bits or more. -/
theorem C144_fraction (hN : 3 ≤ N) (hP : P.UpdateLawful I [false, true] W) (hw : W 1) (st : σ) (hst : I st) (n j : ℕ) (hj : j ≤ n)
    (short : Finset (List Bool)) (hs : ∀ m, m ∈ short ↔ m.length = n ∧ ∃ f code, compress P N f st m = .ok code ∧ code.length + j ≤ n) :
    short.card * 2 ^ j ≤ (allMessages n).card := by
  have := C144_count hN hP hw st hst n (n - j) short (fun m hm => ((hs m).mp hm).1) (fun m hm => by
    obtain ⟨_, f, c, h1, h2⟩ := (hs m).mp hm
    exact ⟨f, c, h1, by omega⟩)
  rw [card_allMessages]
  calc short.card * 2 ^ j ≤ 2 ^ (n - j) * 2 ^ j := Nat.mul_le_mul_right _ this
    _ = 2 ^ n := by rw [← pow_add, Nat.sub_add_cancel hj]

/-- **C144 (some message is not shortened).** For every model and length there is a message with a code of no fewer bits. -/
theorem C144_not_shortened (hN : 3 ≤ N) (hP : P.UpdateLawful I [false, true] W) (hw : W 1) (st : σ) (hst : I st) (n : ℕ) :
    ∃ msg code, msg.length = n ∧ compress P N (N + 1) st msg = .ok code ∧ n ≤ code.length := by
  by_contra hno
  push Not at hno
  have htot : ∀ m : List Bool, ∃ code, compress P N (N + 1) st m = .ok code := by
    intro m
    obtain ⟨o, s, st', h⟩ := encodeAll_total (N := N) (by omega) hP hw 0 (Enc.ok_init (by omega)) hst m
    exact ⟨o ++ s.flush N, by simp only [compress, h, ok_bind, pure_eq_ok]⟩
  cases n with
  | zero =>
    obtain ⟨c, hc⟩ := htot []
    exact absurd (hno [] c rfl hc) (by omega)
  | succ n =>
    have := C144_count hN hP hw st hst (n + 1) n (allMessages (n + 1)) (fun m hm => mem_allMessages.mp hm) (fun m hm => by
      obtain ⟨c, hc⟩ := htot m
      have := hno m c (mem_allMessages.mp hm) hc
      exact ⟨_, c, hc, by omega⟩)
    rw [card_allMessages, pow_succ] at this
    have := Nat.one_le_two_pow (n := n)
    omega

/-- **C144 (bytes).** Likewise, of the inputs of one length at most `256 ^ k` have compressed forms of at most `k` bytes. -/
theorem C144_count_bytes (hN : 3 ≤ N) (hP : P.UpdateLawful I [false, true] W) (hw : W 1) (st : σ) (hst : I st) (n k : ℕ) (inputs : Finset (List ℕ))
    (hb : ∀ a ∈ inputs, a.length = n ∧ ∀ m ∈ a, m < 256)
    (hc : ∀ a ∈ inputs, ∃ f c, compressBytes P N f st a = .ok c ∧ c.length ≤ k) : inputs.card ≤ 256 ^ k := by
  classical
  rw [show 256 ^ k = 2 ^ (8 * k) by rw [pow_mul]; norm_num, ← Finset.card_image_of_injOn (f := unpack) (s := inputs) (fun a ha b hb' h =>
    unpack_inj (hb a ha).2 (hb b hb').2 h)]
  refine C144_count hN hP hw st hst (n * 8) (8 * k) _ (fun m hm => ?_) (fun m hm => ?_)
  · obtain ⟨a, ha, rfl⟩ := Finset.mem_image.mp hm
    rw [unpack_length8, (hb a ha).1]
  · obtain ⟨a, ha, rfl⟩ := Finset.mem_image.mp hm
    obtain ⟨f, c, h1, h2⟩ := hc a ha
    simp only [compressBytes, bind_eq_ok, pure_eq_ok, Except.ok.injEq] at h1
    obtain ⟨c1, h1, rfl⟩ := h1
    refine ⟨f, c1, h1, ?_⟩
    obtain ⟨j, _, hj⟩ := unpack_mirror_pack c1.length c1 le_rfl
    have := congrArg List.length hj
    rw [unpack_length8, List.length_map, List.length_append] at this
    omega

/-- **C144 (the length is needed).** The code alone does not tell the message: with the default `ctw.KT`, 0 and 00 have the same code. -/
theorem C144_length_needed :
    compress (CKT.probSeq (α := Bool)).toPredictor 32 100 (KTI.state 0 0 0) [false] = .ok [false, false, true] ∧
    compress (CKT.probSeq (α := Bool)).toPredictor 32 100 (KTI.state 0 0 0) [false, false] = .ok [false, false, true] := by
  have h1 : Sim.compress KTI.num KTI.den 32 100 [false] = some [false, false, true] := by decide +kernel
  have h2 : Sim.compress KTI.num KTI.den 32 100 [false, false] = some [false, false, true] := by decide +kernel
  exact ⟨Sim.compress_sound KTI.rational h1 ⟨0, rfl⟩, Sim.compress_sound KTI.rational h2 ⟨0, rfl⟩⟩

/-- The hypotheses hold for the default `ctw.KT`: some message of a hundred bits is not shortened. -/
example (st : CKT Bool) (hst : CKT.init [false, true] none = .ok st) : ∃ msg code, msg.length = 100 ∧
    compress (CKT.probSeq (α := Bool)).toPredictor 32 33 st msg = .ok code ∧ 100 ≤ code.length := by
  rw [CKT.init_default (by simp) (by simp), Except.ok.injEq] at hst
  subst hst
  exact C144_not_shortened (by norm_num) (CKT.lawful (by simp) (by simp)).updateLawful zero_le_one _ (CKT.good_default (by simp)) 100

end Verif
