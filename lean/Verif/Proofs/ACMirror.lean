import Verif.Proofs.ACBytes
import Verif.Proofs.ACTotal
import Verif.Spec.Mirror

/-! Codes written as bytes: the padding, and the order of the bits. -/

namespace Verif

open Predictor

namespace AC

theorem win_pad (n k : ℕ) (l : List Bool) : win n (l ++ List.replicate k false) = win n l := by
  induction n generalizing l with
  | zero => cases l <;> cases k <;> simp [win, List.replicate_succ]
  | succ n ih =>
    cases l with
    | nil =>
      cases k with
      | zero => simp
      | succ k =>
        rw [win_nil]
        rw [List.nil_append, List.replicate_succ, win]
        have h : ∀ n k, win n (List.replicate k false) = 0 := by
          intro n
          induction n with
          | zero => intro k; cases k <;> rfl
          | succ n ih => intro k; cases k <;> simp [List.replicate_succ, win, ih]
        simp [h]
    | cons b bs => simp only [List.cons_append, win, ih]

variable {σ : Type} {P : Predictor σ Bool} {I : σ → Prop} {W : ℝ → Prop} {N : ℕ} {S : ℤ → ℤ → ℝ → ℤ}

/-- The encoder produces a trace, also when zeros follow its code. -/
theorem encodeAll_trace_pad {k : ℕ} (hN : 3 ≤ N) (hk : k + 2 < N) (hP : P.UpdateLawful I [false, true] W) (hw : W 1) {fuel : ℕ}
    {s s' : Enc} (hs : s.Ok N) {st st' : σ} (hst : I st) {bits o : List Bool} (hroom : Splits P N fuel S s st bits)
    (h : encodeAll P N fuel s st bits = .ok (o, s', st')) :
    Trace P N S s.low s.high st bits (o ++ (s'.flush N ++ List.replicate k false)) := by
  induction bits generalizing s st o with
  | nil =>
    simp only [encodeAll, pure_eq_ok, Except.ok.injEq, Prod.mk.injEq] at h
    obtain ⟨rfl, rfl, rfl⟩ := h
    obtain ⟨w1, w2, w3⟩ := win_flush hN s hs.follow
    have hq := quarter_pos (N := N) (by omega)
    have hh := half_eq (N := N) (by omega)
    have hst := hs.straddle
    have hl : (s.flush N ++ List.replicate k false).length < N := by simp only [List.length_append, List.length_replicate]; omega
    rw [List.nil_append]
    by_cases hc : s.low < quarter N
    · have := w2 hc
      exact .done hst.1 hst.2 (by rw [win_pad]; omega) (by rw [win_pad]; omega) hl
    · have := w3 hc
      exact .done hst.1 hst.2 (by rw [win_pad]; omega) (by rw [win_pad]; omega) hl
  | cons b bs ih =>
    simp only [encodeAll, encode, bind_eq_ok, pure_eq_ok, Except.ok.injEq, Prod.mk.injEq, Prod.exists] at h
    obtain ⟨o1, s1, st1, ⟨r, st2, h1, o2, s2, h2, rfl, rfl, rfl⟩, o3, s3, st3, h3, rfl, rfl, rfl⟩ := h
    have hu := liftRun_ok.mp h1
    obtain ⟨e1, i1⟩ := exp_update_lt hP hw hst hu
    obtain ⟨g1, g2⟩ := hroom r st2 o2 s2 hu h2
    rw [List.append_assoc]
    exact encode_trace (by omega) hs e1 hu h2 g1 (ih (encodeWith_ok (by omega) hs (encP_lt e1 b).1 h2).1 i1 g2 h3)

/-! ## The order of the bits -/

theorem bits8_mirror : ∀ m < 256, bits8 (mirror m) = (bits8 m).reverse := by decide +kernel

theorem mirror_mirror : ∀ m < 256, mirror (mirror m) = m := by decide +kernel

theorem fromBits_bits8 : ∀ m < 256, fromBits (bits8 m) = mirror m := by decide +kernel

theorem fromBits_append (l : List Bool) (b : Bool) : fromBits (l ++ [b]) = 2 * fromBits l + b.toNat := by
  simp [fromBits]

theorem fromBits_lt (l : List Bool) : fromBits l < 2 ^ l.length := by
  induction l using List.reverseRecOn with
  | nil => simp [fromBits]
  | append_singleton l b ih =>
    rw [fromBits_append, List.length_append, List.length_singleton, pow_succ]
    cases b <;> simp <;> omega

/-- Eight bits come back from the mirrored byte. -/
theorem bits8_mirror_fromBits (l : List Bool) (hl : l.length = 8) : bits8 (mirror (fromBits l)) = l := by
  have key : ∀ a b c d e f g h : Bool, bits8 (mirror (fromBits [a, b, c, d, e, f, g, h])) = [a, b, c, d, e, f, g, h] := by
    decide +kernel
  match l, hl with
  | [a, b, c, d, e, f, g, h], _ => exact key a b c d e f g h

/-- Unpacking mirrored bytes gives the bits that were packed, and fewer than eight zeros. -/
theorem unpack_mirror_pack (n : ℕ) : ∀ bits : List Bool, bits.length ≤ n →
    ∃ k < 8, unpack ((pack bits).map mirror) = bits ++ List.replicate k false := by
  induction n using Nat.strong_induction_on with
  | _ n ih =>
    intro bits hb
    by_cases h8 : bits.length ≤ 8
    · by_cases hne : bits = []
      · subst hne
        exact ⟨0, by omega, by rw [pack_nil]; rfl⟩
      · have := List.length_pos_iff.mpr hne
        refine ⟨8 - bits.length, by omega, ?_⟩
        rw [pack_tail hne h8, List.map_singleton, unpack_cons, unpack_nil, List.append_nil,
          bits8_mirror_fromBits _ (by simp; omega)]
    · obtain ⟨k, hk, h⟩ := ih (bits.drop 8).length (by simp; omega) (bits.drop 8) le_rfl
      refine ⟨k, hk, ?_⟩
      have ht : (bits.take 8).length = 8 := by simp; omega
      conv_lhs => rw [← List.take_append_drop 8 bits]
      rw [pack_chunk ht, List.map_cons, unpack_cons, bits8_mirror_fromBits _ ht, h, ← List.append_assoc,
        List.take_append_drop]

theorem pack_unpack_mirror {data : List ℕ} (hd : ∀ m ∈ data, m < 256) : pack (unpack data) = data.map mirror := by
  have h := pack_unpack data []
  rw [List.append_nil, pack_nil, List.append_nil] at h
  rw [h]
  exact List.map_congr_left fun m hm => fromBits_bits8 m (hd m hm)

theorem unpack_length8 (data : List ℕ) : (unpack data).length = data.length * 8 := by
  induction data with
  | nil => rfl
  | cons m ms ih => rw [unpack_cons, List.length_append, ih, bits8_length, List.length_cons]; ring

end AC

end Verif
