import Verif.Proofs.ACMirror
import Verif.Props.ACLonger

/-! C44 for every model: the bytes come back when every byte is mirrored on the way. -/

namespace Verif

open Predictor AC

variable {σ : Type} {P : Predictor σ Bool} {N : ℕ} {I : σ → Prop} {W : ℝ → Prop}

/-- **C44 (what comes back).** `compress_bytes` reads and `decompress_bytes` writes the bits of a byte in different orders.  For
every model that never gives zero less than one half: if the bits of every compressed byte are mirrored before `decompress_bytes`
and those of every byte it returns afterwards, then the bytes come back.  The zeros that fill the last byte of the code do not
matter. -/
theorem C44_mirrored (hN : 10 ≤ N) (hP : P.Lawful I [false, true] W) (hw : W 1)
    (hpure : ∀ s r t, I s → P.logPredict s false [] = .ok (r, t) → Indist P s t)
    (hhalf : ∀ s r t, I s → P.logPredict s false [] = .ok (r, t) → 1 / 2 ≤ Real.exp r) (st : σ) (hst : I st)
    (data : List ℕ) (hd : ∀ m ∈ data, m < 256) : ∃ c d, (∀ fuel, 2 ^ N + N + 2 ≤ fuel →
      compressBytes P N fuel st data = .ok c ∧ decompressBytes P N fuel st (c.map mirror) data.length = .ok d) ∧
      d.map mirror = data := by
  obtain ⟨o, s, st', h, _⟩ := C41_encoder_interval (by omega) hP.updateLawful hw st hst (unpack data) (N + 1) le_rfl
  obtain ⟨k, hk, hu⟩ := unpack_mirror_pack _ (o ++ s.flush N) le_rfl
  have ht := encodeAll_trace_pad (k := k) (by omega) (by omega) hP.updateLawful hw (Enc.ok_init (by omega)) hst
    (roomy_of_half (by omega) hP hw hhalf (Enc.ok_init (by omega)) hst (unpack data)).splits h
  rw [← List.append_assoc] at ht
  have hT := toNat_top N
  refine ⟨pack (o ++ s.flush N), data.map mirror, fun fuel hf => ⟨?_, ?_⟩, ?_⟩
  · obtain ⟨j, rfl⟩ := Nat.exists_eq_add_of_le (show N + 1 ≤ fuel by omega)
    have : compress P N (N + 1 + j) st (unpack data) = .ok (o ++ s.flush N) := by
      apply compress_mono
      simp only [compress, h, ok_bind, pure_eq_ok]
    simp only [compressBytes, this, ok_bind, pure_eq_ok]
  · obtain ⟨res, hr⟩ := decompress_total (by omega) hP hw hpure hhalf hst (fuel := fuel) (by omega) ht
    have := decompress_trace (by omega) hP hw hpure hst ht hr
    subst this
    rw [unpack_length8] at hr
    simp only [decompressBytes, hu, hr, ok_bind, pure_eq_ok, pack_unpack_mirror hd]
  · rw [List.map_map]
    conv_rhs => rw [← List.map_id data]
    exact List.map_congr_left fun m hm => mirror_mirror m (hd m hm)

/-- **C44 (what comes back, other models).** Let every interval that the encoder split be wide enough for zero's part to contain
an integer.  What `decompress_bytes` returns for the mirrored compressed bytes, if it returns, is the mirrored message. -/
theorem C44_mirrored_returned (hN : 10 ≤ N) (hP : P.Lawful I [false, true] W) (hw : W 1)
    (hpure : ∀ s r t, I s → P.logPredict s false [] = .ok (r, t) → Indist P s t) (st : σ) (hst : I st)
    (data : List ℕ) (hd : ∀ m ∈ data, m < 256) (f g : ℕ) (hroom : Roomy P N f (Enc.init N) st (unpack data)) (c d : List ℕ)
    (hc : compressBytes P N f st data = .ok c)
    (hr : decompressBytes P N g st (c.map mirror) data.length = .ok d) : d.map mirror = data := by
  simp only [compressBytes, compress, bind_eq_ok, pure_eq_ok, Except.ok.injEq, Prod.exists] at hc
  obtain ⟨_, ⟨o, s, t, h, rfl⟩, rfl⟩ := hc
  obtain ⟨k, hk, hu⟩ := unpack_mirror_pack _ (o ++ s.flush N) le_rfl
  have ht := encodeAll_trace_pad (k := k) (by omega) (by omega) hP.updateLawful hw (Enc.ok_init (by omega)) hst hroom.splits h
  rw [← List.append_assoc] at ht
  simp only [decompressBytes, hu, bind_eq_ok, pure_eq_ok, Except.ok.injEq] at hr
  obtain ⟨res, hr, rfl⟩ := hr
  rw [← unpack_length8] at hr
  rw [decompress_trace (by omega) hP hw hpure hst ht hr, pack_unpack_mirror hd, List.map_map]
  conv_rhs => rw [← List.map_id data]
  exact List.map_congr_left fun m hm => mirror_mirror m (hd m hm)

/-- A model to which the first theorem applies, and which is not uniform. -/
example : ∃ c d, (∀ fuel, 2 ^ 32 + 32 + 2 ≤ fuel →
      compressBytes (scripted fun _ => 3 / 4) 32 fuel [] [200, 1, 77] = .ok c ∧
      decompressBytes (scripted fun _ => 3 / 4) 32 fuel [] (c.map mirror) 3 = .ok d) ∧ d.map mirror = [200, 1, 77] := by
  refine C44_mirrored (by norm_num) (scripted_lawful (fun _ => by norm_num)) trivial
    (fun s r t _ h => (scripted_pure _) s false [] r t h) ?_ [] trivial _ (by decide)
  intro s r t _ h
  simp only [scripted, Bool.false_eq_true, if_false, Except.ok.injEq, Prod.mk.injEq] at h
  rw [← h.1, Real.exp_log (by norm_num)]
  norm_num

/-- The byte 1 of `C44_ctw_KT_byte_one`: its code 129 is its own mirror image, and 128 is the mirror image of 1. -/
example : mirror 129 = 129 ∧ mirror 128 = 1 ∧ mirror 200 = 19 := by decide

end Verif
