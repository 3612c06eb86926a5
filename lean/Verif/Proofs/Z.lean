import Verif.Proofs.ACBytes
import Verif.Proofs.FMN
import Verif.Model.Z
import Verif.Spec.Z

/-! The command line program: codes of bytes determine the bytes, and `FMN` as a model for the coder. -/

namespace Verif

open Predictor PTWNode

namespace AC

variable {σ : Type} {P : Predictor σ Bool} {N : ℕ} {I : σ → Prop} {W : ℝ → Prop}

theorem win_congr {n : ℕ} {a b : List Bool} (h : ∀ i, a.getD i false = b.getD i false) : win n a = win n b := by
  induction n with
  | zero => simp [win]
  | succ n ih => rw [win_succ, win_succ, ih, h]

/-- As `Trace.unique`, for codes that differ only in zeros at the end. -/
theorem Trace.unique_padded {S : ℤ → ℤ → ℝ → ℤ} (hN : 1 ≤ N) {low high : ℤ} {st : σ} {xs ys out out' : List Bool}
    (h : Trace P N S low high st xs out) (h' : Trace P N S low high st ys out')
    (he : ∀ i, out.getD i false = out'.getD i false)
    (hp : ∀ st r0 s0 r1 s1, I st → P.update st false [] 1 = .ok (r0, s0) → P.update st true [] 1 = .ok (r1, s1) →
      encP r0 false = encP r1 true) (hI : ∀ st b r st', I st → P.update st b [] 1 = .ok (r, st') → I st')
    (hst : I st) (hl : xs.length = ys.length) : xs = ys := by
  induction h generalizing ys out' with
  | zero hb _ ih =>
    cases h' with
    | zero _ h2 => exact ih h2 (fun i => by simpa using he (i + 1)) hst hl
    | one h1 h2 => exact absurd (he 0) (by simp)
    | sym h1 h2 => omega
    | done h1 h2 => omega
  | one hb _ ih =>
    cases h' with
    | zero h1 h2 => exact absurd (he 0) (by simp)
    | one _ h2 => exact ih h2 (fun i => by simpa using he (i + 1)) hst hl
    | sym h1 h2 => omega
    | done h1 h2 => omega
  | done _ _ _ _ _ =>
    cases ys with
    | nil => rfl
    | cons y ys => simp at hl
  | @sym low high split st st' r b xs out h1 h2 hu hs h3 h4 ht ih =>
    cases h' with
    | zero _ _ => omega
    | one _ _ => omega
    | done => simp at hl
    | @sym _ _ split2 _ st2 r2 b2 ys' _ _ _ hu2 hs2 g3 g4 ht2 =>
      have b1 := ht.bounds hN
      have b2' := ht2.bounds hN
      rw [← win_congr he] at b2'
      have hb : b = b2 := by
        cases b <;> cases b2
        · rfl
        · have := hp st _ _ _ _ hst hu hu2
          rw [this] at hs
          simp at b1 b2'
          omega
        · have := hp st _ _ _ _ hst hu2 hu
          rw [this] at hs2
          simp at b1 b2'
          omega
        · rfl
      subst hb
      rw [hu] at hu2
      simp only [Except.ok.injEq, Prod.mk.injEq] at hu2
      obtain ⟨rfl, rfl⟩ := hu2
      rw [← hs] at hs2
      subst hs2
      rw [ih ht2 he (hI _ _ _ _ hst hu) (by simpa using hl)]

theorem compress_inj_padded (hN : 3 ≤ N) (hP : P.UpdateLawful I [false, true] W) (hw : W 1) {st : σ} (hst : I st)
    {xs ys c d : List Bool} {f g : ℕ} (hl : xs.length = ys.length) (hx : compress P N f st xs = .ok c)
    (hy : compress P N g st ys = .ok d) (he : ∀ i, c.getD i false = d.getD i false) : xs = ys := by
  simp only [compress, bind_eq_ok, pure_eq_ok, Except.ok.injEq, Prod.exists] at hx hy
  obtain ⟨o1, s1, t1, h1, rfl⟩ := hx
  obtain ⟨o2, s2, t2, h2, rfl⟩ := hy
  have ok := Enc.ok_init (N := N) (by omega)
  have a1 := encodeAll_trace hN hP hw ok hst (splits_enc _ _ _) h1
  have a2 := encodeAll_trace hN hP hw ok hst (splits_enc _ _ _) h2
  exact a1.unique_padded (by omega) a2 he (fun _ _ _ _ _ hs h0 h1 => encP_agree hP hw hs h0 h1)
    (fun _ _ _ _ hs hu => (exp_update_lt hP hw hs hu).2) hst hl

theorem fromBits_concat (l : List Bool) (b : Bool) : fromBits (l ++ [b]) = 2 * fromBits l + b.toNat := by
  simp [fromBits]

theorem fromBits_inj {a b : List Bool} (hl : a.length = b.length) (h : fromBits a = fromBits b) : a = b := by
  induction a using List.reverseRecOn generalizing b with
  | nil => exact (List.length_eq_zero_iff.mp hl.symm).symm
  | append_singleton a x ih =>
    rcases List.eq_nil_or_concat b with rfl | ⟨b, y, rfl⟩
    · simp at hl
    · rw [List.concat_eq_append] at hl h ⊢
      rw [fromBits_concat, fromBits_concat] at h
      have hx := Bool.toNat_lt x
      have hy := Bool.toNat_lt y
      have h1 : fromBits a = fromBits b := by omega
      have h2 : x.toNat = y.toNat := by omega
      rw [ih (by simpa using hl) h1, (by revert h2; cases x <;> cases y <;> simp : x = y)]

theorem pack_cons {l : List Bool} (h : l ≠ []) :
    pack l = fromBits (l.take 8 ++ List.replicate (8 - l.length) false) :: pack (l.drop 8) := by
  conv_lhs => rw [pack, grouper, dif_neg h]
  rfl

theorem pack_eq_nil {l : List Bool} (h : pack l = []) : l = [] := by
  by_contra hne
  rw [pack_cons hne] at h
  simp at h

theorem getD_chunk (l : List Bool) {i : ℕ} (hi : i < 8) :
    (l.take 8 ++ List.replicate (8 - l.length) false).getD i false = l.getD i false := by
  simp only [List.getD_eq_getElem?_getD, List.getElem?_append, List.getElem?_replicate, List.length_take, List.getElem?_take]
  by_cases h : i < l.length
  · rw [if_pos (by omega), if_pos hi]
  · rw [if_neg (by omega), List.getElem?_eq_none (show l.length ≤ i by omega)]
    split_ifs <;> rfl

/-- Packed bits are determined up to zeros at the end. -/
theorem pack_inj {a b : List Bool} (h : pack a = pack b) : ∀ i, a.getD i false = b.getD i false := by
  induction hn : a.length using Nat.strong_induction_on generalizing a b with
  | _ n ih =>
    intro i
    by_cases ha : a = []
    · subst ha
      rw [pack_nil] at h
      rw [pack_eq_nil h.symm]
    · by_cases hb : b = []
      · subst hb
        rw [pack_nil] at h
        exact absurd (pack_eq_nil h) ha
      · rw [pack_cons ha, pack_cons hb] at h
        simp only [List.cons.injEq] at h
        have e := fromBits_inj (by simp only [List.length_append, List.length_take, List.length_replicate]; omega) h.1
        by_cases hi : i < 8
        · rw [← getD_chunk a hi, ← getD_chunk b hi, e]
        · have hpos := List.length_pos_iff.mpr ha
          have := ih (a.drop 8).length (by rw [List.length_drop]; omega) h.2 rfl (i - 8)
          simp only [List.getD_eq_getElem?_getD, List.getElem?_drop] at this ⊢
          rwa [show 8 + (i - 8) = i by omega] at this

theorem unpack_length (l : List ℕ) : (unpack l).length = 8 * l.length := by
  induction l with
  | nil => rfl
  | cons m ms ih => rw [unpack_cons, List.length_append, bits8_length, ih, List.length_cons]; omega

theorem bits8_inj {m n : ℕ} (hm : m < 256) (hn : n < 256) (h : bits8 m = bits8 n) : m = n := by
  rw [← fromBits_reverse m hm, ← fromBits_reverse n hn, h]

theorem unpack_inj {a b : List ℕ} (ha : ∀ m ∈ a, m < 256) (hb : ∀ m ∈ b, m < 256) (h : unpack a = unpack b) : a = b := by
  induction a generalizing b with
  | nil =>
    have := congrArg List.length h
    rw [unpack_length, unpack_length] at this
    exact (List.length_eq_zero_iff.mp (by simp at this; simpa using this)).symm
  | cons m ms ih =>
    cases b with
    | nil =>
      have := congrArg List.length h
      simp [unpack_length] at this
    | cons n ns =>
      rw [unpack_cons, unpack_cons] at h
      obtain ⟨h1, h2⟩ := List.append_inj h (by rw [bits8_length, bits8_length])
      rw [bits8_inj (ha m (by simp)) (hb n (by simp)) h1,
        ih (fun x hx => ha x (by simp [hx])) (fun x hx => hb x (by simp [hx])) h2]

/-- Codes of bytes determine the bytes, given their number. -/
theorem compressBytes_inj (hN : 3 ≤ N) (hP : P.UpdateLawful I [false, true] W) (hw : W 1) {st : σ} (hst : I st)
    {a b c : List ℕ} {f g : ℕ} (ha : ∀ m ∈ a, m < 256) (hb : ∀ m ∈ b, m < 256) (hl : a.length = b.length)
    (hx : compressBytes P N f st a = .ok c) (hy : compressBytes P N g st b = .ok c) : a = b := by
  simp only [compressBytes, bind_eq_ok, pure_eq_ok, Except.ok.injEq] at hx hy
  obtain ⟨c1, h1, rfl⟩ := hx
  obtain ⟨c2, h2, e⟩ := hy
  exact unpack_inj ha hb (compress_inj_padded hN hP hw hst (by rw [unpack_length, unpack_length, hl]) h1 h2 (pack_inj e.symm))

end AC

end Verif

namespace Verif

open Predictor PTWNode

/-- If all runs from a state return and are followed by normalised updates, then updates are lawful on the states reached. -/
theorem Predictor.updateLawful_of_runs {σ α : Type} {P : Predictor σ α} {s0 : σ} {A : List α} {W : ℝ → Prop}
    (h : ∀ xs, GoodObs A W xs → ∀ h w, W w → ∃ r s, P.run s0 xs = .ok (r, s) ∧
      (A.map fun a => probOf (P.update s a h w)).sum = 1) :
    P.UpdateLawful (fun s => ∃ xs r, GoodObs A W xs ∧ P.run s0 xs = .ok (r, s)) A W where
  total := by
    rintro s a hi w ⟨xs, r, hx, hr⟩ ha hw
    obtain ⟨r', s', h1, _⟩ := h (xs ++ [⟨a, hi, w⟩]) (hx.snoc ⟨ha, hw⟩) [] w hw
    obtain ⟨r1, s1, r2, g1, g2, _⟩ := run_append_ok.mp h1
    rw [hr] at g1
    simp only [Except.ok.injEq, Prod.mk.injEq] at g1
    obtain ⟨rfl, rfl⟩ := g1
    obtain ⟨q, t, _, k1, k2, _⟩ := run_cons_ok.mp g2
    refine ⟨q, t, k1, xs ++ [⟨a, hi, w⟩], r', hx.snoc ⟨ha, hw⟩, ?_⟩
    simp only [Predictor.run, pure_eq_ok, Except.ok.injEq, Prod.mk.injEq] at k2
    rw [h1, k2.2]
  normalised := by
    rintro s hi w ⟨xs, r, hx, hr⟩ hw f hf
    obtain ⟨r', s', h1, h2⟩ := h xs hx hi w hw
    rw [hr] at h1
    simp only [Except.ok.injEq, Prod.mk.injEq] at h1
    obtain ⟨rfl, rfl⟩ := h1
    rw [← h2]
    congr 1
    apply List.map_congr_left
    intro a ha
    obtain ⟨t, ht⟩ := hf a ha
    rw [ht, probOf_ok]

namespace Z

theorem toBytes4_ok {little : Bool} {n : ℕ} {l : List ℕ} (h : toBytes4 little n = .ok l) :
    l.length = 4 ∧ valueOfBytes (if little then l else l.reverse) = n := by
  unfold toBytes4 at h
  split_ifs at h with h1 h2
  · simp only [Except.ok.injEq] at h
    subst h
    subst h2
    refine ⟨rfl, ?_⟩
    simp only [if_true, List.range, List.range.loop, List.map, valueOfBytes]
    omega
  · simp only [Except.ok.injEq] at h
    subst h
    refine ⟨rfl, ?_⟩
    simp only [if_neg h2, List.reverse_reverse, List.range, List.range.loop, List.map, valueOfBytes]
    omega

theorem toBytes4_isOk {little : Bool} {n : ℕ} (h : n < 2 ^ 32) : ∃ l, toBytes4 little n = .ok l := by
  unfold toBytes4
  rw [if_pos (by norm_num; omega)]
  exact ⟨_, rfl⟩

end Z

end Verif
