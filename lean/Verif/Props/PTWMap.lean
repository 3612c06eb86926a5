import Verif.Proofs.PTWMap
import Verif.Proofs.PTWRun
import Verif.Props.PTW
import Verif.Proofs.CtwPTW
import Verif.Model.CtwFMN

/-! # C115: the model returned by `PTW.map` -/

namespace Verif

open Predictor PTWNode

/-- The list of partitions is complete and without repetition. -/
theorem C115_partitions (k : ℕ) : (TPart.all k).Nodup ∧ ∀ T : TPart k, T ∈ TPart.all k :=
  ⟨TPart.nodup_all k, TPart.mem_all⟩

/-- A block of four minimum blocks has five partitions. -/
example : (TPart.all 2).length = 5 := by decide

/-- The weights of the start times add up to the partition-tree mixture, so that they are a posterior when divided by
it. -/
theorem C115_posterior_total {β : Type} (p : ℕ → List β → ℝ) (hp : ∀ t, p t [] = 1) (m k : ℕ) (xs : List β)
    (hx : xs ≠ []) : ∑ s ∈ Finset.range xs.length, startWeight p m k 0 xs s = ptwProb p m k 0 xs :=
  sum_startWeight hp k 0 xs.length hx (by simp)

/-- Two items in blocks of one: the last item belongs to the whole block or to its own segment. -/
example (p : ℕ → List ℕ → ℝ) (x y : ℕ) : startWeight p 0 1 0 [x, y] 0 = 1/2 * p 0 [x, y] ∧
    startWeight p 0 1 0 [x, y] 1 = 1/2 * (p 0 [x] * p 1 [y]) := by
  constructor <;> rw [startWeight_right 0 0 _ (by simp), startWeight_zero _ (by simp)] <;> simp [ptwProb, List.take]

section

variable {σ α : Type} (P : Predictor σ α) (fresh : σ)

/-- The base model with the largest key in a tree that has seen the sequence. -/
private theorem map_rep {m : ℕ} {xs : List (Obs α)} (hx : xs ≠ []) {n : PTWNode σ} (hi : Rep P (fun _ => fresh) m 0 n xs) (c : σ × ℝ)
    (cs : List (σ × ℝ)) (hcs : n.mapNodes 0 = c :: cs) :
    ∃ st q, st < xs.length ∧ P.run fresh (xs.drop st) = .ok (q, (Averager.maxByKey c cs).1) ∧
      ∀ st', startWeight (fun _ => P.seqProb fresh) m (levelsFor m xs.length) 0 xs st' ≤
        2 ^ levelsFor m xs.length *
          startWeight (fun _ => P.seqProb fresh) m (levelsFor m xs.length) 0 xs st := by
  have hk := levelsFor_spec m xs.length
  obtain ⟨i, hil, h1, h2, _⟩ := Averager.maxByKey_spec c cs
  have hmem : (c :: cs)[i] ∈ n.mapNodes 0 := by rw [hcs]; exact List.getElem_mem hil
  obtain ⟨st, q, _, h4, h5, _, h7⟩ := mapNodes_spec hi hx _ hk 0 _ hmem
  refine ⟨st, q, by omega, by rw [h1]; simpa using h5, ?_⟩
  intro st'
  obtain ⟨c', hc', h8⟩ := mapNodes_complete hi hx _ hk 0 st'
  rw [hcs] at hc'
  have h9 := Real.exp_le_exp.mpr (h2 c' hc')
  rw [Real.exp_zero, one_mul] at h7 h8
  exact h8.trans (h9.trans h7)

private theorem map_spec {m : ℕ} {xs : List (Obs α)} (hx : xs ≠ []) {r : ℝ} {s : PTW σ}
    (hr : (PTW.predictor P fresh m).run (PTW.init fresh m) xs = .ok (r, s)) :
    ∃ b, s.map = .ok b ∧ ∃ st q, st < xs.length ∧ P.run fresh (xs.drop st) = .ok (q, b) ∧
      ∀ st', startWeight (fun _ => P.seqProb fresh) m (levelsFor m xs.length) 0 xs st' ≤
        2 ^ levelsFor m xs.length *
          startWeight (fun _ => P.seqProb fresh) m (levelsFor m xs.length) 0 xs st := by
  have hi := PTW.run_inv (m := m) (PTW.inv_init (P := P) (fr := fun _ => fresh)) hr
  rw [List.nil_append] at hi
  obtain ⟨c, cs, hcs⟩ : ∃ c cs, s.tree.mapNodes 0 = c :: cs := by
    cases s.tree <;> simp [mapNodes]
  exact ⟨_, by rw [PTW.map, hcs], map_rep P fresh hx hi.rep c cs hcs⟩

/-- **C115 (partial).** After any successful run on a nonempty sequence, `map` returns the base model that has seen the
sequence from some start time on, and no start time has a posterior weight of more than `2 ^ k` times the weight of that
one, `k` being the number of levels of the tree.  Missing from the documented claim: that the returned model has the
largest posterior weight (`C115_not_map`). -/
theorem C115_map_partial (m : ℕ) (xs : List (Obs α)) (hx : xs ≠ []) (r : ℝ) (s : PTW σ)
    (hr : (PTW.predictor P fresh m).run (PTW.init fresh m) xs = .ok (r, s)) :
    ∃ b, s.map = .ok b ∧ ∃ st q, st < xs.length ∧ P.run fresh (xs.drop st) = .ok (q, b) ∧
      ∀ st', startWeight (fun _ => P.seqProb fresh) m (levelsFor m xs.length) 0 xs st' ≤
        2 ^ levelsFor m xs.length *
          startWeight (fun _ => P.seqProb fresh) m (levelsFor m xs.length) 0 xs st :=
  map_spec P fresh hx hr

/-- **C115 (clear cases).** A start time whose posterior weight is more than `2 ^ k` times that of every other start time
is the one whose model `map` returns. -/
theorem C115_decisive (m : ℕ) (xs : List (Obs α)) (hx : xs ≠ []) (r : ℝ) (s : PTW σ)
    (hr : (PTW.predictor P fresh m).run (PTW.init fresh m) xs = .ok (r, s)) (st : ℕ)
    (hst : ∀ st', st' ≠ st → 2 ^ levelsFor m xs.length *
        startWeight (fun _ => P.seqProb fresh) m (levelsFor m xs.length) 0 xs st' <
      startWeight (fun _ => P.seqProb fresh) m (levelsFor m xs.length) 0 xs st) :
    ∃ b q, s.map = .ok b ∧ P.run fresh (xs.drop st) = .ok (q, b) := by
  obtain ⟨b, h1, st', q, _, h2, h3⟩ := map_spec P fresh hx hr
  by_cases h : st' = st
  · subst h
    exact ⟨b, q, h1, h2⟩
  · exact absurd (h3 st) (not_le.mpr (hst st' h))

private theorem fixed_rep {m height : ℕ} {s s' : PTW σ} {xs ys : List (Obs α)} {r : ℝ} (hi : Rep P (fun _ => fresh) m 0 s.tree xs)
    (hr : (PTWFixedLength.predictor P fresh m height).run s ys = .ok (r, s')) : Rep P (fun _ => fresh) m 0 s'.tree (xs ++ ys) := by
  induction ys generalizing xs s r with
  | nil =>
    simp only [Predictor.run, pure_eq_ok, Except.ok.injEq, Prod.mk.injEq] at hr
    obtain ⟨rfl, rfl⟩ := hr
    rwa [List.append_nil]
  | cons o ys ih =>
    rw [run_cons_ok] at hr
    obtain ⟨r1, s1, r2, h1, h2, rfl⟩ := hr
    simp only [PTWFixedLength.predictor, PTWFixedLength.update, bind_eq_ok, pure_eq_ok, Except.ok.injEq, Prod.mk.injEq] at h1
    obtain ⟨n, hn, rfl, rfl⟩ := h1
    have := ih (hi.update (o := o) hn) h2
    rwa [List.append_assoc, List.singleton_append] at this

/-- **C115 (`PTWFixedLength`, partial).** The same for the method that `PTWFixedLength` inherits, even beyond the length that it was made for. -/
theorem C115_fixed_map_partial (m height : ℕ) (xs : List (Obs α)) (hx : xs ≠ []) (r : ℝ) (s : PTW σ)
    (hr : (PTWFixedLength.predictor P fresh m height).run (PTW.init fresh m) xs = .ok (r, s)) :
    ∃ b, s.map = .ok b ∧ ∃ st q, st < xs.length ∧ P.run fresh (xs.drop st) = .ok (q, b) ∧
      ∀ st', startWeight (fun _ => P.seqProb fresh) m (levelsFor m xs.length) 0 xs st' ≤
        2 ^ levelsFor m xs.length *
          startWeight (fun _ => P.seqProb fresh) m (levelsFor m xs.length) 0 xs st := by
  have hi := fixed_rep P fresh (PTW.inv_init (P := P) (fr := fun _ => fresh)).rep hr
  rw [List.nil_append] at hi
  obtain ⟨c, cs, hcs⟩ : ∃ c cs, s.tree.mapNodes 0 = c :: cs := by
    cases s.tree <;> simp [mapNodes]
  exact ⟨_, by rw [PTW.map, hcs], map_rep P fresh hx hi c cs hcs⟩

omit P in
private theorem mapNodes_abs (Q : ProbSeq σ α) (n : CPNode σ) (left : ℝ) : n.mapNodes Q left = (n.abs Q).mapNodes left := by
  induction n generalizing left with
  | leaf d => rfl
  | inner d r ih => simp [CPNode.mapNodes, CPNode.abs, CPNode.absD, mapNodes, ih]

omit P in
/-- **C115 (ctw.py, partial).** The same for `PTW.map` of ctw.py. -/
theorem C115_ctw_map_partial (Q : ProbSeq σ α) (hQ : Q.Tracks) (hf : Q.lp fresh = 0) (height : ℕ) (xs : List (Obs α)) (hx : xs ≠ []) (r : ℝ)
    (s : CPTW σ) (hr : (CPTW.probSeq Q fresh height).toPredictor.run (CPTW.init fresh) xs = .ok (r, s)) :
    ∃ b, s.map Q = .ok b ∧ ∃ st q, st < xs.length ∧ Q.toPredictor.run fresh (xs.drop st) = .ok (q, b) ∧
      ∀ st', startWeight (fun _ => Q.toPredictor.seqProb fresh) 0 (levelsFor 0 xs.length) 0 xs st' ≤
        2 ^ levelsFor 0 xs.length *
          startWeight (fun _ => Q.toPredictor.seqProb fresh) 0 (levelsFor 0 xs.length) 0 xs st := by
  obtain ⟨hi, -⟩ := (CPTW.inv_init (fr := fun _ => fresh) hf).run hQ hf hr
  rw [List.nil_append] at hi
  obtain ⟨c, cs, hcs⟩ : ∃ c cs, s.tree.mapNodes Q 0 = c :: cs := by
    cases s.tree <;> simp [CPNode.mapNodes]
  exact ⟨_, by rw [CPTW.map, hcs], map_rep Q.toPredictor fresh hx hi.rep c cs (by rw [← mapNodes_abs, hcs])⟩

omit P in
/-- **C115 (ctw.py, clear cases).** A start time that is clearly the most probable one is the one whose model `PTW.map` of ctw.py returns. -/
theorem C115_ctw_decisive (Q : ProbSeq σ α) (hQ : Q.Tracks) (hf : Q.lp fresh = 0) (height : ℕ) (xs : List (Obs α)) (hx : xs ≠ []) (r : ℝ)
    (s : CPTW σ) (hr : (CPTW.probSeq Q fresh height).toPredictor.run (CPTW.init fresh) xs = .ok (r, s)) (st : ℕ)
    (hst : ∀ st', st' ≠ st → 2 ^ levelsFor 0 xs.length *
        startWeight (fun _ => Q.toPredictor.seqProb fresh) 0 (levelsFor 0 xs.length) 0 xs st' <
      startWeight (fun _ => Q.toPredictor.seqProb fresh) 0 (levelsFor 0 xs.length) 0 xs st) :
    ∃ b q, s.map Q = .ok b ∧ Q.toPredictor.run fresh (xs.drop st) = .ok (q, b) := by
  obtain ⟨b, h1, st', q, _, h2, h3⟩ := C115_ctw_map_partial fresh Q hQ hf height xs hx r s hr
  by_cases h : st' = st
  · subst h
    exact ⟨b, q, h1, h2⟩
  · exact absurd (h3 st) (not_le.mpr (hst st' h))

end

/-- The hypothesis of `C115_decisive` for the only segment of a sequence within one minimum block. -/
example (p : ℕ → List ℕ → ℝ) (hp : 0 < p 0 [3, 4]) : ∀ st', st' ≠ 0 →
    2 ^ levelsFor 1 2 * startWeight p 1 (levelsFor 1 2) 0 [3, 4] st' < startWeight p 1 (levelsFor 1 2) 0 [3, 4] 0 := by
  intro st' h
  rw [levelsFor_zero (by norm_num), startWeight_zero _ (by simp), startWeight_zero _ (by simp)]
  simpa [h] using hp

/-- The bits 0, 1, 0 with weight one. -/
def C115_bits : List (Obs Bool) := [⟨false, [], 1⟩, ⟨true, [], 1⟩, ⟨false, [], 1⟩]

private theorem run_step (a b : ℝ) (x : Bool) (q : ℝ) (hq : 0 < q) (xs : List (Obs Bool))
    (h : (if x then b else a) / (a + b) = q) (hab : a + b ≠ 0) {p : ℝ} {t : KTBinary}
    (ht : KTBinary.predictor.run (KTBinary.bump ⟨a, b⟩ x 1) xs = .ok (Real.log p, t)) (hp : 0 < p) :
    KTBinary.predictor.run ⟨a, b⟩ (⟨x, [], 1⟩ :: xs) = .ok (Real.log (q * p), t) := by
  have h' : KTBinary.get ⟨a, b⟩ x / (a + b) = q := by rw [← h]; rfl
  rw [run_cons_ok]
  refine ⟨Real.log q, _, _, ?_, ht, Real.log_mul hq.ne' hp.ne'⟩
  simp [KTBinary.predictor, KTBinary.update, KTBinary.logPredict, pyDiv, pyLog, hab, h', hq]

private theorem run_end (s : KTBinary) : KTBinary.predictor.run s [] = .ok (Real.log 1, s) := by
  rw [Real.log_one]; rfl

private theorem run_one (x : Bool) :
    KTBinary.predictor.run (KTBinary.init none) [⟨x, [], 1⟩] =
      .ok (Real.log (1/2 * 1), KTBinary.bump ⟨1/2, 1/2⟩ x 1) :=
  run_step _ _ x (1/2) (by norm_num) _ (by cases x <;> norm_num) (by norm_num) (run_end _) (by norm_num)

private theorem run_two :
    KTBinary.predictor.run (KTBinary.init none) [⟨false, [], 1⟩, ⟨true, [], 1⟩] =
      .ok (Real.log (1/2 * (1/4 * 1)), ⟨3/2, 3/2⟩) := by
  refine run_step _ _ false (1/2) (by norm_num) _ (by norm_num) (by norm_num) ?_ (by norm_num)
  refine run_step _ _ true (1/4) (by norm_num) _ (by norm_num) (by norm_num) ?_ (by norm_num)
  rw [run_end]
  norm_num [KTBinary.bump]

private theorem run_three :
    KTBinary.predictor.run (KTBinary.init none) C115_bits =
      .ok (Real.log (1/2 * (1/4 * (1/2 * 1))), ⟨5/2, 3/2⟩) := by
  refine run_step _ _ false (1/2) (by norm_num) _ (by norm_num) (by norm_num) ?_ (by norm_num)
  refine run_step _ _ true (1/4) (by norm_num) _ (by norm_num) (by norm_num) ?_ (by norm_num)
  refine run_step _ _ false (1/2) (by norm_num) _ (by norm_num) (by norm_num) ?_ (by norm_num)
  rw [run_end]
  norm_num [KTBinary.bump]

/-- **C115, counterexample.** The default `PTW` fed the bits 0, 1, 0: the last bit alone is the most probable last
segment, but `map` returns the model that has seen all three bits. -/
theorem C115_not_map :
    (∃ r s, (PTW.predictor KTBinary.predictor (KTBinary.init none) 0).run (PTW.init (KTBinary.init none) 0) C115_bits =
        .ok (r, s) ∧ s.map = .ok ⟨5/2, 3/2⟩) ∧
    (∃ q, KTBinary.predictor.run (KTBinary.init none) C115_bits = .ok (q, ⟨5/2, 3/2⟩)) ∧
    (∃ q, KTBinary.predictor.run (KTBinary.init none) (C115_bits.drop 2) = .ok (q, ⟨3/2, 1/2⟩)) ∧
    levelsFor 0 C115_bits.length = 2 ∧
    startWeight (fun _ => KTBinary.predictor.seqProb (KTBinary.init none)) 0 2 0 C115_bits 0 = 1/32 ∧
    startWeight (fun _ => KTBinary.predictor.seqProb (KTBinary.init none)) 0 2 0 C115_bits 2 = 3/64 := by
  have s1 : ∀ x, KTBinary.predictor.seqProb (KTBinary.init none) [⟨x, [], 1⟩] = 1/2 := by
    intro x
    rw [seqProb_of_run (run_one x), Real.exp_log (by norm_num)]
    norm_num
  have s2 : KTBinary.predictor.seqProb (KTBinary.init none) [⟨false, [], 1⟩, ⟨true, [], 1⟩] = 1/8 := by
    rw [seqProb_of_run run_two, Real.exp_log (by norm_num)]
    norm_num
  have s3 : KTBinary.predictor.seqProb (KTBinary.init none) C115_bits = 1/16 := by
    rw [seqProb_of_run run_three, Real.exp_log (by norm_num)]
    norm_num
  have hn : ∀ t : ℕ, (fun _ : ℕ => KTBinary.predictor.seqProb (KTBinary.init none)) t [] = 1 :=
    fun t => blockProb_nil KTBinary.predictor (fun _ => KTBinary.init none) t
  have hlev : levelsFor 0 C115_bits.length = 2 := levelsFor_succ (by decide) (by decide)
  have hleft : ptwProb (fun _ => KTBinary.predictor.seqProb (KTBinary.init none)) 0 1 0 (C115_bits.take 2) = 3/16 := by
    simp only [C115_bits, ptwProb, List.take, List.drop, zero_add, pow_zero, s1, s2]
    norm_num
  refine ⟨?_, ⟨_, run_three⟩, ⟨Real.log (1/2 * 1), ?_⟩, hlev, ?_, ?_⟩
  · obtain ⟨r, s, hr, _⟩ := C26_PTW_normalised KTBinary.predictor (KTBinary.init none) _ _ _
      KTBinary.lawful.updateLawful (by norm_num [KTBinary.init]) 0 C115_bits
      (by simp [C115_bits]) [] 1 (by norm_num)
    refine ⟨r, s, hr, ?_⟩
    have hi := (PTW.run_inv (m := 0) (PTW.inv_init (P := KTBinary.predictor)
      (fr := fun _ => KTBinary.init none)) hr).rep
    rw [List.nil_append] at hi
    obtain ⟨tree, lp, adj⟩ := s
    dsimp only at hi
    cases hi with
    | leaf h1 h2 h3 h4 => simp [C115_bits] at h3
    | @inner _ k d n _ h1 h2 h3 h4 h5 h6 h7 =>
      have hlen : C115_bits.length = 3 := rfl
      rw [hlen] at h3 h4
      have hk : k = 1 := by
        have hk2 : k < 2 := by
          by_contra hcon
          have : 2 ^ 2 ≤ 2 ^ (0 + k) := Nat.pow_le_pow_right (by norm_num) (by omega)
          omega
        rcases Nat.lt_succ_iff_lt_or_eq.mp hk2 with hk1 | hk1
        · obtain rfl : k = 0 := by omega
          simp at h4
        · exact hk1
      subst hk
      have hb := h1.run
      rw [run_three, Except.ok.injEq, Prod.mk.injEq] at hb
      simp only [zero_add, pow_one] at h5 h7
      cases h7 with
      | inner g1 g2 g3 g4 g5 g6 g7 =>
        rw [show (C115_bits.drop 2).length = 1 from rfl] at g3
        exact absurd g3 (not_lt.mpr Nat.one_le_two_pow)
      | @leaf _ e _ g1 g2 g3 g4 =>
        have hc := g1.run
        rw [show C115_bits.drop 2 = [⟨false, [], 1⟩] from rfl, run_one, Except.ok.injEq, Prod.mk.injEq] at hc
        have hl : d.leftLP = Real.log (3/16) := by
          rw [← Real.log_exp d.leftLP, h5]
          exact congrArg Real.log hleft
        have hcmp : ¬ d.baseLP + 0 < e.baseLP + (0 + (d.leftLP + log05)) := by
          rw [← Real.exp_lt_exp]
          simp only [Real.exp_add, Real.exp_zero, exp_log05]
          rw [hl, ← hb.1, ← hc.1, Real.exp_log (by norm_num), Real.exp_log (by norm_num), Real.exp_log (by norm_num)]
          norm_num
        simp only [PTW.map, mapNodes, Averager.maxByKey]
        rw [if_neg hcmp, ← hb.2]
  · rw [show C115_bits.drop 2 = [⟨false, [], 1⟩] from rfl, run_one]
    norm_num [KTBinary.bump]
  · rw [startWeight_right 1 0 _ (by decide), startWeight_lt hn 1 (by simp [C115_bits]) (by norm_num)]
    rw [if_pos rfl, s3]
    norm_num
  · rw [startWeight_right 1 0 _ (by decide), startWeight_left hn 0 _ (by simp [C115_bits]) _ (by decide),
      startWeight_zero _ (by simp [C115_bits]), if_neg (by norm_num)]
    simp only [zero_add, pow_one, if_true]
    rw [hleft, show C115_bits.drop 2 = [⟨false, [], 1⟩] from rfl, s1]
    norm_num

end Verif
