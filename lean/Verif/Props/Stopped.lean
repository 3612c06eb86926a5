import Verif.Props.Z
import Verif.Proofs.ACKT

/-!
# C132: compression stopped at any time

The full property: if `z.py compress` is stopped at any moment, no file but the output file has changed, and what is in the output
file cannot be taken for a complete compressed file.  The first half holds (`C132_other_files`, `C132_beginning`, `C132_again`); the
second does not (`C132_taken_for_another`).
-/

namespace Verif

open Predictor Z

namespace Z

/-- A binary `KT` that has seen `n0` zeros and `n1` ones. -/
noncomputable def ktState (n0 n1 : ℕ) : KT Bool :=
  ⟨[(false, (n0 : ℝ) + 1 / 2), (true, (n1 : ℝ) + 1 / 2)], (n0 : ℝ) + n1 + 1⟩

theorem ktState_update (n0 n1 : ℕ) (b : Bool) :
    ∃ r, KT.predictor.update (ktState n0 n1) b [] 1 = .ok (r, ktState (if b then n0 else n0 + 1) (if b then n1 + 1 else n1)) ∧
      AC.encP r b = (2 * n0 + 1) / (2 * (n0 + n1 + 1)) := by
  have h0 : (0 : ℝ) < (n0 : ℝ) + 1 / 2 := by positivity
  have h1 : (0 : ℝ) < (n1 : ℝ) + 1 / 2 := by positivity
  have hs : (0 : ℝ) < (n0 : ℝ) + n1 + 1 := by positivity
  have hd0 := div_pos h0 hs
  have hd1 := div_pos h1 hs
  change ∃ r, (ktState n0 n1).update b 1 = _ ∧ _
  cases b with
  | false =>
    refine ⟨Real.log (((n0 : ℝ) + 1 / 2) / ((n0 : ℝ) + n1 + 1)), ?_, ?_⟩
    · simp only [KT.update, KT.logPredict, ktState, PyDict.getE, PyDict.get?, PyDict.set, pyDiv, hs.ne', if_false]
      simp [-one_div, pyLog_of_pos hd0]
      constructor <;> ring
    · simp only [AC.encP, Bool.false_eq_true, if_false]
      rw [Real.exp_log hd0]
      field_simp
  | true =>
    refine ⟨Real.log (((n1 : ℝ) + 1 / 2) / ((n0 : ℝ) + n1 + 1)), ?_, ?_⟩
    · simp only [KT.update, KT.logPredict, ktState, PyDict.getE, PyDict.get?, PyDict.set, pyDiv, hs.ne', if_false]
      simp [-one_div, pyLog_of_pos hd1]
      constructor <;> ring
    · simp only [AC.encP, if_true]
      rw [Real.exp_log hd1]
      field_simp
      ring

theorem ktState_predict (n0 n1 : ℕ) :
    ∃ q, KT.predictor.logPredict (ktState n0 n1) false [] = .ok (q, ktState n0 n1) ∧
      Real.exp q = (2 * n0 + 1) / (2 * (n0 + n1 + 1)) := by
  have h0 : (0 : ℝ) < (n0 : ℝ) + 1 / 2 := by positivity
  have hs : (0 : ℝ) < (n0 : ℝ) + n1 + 1 := by positivity
  have hd0 := div_pos h0 hs
  refine ⟨Real.log (((n0 : ℝ) + 1 / 2) / ((n0 : ℝ) + n1 + 1)), ?_, ?_⟩
  · simp only [KT.predictor, KT.logPredict, ktState, PyDict.getE, PyDict.get?, pyDiv, hs.ne', if_false]
    simp [-one_div, pyLog_of_pos hd0]
  · rw [Real.exp_log hd0]
    field_simp

/-- `KT` in integers. -/
noncomputable def ktRational : AC.Rational (KT.predictor (α := Bool)) AC.KTI.num AC.KTI.den where
  rep h s := s = ktState (h.count false) (h.count true)
  den_pos h := by unfold AC.KTI.den; omega
  update := by
    rintro h s b rfl
    obtain ⟨r, h1, h2⟩ := ktState_update (h.count false) (h.count true) b
    refine ⟨r, _, h1, ?_, ?_⟩
    · cases b <;> simp
    · rw [h2]
      simp [AC.KTI.num, AC.KTI.den]
  predict := by
    rintro h s rfl
    obtain ⟨q, h1, h2⟩ := ktState_predict (h.count false) (h.count true)
    refine ⟨q, _, h1, rfl, ?_⟩
    rw [h2]
    simp [AC.KTI.num, AC.KTI.den]

/-- Computing what the program writes with the model KT. -/
theorem compressed_kt {fuel : ℕ} {depth : ℤ} {data : List ℕ} {bits : List Bool}
    (h : AC.Sim.compress AC.KTI.num AC.KTI.den 32 fuel (AC.unpack data) = some bits) :
    compressed fuel .KT depth data = (AC.pack bits, .ok ()) := by
  have h1 : KT.init [false, true] none = .ok (ktState 0 0) := by
    rw [KT.init_default (by simp) (by simp)]
    simp [ktState]
  have h2 := AC.Sim.compress_sound ktRational h (st := ktState 0 0) rfl
  simp only [compressed, h1, yielded, AC.compressBytes]
  rw [(C45_compress_calls .KT KT.predictor (ktState 0 0)).2 (by decide), h2]
  rfl

variable {Path : Type} [DecidableEq Path]

theorem main_written {fuel : ℕ} {little : Bool} {cmd : Command} {m : ModelName} {depth : Option ℤ} {inp out : Path}
    {fs : Files Path} : (main fuel little cmd m depth inp out fs).1 =
      match written fuel little cmd m depth inp out fs with
      | none => fs
      | some l => Function.update fs out (some l) := by
  cases cmd with
  | uncompress =>
    cases depth with
    | none => rfl
    | some d => cases hm : m.construct <;> simp [main, written, hm]
  | compress =>
    cases depth with
    | none => simp [main, written]
    | some d =>
      cases hm : m.construct with
      | error e => simp [main, written, hm]
      | ok u =>
        cases hd : fs inp with
        | none => simp [main, written, hm, hd]
        | some data =>
          cases hh : toBytes4 little data.length with
          | error e => simp [main, written, hm, hd, hh]
          | ok header =>
            rw [main_compress hm hd hh]
            simp [written, hm, hd, hh]

theorem mem_stages {fuel : ℕ} {little : Bool} {cmd : Command} {m : ModelName} {depth : Option ℤ} {inp out : Path}
    {fs gs : Files Path} : gs ∈ stages fuel little cmd m depth inp out fs ↔ gs = fs ∨ ∃ l k,
      written fuel little cmd m depth inp out fs = some l ∧ k ≤ l.length ∧ gs = Function.update fs out (some (l.take k)) := by
  unfold stages
  cases written fuel little cmd m depth inp out fs with
  | none => simp
  | some l =>
    simp only [List.mem_cons, List.mem_map, List.mem_range, Option.some.injEq]
    refine or_congr_right ⟨?_, ?_⟩
    · rintro ⟨k, hk, rfl⟩
      exact ⟨l, k, rfl, by omega, rfl⟩
    · rintro ⟨l', k, rfl, hk, rfl⟩
      exact ⟨k, by omega, rfl⟩

end Z

variable {Path : Type} [DecidableEq Path]

/-- **C132 (the end).** The last stage is what the program leaves when it ends. -/
theorem C132_end (fuel : ℕ) (little : Bool) (cmd : Command) (m : ModelName) (depth : Option ℤ) (inp out : Path)
    (fs : Files Path) :
    (stages fuel little cmd m depth inp out fs).getLast? = some (main fuel little cmd m depth inp out fs).1 := by
  rw [main_written, stages]
  cases written fuel little cmd m depth inp out fs with
  | none => rfl
  | some l => simp [List.range_succ, List.getLast?_cons]

/-- **C132 (other files).** Whenever the program is stopped, every file but the output file is as it was; in particular the input
is, unless it is the output file too. -/
theorem C132_other_files (fuel : ℕ) (little : Bool) (cmd : Command) (m : ModelName) (depth : Option ℤ) (inp out : Path)
    (fs gs : Files Path) (h : gs ∈ stages fuel little cmd m depth inp out fs) (p : Path) (hp : p ≠ out) : gs p = fs p := by
  rcases mem_stages.mp h with rfl | ⟨l, k, -, -, rfl⟩
  · rfl
  · exact Function.update_of_ne hp _ _

/-- **C132 (the output file).** Whenever the program is stopped, nothing has changed, or the output file holds a beginning of what
the whole run would have put there. -/
theorem C132_beginning (fuel : ℕ) (little : Bool) (cmd : Command) (m : ModelName) (depth : Option ℤ) (inp out : Path)
    (fs gs : Files Path) (h : gs ∈ stages fuel little cmd m depth inp out fs) : gs = fs ∨ ∃ a b, gs out = some a ∧
      (main fuel little cmd m depth inp out fs).1 out = some b ∧ a <+: b := by
  rcases mem_stages.mp h with rfl | ⟨l, k, hw, -, rfl⟩
  · exact .inl rfl
  · refine .inr ⟨l.take k, l, Function.update_self _ _ _, ?_, List.take_prefix _ _⟩
    rw [main_written, hw]
    exact Function.update_self _ _ _

/-- **C132 (running it again).** If input and output are different files, then running the program again after it was stopped, at
whatever moment, has the result that an uninterrupted run would have had. -/
theorem C132_again (fuel : ℕ) (little : Bool) (cmd : Command) (m : ModelName) (depth : Option ℤ) (inp out : Path)
    (hne : inp ≠ out) (fs gs : Files Path) (h : gs ∈ stages fuel little cmd m depth inp out fs) :
    main fuel little cmd m depth inp out gs = main fuel little cmd m depth inp out fs := by
  rcases mem_stages.mp h with rfl | ⟨l, k, hw, -, rfl⟩
  · rfl
  · cases cmd with
    | uncompress => simp [written] at hw
    | compress =>
      cases depth with
      | none => simp [written] at hw
      | some d =>
        cases hm : m.construct with
        | error e => simp [written, hm] at hw
        | ok u =>
          have hi : ∀ x, Function.update fs out x inp = fs inp := fun x => Function.update_of_ne hne _ _
          cases hd : fs inp with
          | none => simp [written, hm, hd] at hw
          | some data =>
            cases hh : toBytes4 little data.length with
            | error e => simp only [main, hm, hi, hd, hh, Function.update_idem]
            | ok header =>
              rw [main_compress hm (by rw [hi, hd]) hh, main_compress hm hd hh]
              simp only [Function.update_idem]

/-- **C132 (the code violates it: one file).** If the output file is the input file, there is a moment at which its content is lost:
it is empty, and running the program again does not bring it back. -/
theorem C132_same_file_lost (fuel : ℕ) (little : Bool) (m : ModelName)
    (hm : m ∈ [ModelName.CTW, .FastCTW, .CTW_KT, .KT, .PTW, .FMN, .CTW_PTW]) (depth : ℤ) (file : Path) (fs : Files Path)
    (data : List ℕ) (hd : fs file = some data) :
    ∃ gs ∈ stages fuel little .compress m (some depth) file file fs, gs file = some [] := by
  have hcon : m.construct = .ok () := by
    simp only [List.mem_cons, List.not_mem_nil, or_false] at hm
    rcases hm with rfl | rfl | rfl | rfl | rfl | rfl | rfl <;> rfl
  have : ∃ l, written fuel little .compress m (some depth) file file fs = some l := by
    cases hh : toBytes4 little data.length <;> simp [written, hcon, hd, hh]
  obtain ⟨l, hl⟩ := this
  exact ⟨_, mem_stages.mpr (.inr ⟨l, 0, hl, Nat.zero_le _, rfl⟩), by simp⟩

/-- **C132 (cut files, partial).** If the file left by a stopped run has at least its four bytes of length and is the complete
compressed file of some data, then these are other data of the same length.  Missing: that this cannot happen
(`C132_taken_for_another`). -/
theorem C132_cut_partial (m : ModelName) (hm : m ∈ [ModelName.KT, .PTW, .FMN]) (little : Bool) (f f' : ℕ) (d e : ℤ)
    (inp out inp' out' : Path) (fs fs' gs : Files Path) (hne : inp ≠ out) (hne' : inp' ≠ out')
    (hg : gs ∈ stages f little .compress m (some d) inp out fs)
    (hcut : gs ≠ (main f little .compress m (some d) inp out fs).1) (file : List ℕ) (hfile : gs out = some file)
    (h4 : 4 ≤ file.length) (hchg : gs ≠ fs)
    (h1 : (main f little .compress m (some d) inp out fs).2 = .ok ())
    (h2 : (main f' little .compress m (some e) inp' out' fs').2 = .ok ())
    (heq : (main f' little .compress m (some e) inp' out' fs').1 out' = some file) :
    ∃ data data', fs inp = some data ∧ fs' inp' = some data' ∧ data'.length = data.length ∧ data' ≠ data := by
  obtain ⟨σ, P, I, W, st, hP, hw, hst, hc⟩ := working hm
  have hcon : m.construct = .ok () := by
    simp only [List.mem_cons, List.not_mem_nil, or_false] at hm
    rcases hm with rfl | rfl | rfl <;> rfl
  have key : ∀ (f : ℕ) (d : ℤ) (inp out : Path) (fs : Files Path), inp ≠ out →
      (main f little .compress m (some d) inp out fs).2 = .ok () → ∃ data header c, fs inp = some data ∧
        toBytes4 little data.length = .ok header ∧ AC.compressBytes P 32 f st data = .ok c ∧
        (main f little .compress m (some d) inp out fs).1 = Function.update fs out (some (header ++ c)) ∧
        written f little .compress m (some d) inp out fs = some (header ++ c) := by
    intro f d inp out fs hne h
    cases hd : fs inp with
    | none => simp [main, hcon, hd] at h
    | some data =>
      cases hh : toBytes4 little data.length with
      | error e => simp [main, hcon, hd, hh] at h
      | ok header =>
        have hwr : written f little .compress m (some d) inp out fs =
            some (header ++ (compressed f m d data).1) := by
          simp [written, hcon, hd, hh, hne]
        rw [main_compress hcon hd hh, hc, if_neg hne] at h
        rw [main_compress hcon hd hh, hwr, hc, if_neg hne]
        cases hcb : AC.compressBytes P 32 f st data with
        | error e => simp [yielded, hcb] at h
        | ok c => exact ⟨data, header, c, rfl, hh, hcb, by simp [yielded, hcb], by simp [hc, yielded, hcb]⟩
  obtain ⟨a, ha, c, g1, g2, g3, g4, g5⟩ := key _ _ _ _ _ hne h1
  obtain ⟨b, hb, c', k1, k2, k3, k4, k5⟩ := key _ _ _ _ _ hne' h2
  obtain ⟨l1, v1⟩ := toBytes4_ok g2
  obtain ⟨l2, v2⟩ := toBytes4_ok k2
  rw [k4, Function.update_self, Option.some.injEq] at heq
  rcases mem_stages.mp hg with rfl | ⟨l, k, hl, hk, rfl⟩
  · exact absurd rfl hchg
  · rw [g5, Option.some.injEq] at hl
    subst hl
    rw [Function.update_self, Option.some.injEq] at hfile
    have hpre : file <+: ha ++ c := by rw [← hfile]; exact List.take_prefix _ _
    have e1 : hb = ha := by
      have t1 : file.take 4 = hb := by rw [← heq, ← l2, List.take_left]
      have t2 : (ha ++ c).take 4 = ha := by rw [← l1, List.take_left]
      obtain ⟨z, hz⟩ := hpre
      rw [← hz, List.take_append_of_le_length h4, t1] at t2
      exact t2
    have hlen : b.length = a.length := by rw [← v1, ← v2, e1]
    refine ⟨a, b, g1, k1, hlen, fun hba => hcut ?_⟩
    subst hba
    have : c' = c := by
      simp only [AC.compressBytes, bind_eq_ok, pure_eq_ok, Except.ok.injEq] at g3 k3
      obtain ⟨x, hx, rfl⟩ := g3
      obtain ⟨y, hy, rfl⟩ := k3
      have h1 := AC.compress_mono hx f'
      have h2 := AC.compress_mono hy f
      rw [Nat.add_comm, h2, Except.ok.injEq] at h1
      rw [h1]
    subst this
    rw [g4, hfile, ← heq, e1]

/-- **C132 (the code violates it: cut files).** With the model KT, a run on the single byte 48 that is stopped before its last byte
leaves the file that a complete run on the single byte 208 leaves.  Nothing in the file tells that its end is missing. -/
theorem C132_taken_for_another (little : Bool) (d : ℤ) (inp out : Path) (hne : inp ≠ out) (fs fs' : Files Path)
    (h : fs inp = some [48]) (h' : fs' inp = some [208]) : ∃ header file : List ℕ, HasLength little file 1 ∧
      ∀ fuel, 33 ≤ fuel →
        main fuel little .compress .KT (some d) inp out fs = (Function.update fs out (some (header ++ [68, 128])), .ok ()) ∧
        (∃ gs ∈ stages fuel little .compress .KT (some d) inp out fs, gs out = some file ∧ file = header ++ [68]) ∧
        main fuel little .compress .KT (some d) inp out fs' = (Function.update fs' out (some file), .ok ()) := by
  obtain ⟨header, hh⟩ := toBytes4_isOk (little := little) (n := 1) (by norm_num)
  obtain ⟨hl, hv⟩ := toBytes4_ok hh
  obtain ⟨σ, P, I, W, st, hP, hw, hst, hc⟩ := working (m := .KT) (by simp)
  have key : ∀ (data : List ℕ) bits, AC.Sim.compress AC.KTI.num AC.KTI.den 32 33 (AC.unpack data) = some bits →
      ∀ fuel, 33 ≤ fuel → compressed fuel .KT d data = (AC.pack bits, .ok ()) := by
    intro data bits hb fuel hf
    obtain ⟨c, hy⟩ := yielded_ok hP hw hst data
    rw [hc, (hy fuel hf).2, ← (hy 33 le_rfl).2, ← hc 33 d, compressed_kt hb]
  have k1 := key [48] [false, true, false, false, false, true, false, false, true] (by decide +kernel)
  have k2 := key [208] [false, true, false, false, false, true, false] (by decide +kernel)
  have p1 : AC.pack [false, true, false, false, false, true, false, false, true] = [68, 128] := by decide +kernel
  have p2 : AC.pack [false, true, false, false, false, true, false] = [68] := by decide +kernel
  rw [p1] at k1
  rw [p2] at k2
  have ht : (header ++ [68]).take 4 = header := by rw [← hl, List.take_left]
  refine ⟨header, header ++ [68], ⟨by simp [hl], by rw [ht]; exact hv⟩, fun fuel hf => ⟨?_, ?_, ?_⟩⟩
  · rw [main_compress rfl h hh, if_neg hne, k1 fuel hf]
    simp
  · refine ⟨_, mem_stages.mpr (.inr ⟨header ++ [68, 128], 5, ?_, by simp [hl], rfl⟩), ?_, rfl⟩
    · simp only [written, h, List.length_singleton, hh, if_neg hne, k1 fuel hf, ModelName.construct]
    · rw [Function.update_self, Option.some.injEq]
      have : header ++ [68, 128] = (header ++ [68]) ++ [128] := by simp
      rw [this, List.take_left' (by simp [hl])]
  · rw [main_compress rfl h' hh, if_neg hne, k2 fuel hf]
    simp

/-- The hypotheses of `C132_cut_partial` are met: the two files of `C132_taken_for_another`. -/
example : ∃ (fs fs' gs : Files Bool) (file : List ℕ),
    gs ∈ stages 33 true .compress .KT (some 48) false true fs ∧ gs ≠ (main 33 true .compress .KT (some 48) false true fs).1 ∧
    gs true = some file ∧ 4 ≤ file.length ∧ gs ≠ fs ∧ (main 33 true .compress .KT (some 48) false true fs).2 = .ok () ∧
    (main 33 true .compress .KT (some 48) false true fs').2 = .ok () ∧
    (main 33 true .compress .KT (some 48) false true fs').1 true = some file := by
  obtain ⟨header, file, hl, hx⟩ := C132_taken_for_another true 48 false true (by decide)
    (fun p => if p then none else some [48]) (fun p => if p then none else some [208]) rfl rfl
  obtain ⟨h1, ⟨gs, h2, h3, h4⟩, h5⟩ := hx 33 le_rfl
  refine ⟨_, _, gs, file, h2, fun e => ?_, h3, hl.1, fun e => ?_, by rw [h1], by rw [h5], by rw [h5]; simp⟩
  · rw [e, h1] at h3
    simp [h4] at h3
  · rw [e] at h3
    simp at h3

end Verif
