import Verif.Props.AC
import Verif.Props.FMN
import Verif.Proofs.PTWRun
import Verif.Proofs.Z

/-!
# C85, C86: the command line program of z.py

C85 asks that a file compressed by the program can be recovered.  The program cannot do it itself (`C85_uncompress_raises`), so what
is proved is that for the models KT, PTW and FMN the compressed file determines the original one.
-/

namespace Verif

open Predictor

namespace Z

variable {Path : Type} [DecidableEq Path]

theorem asCalled_lawful {σ : Type} {c : AC.ModelClass} (hc : c.update.bind 1 = .ok ()) {P : Predictor σ Bool} {I : σ → Prop}
    {A : List Bool} {W : ℝ → Prop} (hP : P.UpdateLawful I A W) : (AC.asCalled c P).UpdateLawful I A W := by
  have hu : (AC.asCalled c P).update = P.update := by
    funext s b h w
    simp only [AC.asCalled, hc, ok_bind]
  constructor
  · rw [hu]
    exact hP.total
  · rw [hu]
    exact hP.normalised

/-- The three models that can be called, as lawful predictors. -/
theorem working {m : ModelName} (hm : m ∈ [ModelName.KT, .PTW, .FMN]) :
    ∃ (σ : Type) (P : Predictor σ Bool) (I : σ → Prop) (W : ℝ → Prop) (st : σ), P.UpdateLawful I [false, true] W ∧ W 1 ∧
      I st ∧ ∀ fuel depth data, compressed fuel m depth data = yielded P 32 fuel st data := by
  have hk := KTBinary.lawful.updateLawful
  have hk0 : 0 < (KTBinary.init none).c0 ∧ 0 < (KTBinary.init none).c1 := by norm_num [KTBinary.init]
  simp only [List.mem_cons, List.not_mem_nil, or_false] at hm
  rcases hm with rfl | rfl | rfl
  · refine ⟨_, _, _, _, _, asCalled_lawful (c := .KT) rfl (KT.lawful (A := [false, true]) (by simp) (by simp)),
      zero_le_one, KT.good_default (by simp), fun fuel depth data => ?_⟩
    simp only [compressed, KT.init_default (A := [false, true]) (by simp) (by simp)]
  · exact ⟨_, _, _, _, _, asCalled_lawful (c := .PTW) rfl (PTW.updateLawful (m := 0) hk hk0), zero_le_one,
      ⟨[], by simp [GoodObs], PTW.inv_init, hk0⟩, fun fuel depth data => rfl⟩
  · have hn := C34_FMN_normalised (LogStore.store KTBinary) LogStore.add _ KTBinary.predictor (LogStore.lawful _) _ _ _ hk
      (fun s hs => ⟨s, rfl, hs, fun _ => rfl⟩) (KTBinary.init none) hk0 10
    obtain ⟨s0, r, s, h1, -⟩ := hn [] (by simp) [] 1 zero_le_one
    have hL : (FMN.predictor (LogStore.store KTBinary) KTBinary.predictor 10).UpdateLawful _ [false, true] fun w => 0 ≤ w :=
      Predictor.updateLawful_of_runs (s0 := s0) (by
        intro xs hx h w hw
        obtain ⟨s0', r, s, g1, g2⟩ := hn xs hx h w hw
        rw [h1, Except.ok.injEq] at g1
        subst g1
        exact ⟨r, s, g2⟩)
    refine ⟨_, _, _, _, s0, asCalled_lawful (c := .FMN) rfl hL, zero_le_one, ⟨[], 0, by simp [GoodObs], rfl⟩,
      fun fuel depth data => ?_⟩
    simp only [compressed, h1]

theorem yielded_ok {σ : Type} {P : Predictor σ Bool} {I : σ → Prop} {W : ℝ → Prop} (hP : P.UpdateLawful I [false, true] W)
    (hw : W 1) {st : σ} (hst : I st) (data : List ℕ) :
    ∃ c, ∀ fuel, 33 ≤ fuel → AC.compressBytes P 32 fuel st data = .ok c ∧ yielded P 32 fuel st data = (c, .ok ()) := by
  obtain ⟨o, l, -, h⟩ := C41_compress_total (N := 32) (by norm_num) hP hw st hst (AC.unpack data)
  refine ⟨AC.pack (o ++ l), fun fuel hf => ?_⟩
  have : AC.compressBytes P 32 fuel st data = .ok (AC.pack (o ++ l)) := by
    simp only [AC.compressBytes, h fuel hf, ok_bind, pure_eq_ok]
  exact ⟨this, by simp only [yielded, this]⟩

theorem main_compress {m : ModelName} (hm : m.construct = .ok ()) {inp out : Path} {fs : Files Path} {data : List ℕ}
    (hd : fs inp = some data) {little : Bool} {header : List ℕ} (hh : toBytes4 little data.length = .ok header) (fuel : ℕ)
    (depth : ℤ) :
    main fuel little .compress m (some depth) inp out fs =
      (Function.update fs out (some (header ++ (compressed fuel m depth (if inp = out then [] else data)).1)),
        match (compressed fuel m depth (if inp = out then [] else data)).2 with
        | .error e => .error e
        | .ok () => if data.length = 0 then .error (.raised .zeroDivisionError) else .ok ()) := by
  simp only [main, hm, hd, hh]
  rcases compressed fuel m depth (if inp = out then [] else data) with ⟨c, r⟩
  cases r <;> rfl

end Z

open Z

variable {Path : Type} [DecidableEq Path]

/-- **C85 (compressing).** With the models KT, PTW and FMN the program compresses every file of at least one and less than 2^32
bytes: it ends normally, changes only the output file, and puts the length of the input into its first four bytes. -/
theorem C85_compress (m : ModelName) (hm : m ∈ [ModelName.KT, .PTW, .FMN]) (little : Bool) (depth : ℤ) (inp out : Path)
    (fs : Files Path) (data : List ℕ) (hd : fs inp = some data) (h1 : 1 ≤ data.length)
    (h2 : data.length < 2 ^ 32) : ∃ file, HasLength little file data.length ∧ ∀ fuel, 33 ≤ fuel →
      main fuel little .compress m (some depth) inp out fs = (fun p => if p = out then some file else fs p, .ok ()) := by
  obtain ⟨header, hh⟩ := toBytes4_isOk (little := little) h2
  obtain ⟨σ, P, I, W, st, hP, hw, hst, hc⟩ := working hm
  obtain ⟨c, hc'⟩ := yielded_ok hP hw hst (if inp = out then [] else data)
  obtain ⟨hl, hv⟩ := toBytes4_ok hh
  have hcon : m.construct = .ok () := by
    simp only [List.mem_cons, List.not_mem_nil, or_false] at hm
    rcases hm with rfl | rfl | rfl <;> rfl
  have ht : (header ++ c).take 4 = header := by rw [← hl, List.take_left]
  refine ⟨header ++ c, ⟨by rw [List.length_append]; omega, by rw [ht]; exact hv⟩, fun fuel hf => ?_⟩
  rw [main_compress hcon hd hh, hc, (hc' fuel hf).2]
  simp only [if_neg (show ¬ data.length = 0 by omega), Prod.mk.injEq, and_true]
  funext p
  simp only [Function.update_apply]

/-- **C85 (recovery, partial).** For the models KT, PTW and FMN and different input and output files, two runs that end normally
and write the same file have read the same file.  Missing: that the program recovers it (`C85_uncompress_raises`), and the other
models (`C85_context_models_raise`, `C85_common_history_raises`). -/
theorem C85_recoverable_partial (m : ModelName) (hm : m ∈ [ModelName.KT, .PTW, .FMN]) (little : Bool) (f g : ℕ) (d e : ℤ)
    (inp out inp' out' : Path) (fs fs' : Files Path) (hne : inp ≠ out) (hne' : inp' ≠ out')
    (hb : ∀ data, fs inp = some data → ∀ b ∈ data, b < 256) (hb' : ∀ data, fs' inp' = some data → ∀ b ∈ data, b < 256)
    (gs gs' : Files Path) (h : main f little .compress m (some d) inp out fs = (gs, .ok ()))
    (h' : main g little .compress m (some e) inp' out' fs' = (gs', .ok ())) (heq : gs out = gs' out') : fs inp = fs' inp' := by
  obtain ⟨σ, P, I, W, st, hP, hw, hst, hc⟩ := working hm
  have hcon : m.construct = .ok () := by
    simp only [List.mem_cons, List.not_mem_nil, or_false] at hm
    rcases hm with rfl | rfl | rfl <;> rfl
  have key : ∀ (f : ℕ) (d : ℤ) (inp out : Path) (fs gs : Files Path), inp ≠ out →
      main f little .compress m (some d) inp out fs = (gs, .ok ()) → ∃ data header c, fs inp = some data ∧
        toBytes4 little data.length = .ok header ∧ AC.compressBytes P 32 f st data = .ok c ∧ gs out = some (header ++ c) := by
    intro f d inp out fs gs hne h
    cases hd : fs inp with
    | none => simp [main, hcon, hd] at h
    | some data =>
      cases hh : toBytes4 little data.length with
      | error e => simp [main, hcon, hd, hh] at h
      | ok header =>
        rw [main_compress hcon hd hh, hc, if_neg hne, Prod.mk.injEq] at h
        obtain ⟨rfl, h⟩ := h
        cases hcb : AC.compressBytes P 32 f st data with
        | error e => simp [yielded, hcb] at h
        | ok c => exact ⟨data, header, c, rfl, hh, hcb, by simp [yielded, hcb]⟩
  obtain ⟨a, ha, c, g1, g2, g3, g4⟩ := key _ _ _ _ _ _ hne h
  obtain ⟨b, hb1, c', k1, k2, k3, k4⟩ := key _ _ _ _ _ _ hne' h'
  rw [g4, k4, Option.some.injEq] at heq
  obtain ⟨l1, v1⟩ := toBytes4_ok g2
  obtain ⟨l2, v2⟩ := toBytes4_ok k2
  obtain ⟨e1, rfl⟩ := List.append_inj heq (by omega)
  rw [g1, k1, AC.compressBytes_inj (by norm_num) hP hw hst (hb _ g1) (hb' _ k1) (by rw [← v1, ← v2, e1]) g3 k3]

/-- **C85 (the code violates it: uncompress).** `uncompress` always raises: with a model that can be constructed it raises
`KeyError`, because the usage calls the command `uncompress` and the program asks for `decompress`.  Nothing is written. -/
theorem C85_uncompress_raises (m : ModelName) (fuel : ℕ) (little : Bool) (depth : Option ℤ) (inp out : Path) (fs : Files Path) :
    ∃ e, main fuel little .uncompress m depth inp out fs = (fs, .error (.raised e)) ∧
      (depth.isSome → m ∈ [ModelName.CTW, .FastCTW, .CTW_KT, .KT, .PTW, .FMN, .CTW_PTW] → e = .keyError) := by
  cases depth with
  | none => exact ⟨.valueError, rfl, by simp⟩
  | some d =>
    cases hm : m.construct with
    | error e => exact ⟨e, by simp only [main, hm], fun _ h => by cases m <;> simp_all [ModelName.construct]⟩
    | ok u => exact ⟨.keyError, by simp only [main, hm], fun _ _ => rfl⟩

/-- **C85 (the code violates it: context models).** With CTW, which is the default, and with FastCTW, CTW_KT and CTW_PTW, compressing
a file that is not empty raises `TypeError`, and the output file is left with the four bytes of the length. -/
theorem C85_context_models_raise (m : ModelName) (hm : m ∈ [ModelName.CTW, .FastCTW, .CTW_KT, .CTW_PTW]) (little : Bool)
    (depth : ℤ) (inp out : Path) (hne : inp ≠ out) (fs : Files Path) (data : List ℕ) (hd : fs inp = some data)
    (h1 : 1 ≤ data.length) (h2 : data.length < 2 ^ 32) : ∃ file, HasLength little file data.length ∧ file.length = 4 ∧
      ∀ fuel, main fuel little .compress m (some depth) inp out fs =
        (fun p => if p = out then some file else fs p, .error (.raised .typeError)) := by
  obtain ⟨header, hh⟩ := toBytes4_isOk (little := little) h2
  obtain ⟨hl, hv⟩ := toBytes4_ok hh
  have hcon : m.construct = .ok () := by
    simp only [List.mem_cons, List.not_mem_nil, or_false] at hm
    rcases hm with rfl | rfl | rfl | rfl <;> rfl
  have hu : AC.unpack data ≠ [] := by
    intro h
    have := congrArg List.length h
    rw [AC.unpack_length] at this
    simp at this
    simp [this] at h1
  have key : ∀ (σ : Type) (c : AC.ModelClass) (P : Predictor σ Bool) (st : σ) (fuel : ℕ),
      c.update.bind 1 = .error .typeError →
      yielded (AC.asCalled c P) 32 fuel st data = ([], .error (.raised .typeError)) := by
    intro σ c P st fuel hc
    have hc1 : AC.compressBytes (AC.asCalled c P) 32 fuel st data = .error (.raised .typeError) := by
      simp only [AC.compressBytes]
      rw [AC.compress_raises (fun b => by simp only [AC.asCalled, hc, error_bind]; rfl) hu fuel]
      rfl
    have he : emitted (AC.asCalled c P) 32 fuel (AC.Enc.init 32) st (AC.unpack data) = [] := by
      cases hx : AC.unpack data with
      | nil => exact absurd hx hu
      | cons b bs => simp only [emitted, AC.encode, AC.asCalled, hc, error_bind, liftRun]
    simp only [yielded, hc1, he]
    simp [AC.pack_nil]
  refine ⟨header, ⟨by omega, ?_⟩, hl, fun fuel => ?_⟩
  · rw [List.take_of_length_le (by omega)]
    exact hv
  · have : compressed fuel m depth data = ([], .error (.raised .typeError)) := by
      simp only [List.mem_cons, List.not_mem_nil, or_false] at hm
      rcases hm with rfl | rfl | rfl | rfl <;> exact key _ _ _ _ _ rfl
    rw [main_compress hcon hd hh, if_neg hne, this]
    simp only [List.append_nil, Prod.mk.injEq, and_true]
    funext p
    simp only [Function.update_apply]

/-- **C85 (the code violates it: shared histories).** The four models that share a history raise `AttributeError`, whatever the
command, and every other name that is not in the list raises `NameError`; nothing is written. -/
theorem C85_common_history_raises (cmd : Command) (little : Bool) (depth : ℤ) (fuel : ℕ) (inp out : Path) (fs : Files Path) :
    (∀ m ∈ [ModelName.PTW_FastCTW, .FMN_FastCTW, .PTW_CTW, .FMN_CTW],
      main fuel little cmd m (some depth) inp out fs = (fs, .error (.raised .attributeError))) ∧
    main fuel little cmd .other (some depth) inp out fs = (fs, .error (.raised .nameError)) := by
  refine ⟨fun m hm => ?_, rfl⟩
  simp only [List.mem_cons, List.not_mem_nil, or_false] at hm
  rcases hm with rfl | rfl | rfl | rfl <;> rfl

/-- **C85 (empty files).** For an empty input the output file is written, but the program ends with `ZeroDivisionError`. -/
theorem C85_empty_file (m : ModelName) (hm : m ∈ [ModelName.KT, .PTW, .FMN]) (little : Bool) (depth : ℤ) (inp out : Path)
    (fs : Files Path) (hd : fs inp = some []) : ∃ file, HasLength little file 0 ∧ ∀ fuel, 33 ≤ fuel →
      main fuel little .compress m (some depth) inp out fs =
        (fun p => if p = out then some file else fs p, .error (.raised .zeroDivisionError)) := by
  obtain ⟨header, hh⟩ := toBytes4_isOk (little := little) (n := 0) (by norm_num)
  obtain ⟨σ, P, I, W, st, hP, hw, hst, hc⟩ := working hm
  obtain ⟨c, hc'⟩ := yielded_ok hP hw hst []
  obtain ⟨hl, hv⟩ := toBytes4_ok hh
  have hcon : m.construct = .ok () := by
    simp only [List.mem_cons, List.not_mem_nil, or_false] at hm
    rcases hm with rfl | rfl | rfl <;> rfl
  have ht : (header ++ c).take 4 = header := by rw [← hl, List.take_left]
  refine ⟨header ++ c, ⟨by rw [List.length_append]; omega, by rw [ht]; exact hv⟩, fun fuel hf => ?_⟩
  rw [main_compress hcon hd hh, hc, show (if inp = out then [] else []) = ([] : List ℕ) by simp, (hc' fuel hf).2]
  simp only [List.length_nil, if_true, Prod.mk.injEq, and_true]
  funext p
  simp only [Function.update_apply]

/-- **C85 (large files).** For an input of 2^32 bytes or more the program raises `OverflowError` after it has emptied the output
file. -/
theorem C85_large_file (m : ModelName) (hm : m.construct = .ok ()) (little : Bool) (depth : ℤ) (fuel : ℕ) (inp out : Path)
    (fs : Files Path) (data : List ℕ) (hd : fs inp = some data) (h : 2 ^ 32 ≤ data.length) :
    main fuel little .compress m (some depth) inp out fs =
      (fun p => if p = out then some [] else fs p, .error (.raised .overflowError)) := by
  have hh : toBytes4 little data.length = .error .overflowError := by
    unfold toBytes4
    rw [if_neg (by norm_num; omega)]
  simp only [main, hm, hd, hh, Prod.mk.injEq, and_true]
  funext p
  simp only [Function.update_apply]

/-- **C85 (same file).** If input and output are the same file then the program ends normally and leaves a file that depends only on
the length of the input: the content is lost. -/
theorem C85_same_file (m : ModelName) (hm : m ∈ [ModelName.KT, .PTW, .FMN]) (little : Bool) (depth : ℤ) (p : Path) (n : ℕ)
    (h1 : 1 ≤ n) (h2 : n < 2 ^ 32) : ∃ file, ∀ (fs : Files Path) (data : List ℕ), fs p = some data → data.length = n →
      ∀ fuel, 33 ≤ fuel → main fuel little .compress m (some depth) p p fs =
        (fun q => if q = p then some file else fs q, .ok ()) := by
  obtain ⟨header, hh⟩ := toBytes4_isOk (little := little) h2
  obtain ⟨σ, P, I, W, st, hP, hw, hst, hc⟩ := working hm
  obtain ⟨c, hc'⟩ := yielded_ok hP hw hst []
  have hcon : m.construct = .ok () := by
    simp only [List.mem_cons, List.not_mem_nil, or_false] at hm
    rcases hm with rfl | rfl | rfl <;> rfl
  refine ⟨header ++ c, fun fs data hd hn fuel hf => ?_⟩
  subst hn
  rw [main_compress hcon hd hh, hc, if_pos rfl, (hc' fuel hf).2]
  simp only [if_neg (show ¬ data.length = 0 by omega), Prod.mk.injEq, and_true]
  funext p
  simp only [Function.update_apply]

/-- Two files of one byte each, on which the hypotheses of the theorems hold. -/
example : ∃ fs : Files Bool, fs false = some [7] ∧ fs true = none ∧
    ∃ gs, main 40 true .compress .FMN (some 48) false true fs = (gs, .ok ()) ∧ gs false = some [7] := by
  refine ⟨fun p => if p then none else some [7], rfl, rfl, ?_⟩
  obtain ⟨file, _, h⟩ := C85_compress .FMN (by simp) true 48 false true (fun p : Bool => if p then none else some [7]) [7] rfl
    (by simp) (by simp)
  exact ⟨_, h 40 (by norm_num), rfl⟩

/-- **C85 (exceptions).** If the model raises at a bit of the data, then `compress_bytes` has yielded the whole bytes of the code for the bits before
it, and raises the same exception. -/
theorem C85_exception {σ : Type} (P : Predictor σ Bool) (N fuel : ℕ) (st st' : σ) (data : List ℕ) (before after : List Bool) (b : Bool)
    (hd : AC.unpack data = before ++ b :: after) (o : List Bool) (s : AC.Enc)
    (ho : AC.encodeAll P N fuel (AC.Enc.init N) st before = .ok (o, s, st')) (e : Halt) (he : AC.encode P N fuel s st' b = .error e) :
    yielded P N fuel st data = (AC.pack (o.take (o.length / 8 * 8)), .error e) := by
  have key : ∀ (before : List Bool) (s0 : AC.Enc) (st : σ) (o : List Bool), AC.encodeAll P N fuel s0 st before = .ok (o, s, st') →
      AC.encodeAll P N fuel s0 st (before ++ b :: after) = .error e ∧ emitted P N fuel s0 st (before ++ b :: after) = o := by
    intro before
    induction before with
    | nil =>
      intro s0 st o h
      simp only [AC.encodeAll, pure_eq_ok, Except.ok.injEq, Prod.mk.injEq] at h
      obtain ⟨rfl, rfl, rfl⟩ := h
      simp [AC.encodeAll, emitted, he]
    | cons c before ih =>
      intro s0 st o h
      simp only [AC.encodeAll, bind_eq_ok, pure_eq_ok, Except.ok.injEq, Prod.mk.injEq, Prod.exists] at h
      obtain ⟨o1, s1, st1, h1, o2, s2, st2, h2, rfl, rfl, rfl⟩ := h
      obtain ⟨k1, k2⟩ := ih s1 st1 o2 h2
      constructor
      · simp [AC.encodeAll, h1, k1]
      · simp [emitted, h1, k2]
  obtain ⟨k1, k2⟩ := key before _ _ _ ho
  have hc : AC.compressBytes P N fuel st data = .error e := by
    simp [AC.compressBytes, AC.compress, hd, k1]
  simp only [yielded, hc, hd, k2]

/-- A model that gives every 0 the probability one half and raises at a 1: of the fifteen bits before the first 1 eight are written. -/
example : ∃ (P : Predictor Unit Bool), yielded P 32 3 () [0, 128, 5] = ([0], .error (.raised .valueError)) := by
  let P : Predictor Unit Bool := ⟨fun _ b _ _ => if b then .error .valueError else .ok (Real.log (1 / 2), ()), fun _ _ _ => .error .valueError, fun _ => .ok ()⟩
  have h1 : AC.encode P 32 3 (AC.Enc.init 32) () false = .ok ([false], AC.Enc.init 32, ()) := by
    have hp : AC.encP (Real.log (1 / 2)) false = 1 / 2 := by
      simp only [AC.encP, Bool.false_eq_true, if_false]
      rw [Real.exp_log (by norm_num)]
    have hs : AC.encSplit 0 (AC.top 32) (1 / 2) = 2 ^ 31 := by
      unfold AC.encSplit pyInt
      have : ((AC.top 32 - 0 : ℤ) : ℝ) * (1 / 2) = ((2 ^ 31 : ℤ) : ℝ) := by norm_num [AC.top]
      rw [this, if_pos (by positivity), Int.floor_intCast]
      norm_num
    simp only [AC.encode, P, liftRun, Bool.false_eq_true, if_false, ok_bind, hp, AC.encodeWith, AC.Enc.init, hs]
    rfl
  have h2 : ∀ n, AC.encodeAll P 32 3 (AC.Enc.init 32) () (List.replicate n false) = .ok (List.replicate n false, AC.Enc.init 32, ()) := by
    intro n
    induction n with
    | zero => rfl
    | succ n ih => simp [List.replicate_succ, AC.encodeAll, h1, ih]
  refine ⟨P, ?_⟩
  rw [C85_exception P 32 3 () () [0, 128, 5] (List.replicate 15 false) (AC.unpack [5]) true (by decide) _ _ (h2 15) (.raised .valueError)
    (by simp [AC.encode, P, liftRun])]
  simp [AC.pack, AC.grouper, AC.fromBits, List.replicate]

/-- **C86 (data).** While a file is read with its length as `nbytes`, the bytes yielded are those of the file, in order, and nothing
raises. -/
theorem C86_bytes (data : List ℕ) :
    (progressLoop data.length 0 data).2 = .ok () ∧
    (progressLoop data.length 0 data).1.filterMap (fun e => match e with | .byte b => some b | .draw _ => none) = data := by
  have key : ∀ (n count : ℕ) (rest : List ℕ), n ≠ 0 →
      (progressLoop n count rest).2 = .ok () ∧
      (progressLoop n count rest).1.filterMap (fun e => match e with | .byte b => some b | .draw _ => none) = rest := by
    intro n count rest hn
    induction hl : rest.length using Nat.strong_induction_on generalizing count rest with
    | _ k ih =>
      rw [progressLoop]
      by_cases hr : rest = []
      · simp [hr]
      · have hpos := List.length_pos_iff.mpr hr
        rw [dif_neg hr]
        have hd : (n : ℝ) ≠ 0 := by exact_mod_cast hn
        simp only [pyDiv, if_neg hd]
        obtain ⟨g1, g2⟩ := ih (rest.drop 1024).length (by rw [List.length_drop]; omega)
          (count + (rest.take 1024).length) (rest.drop 1024) rfl
        refine ⟨g1, ?_⟩
        rw [List.filterMap_append, List.filterMap_cons, g2, List.filterMap_map]
        simp only [Function.comp_def]
        rw [List.filterMap_some, List.take_append_drop]
  by_cases h : data = []
  · subst h
    rw [progressLoop]
    simp
  · exact key data.length 0 data (by simpa using h)

/-- **C86 (fractions).** The fractions drawn for a file of `n` bytes are those of the bytes yielded after each of the chunks of 1024
bytes; the last one is 1. -/
theorem C86_fractions (data : List ℕ) :
    (progressLoop data.length 0 data).1.filterMap (fun e => match e with | .byte _ => none | .draw f => some f) =
      (List.range ((data.length + 1023) / 1024)).map fun k => ((min ((k + 1) * 1024) data.length : ℕ) : ℝ) / data.length := by
  have key : ∀ (n count : ℕ) (rest : List ℕ), count + rest.length = n →
      (progressLoop n count rest).1.filterMap (fun e => match e with | .byte _ => none | .draw f => some f) =
        (List.range ((rest.length + 1023) / 1024)).map fun k => ((min (count + (k + 1) * 1024) n : ℕ) : ℝ) / n := by
    intro n count rest hn
    induction hl : rest.length using Nat.strong_induction_on generalizing count rest with
    | _ k ih =>
      rw [progressLoop]
      by_cases hr : rest = []
      · subst hr
        simp at hl
        subst hl
        simp
      · have hpos := List.length_pos_iff.mpr hr
        rw [dif_neg hr]
        have hd : (n : ℝ) ≠ 0 := by exact_mod_cast (by omega : n ≠ 0)
        simp only [pyDiv, if_neg hd]
        have g := ih (rest.drop 1024).length (by rw [List.length_drop]; omega)
          (count + (rest.take 1024).length) (rest.drop 1024) (by rw [List.length_take, List.length_drop]; omega) rfl
        rw [List.filterMap_append, List.filterMap_cons, g, List.filterMap_map]
        simp only [Function.comp_def, List.length_drop, List.length_take]
        rw [show (k + 1023) / 1024 = (k - 1024 + 1023) / 1024 + 1 by omega, List.range_succ_eq_map, List.map_cons, List.map_map,
          List.filterMap_none, List.nil_append, hl]
        congr 1
        · congr 2
          omega
        · apply List.map_congr_left
          intro j hj
          rw [List.mem_range] at hj
          simp only [Function.comp_def]
          congr 2
          omega
  have := key data.length 0 data (by omega)
  simpa using this

/-- **C86 (bar).** For a fraction between 0 and 1 the bar has 60 characters, of which the whole number of sixtieths are `=`; the
percentage is the whole number of hundredths; and the bar is full exactly for 1. -/
theorem C86_bar (x : ℝ) (h0 : 0 ≤ x) (h1 : x ≤ 1) :
    (progressBar x).1.length = 60 ∧ ((progressBar x).1.count '=' : ℤ) = ⌊60 * x⌋ ∧ (progressBar x).2 = ⌊100 * x⌋ ∧
    ((progressBar x).1 = List.replicate 60 '=' ↔ x = 1) := by
  have e1 : pyInt (x * ((60 : ℤ) : ℝ)) = ⌊60 * x⌋ := by
    unfold pyInt
    rw [if_pos (by push_cast; positivity), mul_comm]
    push_cast
    rfl
  have e2 : pyInt (x * 100) = ⌊100 * x⌋ := by
    unfold pyInt
    rw [if_pos (by positivity), mul_comm]
  have b0 : 0 ≤ ⌊60 * x⌋ := Int.floor_nonneg.mpr (by positivity)
  have b1 : ⌊60 * x⌋ ≤ 60 := by
    have : ⌊60 * x⌋ ≤ ⌊(60 : ℝ)⌋ := Int.floor_le_floor (by linarith)
    simpa using this
  have b2 : ⌊60 * x⌋ = 60 ↔ x = 1 := by
    constructor
    · intro h
      have := Int.floor_le (60 * x)
      rw [h] at this
      push_cast at this
      linarith
    · rintro rfl
      norm_num
  simp only [progressBar, e1, e2]
  by_cases h : ⌊60 * x⌋ < 60
  · rw [if_pos h]
    refine ⟨?_, ?_, trivial, ?_⟩
    · simp
      omega
    · rw [List.count_append, List.count_cons, List.count_replicate, List.count_replicate]
      simp
      omega
    · constructor
      · intro hh
        have := congrArg (List.count '>') hh
        rw [List.count_append, List.count_cons, List.count_replicate, List.count_replicate, List.count_replicate] at this
        simp at this
      · intro hh
        have := b2.mpr hh
        omega
  · have : ⌊60 * x⌋ = 60 := by omega
    rw [if_neg h, this]
    simp [b2.mp this]

/-- Two thousand bytes are drawn at 1024/2000 and at 1. -/
example : (List.range ((2000 + 1023) / 1024)).map (fun k => ((min ((k + 1) * 1024) 2000 : ℕ) : ℝ) / (2000 : ℕ)) =
    [1024 / 2000, 1] := by
  norm_num [List.range, List.range.loop]

end Verif
