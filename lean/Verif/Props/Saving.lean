import Verif.Model.Saving

/-!
# C106: saving and loading of data and models
-/

namespace Verif

open Str Jobs Logs Saving

namespace Saving

variable {D M : Type}

/-- No file that exists has changed. -/
def Keeps (w w' : World) : Prop := ∀ q c, w.files q = some c → w'.files q = some c

theorem makedirs_files {w w' : World} {d : Str} {r : Py Unit} (h : makedirs w d = (w', r)) : w'.files = w.files ∧ w'.writable = w.writable := by
  unfold makedirs at h
  split_ifs at h <;> obtain ⟨rfl, -⟩ := Prod.mk.inj h <;> exact ⟨rfl, rfl⟩

theorem not_exists {w : World} {p : Str} (h : w.exists' p = false) : w.files p = none ∧ w.dirs p = false := by
  unfold World.exists' at h
  rw [Bool.or_eq_false_iff] at h
  exact ⟨by simpa using h.1, h.2⟩

theorem put_keeps {w w' : World} {p c : Str} (h : w.files p = none) (hw : w'.files = w.files) : Keeps w (put w' p c) := by
  intro q d hq
  have hne : q ≠ p := fun e => by rw [e, h] at hq; cases hq
  simp only [put, Function.update_of_ne hne, hw, hq]

/-- A run of `save_data` that comes to the creation of the file. -/
theorem saveData_cases (csv : D → Str) (o : Obj D M) (w : World) (arg : Option D) :
    ((saveData csv o w arg).1 = w ∧ ∀ p, (saveData csv o w arg).2 ≠ .ok (some p)) ∨
    ∃ p d w1, o.logFilePath = .ok p ∧ o.logPath = .ok d ∧ w.exists' p = false ∧ makedirs w d = (w1, .ok ()) ∧
      saveData csv o w arg = writeData csv o w1 p ∨ (o.logPath = .ok d ∧ (∃ e, makedirs w d = (w1, .error e)) ∧
        (saveData csv o w arg).1 = w1 ∧ ∀ p, (saveData csv o w arg).2 ≠ .ok (some p)) := by
  unfold saveData
  split_ifs with h1 h2
  · exact Or.inl ⟨rfl, fun p h => by cases h⟩
  · exact Or.inl ⟨rfl, fun p h => by cases h⟩
  · cases hp : o.logFilePath with
    | error e => exact Or.inl ⟨rfl, fun p h => by cases h⟩
    | ok p =>
      cases hd : o.logPath with
      | error e => exact Or.inl ⟨rfl, fun p h => by cases h⟩
      | ok d =>
        dsimp only
        cases hx : w.exists' p with
        | true => exact Or.inl ⟨by simp, fun p h => by simp at h⟩
        | false =>
          simp only [Bool.false_eq_true, if_false]
          cases hm : makedirs w d with
          | mk w1 r =>
            cases r with
            | error e => exact Or.inr ⟨p, d, w1, Or.inr ⟨rfl, ⟨e, hm⟩, rfl, fun p h => by cases h⟩⟩
            | ok u => exact Or.inr ⟨p, d, w1, Or.inl ⟨rfl, rfl, hx, hm, rfl⟩⟩

end Saving

variable {D M : Type}

/-- **C106 (nothing is overwritten).** Neither `save_data` nor `save_model` changes a file that exists, whatever they return or raise. -/
theorem C106_no_overwrite (csv : D → Str) (dump : M → Str) (o : Obj D M) (w : World) (data : Option D) (model : Option M) :
    Keeps w (saveData csv o w data).1 ∧ Keeps w (saveModel dump o w model).1 := by
  constructor
  · rcases saveData_cases csv o w data with ⟨h, -⟩ | ⟨p, d, w1, ⟨-, -, hx, hm, h⟩ | ⟨-, ⟨e, hm⟩, h, -⟩⟩
    · rw [h]
      exact fun _ _ h => h
    · have hw := (makedirs_files hm).1
      rw [h]
      unfold writeData
      split_ifs
      · intro q c hq
        rw [hw, hq]
      · cases o.data with
        | none => exact put_keeps (not_exists hx).1 hw
        | some d => exact put_keeps (not_exists hx).1 hw
    · rw [h]
      intro q c hq
      rw [(makedirs_files hm).1, hq]
  · unfold saveModel
    cases model.or o.model with
    | none => exact fun _ _ h => h
    | some m =>
      dsimp only
      cases hx : o.modelExists w with
      | true => exact fun _ _ h => h
      | false =>
        simp only [Bool.false_eq_true, if_false]
        cases o.logPath with
        | error e => exact fun _ _ h => h
        | ok d =>
          dsimp only
          cases hm : makedirs w d with
          | mk w1 r =>
            have hw := (makedirs_files hm).1
            have hk : Keeps w w1 := fun q c hq => by rw [hw, hq]
            cases r with
            | error e => exact hk
            | ok u =>
              dsimp only
              cases hp : o.modelFilePath with
              | error e => exact hk
              | ok p =>
                dsimp only
                split_ifs
                · exact hk
                · unfold Obj.modelExists at hx
                  rw [hp] at hx
                  exact put_keeps (not_exists hx).1 hw

/-- **C106 (what is saved).** If `save_data` returns a path, then there was no file of this path, and now there is one with the data of the object, not
those passed, after a line with the path; all other files are as before. -/
theorem C106_save_data (csv : D → Str) (o : Obj D M) (w w' : World) (arg : Option D) (p : Str) (h : saveData csv o w arg = (w', .ok (some p))) :
    o.logFilePath = .ok p ∧ w.files p = none ∧ (∃ d, o.data = some d ∧ w'.files p = some (firstLine p ++ csv d)) ∧
    ∀ q, q ≠ p → w'.files q = w.files q := by
  rcases saveData_cases csv o w arg with ⟨-, h1⟩ | ⟨p', d, w1, ⟨hp, -, hx, hm, h1⟩ | ⟨-, -, -, h1⟩⟩
  · exact absurd (congrArg Prod.snd h) (h1 p)
  · have hw := (makedirs_files hm).1
    rw [h] at h1
    unfold writeData at h1
    split_ifs at h1
    · cases h1
    · cases ho : o.data with
      | none => rw [ho] at h1; cases h1
      | some d =>
        rw [ho] at h1
        dsimp only at h1
        obtain ⟨rfl, h2⟩ := Prod.mk.inj h1
        obtain rfl := Option.some.inj (Except.ok.inj h2)
        refine ⟨hp, (not_exists hx).1, ⟨d, rfl, by simp [put]⟩, fun q hq => ?_⟩
        simp only [put, Function.update_of_ne hq, hw]
  · exact absurd (congrArg Prod.snd h) (h1 p)

/-- **C106 (the argument is ignored).** If the object has data, `save_data(data)` does the same as `save_data()`. -/
theorem C106_argument_ignored (csv : D → Str) (o : Obj D M) (w : World) (data d : D) (h : o.data = some d) :
    saveData csv o w (some data) = saveData csv o w none := by
  unfold saveData
  simp [h]

/-- **C106 (data lost).** If the object has no data of its own, `save_data(data)` raises AttributeError and leaves a file without data.  After that
nothing can be saved: every `save_data` of every object with this path returns `False` and changes nothing. -/
theorem C106_data_lost (csv : D → Str) (o : Obj D M) (w w1 : World) (data : D) (p d : Str) (ho : o.data = none) (hl : o.loggable = true)
    (hp : o.logFilePath = .ok p) (hd : o.logPath = .ok d) (hx : w.exists' p = false) (hm : makedirs w d = (w1, .ok ()))
    (hw : w1.dirs p = false) (hwr : w.writable p = true) :
    (saveData csv o w (some data)).2 = .error .attributeError ∧
    (saveData csv o w (some data)).1.files p = some (firstLine p) ∧
    ∀ (o' : Obj D M) (arg : Option D), o'.loggable = true → o'.logFilePath = .ok p → (arg.isSome ∨ o'.data.isSome) →
      saveData csv o' (saveData csv o w (some data)).1 arg = ((saveData csv o w (some data)).1, .ok none) := by
  have h1 : saveData csv o w (some data) = (put w1 p (firstLine p), .error .attributeError) := by
    unfold saveData
    rw [hl, hp, hd]
    simp only [Bool.true_eq_false, if_false, Option.isNone_some, Bool.false_and, Bool.false_eq_true, hx, hm]
    unfold writeData
    rw [hw, (makedirs_files hm).2, hwr, ho]
    simp
  rw [h1]
  refine ⟨rfl, by simp [put], fun o' arg hl' hp' ha => ?_⟩
  obtain ⟨b, hb, -⟩ := bind_eq_ok.1 hp'
  have hex : (put w1 p (firstLine p)).exists' p = true := by simp [World.exists', put]
  unfold saveData
  rw [hl', hp', hb]
  have hnone : (arg.isNone && o'.data.isNone) = false := by
    rcases ha with ha | ha
    · cases arg <;> simp_all
    · cases h : o'.data <;> simp_all
  simp [hnone, hex]

/-- **C106 (loading).** Without data in memory, `load_data()` always raises: the attribute `base_path` does not exist. -/
theorem C106_load_raises (parse : Str → Py D) (o : Obj D M) (w : World) (h : o.data = none) : ∃ e, (loadData parse o w none).2 = .error e := by
  unfold loadData
  simp only [Obj.withBase, h]
  by_cases hl : o.loggable = false
  · simp [hl]
  · simp only [hl, if_false]
    cases o.logExists w with
    | error e => exact ⟨_, rfl⟩
    | ok b =>
      cases b with
      | false => exact ⟨_, rfl⟩
      | true => exact ⟨_, rfl⟩

/-- **C106 (loaded data is kept).** After data has been loaded the object has it: loading again gives the same data, whatever has happened to the files. -/
theorem C106_load_kept (parse : Str → Py D) (o o' : Obj D M) (w : World) (base : Option Str) (d : D) (h : loadData parse o w base = (o', .ok d)) :
    o'.data = some d ∧ ∀ w' base', (loadData parse o' w' base').2 = .ok d := by
  have hd : o'.data = some d := by
    unfold loadData at h
    dsimp only at h
    split at h
    · rename_i d' h'
      obtain ⟨rfl, hd⟩ := Prod.mk.inj h
      rw [h', Except.ok.inj hd]
    · split_ifs at h
      · cases h
      · split at h
        · cases h
        · cases h
        · split at h
          · cases h
          · obtain ⟨rfl, hd⟩ := Prod.mk.inj h
            rw [Except.ok.inj hd]
  refine ⟨hd, fun w' base' => ?_⟩
  have hw : (o'.withBase base').data = some d := by
    unfold Obj.withBase
    split
    · exact hd
    · split_ifs <;> exact hd
  unfold loadData
  dsimp only
  rw [hw]

namespace Saving

/-- The full claim about data: what an object has saved, another one with the same names loads. -/
def RoundTrip (csv : D → Str) (parse : Str → Py D) (o : Obj D M) (w : World) : Prop :=
  ∀ w' p d b, saveData csv o w none = (w', .ok (some p)) → o.data = some d → o.baseDir = some b →
    (loadData parse { o with data := none } w' (some b)).2 = .ok d

end Saving

/-- **C106 (round trip of data, partial).** What an object has saved, another one with the same names loads if it is given the base directory, and if
the directory string is empty.  For other directory strings this is false, see `C106_load_wrong_path`. -/
theorem C106_data_roundtrip_partial (csv : D → Str) (parse : Str → Py D) (o : Obj D M) (w : World)
    (hparse : ∀ p d, parse (firstLine p ++ csv d) = .ok d) (hdir : o.logDir = []) (hb : o.baseDir ≠ some []) : RoundTrip csv parse o w := by
  intro w' p d b hs hd hbase
  obtain ⟨hp, -, ⟨d', hd', hf⟩, -⟩ := C106_save_data csv o w w' none p hs
  obtain rfl : d = d' := Option.some.inj (hd.symm.trans hd')
  have hl : o.loggable = true := by
    cases h : o.loggable with
    | true => rfl
    | false =>
      unfold saveData at hs
      rw [if_pos h] at hs
      cases hs
  have hbne : b ≠ [] := fun e => hb (e ▸ hbase)
  obtain ⟨f, hlf⟩ : ∃ f, o.logFile = some f := by
    unfold Obj.loggable at hl
    rw [Bool.and_eq_true] at hl
    exact Option.isSome_iff_exists.1 hl.2
  have hpath : p = pathJoin2 (pathJoin2 b o.logDir) f := by
    simp only [Obj.logFilePath, Obj.logPath, hbase, hlf, attr, ok_bind, pure_eq_ok, Except.ok.injEq] at hp
    exact hp.symm
  have hsame : pathJoin2 (pathJoin2 b o.logDir) f = pathJoin2 b f := by
    rw [hdir]
    unfold pathJoin2
    by_cases hf' : f.head? = some '/'
    · simp [hf']
    · by_cases hb' : b.getLast? = some '/'
      · simp [hf', hb']
      · simp [hf', hb', hbne]
  unfold loadData
  have hwith : ({ o with data := none } : Obj D M).withBase (some b) = { o with data := none } := by
    simp only [Obj.withBase, if_neg hbne, ← hbase]
  have hl' : ({ o with data := none } : Obj D M).loggable = true := hl
  have hex : ({ o with data := none } : Obj D M).logExists w' = .ok true := by
    have hp' : ({ o with data := none } : Obj D M).logFilePath = .ok p := hp
    rw [Obj.logExists, hl', if_pos rfl, hp', ok_bind]
    simp [World.exists', hf]
  rw [hwith]
  have hfrom : loadFrom parse ({ o with data := none } : Obj D M) w' (some b) = .ok d := by
    simp only [loadFrom, if_neg hbne, hlf, attr, ok_bind, pathify, readFile]
    rw [← hsame, ← hpath, hf]
    exact hparse p d
  have hl'' : ¬ ({ o with data := none } : Obj D M).loggable = false := by rw [hl']; decide
  dsimp only
  rw [if_neg hl'', hex]
  dsimp only
  rw [hfrom]

/-- **C106 (loading looks in another place).** With any other directory string loading raises, unless there happens to be a file of the same name in the base
directory itself. -/
theorem C106_load_wrong_path (csv : D → Str) (parse : Str → Py D) (o : Obj D M) (w w' : World) (p b f : Str) (arg : Option D)
    (hs : saveData csv o w arg = (w', .ok (some p))) (hbase : o.baseDir = some b) (hf : o.logFile = some f)
    (hne : p ≠ pathJoin2 b f) (hno : w.files (pathJoin2 b f) = none) :
    ∃ e, (loadData parse { o with data := none } w' (some b)).2 = .error e := by
  obtain ⟨-, -, -, hother⟩ := C106_save_data csv o w w' arg p hs
  unfold loadData
  have hdata : (({ o with data := none } : Obj D M).withBase (some b)).data = none := by
    unfold Obj.withBase
    dsimp only
    split_ifs <;> rfl
  have hlf : (({ o with data := none } : Obj D M).withBase (some b)).logFile = some f := by
    unfold Obj.withBase
    dsimp only
    split_ifs <;> exact hf
  generalize ({ o with data := none } : Obj D M).withBase (some b) = o' at hdata hlf
  simp only [hdata]
  have hfrom : ∃ e, loadFrom parse o' w' (some b) = .error e := by
    unfold loadFrom
    by_cases hb : b = []
    · exact ⟨_, if_pos hb⟩
    · refine ⟨.osError, ?_⟩
      simp only [if_neg hb, hlf, attr, ok_bind, readFile, pathify, hother _ (Ne.symm hne), hno]
  obtain ⟨e, hfrom⟩ := hfrom
  by_cases hl : o'.loggable = false
  · rw [if_pos hl]
    exact ⟨_, rfl⟩
  · rw [if_neg hl]
    cases o'.logExists w' with
    | error e => exact ⟨_, rfl⟩
    | ok x =>
      cases x with
      | false => exact ⟨_, rfl⟩
      | true =>
        dsimp only
        rw [hfrom]
        exact ⟨_, rfl⟩

/-- **C106 (models).** A model that was saved is loaded by every object with the same names that has none; it stays the first one that was saved, because a
second `save_model` returns `False`. -/
theorem C106_model_roundtrip {R : Type} (dump : M → Str) (load : Str → Py M) (hload : ∀ m, load (dump m) = .ok m) (body : Body D M R)
    (o o' : Obj D M) (w w' : World) (m m' : M) (p : Str) (h : saveModel dump o w (some m) = (w', .ok (some p)))
    (hp : o'.modelFilePath = .ok p) (hm : o'.model = none) (hl : o'.logModel = true) :
    saveModel dump o' w' (some m') = (w', .ok none) ∧ (loadModel dump load body w' o').2.2 = .ok m ∧ (loadModel dump load body w' o').1 = w' := by
  have hfile : w'.files p = some (dump m) := by
    unfold saveModel at h
    simp only [Option.or] at h
    by_cases hx : o.modelExists w = true
    · rw [if_pos hx] at h
      cases h
    rw [if_neg hx] at h
    cases hd : o.logPath with
    | error e => rw [hd] at h; cases h
    | ok d =>
      rw [hd] at h
      dsimp only at h
      cases hmk : makedirs w d with
      | mk w1 r =>
        rw [hmk] at h
        cases r with
        | error e => cases h
        | ok u =>
          dsimp only at h
          cases hq : o.modelFilePath with
          | error e => rw [hq] at h; cases h
          | ok q =>
            rw [hq] at h
            dsimp only at h
            split_ifs at h
            · cases h
            · obtain ⟨rfl, h2⟩ := Prod.mk.inj h
              obtain rfl := Option.some.inj (Except.ok.inj h2)
              simp [put]
  have hex : o'.modelExists w' = true := by
    rw [Obj.modelExists, hp]
    simp [World.exists', hfile]
  refine ⟨?_, ?_⟩
  · simp only [saveModel, Option.or, hex, if_true]
  · simp [loadModel, hm, hl, hex, hp, hfile, hload]

/-- **C106 (no place to save).** If the path of the logs or the name of the model file cannot be found, `save_model` does not say that the model has been
saved: it raises, and writes no file. -/
theorem C106_no_path (dump : M → Str) (o : Obj D M) (w w' : World) (arg : Option M) (r : Py (Option Str)) (e : PyErr)
    (hp : o.modelFilePath = .error e) (h : saveModel dump o w arg = (w', r)) : (∃ e', r = .error e') ∧ w'.files = w.files := by
  have hx : o.modelExists w = false := by rw [Obj.modelExists, hp]
  unfold saveModel at h
  cases hm : arg.or o.model with
  | none => rw [hm] at h; cases h; exact ⟨⟨_, rfl⟩, rfl⟩
  | some m =>
    rw [hm] at h
    simp only [hx, Bool.false_eq_true, if_false] at h
    cases hl : o.logPath with
    | error e' => rw [hl] at h; cases h; exact ⟨⟨_, rfl⟩, rfl⟩
    | ok d =>
      rw [hl] at h
      dsimp only at h
      cases hmk : makedirs w d with
      | mk w1 r1 =>
        have hfiles : w1.files = w.files := (makedirs_files hmk).1
        rw [hmk] at h
        cases r1 with
        | error e' => cases h; exact ⟨⟨_, rfl⟩, hfiles⟩
        | ok u => simp only [hp] at h; cases h; exact ⟨⟨_, rfl⟩, hfiles⟩

/-- **C106 (exceptions are replaced).** If an experiment that logs its model raises before it has one, `run` raises TypeError instead of the exception of
the experiment; without logging it raises that exception. -/
theorem C106_exception_replaced {R : Type} (dump : M → Str) (body : Body D M R) (w w1 : World) (o o1 : Obj D M) (e : PyErr)
    (h : body w o = (w1, o1, .error e)) (hm : o1.model = none) :
    (run dump body w o).2.2 = .error (if o1.logModel then .typeError else e) := by
  unfold run
  rw [h]
  dsimp only [exitModel]
  cases o1.logModel with
  | false => rfl
  | true => simp [saveModel, hm]

/-- **C106 (where and what).** The file of the data is `log_file` in `log_dir` in `base_dir`, the file of the model is `model_file` there;
the first line of the data is a comment with the path. -/
theorem C106_saved_where (csv : D → Str) (dump : M → Str) (o : Obj D M) (w w' : World) (p : Str) :
    (∀ arg, saveData csv o w arg = (w', .ok (some p)) → ∃ b f d, o.baseDir = some b ∧ o.logFile = some f ∧ o.data = some d ∧
      o.logData = true ∧ p = pathJoin2 (pathJoin2 b o.logDir) f ∧
      w'.files p = some (['#', ' '] ++ p ++ ['\n'] ++ csv d)) ∧
    (∀ arg, saveModel dump o w arg = (w', .ok (some p)) → ∃ b f m, o.baseDir = some b ∧ o.modelFile = some f ∧
      (arg = some m ∨ arg = none ∧ o.model = some m) ∧ p = pathJoin2 (pathJoin2 b o.logDir) f ∧ w'.files p = some (dump m)) := by
  constructor
  · intro arg h
    obtain ⟨hp, -, ⟨d, hd, hf⟩, -⟩ := C106_save_data csv o w w' arg p h
    have hl : o.loggable = true := by
      cases hl : o.loggable with
      | true => rfl
      | false =>
        unfold saveData at h
        rw [if_pos hl] at h
        cases h
    simp only [Obj.loggable, Bool.and_eq_true] at hl
    cases hb : o.baseDir with
    | none => simp [Obj.logFilePath, Obj.logPath, hb, attr] at hp
    | some b =>
      cases hlf : o.logFile with
      | none => simp [hlf] at hl
      | some f =>
        simp only [Obj.logFilePath, Obj.logPath, hb, hlf, attr, ok_bind, pure_eq_ok, Except.ok.injEq] at hp
        exact ⟨b, f, d, rfl, rfl, hd, hl.1, hp.symm, by rw [hf]; simp [firstLine]⟩
  · intro arg h
    unfold saveModel at h
    cases ha : arg.or o.model with
    | none => rw [ha] at h; cases h
    | some m =>
      rw [ha] at h
      dsimp only at h
      by_cases hx : o.modelExists w = true
      · rw [if_pos hx] at h
        cases h
      rw [if_neg hx] at h
      cases hb : o.baseDir with
      | none => simp [Obj.logPath, hb, attr] at h
      | some b =>
        cases hmf : o.modelFile with
        | none =>
          simp only [Obj.modelFilePath, Obj.logPath, hb, hmf, attr, ok_bind, pure_eq_ok, error_bind] at h
          cases hmk : makedirs w (pathJoin2 b o.logDir) with
          | mk w1 r => rw [hmk] at h; cases r <;> cases h
        | some f =>
          simp only [Obj.modelFilePath, Obj.logPath, hb, hmf, attr, ok_bind, pure_eq_ok] at h
          cases hmk : makedirs w (pathJoin2 b o.logDir) with
          | mk w1 r =>
            rw [hmk] at h
            cases r with
            | error e => cases h
            | ok u =>
              dsimp only at h
              split_ifs at h
              · cases h
              · obtain ⟨rfl, h2⟩ := Prod.mk.inj h
                obtain rfl := Option.some.inj (Except.ok.inj h2)
                refine ⟨b, f, m, rfl, rfl, ?_, rfl, by simp [put]⟩
                cases arg with
                | none => exact .inr ⟨rfl, ha⟩
                | some x => exact .inl ha

/-- **C106 (log_exists).** With both names set, `log_exists` says whether the object logs data and there is a file or directory of the path;
without a name for the log it is false. -/
theorem C106_log_exists (o : Obj D M) (w : World) (b : Str) (hb : o.baseDir = some b) :
    (∀ f, o.logFile = some f → o.logExists w = .ok (o.logData && w.exists' (pathJoin2 (pathJoin2 b o.logDir) f))) ∧
    (o.logFile = none → o.logExists w = .ok false) := by
  constructor
  · intro f hf
    cases hd : o.logData <;> simp [Obj.logExists, Obj.loggable, Obj.logFilePath, Obj.logPath, hd, hf, hb, attr]
  · intro hf
    simp [Obj.logExists, Obj.loggable, hf]

namespace Saving

/-- An empty file system and an object that can log. -/
def exampleWorld : World := ⟨fun _ => none, fun _ => false, fun _ => true⟩

def exampleObj : Obj ℕ ℕ := ⟨true, true, some "log".toList, some "model".toList, some "base".toList, "kt".toList, some 7, none⟩

/-- Data are saved below the directory string and cannot be loaded; a model can. -/
example : ∃ w p, saveData (fun n : ℕ => ofNat n) exampleObj exampleWorld none = (w, .ok (some p)) ∧ p = "base/kt/log".toList ∧
    (∃ e, (loadData (fun _ => .ok 7) { exampleObj with data := none } w (some "base".toList)).2 = .error e) ∧
    ∃ w1 q, saveModel (fun n : ℕ => ofNat n) exampleObj w (some 3) = (w1, .ok (some q)) ∧ q = "base/kt/model".toList := by
  refine ⟨_, _, rfl, by decide, ?_, _, _, rfl, by decide⟩
  exact C106_load_wrong_path _ _ exampleObj exampleWorld _ _ "base".toList "log".toList none rfl rfl rfl (by decide) rfl

/-- With an empty directory string they can be loaded: numbers are written as that many letters. -/
example : RoundTrip (fun n : ℕ => List.replicate n 'a') (fun c => .ok (c.reverse.takeWhile (· = 'a')).length)
    { exampleObj with logDir := [] } exampleWorld := by
  refine C106_data_roundtrip_partial _ _ _ _ (fun p d => ?_) rfl (by decide)
  have h : (firstLine p ++ List.replicate d 'a').reverse = List.replicate d 'a' ++ '\n' :: ('#' :: ' ' :: p).reverse := by
    simp [firstLine]
  rw [h, List.takeWhile_append_of_pos (by intro a ha; simpa using (List.eq_of_mem_replicate ha))]
  simp

/-- An experiment that raises ValueError: the caller sees TypeError. -/
example : (run (fun n : ℕ => ofNat n) (fun w o => (w, o, (.error .valueError : Py Unit))) exampleWorld exampleObj).2.2 = .error .typeError :=
  C106_exception_replaced _ _ exampleWorld exampleWorld exampleObj exampleObj .valueError rfl rfl

/-- Data passed to an object that has none are lost. -/
example : (saveData (fun n : ℕ => ofNat n) { exampleObj with data := none } exampleWorld (some 5)).2 = .error .attributeError :=
  (C106_data_lost _ _ _ _ 5 "base/kt/log".toList "base/kt".toList rfl rfl rfl rfl rfl rfl (by decide) rfl).1

end Saving

end Verif
