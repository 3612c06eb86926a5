import Verif.Proofs.Entering

/-!
# C111: entering and leaving an experiment
-/

namespace Verif

open Str Structures Entering

variable {V : Type}

namespace Entering

/-- Paths along the loop. -/
theorem loop_paths {self self' : Attrs V} {k : ℕ} (hk : k ≤ 2) {cs : List Str} (hcs : ∀ c ∈ cs, GoodComp c) (hne : k ≠ 0 ∨ cs ≠ [])
    (dir : Child V → List Str) {ps : List (Child V)} {as : List (Attrs V)} {b : Str}
    (hp : ∀ p ∈ ps, p.logDir = .ok (pathStr 0 (dir p)) ∧ dir p ≠ [] ∧ (∀ c ∈ dir p, GoodComp c) ∧ (p.keyword = true → GoodComp p.name) ∧
      baseDir ∈ p.inherited ∧ ∀ x, (p.enter x).1 baseDir = x baseDir)
    (h : enterLoop self (pathStr k cs) ps = (self', as, .ok b)) :
    b = pathStr k (cs ++ (ps.map (place dir)).flatten) ∧
      ∀ (i : ℕ) (p : Child V) (a : Attrs V), ps[i]? = some p → as[i]? = some a →
        a baseDir = some (.str (pathStr k (cs ++ ((ps.take i).map (place dir)).flatten ++ if p.keyword then [p.name] else []))) := by
  induction ps generalizing self cs as with
  | nil =>
    simp only [enterLoop, Prod.mk.injEq, Except.ok.injEq] at h
    obtain ⟨-, -, rfl⟩ := h
    refine ⟨by simp, ?_⟩
    intro i p a hp; simp at hp
  | cons p ps ih =>
    obtain ⟨s1, a, b1, as', h1, h2, rfl⟩ := enterLoop_cons h
    obtain ⟨a0, r, g1, g2, -, g4, -⟩ := enterPart_ok h1
    obtain ⟨q1, q2, q3, q4, q5, q6⟩ := hp p (by simp)
    have hb0 : (if p.keyword then normpath (pathJoin2 (pathStr k cs) p.name) else pathStr k cs) =
        pathStr k (cs ++ if p.keyword then [p.name] else []) := by
      split_ifs with hkw
      · have e : pathJoin2 (pathStr k cs) p.name = pathStr k (cs ++ [p.name]) := by
          have := pathJoin2_pathStr k hcs (ds := [p.name]) (by simpa using q4 hkw) (by simp)
          simpa [pathStr, join] using this
        rw [e, normpath_pathStr hk _ (Or.inr (by simp))]
        intro c hc
        rcases List.mem_append.1 hc with hc | hc
        · exact hcs c hc
        · rw [List.mem_singleton] at hc; rw [hc]; exact q4 hkw
      · simp
    rw [hb0] at g1
    have hc0 : ∀ c ∈ cs ++ (if p.keyword then [p.name] else []), GoodComp c := by
      intro c hc
      rcases List.mem_append.1 hc with hc | hc
      · exact hcs c hc
      · split_ifs at hc with hkw
        · rw [List.mem_singleton] at hc; rw [hc]; exact q4 hkw
        · simp at hc
    have ha : a baseDir = some (.str (pathStr k (cs ++ if p.keyword then [p.name] else []))) := by
      have e := q6 a0
      rw [g2] at e
      exact e.trans ((setInherited_ok g1 baseDir).2.1 q5 rfl)
    have hb1 : b1 = pathStr k (cs ++ place dir p) := by
      rw [logPath, ha, q1] at g4
      simp only [Except.ok.injEq] at g4
      rw [← g4, pathJoin2_pathStr k hc0 q3 q2, place, List.append_assoc]
    subst hb1
    have hc1 : ∀ c ∈ cs ++ place dir p, GoodComp c := by
      intro c hc
      rw [place, ← List.append_assoc] at hc
      rcases List.mem_append.1 hc with hc | hc
      · exact hc0 c hc
      · exact q3 c hc
    obtain ⟨i1, i2⟩ := ih hc1 (Or.inr (by simp [place, q2])) (fun p hp' => hp p (List.mem_cons_of_mem _ hp')) h2
    refine ⟨by rw [i1]; simp, ?_⟩
    intro i q c hq hc
    cases i with
    | zero =>
      simp only [List.getElem?_cons_zero, Option.some.injEq] at hq hc
      subst hq; subst hc
      simpa using ha
    | succ i =>
      simp only [List.getElem?_cons_succ] at hq hc
      rw [i2 i q c hq hc]; simp

theorem enter_ok {self self' : Attrs V} {nonpos : Py Str} {ps : List (Child V)} {as : List (Attrs V)} {b : Str}
    (h : enter self nonpos ps = (self', as, .ok b)) :
    ∃ c, logPath self nonpos = .ok c ∧ enterLoop (Function.update self inputDim (some .none)) (normpath c) ps = (self', as, .ok b) := by
  rw [enter] at h
  cases hl : logPath self nonpos with
  | error e => rw [hl] at h; simp at h
  | ok c => rw [hl] at h; exact ⟨c, rfl, h⟩

end Entering

/-- **C111.**  Let the directories of the parts be proper relative paths, and let every part inherit `base_dir` and keep it.  If entering succeeds then
the `base_dir` of a part is that of the experiment followed by the string of the experiment's own parameters, by the directories of all parts
before it (each with its name if that is a keyword), and by its own name if that is a keyword. -/
theorem C111_directories {self self' : Attrs V} {k : ℕ} (hk : k ≤ 2) {cs ns : List Str} (hcs : ∀ c ∈ cs ++ ns, GoodComp c) (hne : k ≠ 0 ∨ cs ≠ [])
    (hbase : self baseDir = some (.str (pathStr k cs))) (dir : Child V → List Str) {ps : List (Child V)} {as : List (Attrs V)} {b : Str}
    (hp : ∀ p ∈ ps, p.logDir = .ok (pathStr 0 (dir p)) ∧ dir p ≠ [] ∧ (∀ c ∈ dir p, GoodComp c) ∧ (p.keyword = true → GoodComp p.name) ∧
      baseDir ∈ p.inherited ∧ ∀ x, (p.enter x).1 baseDir = x baseDir)
    (h : enter self (.ok (pathStr 0 ns)) ps = (self', as, .ok b)) :
    b = pathStr k (cs ++ ns ++ (ps.map (place dir)).flatten) ∧
      ∀ (i : ℕ) (p : Child V) (a : Attrs V), ps[i]? = some p → as[i]? = some a →
        a baseDir = some (.str (pathStr k (cs ++ ns ++ ((ps.take i).map (place dir)).flatten ++ if p.keyword then [p.name] else []))) := by
  obtain ⟨c, h1, h2⟩ := enter_ok h
  rw [logPath, hbase] at h1
  simp only [Except.ok.injEq] at h1
  have hne' : k ≠ 0 ∨ cs ++ ns ≠ [] := by
    rcases hne with hne | hne
    · exact Or.inl hne
    · right; simp [hne]
  have hc : normpath c = pathStr k (cs ++ ns) := by
    rw [← h1]
    by_cases hn : ns = []
    · subst hn
      rw [List.append_nil] at hcs ⊢
      exact normpath_join_nil hk hcs hne
    · rw [pathJoin2_pathStr k (fun c hc => hcs c (List.mem_append_left _ hc)) (fun c hc => hcs c (List.mem_append_right _ hc)) hn,
        normpath_pathStr hk hcs hne']
  rw [hc] at h2
  exact loop_paths hk hcs hne' dir hp h2

namespace Entering

theorem nonposArgs_structs {ps : List (Child V)} {fvs : List (Fld × Verif.Val)} (h : List.Forall₂ IsField ps fvs) (n : Option Str) :
    nonposArgs (fvs.map Prod.fst) (fvs.map Prod.snd) n = .ok ([], n) := by
  induction h with
  | nil => rfl
  | cons h1 _ ih =>
    obtain ⟨q, g, ws, rfl, -⟩ := h1
    simp only [List.map_cons, nonposArgs]
    exact ih

theorem dirArgs_structs {ps : List (Child V)} {fvs : List (Fld × Verif.Val)} (h : List.Forall₂ IsField ps fvs) (dir : Child V → List Str)
    (hp : ∀ p ∈ ps, p.logDir = .ok (pathStr 0 (dir p)) ∧ dir p ≠ [] ∧ (∀ c ∈ dir p, GoodComp c) ∧ (p.keyword = true → GoodComp p.name)) :
    dirArgs (fvs.map Prod.fst) (fvs.map Prod.snd) = .ok ((ps.map (place dir)).map (pathStr 0)) := by
  induction h with
  | nil => rfl
  | @cons p fv ps fvs h1 _ ih =>
    obtain ⟨q, g, ws, rfl, e1, e2, e3, e4⟩ := h1
    obtain ⟨q1, q2, q3, q4⟩ := hp p (by simp)
    have hd : dirString g ws = .ok (pathStr 0 (dir p)) := e4 ▸ q1
    simp only [List.map_cons, dirArgs, ih fun p hp' => hp p (List.mem_cons_of_mem _ hp')]
    have hf : fldArgs (.struct q g) (.obj ws) = .ok [pathStr 0 (place dir p)] := by
      rw [fldArgs, e1]
      rw [dirString] at hd
      obtain ⟨args, d1, d2⟩ := bind_eq_ok.1 hd
      simp only [d1, ok_bind, d2]
      rw [if_neg (by simp)]
      simp only [pure_eq_ok, Except.ok.injEq, List.cons.injEq, and_true]
      rw [place, e2, e3]
      split_ifs with hkw
      · have := pathJoin2_pathStr 0 (cs := [p.name]) (ds := dir p) (by simpa using q4 hkw) q3 q2
        simpa [pathStr, join] using this
      · rfl
    rw [hf]
    rfl

end Entering

/-- The commented assertion of datasets.py:962: if the experiment has no parameters but its parts, it enters its own `log_path` at the end. -/
theorem C111_own_directory {self self' : Attrs V} {k : ℕ} (hk : k ≤ 2) {cs : List Str} (hcs : ∀ c ∈ cs, GoodComp c) (hne : k ≠ 0 ∨ cs ≠ [])
    (hbase : self baseDir = some (.str (pathStr k cs))) (dir : Child V → List Str) {ps : List (Child V)} {as : List (Attrs V)} {b : Str}
    (hp : ∀ p ∈ ps, p.logDir = .ok (pathStr 0 (dir p)) ∧ dir p ≠ [] ∧ (∀ c ∈ dir p, GoodComp c) ∧ (p.keyword = true → GoodComp p.name) ∧
      baseDir ∈ p.inherited ∧ ∀ x, (p.enter x).1 baseDir = x baseDir)
    {fvs : List (Fld × Verif.Val)} (hf : List.Forall₂ IsField ps fvs) (hps : ps ≠ [])
    (h : enter self (nonposString (fvs.map Prod.fst) (fvs.map Prod.snd)) ps = (self', as, .ok b)) :
    logPath self (dirString (fvs.map Prod.fst) (fvs.map Prod.snd)) = .ok b := by
  have hn : nonposString (fvs.map Prod.fst) (fvs.map Prod.snd) = .ok [] := by
    rw [nonposString, nonposArgs_structs hf]
    simp [sortStr, join]
  rw [hn] at h
  obtain ⟨rfl, -⟩ := C111_directories hk (cs := cs) (ns := []) (by simpa using hcs) hne hbase dir hp h
  rw [dirString, dirArgs_structs hf dir fun p hp' => ⟨(hp p hp').1, (hp p hp').2.1, (hp p hp').2.2.1, (hp p hp').2.2.2.1⟩, ok_bind, joinDirs, hn, ok_bind,
    if_pos rfl, pathJoin_pathStr, logPath, hbase]
  · simp only [pure_eq_ok, List.append_nil, Except.ok.injEq]
    refine pathJoin2_pathStr k hcs ?_ ?_
    · intro c hc
      obtain ⟨l, hl, hc⟩ := List.mem_flatten.1 hc
      obtain ⟨p, hp', rfl⟩ := List.mem_map.1 hl
      obtain ⟨-, -, q3, q4, -⟩ := hp p hp'
      rw [place] at hc
      rcases List.mem_append.1 hc with hc | hc
      · split_ifs at hc with hkw
        · rw [List.mem_singleton] at hc; rw [hc]; exact q4 hkw
        · simp at hc
      · exact q3 c hc
    · cases ps with
      | nil => exact absurd rfl hps
      | cons p ps =>
        have := (hp p (by simp)).2.1
        simp [place, this]
  · intro l hl
    obtain ⟨p, hp', rfl⟩ := List.mem_map.1 hl
    obtain ⟨-, q2, q3, q4, -⟩ := hp p hp'
    refine ⟨by simp [place, q2], fun c hc => ?_⟩
    rw [place] at hc
    rcases List.mem_append.1 hc with hc | hc
    · split_ifs at hc with hkw
      · rw [List.mem_singleton] at hc; rw [hc]; exact q4 hkw
      · simp at hc
    · exact q3 c hc

/-- **C111.**  If entering succeeds, a name that a part inherits was set on the experiment at that moment, and a part that keeps it has the value that
was shared last by the parts before it, or else the value of the experiment; `input_dim` is the `output_dim` of the last part before it that has
one, or else `None`.  The experiment ends with the values shared last by all parts. -/
theorem C111_inherited {self self' : Attrs V} {nonpos : Py Str} {ps : List (Child V)} {as : List (Attrs V)} {b : Str}
    (h : enter self nonpos ps = (self', as, .ok b)) :
    as.length = ps.length ∧ (∀ n, self' n = seen self (ps.zip as) n) ∧
      ∀ (i : ℕ) (p : Child V) (a : Attrs V), ps[i]? = some p → as[i]? = some a → ∀ n ∈ p.inherited, n ≠ baseDir → (∀ x, (p.enter x).1 n = x n) →
        ∃ v, seen self ((ps.zip as).take i) n = some v ∧ a n = some v := by
  obtain ⟨c, -, h2⟩ := enter_ok h
  have h0 : ∀ n, (Function.update self inputDim (some .none)) n = seen self [] n := by
    intro n
    rw [seen_eq]
    by_cases hi : n = inputDim
    · subst hi; simp
    · simp [hi]
  simpa using loop_seen h0 h2

namespace Entering

theorem loop_failure {self self' : Attrs V} {b : Str} {ps : List (Child V)} {as : List (Attrs V)} {e : PyErr}
    (h : enterLoop self b ps = (self', as, .error e)) :
    ∃ i : ℕ, i < ps.length ∧ (∃ s b', enterLoop self b (ps.take i) = (s, as.take i, .ok b')) ∧
      enterLoop self b (ps.take (i + 1)) = (self', as.take (i + 1), .error e) ∧ as.drop (i + 1) = (ps.drop (i + 1)).map Child.attrs := by
  induction ps generalizing self b as with
  | nil => simp [enterLoop] at h
  | cons p ps ih =>
    rw [enterLoop] at h
    obtain ⟨s1, a, r, h1⟩ : ∃ s1 a r, enterPart self b p = (s1, a, r) := ⟨_, _, _, rfl⟩
    rw [h1] at h
    cases r with
    | error e' =>
      simp only [Prod.mk.injEq, Except.error.injEq] at h
      obtain ⟨rfl, rfl, rfl⟩ := h
      refine ⟨0, by simp, ⟨self, b, by simp [enterLoop]⟩, ?_, by simp⟩
      simp [enterLoop, h1]
    | ok b1 =>
      obtain ⟨s2, as', r2, h2⟩ : ∃ s2 as' r2, enterLoop s1 b1 ps = (s2, as', r2) := ⟨_, _, _, rfl⟩
      simp only [h2, Prod.mk.injEq] at h
      obtain ⟨rfl, rfl, rfl⟩ := h
      obtain ⟨i, e0, ⟨s, b', e1⟩, e2, e3⟩ := ih h2
      refine ⟨i + 1, by simpa using e0, ⟨s, b', ?_⟩, ?_, by simpa using e3⟩
      · rw [List.take_succ_cons, List.take_succ_cons, enterLoop, h1]
        simp only [e1]
      · rw [List.take_succ_cons, List.take_succ_cons, enterLoop, h1]
        simp only [e2]

end Entering

/-- If entering fails, it is because of the path of the experiment, before any part is touched, or because of one part: those before it are
entered as they would be without it and the later ones, and those after it are as they were. -/
theorem C111_failure {self self' : Attrs V} {nonpos : Py Str} {ps : List (Child V)} {as : List (Attrs V)} {e : PyErr}
    (h : enter self nonpos ps = (self', as, .error e)) :
    (logPath self nonpos = .error e ∧ self' = self ∧ as = ps.map Child.attrs) ∨
      ∃ i : ℕ, i < ps.length ∧ (∃ s b, enter self nonpos (ps.take i) = (s, as.take i, .ok b)) ∧
        enter self nonpos (ps.take (i + 1)) = (self', as.take (i + 1), .error e) ∧ as.drop (i + 1) = (ps.drop (i + 1)).map Child.attrs := by
  rw [enter] at h
  cases hl : logPath self nonpos with
  | error e' =>
    rw [hl] at h
    simp only [Prod.mk.injEq, Except.error.injEq] at h
    obtain ⟨rfl, rfl, rfl⟩ := h
    exact Or.inl ⟨rfl, rfl, rfl⟩
  | ok c =>
    rw [hl] at h
    obtain ⟨i, e0, ⟨s, b, e1⟩, e2, e3⟩ := loop_failure h
    refine Or.inr ⟨i, e0, ⟨s, b, ?_⟩, ?_, e3⟩
    · rw [enter, hl]; exact e1
    · rw [enter, hl]; exact e2

/-- **C111.**  Leaving: all fields are left in order, and the model is saved if asked for, as long as nothing but `AttributeError` is raised. -/
theorem C111_exit {exits : List (Py Unit)} (h : ∀ r ∈ exits, Harmless r) (logModel : Bool) (save : Py Unit) :
    exit exits logModel save = (exits.length, logModel, if logModel then save else .ok ()) := by
  have key : exitLoop exits = (exits.length, .ok ()) := by
    induction exits with
    | nil => rfl
    | cons r rs ih =>
      rw [exitLoop]
      have hr : suppressed r = .ok () := by
        rcases h r (by simp) with rfl | rfl <;> rfl
      rw [hr]
      dsimp only
      rw [ih fun r hr => h r (List.mem_cons_of_mem _ hr)]
      rfl
  rw [exit, key]
  cases logModel <;> rfl

/-- Any other exception stops it: the fields after it are not left and the model is not saved. -/
theorem C111_exit_stops {pre post : List (Py Unit)} {e : PyErr} (h : ∀ r ∈ pre, Harmless r) (he : e ≠ .attributeError) (logModel : Bool)
    (save : Py Unit) : exit (pre ++ .error e :: post) logModel save = (pre.length + 1, false, .error e) := by
  have key : exitLoop (pre ++ .error e :: post) = (pre.length + 1, .error e) := by
    induction pre with
    | nil =>
      have : suppressed (.error e) = .error e := by cases e <;> first | rfl | exact absurd rfl he
      rw [List.nil_append, exitLoop, this]; rfl
    | cons r rs ih =>
      rw [List.cons_append, exitLoop]
      have hr : suppressed r = .ok () := by
        rcases h r (by simp) with rfl | rfl <;> rfl
      rw [hr]
      dsimp only
      rw [ih fun r hr => h r (List.mem_cons_of_mem _ hr)]
      rfl
  rw [exit, key]

/-- If entering fails nothing is left and nothing is saved, not even for the parts that have been entered. -/
theorem C111_run_failure {R : Type} {self self' : Attrs V} {nonpos : Py Str} {ps : List (Child V)} {as : List (Attrs V)} {e : PyErr}
    (h : enter self nonpos ps = (self', as, .error e)) (body : Attrs V → List (Attrs V) → Py R) (exits : List (Py Unit)) (logModel : Bool)
    (save : Py Unit) : run self nonpos ps body exits logModel save = (0, false, .error e) := by
  rw [run, h]

/-- Otherwise the experiment is run and left; an exception of leaving it replaces its result. -/
theorem C111_run {R : Type} {self self' : Attrs V} {nonpos : Py Str} {ps : List (Child V)} {as : List (Attrs V)} {b : Str}
    (h : enter self nonpos ps = (self', as, .ok b)) (body : Attrs V → List (Attrs V) → Py R) {exits : List (Py Unit)}
    (he : ∀ r ∈ exits, Harmless r) (logModel : Bool) (save : Py Unit) :
    run self nonpos ps body exits logModel save =
      (exits.length, logModel, if logModel then (match save with | .error e => .error e | .ok _ => body self' as) else body self' as) := by
  rw [run, h]
  dsimp only
  rw [C111_exit he]
  cases logModel
  · rfl
  · cases save <;> rfl

namespace Entering.Example

/-- A part without `__enter__`. -/
def plain (n : String) (d : String) (inh share : List String) (kw : Bool) (out : Option (AVal ℕ)) : Child ℕ :=
  { name := n.toList, keyword := kw, broadcast := share.map String.toList, inherited := inh.map String.toList,
    attrs := fun x => if x = outputDim then out else if x = "seed".toList then some (.other 7) else none,
    logDir := .ok d.toList, enter := fun a => (a, .error .attributeError) }

def self : Attrs ℕ := fun x => if x = baseDir then some (.str "/logs".toList) else none

def env : Child ℕ := plain "env" "p-0.5" ["base_dir"] ["seed"] true (some (.other 3))
def learner : Child ℕ := plain "learner" "kt" ["base_dir", "input_dim", "seed"] [] false none

/-- The environment comes first: the learner gets its `output_dim` as `input_dim`, its `seed`, and a path below it. -/
example : (enter self (.ok "nsteps-5".toList) [env, learner]).2.2 = .ok "/logs/nsteps-5/env/p-0.5/kt".toList ∧
    ((enter self (.ok "nsteps-5".toList) [env, learner]).2.1.map fun a => (a baseDir, a inputDim, a "seed".toList)) =
      [(some (.str "/logs/nsteps-5/env".toList), none, some (.other 7)),
        (some (.str "/logs/nsteps-5/env/p-0.5".toList), some (.other 3), some (.other 7))] := by
  decide +kernel

/-- In the other order the seed is missing. -/
example : (enter self (.ok "nsteps-5".toList) [learner, env]).2.2 = .error .attributeError := by decide +kernel

/-- The `__enter__` of a part that stops at a missing attribute. -/
def broken : Child ℕ :=
  { env with enter := fun a => (Function.update a "opened".toList (some (.other 1)), .error .attributeError) }

end Entering.Example

open Entering.Example in
/-- A part whose `__enter__` fails halfway with an `AttributeError` counts as entered. -/
theorem C111_enter_hidden : ∃ (self : Attrs ℕ) (p : Child ℕ), (∀ a, (p.enter a).2 = .error .attributeError) ∧
    (∃ b, (enter self (.ok []) [p]).2.2 = .ok b) ∧ (enter self (.ok []) [p]).2.1.map (· "opened".toList) = [some (.other 1)] :=
  ⟨Entering.Example.self, broken, fun _ => rfl, ⟨"/logs/env/p-0.5".toList, by decide +kernel⟩, by decide +kernel⟩

open Entering.Example in
/-- With a parameter of its own an experiment does not enter its own `log_path`: the parameter comes before its parts in one and after them in the
other. -/
theorem C111_own_directory_needed : ∃ (fs : List Fld) (vs : List Verif.Val) (p : Child ℕ) (b : Str),
    nonposString fs vs = .ok "n-5".toList ∧ (enter Entering.Example.self (nonposString fs vs) [p]).2.2 = .ok b ∧
      logPath Entering.Example.self (dirString fs vs) ≠ .ok b :=
  ⟨[.struct ⟨"env".toList, true, true, true, false⟩ [.par ⟨"p".toList, true, true, true, false⟩], .par ⟨"n".toList, true, false, true, false⟩],
    [.obj [.str "0.5".toList], .str "5".toList], env, "/logs/n-5/env/p-0.5".toList, by decide +kernel, by decide +kernel, by decide +kernel⟩

end Verif
