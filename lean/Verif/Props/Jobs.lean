import Verif.Proofs.Jobs
import Verif.Props.Params

/-!
# C88: jobs
-/

namespace Verif

open Str Params Jobs

namespace Jobs

/-- The parameters of a job. -/
def Job.ps (x : Job) : Ps := ⟨x.baseDir, x.platform, x.key.protocol, x.key.model, ofNat x.key.depth⟩

theorem Job.is (x : Job) : x.ps.Is x.key := ⟨rfl, rfl, rfl⟩

theorem Job.Good.path {x : Job} (h : x.Good) {f : Str} (hf : f.head? ≠ some '/') :
    pathJoin [x.baseDir, x.platform, f] = x.file f := by
  rw [pathJoin, List.foldl_cons, List.foldl_cons, List.foldl_nil, pathJoin2_of h.baseDir.ne h.baseDir.last h.relative,
    pathJoin2_of (by simp) ?_ hf, Job.file]
  rw [List.getLast?_append, List.getLast?_cons]
  have := h.platform.last
  have hne := h.platform.ne
  cases e : x.platform.getLast? with
  | none => exact absurd (List.getLast?_eq_none_iff.1 e) hne
  | some c =>
    rw [e] at this
    simpa using this

theorem Job.Good.infile {x : Job} (h : x.Good) : x.ps.infile = x.file x.key.protocol := h.path h.key.relative

/-- The lines of a script. -/
theorem template_lines (j : JobSet) (hj : '\n' ∉ j.logDir) {filename args extra : Str} (hf : '\n' ∉ filename) (ha : '\n' ∉ args) :
    ∃ a b : List Str, split '\n' (j.template filename args extra) =
        a ++ (split '\n' extra ++ (b ++ ["pypy z.py ".toList ++ args, "echo \"Completed run with exit code $? at: `date`\"".toList])) ∧
      ∀ l ∈ a ++ b, l.head? ≠ some ' ' := by
  have hn : ∀ n : ℤ, '\n' ∉ ofInt n := by
    intro n h
    unfold ofInt at h
    split_ifs at h
    · rcases List.mem_cons.1 h with h | h
      · exact absurd h (by decide)
      · exact not_mem_ofNat (by decide) _ h
    · exact not_mem_ofNat (by decide) _ h
  let a : List Str := ["#!/bin/sh".toList, [], "#PBS -S /bin/sh".toList, "#PBS -j oe".toList, "#PBS -r n".toList,
    "#PBS -o ".toList ++ j.logDir ++ '/' :: filename ++ ".$PBS_JOBID.log".toList,
    "#PBS -l nodes=1:ppn=1,walltime=".toList ++ ofInt j.numHours ++ ':' :: ofInt j.numMinutes ++ ":00,mem=4000mb".toList, []]
  let b : List Str := ["cd $PBS_O_WORKDIR".toList, "echo \"Current working directory is `pwd`\"".toList,
    "echo \"Starting run at: `date`\"".toList, "alias pypy=/home/akoop/pypy3-2.4-linux_x86_64-portable/bin/pypy3".toList]
  refine ⟨a, b, ?_, ?_⟩
  · have key : ∀ (u v : List Str), (∀ l ∈ u, '\n' ∉ l) → v ≠ [] → (∀ l ∈ v, '\n' ∉ l) →
        split '\n' (join '\n' (u ++ extra :: v)) = u ++ (split '\n' extra ++ v) := by
      intro u v hu hv0 hv
      induction u with
      | nil => rw [List.nil_append, List.nil_append, join_cons hv0, split_append_cons, split_join hv0 hv]
      | cons l u ih =>
        rw [List.cons_append, join_cons (by simp), split_append_cons, split_of_not_mem (hu l List.mem_cons_self),
          ih fun l' hl => hu l' (List.mem_cons_of_mem _ hl)]
        rfl
    refine key a (b ++ ["pypy z.py ".toList ++ args, "echo \"Completed run with exit code $? at: `date`\"".toList]) ?_ (by simp) ?_
    · intro l hl
      simp only [a, List.mem_cons, List.not_mem_nil, or_false] at hl
      rcases hl with rfl | rfl | rfl | rfl | rfl | rfl | rfl | rfl
      · decide
      · decide
      · decide
      · decide
      · decide
      · simp [hj, hf]
      · simp [hn]
      · decide
    · intro l hl
      simp only [b, List.mem_cons, List.mem_append, List.not_mem_nil, or_false] at hl
      rcases hl with (rfl | rfl | rfl | rfl) | rfl | rfl
      · decide
      · decide
      · decide
      · decide
      · simp [ha]
      · decide
  · intro l hl
    simp only [a, b, List.mem_cons, List.mem_append, List.not_mem_nil, or_false] at hl
    rcases hl with (rfl | rfl | rfl | rfl | rfl | rfl | rfl | rfl) | rfl | rfl | rfl | rfl <;> simp

theorem not_mem_join {c d : Char} (hcd : d ≠ c) {ps : List Str} (h : ∀ p ∈ ps, d ∉ p) : d ∉ join c ps := by
  induction ps with
  | nil => simp [join]
  | cons p ps ih =>
    by_cases e : ps = []
    · subst e
      exact h p List.mem_cons_self
    · rw [join_cons e]
      have := ih fun q hq => h q (List.mem_cons_of_mem _ hq)
      simp [h p List.mem_cons_self, this, hcd]

theorem Job.Good.file_line {x : Job} (h : x.Good) {f : Str} (hf : '\n' ∉ f) : '\n' ∉ x.file f := by
  simp [Job.file, h.baseDir.line, h.platform.line, hf]

theorem mem_of_mem_split {c d : Char} {s p : Str} (h : p ∈ split c s) (hd : d ∈ p) : d ∈ s := by
  rw [← join_split c s]
  obtain ⟨a, b, e⟩ := List.append_of_mem h
  rw [e]
  clear e h
  induction a with
  | nil =>
    cases b with
    | nil => exact hd
    | cons q b =>
      rw [List.nil_append, join_cons (by simp)]
      simp [hd]
  | cons q a ih =>
    rw [List.cons_append, join_cons (by simp)]
    simp [ih]

/-- What is in the script of a job. -/
theorem script_content {j : JobSet} (hj : '\n' ∉ j.logDir) {w : World} {x : Job} (h : x.Good)
    (hp : ∀ f ∈ split '_' x.key.protocol, f.head? ≠ some '/') :
    compressCommand x.key.model x.key.depth (x.file x.key.protocol) ∈
        split '\n' (j.template x.ps.name x.ps.args (x.ps.extra w)) ∧
      (x.catLine ∈ split '\n' (j.template x.ps.name x.ps.args (x.ps.extra w)) ↔ w.exists' (x.file x.key.protocol) = false) := by
  have hdep : '\n' ∉ ofNat x.key.depth := not_mem_ofNat (by decide) _
  have hfile := h.file_line h.protocol
  have hname : '\n' ∉ x.ps.name := by
    rw [x.is.name, Key.text]
    simp [h.protocol, h.model, hdep]
  have hargs : '\n' ∉ x.ps.args := by
    unfold Ps.args
    rw [h.infile]
    have hm := h.model
    simp only [Job.ps]
    generalize ofNat x.key.depth = D at hdep ⊢
    generalize x.file x.key.protocol = F at hfile ⊢
    generalize x.key.model = M at hm ⊢
    simp [hm, hdep, hfile]
  have hcmd : "pypy z.py ".toList ++ x.ps.args = compressCommand x.key.model x.key.depth (x.file x.key.protocol) := by
    unfold Ps.args compressCommand
    rw [h.infile]
    simp only [Job.ps]
    generalize ofNat x.key.depth = D
    generalize x.file x.key.protocol = F
    generalize x.key.model = M
    simp
  obtain ⟨a, b, e, hab⟩ := template_lines j hj (extra := x.ps.extra w) hname hargs
  rw [e, hcmd]
  refine ⟨by simp, ?_⟩
  have hpaths : ((split '_' x.ps.protocol).map fun f => pathJoin [x.ps.baseDir, x.ps.platform, f]) =
      (split '_' x.key.protocol).map x.file := by
    apply List.map_congr_left
    intro f hf
    exact h.path (hp f hf)
  have hextra : x.ps.extra w = if !w.exists' (x.file x.key.protocol) then
      join '\n' ["echo \"Checking the existence of the file ".toList ++ x.key.protocol ++ "\"".toList,
        "if [ ! -e ".toList ++ x.file x.key.protocol ++ " ]".toList, x.catLine, "  echo \"...created\"".toList, "fi".toList]
      else [] := by
    rw [Ps.extra, h.infile, hpaths]
    rfl
  rw [hextra]
  cases hex : w.exists' (x.file x.key.protocol) with
  | true =>
    simp only [Bool.not_true, Bool.false_eq_true, if_false, Bool.true_eq_false, iff_false]
    have hc : x.catLine.head? = some ' ' := rfl
    intro hm
    have hlast : ∀ l ∈ [compressCommand x.key.model x.key.depth (x.file x.key.protocol),
        "echo \"Completed run with exit code $? at: `date`\"".toList], l.head? ≠ some ' ' := by
      intro l hl
      simp only [List.mem_cons, List.not_mem_nil, or_false] at hl
      rcases hl with rfl | rfl
      · unfold compressCommand
        generalize ofNat x.key.depth = D
        generalize x.file x.key.protocol = F
        generalize x.key.model = M
        simp
      · decide
    simp only [List.mem_append] at hm
    rcases hm with hm | hm | hm | hm
    · exact hab _ (List.mem_append_left _ hm) hc
    · simp only [split, List.mem_singleton] at hm
      rw [hm] at hc
      exact absurd hc (by simp)
    · exact hab _ (List.mem_append_right _ hm) hc
    · exact hlast _ hm hc
  | false =>
    simp only [Bool.not_false, if_true, iff_true]
    rw [split_join (by simp)]
    · simp
    · intro l hl
      simp only [List.mem_cons, List.not_mem_nil, or_false] at hl
      have hj' : '\n' ∉ join ' ' ((split '_' x.key.protocol).map x.file) := by
        apply not_mem_join (by decide)
        intro p hp
        obtain ⟨f, hf, rfl⟩ := List.mem_map.1 hp
        exact h.file_line fun hm => h.protocol (mem_of_mem_split hf hm)
      rcases hl with rfl | rfl | rfl | rfl | rfl
      · simp [h.protocol]
      · simp [hfile]
      · unfold Job.catLine
        generalize x.file x.key.protocol = F at hfile ⊢
        generalize join ' ' ((split '_' x.key.protocol).map x.file) = P at hj' ⊢
        simp [hj', hfile]
      · decide
      · decide

end Jobs

/-- The parameter sets of a call of `run`: every choice of one value for each of the five names occurs once. -/
theorem C88_jobs (kwargs : PyDict Str (List Str)) (B P R M D : List Str)
    (hk : kwargs.keys.Perm ["base_dir".toList, "platform".toList, "protocol".toList, "model".toList, "depth".toList])
    (hB : kwargs.get? "base_dir".toList = some B) (hP : kwargs.get? "platform".toList = some P)
    (hR : kwargs.get? "protocol".toList = some R) (hM : kwargs.get? "model".toList = some M)
    (hD : kwargs.get? "depth".toList = some D) :
    ∃ l : List Ps, (uniqueDictSets kwargs).map Ps.ofDict = l.map .ok ∧ l.length = (kwargs.values.map List.length).prod ∧
      ∀ p : Ps, p ∈ l ↔ p.baseDir ∈ B ∧ p.platform ∈ P ∧ p.protocol ∈ R ∧ p.model ∈ M ∧ p.depth ∈ D := by
  have hnd : kwargs.keys.Nodup := hk.nodup_iff.2 (by decide)
  have hget : ∀ c ∈ uniqueDictSets kwargs, ∃ p : Ps, Ps.ofDict c = .ok p ∧
      p.baseDir ∈ B ∧ p.platform ∈ P ∧ p.protocol ∈ R ∧ p.model ∈ M ∧ p.depth ∈ D := by
    intro c hc
    obtain ⟨-, h⟩ := (C74_combinations kwargs hnd c).1 hc
    obtain ⟨b, hb, hb'⟩ := h _ _ hB
    obtain ⟨pl, hpl, hpl'⟩ := h _ _ hP
    obtain ⟨pr, hpr, hpr'⟩ := h _ _ hR
    obtain ⟨m, hm, hm'⟩ := h _ _ hM
    obtain ⟨d, hd, hd'⟩ := h _ _ hD
    refine ⟨⟨b, pl, pr, m, d⟩, ?_, hb, hpl, hpr, hm, hd⟩
    simp only [Ps.ofDict, PyDict.getE, hb', hpl', hpr', hm', hd', ok_bind, pure_eq_ok]
  have hl : ∃ l : List Ps, (uniqueDictSets kwargs).map Ps.ofDict = l.map .ok := by
    have : ∀ cs : List (PyDict Str Str), (∀ c ∈ cs, ∃ p : Ps, Ps.ofDict c = .ok p) → ∃ l : List Ps, cs.map Ps.ofDict = l.map .ok := by
      intro cs
      induction cs with
      | nil => exact fun _ => ⟨[], rfl⟩
      | cons c cs ih =>
        intro h
        obtain ⟨p, hp⟩ := h c List.mem_cons_self
        obtain ⟨l, hl⟩ := ih fun c' hc => h c' (List.mem_cons_of_mem _ hc)
        exact ⟨p :: l, by rw [List.map_cons, hp, hl, List.map_cons]⟩
    exact this _ fun c hc => (hget c hc).imp fun p h => h.1
  obtain ⟨l, hl⟩ := hl
  refine ⟨l, hl, ?_, fun p => ⟨fun hp => ?_, fun hp => ?_⟩⟩
  · have := congrArg List.length hl
    rw [List.length_map, List.length_map] at this
    rw [← this, uniqueDictSets, List.length_map]
    have hprod : ∀ ls : List (List Str), (product ls).length = (ls.map List.length).prod := by
      intro ls
      induction ls with
      | nil => rfl
      | cons a ls ih => rw [product, List.length_flatMap]; simp [ih]
    exact hprod _
  · have : Except.ok p ∈ l.map (Except.ok : Ps → Py Ps) := List.mem_map.2 ⟨p, hp, rfl⟩
    rw [← hl, List.mem_map] at this
    obtain ⟨c, hc, e⟩ := this
    obtain ⟨p', e', h⟩ := hget c hc
    rw [e, Except.ok.injEq] at e'
    subst e'
    exact h
  · let val : Str → Str := fun k => if k = "base_dir".toList then p.baseDir else if k = "platform".toList then p.platform
      else if k = "protocol".toList then p.protocol else if k = "model".toList then p.model else p.depth
    have hg : ∀ (ks : List Str) (k : Str), k ∈ ks → PyDict.get? (ks.map fun k => (k, val k)) k = some (val k) := by
      intro ks k hk
      induction ks with
      | nil => simp at hk
      | cons a ks ih =>
        rw [List.map_cons, PyDict.get?]
        by_cases e : a = k
        · rw [if_pos e, e]
        · rw [if_neg e]
          exact ih ((List.mem_cons.1 hk).resolve_left (Ne.symm e))
    have hc : (kwargs.keys.map fun k => (k, val k)) ∈ uniqueDictSets kwargs := by
      rw [C74_combinations kwargs hnd]
      refine ⟨by simp [PyDict.keys, Function.comp_def], fun k L hL => ?_⟩
      have hmem : k ∈ kwargs.keys := PyDict.get?_isSome.1 ⟨L, hL⟩
      refine ⟨val k, ?_, hg _ _ hmem⟩
      have hk' := hk.mem_iff.1 hmem
      simp only [List.mem_cons, List.not_mem_nil, or_false] at hk'
      rcases hk' with rfl | rfl | rfl | rfl | rfl
      · rw [hB] at hL; cases hL; exact hp.1
      · rw [hP] at hL; cases hL; exact hp.2.1
      · rw [hR] at hL; cases hL; exact hp.2.2.1
      · rw [hM] at hL; cases hL; exact hp.2.2.2.1
      · rw [hD] at hL; cases hL; exact hp.2.2.2.2
    have hof : Ps.ofDict (kwargs.keys.map fun k => (k, val k)) = .ok p := by
      have hin : ∀ k ∈ ["base_dir".toList, "platform".toList, "protocol".toList, "model".toList, "depth".toList],
          PyDict.get? (kwargs.keys.map fun k => (k, val k)) k = some (val k) := fun k h => hg _ _ (hk.mem_iff.2 h)
      simp only [Ps.ofDict, PyDict.getE, hin _ (List.mem_cons_self), hin "platform".toList (by simp), hin "protocol".toList (by simp),
        hin "model".toList (by simp), hin "depth".toList (by simp), ok_bind, pure_eq_ok]
      rfl
    have : Ps.ofDict (kwargs.keys.map fun k => (k, val k)) ∈ (uniqueDictSets kwargs).map Ps.ofDict := List.mem_map.2 ⟨_, hc, rfl⟩
    rw [hl, hof, List.mem_map] at this
    obtain ⟨p', hp', e⟩ := this
    cases e
    exact hp'

/-- The assumptions on a run: the directory of the logs can be written, and no file to be compressed lies in it under the name
of a script. -/
structure C88_Setting (j : JobSet) (qsub : ℕ → Option Str) (w : World) (l : List Job) : Prop where
  dir : Part j.logDir
  good : ∀ x ∈ l, x.Good ∧ ∀ f ∈ split '_' x.key.protocol, f.head? ≠ some '/'
  writable : ∀ q, w.writable (j.logDir ++ '/' :: q) = true
  apart : ∀ x ∈ l, ∀ q, x.file x.key.protocol ≠ j.logDir ++ '/' :: q

/-- A run handles every parameter set, and counts them.  A job leaves its script under the name of protocol, model, depth and
the name that it got from the queue, unless a later job has the same; the script has the command that compresses the file, and the
line which makes the file if the file is not there.  No file is left without the name of the queue, and no other file is
changed. -/
theorem C88_run (j : JobSet) (qsub : ℕ → Option Str) (w : World) (kwargs : PyDict Str (List Str)) (l : List Job)
    (hl : (uniqueDictSets kwargs).map Ps.ofDict = l.map fun x => .ok x.ps) (hs : C88_Setting j qsub w l) :
    ∃ w', j.run qsub w kwargs = (w', .ok (l.length, l.length)) ∧
      (∀ (i : ℕ) (x : Job), l[i]? = some x → (∀ (k : ℕ) (y : Job), i < k → l[k]? = some y → y.key = x.key → j.queueName (qsub k) ≠ j.queueName (qsub i)) →
        ∃ sh, w'.files (x.key.script j.logDir (j.queueName (qsub i))) = some sh ∧
          compressCommand x.key.model x.key.depth (x.file x.key.protocol) ∈ split '\n' sh ∧
          (x.catLine ∈ split '\n' sh ↔ w.exists' (x.file x.key.protocol) = false)) ∧
      (∀ x ∈ l, w'.files (j.logDir ++ '/' :: x.key.text) = none) ∧
      (∀ q, (∀ x ∈ l, q ≠ j.logDir ++ '/' :: x.key.text) →
        (∀ (i : ℕ) (x : Job), l[i]? = some x → q ≠ x.key.script j.logDir (j.queueName (qsub i))) → w'.files q = w.files q) := by
  have htmp : ∀ x ∈ l, tmpPath j x.ps = j.logDir ++ '/' :: x.key.text :=
    fun x hx => tmpPath_eq hs.dir.ne hs.dir.last x.is (hs.good x hx).1.key
  have hscr : ∀ x ∈ l, ∀ i, scriptPath j qsub i x.ps = x.key.script j.logDir (j.queueName (qsub i)) :=
    fun x hx i => scriptPath_eq hs.dir.ne hs.dir.last x.is (hs.good x hx).1.key qsub i
  have hform : ∀ (k : Key) (n : Str), k.script j.logDir n = j.logDir ++ '/' :: (k.text ++ '.' :: n ++ ".sh".toList) := by
    intro k n
    simp [Key.script]
  have hrun := loop_ok j qsub (fun p => p.extra w) (l.map Job.ps) (uniqueDictSets kwargs) (by rw [hl, List.map_map]; rfl) 0 0 w
    (by
      intro p hp
      obtain ⟨x, hx, rfl⟩ := List.mem_map.1 hp
      exact ⟨by rw [htmp x hx]; exact hs.writable _, fun i => by rw [hscr x hx, hform]; exact hs.writable _⟩)
    (fun p _ => rfl)
    (by
      intro p hp p' hp'
      obtain ⟨x, hx, rfl⟩ := List.mem_map.1 hp
      obtain ⟨y, hy, rfl⟩ := List.mem_map.1 hp'
      rw [(hs.good x hx).1.infile]
      exact ⟨by rw [htmp y hy]; exact hs.apart x hx _, fun i => by rw [hscr y hy, hform]; exact hs.apart x hx _⟩)
  rw [JobSet.run, hrun]
  have hidx : ∀ pi ∈ (l.map Job.ps).zipIdx 0, ∃ x, l[pi.2]? = some x ∧ pi.1 = x.ps := by
    rintro ⟨p, i⟩ h
    have h := List.mem_zipIdx_iff_getElem?.1 h
    simp only [List.getElem?_map, Option.map_eq_some_iff] at h
    obtain ⟨x, hx, e⟩ := h
    exact ⟨x, by simpa using hx, e.symm⟩
  simp only [List.length_map, zero_add]
  refine ⟨_, rfl, fun i x hx hlast => ?_, fun x hx => ?_, fun q h1 h2 => ?_⟩
  · have hxl : x ∈ l := List.mem_of_getElem? hx
    have hsplit : (l.map Job.ps).zipIdx 0 = ((l.map Job.ps).zipIdx 0).take i ++ (x.ps, i) :: ((l.map Job.ps).zipIdx 0).drop (i + 1) := by
      have hi : i < ((l.map Job.ps).zipIdx 0).length := by
        rw [List.length_zipIdx, List.length_map]
        exact (List.getElem?_eq_some_iff.1 hx).1
      conv_lhs => rw [← List.take_append_drop i ((l.map Job.ps).zipIdx 0), List.drop_eq_getElem_cons hi]
      have hg : ((l.map Job.ps).zipIdx 0)[i] = (x.ps, i) := by
        obtain ⟨h1, h2⟩ := List.getElem?_eq_some_iff.1 hx
        simp [h2]
      rw [hg]
    have hfold := fold_last j qsub (fun p => p.extra w) (((l.map Job.ps).zipIdx 0).take i) (((l.map Job.ps).zipIdx 0).drop (i + 1))
      (x.ps, i) w.files (by
        rintro ⟨p, k⟩ hk
        obtain ⟨n, hn⟩ := List.mem_iff_getElem?.1 hk
        rw [List.getElem?_drop, List.getElem?_zipIdx, List.getElem?_map] at hn
        cases hy : l[i + 1 + n]? with
        | none => simp [hy] at hn
        | some y =>
          rw [hy] at hn
          simp only [Option.map_some, Option.some.injEq, Prod.mk.injEq] at hn
          obtain ⟨rfl, hk'⟩ := hn
          have hyl : y ∈ l := List.mem_of_getElem? hy
          have ek : k = i + 1 + n := by omega
          rw [hscr x hxl, htmp y hyl, hscr y hyl]
          refine ⟨Ne.symm text_ne_script, fun e => ?_⟩
          obtain ⟨e1, e2⟩ := script_inj (hs.good x hxl).1.key (hs.good y hyl).1.key e
          exact hlast k y (by omega) (by rw [ek, hy]) e1.symm e2.symm)
    rw [← hsplit, hscr x hxl] at hfold
    refine ⟨_, hfold, ?_⟩
    exact script_content hs.dir.line (hs.good x hxl).1 (hs.good x hxl).2
  · obtain ⟨i, hi⟩ := List.mem_iff_getElem?.1 hx
    rw [← htmp x hx]
    refine fold_tmp j qsub _ _ (x.ps, i) ?_ w.files ?_
    · rw [List.mem_zipIdx_iff_getElem?]
      simp [hi]
    · intro qk hq
      obtain ⟨y, hy, e⟩ := hidx qk hq
      rw [htmp x hx, e, hscr y (List.mem_of_getElem? hy)]
      exact text_ne_script
  · refine fold_other j qsub _ _ w.files q ?_
    intro qk hq
    obtain ⟨y, hy, e⟩ := hidx qk hq
    have hyl := List.mem_of_getElem? hy
    rw [e, htmp y hyl, hscr y hyl]
    exact ⟨h1 y hyl, h2 _ y hy⟩

/-- Full claim: after a run every job has its script in the log directory.  That holds if no two jobs agree in protocol, model,
depth and the name from the queue.  Missing: jobs which differ only in the base directory or the platform, see
`C88_overwritten`. -/
theorem C88_own_script_partial (j : JobSet) (qsub : ℕ → Option Str) (w : World) (kwargs : PyDict Str (List Str)) (l : List Job)
    (hl : (uniqueDictSets kwargs).map Ps.ofDict = l.map fun x => .ok x.ps) (hs : C88_Setting j qsub w l)
    (hd : ∀ (i k : ℕ) (x y : Job), i < k → l[i]? = some x → l[k]? = some y → x.key = y.key →
      j.queueName (qsub i) ≠ j.queueName (qsub k)) :
    ∃ w', j.run qsub w kwargs = (w', .ok (l.length, l.length)) ∧ ∀ (i : ℕ) (x : Job), l[i]? = some x →
      ∃ sh, w'.files (x.key.script j.logDir (j.queueName (qsub i))) = some sh ∧
        compressCommand x.key.model x.key.depth (x.file x.key.protocol) ∈ split '\n' sh := by
  obtain ⟨w', h, h1, -⟩ := C88_run j qsub w kwargs l hl hs
  refine ⟨w', h, fun i x hx => ?_⟩
  obtain ⟨sh, h2, h3, -⟩ := h1 i x hx fun k y hk hy e => (hd i k x y hk hx hy e.symm).symm
  exact ⟨sh, h2, h3⟩

/-- When two jobs differ only in the base directory or the platform, and they are not submitted, or both submissions fail, there
is one script for both, that of the later job.  Nothing else is changed. -/
theorem C88_overwritten (j : JobSet) (qsub : ℕ → Option Str) (w : World) (kwargs : PyDict Str (List Str)) (x y : Job)
    (hl : (uniqueDictSets kwargs).map Ps.ofDict = [.ok x.ps, .ok y.ps]) (hs : C88_Setting j qsub w [x, y]) (hk : x.key = y.key)
    (hq : j.queueName (qsub 0) = j.queueName (qsub 1)) :
    ∃ w' sh, j.run qsub w kwargs = (w', .ok (2, 2)) ∧ w'.files (y.key.script j.logDir (j.queueName (qsub 1))) = some sh ∧
      compressCommand y.key.model y.key.depth (y.file y.key.protocol) ∈ split '\n' sh ∧
      ∀ q, q ≠ y.key.script j.logDir (j.queueName (qsub 1)) → w'.files q ≠ none → w'.files q = w.files q := by
  obtain ⟨w', h, h1, h2, h3⟩ := C88_run j qsub w kwargs [x, y] hl hs
  obtain ⟨sh, e1, e2, -⟩ := h1 1 y rfl (by
    intro k z hk hz
    have : ¬ k < 2 := by omega
    rw [List.getElem?_eq_none (not_lt.1 this)] at hz
    exact absurd hz (by simp))
  refine ⟨w', sh, h, e1, e2, fun q hq1 hq2 => h3 q ?_ ?_⟩
  · intro z hz e
    rw [e] at hq2
    exact hq2 (h2 z hz)
  · intro i z hz
    match i, hz with
    | 0, hz =>
      cases hz
      rw [hq, hk]
      exact hq1
    | 1, hz =>
      cases hz
      exact hq1

/-- Names lead back to the parameters, whatever follows the first full stop after the depth. -/
theorem C88_params (k : Key) (hp : '-' ∉ k.protocol) (hm : '-' ∉ k.model) (rest : Str) :
    pullParams (k.text ++ '.' :: rest) = .ok (k.protocol, k.model, ofNat k.depth) := by
  obtain ⟨t, ht⟩ := head_split_dot (not_mem_ofNat (by decide) k.depth : '-' ∉ ofNat k.depth) rest
  have hs : split '-' (k.text ++ '.' :: rest) = k.protocol :: k.model :: split '-' (ofNat k.depth ++ '.' :: rest) := by
    rw [Key.text, List.append_assoc, List.append_assoc, List.cons_append, List.cons_append, split_append_cons,
      split_of_not_mem hp, List.cons_append, List.nil_append, split_append_cons, split_of_not_mem hm]
    rfl
  rw [pullParams, hs]
  cases e : split '-' (ofNat k.depth ++ '.' :: rest) with
  | nil => exact absurd e (split_ne_nil _ _)
  | cons a as =>
    rw [e, List.headD_cons] at ht
    simp only [ht]
    rw [split_append_cons, split_of_not_mem (not_mem_ofNat (by decide) k.depth)]
    rfl

/-- A hyphen in the protocol shifts everything: its second part is taken for the model and the model for the depth. -/
theorem C88_params_hyphen (a b m : Str) (d : ℕ) (rest : Str) (ha : '-' ∉ a) (hb : '-' ∉ b) (hm : '-' ∉ m) (hm' : '.' ∉ m) :
    pullParams ((Key.mk (a ++ '-' :: b) m d).text ++ '.' :: rest) = .ok (a, b, m) := by
  rw [pullParams, Key.text]
  simp only [List.append_assoc, List.cons_append]
  rw [split_append_cons, split_append_cons, split_append_cons, split_of_not_mem ha, split_of_not_mem hb, split_of_not_mem hm]
  simp [split_of_not_mem hm']

/-- A name with fewer than two hyphens raises. -/
theorem C88_params_raises (f : Str) : (pullParams f = .error .valueError ↔ f.count '-' < 2) := by
  have hc : ∀ s : Str, (split '-' s).length = s.count '-' + 1 := by
    intro s
    induction s with
    | nil => rfl
    | cons c s ih =>
      by_cases e : c = '-'
      · subst e
        rw [split_cons_self, List.length_cons, ih, List.count_cons_self]
      · obtain ⟨p, ps, h1, h2⟩ := split_cons_ne e s
        rw [h2, List.length_cons, List.count_cons_of_ne e, ← ih, h1, List.length_cons]
  have := hc f
  rw [pullParams]
  match h : split '-' f with
  | [] => simp [h] at this
  | [a] =>
    rw [h] at this
    simp only [List.length_cons, List.length_nil] at this
    simp only [true_iff]
    omega
  | [a, b] =>
    rw [h] at this
    simp only [List.length_cons, List.length_nil] at this
    simp only [true_iff]
    omega
  | a :: b :: c :: r =>
    rw [h] at this
    simp only [List.length_cons] at this
    simp only [reduceCtorEq, false_iff]
    omega

/-- The option to run the experiments directly does nothing. -/
theorem C88_run_now (j : JobSet) (b : Bool) (qsub : ℕ → Option Str) (w : World) (kwargs : PyDict Str (List Str)) :
    { j with runNow := b }.run qsub w kwargs = j.run qsub w kwargs := by
  have hr : ∀ j : JobSet, j.runExperiment = .ok () := by
    intro j
    unfold JobSet.runExperiment
    cases j.runNow <;> rfl
  have hsub : ∀ a w f g e, { j with runNow := b }.submit a w f g e = j.submit a w f g e := by
    intro a w f g e
    unfold JobSet.submit
    rw [hr, hr]
    rfl
  have hloop : ∀ ds w c s, { j with runNow := b }.loop qsub w c s ds = j.loop qsub w c s ds := by
    intro ds
    induction ds with
    | nil => exact fun w c s => rfl
    | cons d ds ih =>
      intro w c s
      rw [JobSet.loop, JobSet.loop]
      cases Ps.ofDict d with
      | error e => rfl
      | ok p =>
        simp only [hsub, ih]
  exact hloop _ _ _ _

/-- Two platforms, one script. -/
example : ∃ w', (JobSet.mk "logs".toList true false 0 20).run (fun _ => none) ⟨fun _ => none, fun _ => false, fun _ => true⟩
      [("base_dir".toList, ["/b".toList]), ("platform".toList, ["x".toList, "y".toList]), ("protocol".toList, ["bib".toList]),
        ("model".toList, ["KT".toList]), ("depth".toList, [ofNat 8])] = (w', .ok (2, 2)) ∧
    ∀ q, w'.files q ≠ none → q = "logs/bib-KT-8.DEBUG.sh".toList := by
  let k : Key := ⟨"bib".toList, "KT".toList, 8⟩
  have hg : ∀ p : Str, Part p → p.head? ≠ some '/' → (Job.mk "/b".toList p k).Good := by
    intro p hp hp'
    exact ⟨⟨show '-' ∉ "bib".toList by decide, show '-' ∉ "KT".toList by decide, show "bib".toList.head? ≠ some '/' by decide⟩,
      ⟨show "/b".toList ≠ [] by decide, show "/b".toList.getLast? ≠ some '/' by decide, show '\n' ∉ "/b".toList by decide⟩, hp, hp',
      show '\n' ∉ "bib".toList by decide, show '\n' ∉ "KT".toList by decide⟩
  have hs : C88_Setting (JobSet.mk "logs".toList true false 0 20) (fun _ => none) ⟨fun _ => none, fun _ => false, fun _ => true⟩
      [⟨"/b".toList, "x".toList, k⟩, ⟨"/b".toList, "y".toList, k⟩] := by
    refine ⟨⟨by decide, by decide, by decide⟩, ?_, fun _ => rfl, ?_⟩
    · intro x hx
      simp only [List.mem_cons, List.not_mem_nil, or_false] at hx
      rcases hx with rfl | rfl
      · exact ⟨hg _ ⟨by decide, by decide, by decide⟩ (by decide), by decide⟩
      · exact ⟨hg _ ⟨by decide, by decide, by decide⟩ (by decide), by decide⟩
    · intro x hx q e
      simp only [List.mem_cons, List.not_mem_nil, or_false] at hx
      rcases hx with rfl | rfl <;> exact absurd (congrArg List.head? e) (by simp [Job.file])
  obtain ⟨w', sh, h1, -, -, h2⟩ := C88_overwritten _ _ _ [("base_dir".toList, ["/b".toList]),
    ("platform".toList, ["x".toList, "y".toList]), ("protocol".toList, ["bib".toList]), ("model".toList, ["KT".toList]),
    ("depth".toList, [ofNat 8])] _ _ (by rfl) hs rfl rfl
  refine ⟨w', h1, fun q hq => ?_⟩
  by_contra h
  have e : (Key.mk "bib".toList "KT".toList 8).script "logs".toList "DEBUG".toList = "logs/bib-KT-8.DEBUG.sh".toList := by decide
  exact hq (h2 q (fun e' => h (e'.trans e)) hq)

/-- The name from the queue is `DEBUG` without submission, `FAILED` if `qsub` fails, and otherwise the id it prints, without the blanks and
ends of lines around it. -/
theorem C88_queue_name (j : JobSet) (id before after : Str) (hid : ∀ c ∈ id, isSpace c = false) (hne : id ≠ [])
    (hb : ∀ c ∈ before, isSpace c = true) (ha : ∀ c ∈ after, isSpace c = true) (answer : Option Str) :
    (j.debug = true → j.queueName answer = "DEBUG".toList) ∧
    (j.debug = false → j.queueName none = "FAILED".toList ∧ j.queueName (some (before ++ id ++ after)) = id) := by
  refine ⟨fun h => by simp [JobSet.queueName, h], fun h => ⟨by simp [JobSet.queueName, h], ?_⟩⟩
  have h1 : ∀ {a : Str} {b : Str}, (∀ c ∈ a, isSpace c = true) → (a ++ b).dropWhile isSpace = b.dropWhile isSpace := by
    intro a b h
    induction a with
    | nil => rfl
    | cons x a ih =>
      rw [List.cons_append, List.dropWhile_cons_of_pos (h x (by simp))]
      exact ih fun c hc => h c (by simp [hc])
  have hh : ∀ c ∈ (id ++ after).head?, isSpace c = false := by
    intro c hc
    rw [List.head?_append_of_ne_nil _ hne] at hc
    exact hid c (List.mem_of_mem_head? hc)
  have hl : ∀ c ∈ id.reverse.head?, isSpace c = false := fun c hc => hid c (by
    have := List.mem_of_mem_head? hc
    simpa using this)
  have : j.queueName (some (before ++ id ++ after)) = strip (before ++ id ++ after) := by simp [JobSet.queueName, h]
  rw [this, strip, List.append_assoc, h1 hb, dropWhile_of_head hh, List.reverse_append,
    h1 (fun c hc => ha c (List.mem_reverse.1 hc)), dropWhile_of_head hl, List.reverse_reverse]

/-- A log file of the queue. -/
example : pullParams "bib-FMN_FastCTW-16.12345-orca.log".toList = .ok ("bib".toList, "FMN_FastCTW".toList, "16".toList) := by
  decide

end Verif
