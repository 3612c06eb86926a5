import Verif.Model.Jobs
import Verif.Spec.Jobs
import Verif.Proofs.Text

/-! Jobs. -/

namespace Verif

namespace Jobs

open Str Params

/-- Where the script is written first. -/
def tmpPath (j : JobSet) (p : Ps) : Str := pathJoin2 j.logDir p.name

/-- Where the script is kept. -/
def scriptPath (j : JobSet) (qsub : ℕ → Option Str) (i : ℕ) (p : Ps) : Str :=
  pathJoin2 j.logDir (p.name ++ '.' :: j.queueName (qsub i) ++ ".sh".toList)

theorem pathJoin2_inj_length {a b b' : Str} (h : b.head? = b'.head?) (e : pathJoin2 a b = pathJoin2 a b') : b = b' := by
  unfold pathJoin2 at e
  rw [h] at e
  split_ifs at e
  · exact e
  · exact List.append_cancel_left e
  · exact (List.cons.inj (List.append_cancel_left e)).2

theorem tmp_ne_script (j : JobSet) (qsub : ℕ → Option Str) (i : ℕ) (p : Ps) : tmpPath j p ≠ scriptPath j qsub i p := by
  intro h
  have hne : p.name ≠ [] := by
    rw [Ps.name, join_cons (by simp)]
    simp
  have := pathJoin2_inj_length (by
    cases e : p.name with
    | nil => exact absurd e hne
    | cons c s => rfl) h
  have := congrArg List.length this
  simp only [List.length_append, List.length_cons] at this
  omega

theorem submit_ok (j : JobSet) (qsub : ℕ → Option Str) (i : ℕ) (w : World) (p : Ps) (ex : Str)
    (h1 : w.writable (tmpPath j p) = true) (h2 : w.writable (scriptPath j qsub i p) = true) :
    j.submit (qsub i) w p.name p.args ex =
      (⟨Function.update (Function.update w.files (tmpPath j p) none) (scriptPath j qsub i p)
          (some (j.template p.name p.args ex)), w.dirs, w.writable⟩, .ok (scriptPath j qsub i p)) := by
  have hr : j.runExperiment = .ok () := by
    unfold JobSet.runExperiment
    cases j.runNow <;> rfl
  have h1' : w.writable (pathJoin2 j.logDir p.name) = true := h1
  have h2' : w.writable (pathJoin2 j.logDir (p.name ++ '.' :: j.queueName (qsub i) ++ ".sh".toList)) = true := h2
  simp only [JobSet.submit, hr, h1', h2', Bool.not_true, Bool.false_eq_true, if_false, Function.update_self, Function.update_idem]
  rfl

/-- The effect of a job on the files. -/
def effect (j : JobSet) (qsub : ℕ → Option Str) (ex : Ps → Str) (f : Str → Option Str) (pi : Ps × ℕ) : Str → Option Str :=
  Function.update (Function.update f (tmpPath j pi.1) none) (scriptPath j qsub pi.2 pi.1)
    (some (j.template pi.1.name pi.1.args (ex pi.1)))

theorem loop_ok (j : JobSet) (qsub : ℕ → Option Str) (ex : Ps → Str) (l : List Ps) (ds : List (PyDict Str Str))
    (hl : ds.map Ps.ofDict = l.map .ok) (s c : ℕ) (w : World)
    (hw : ∀ p ∈ l, w.writable (tmpPath j p) = true ∧ ∀ i, w.writable (scriptPath j qsub i p) = true)
    (hex : ∀ p ∈ l, p.extra w = ex p)
    (hin : ∀ p ∈ l, ∀ p' ∈ l, p.infile ≠ tmpPath j p' ∧ ∀ i, p.infile ≠ scriptPath j qsub i p') :
    j.loop qsub w c s ds = ({ w with files := (l.zipIdx s).foldl (effect j qsub ex) w.files }, .ok (c + l.length, s + l.length)) := by
  induction l generalizing ds w s c with
  | nil =>
    rw [List.map_nil, List.map_eq_nil_iff] at hl
    subst hl
    rfl
  | cons p l ih =>
    cases ds with
    | nil => simp at hl
    | cons d ds =>
      rw [List.map_cons, List.map_cons, List.cons.injEq] at hl
      have hp := hw p List.mem_cons_self
      rw [JobSet.loop, hl.1]
      simp only []
      rw [submit_ok j qsub s w p (p.extra w) hp.1 (hp.2 s), hex p List.mem_cons_self]
      simp only []
      rw [ih ds hl.2 (s + 1) (c + 1) ⟨Function.update (Function.update w.files (tmpPath j p) none) (scriptPath j qsub s p)
          (some (j.template p.name p.args (ex p))), w.dirs, w.writable⟩ (fun p' h' => hw p' (List.mem_cons_of_mem _ h')) ?_
        fun p' h' p'' h'' => hin p' (List.mem_cons_of_mem _ h') p'' (List.mem_cons_of_mem _ h'')]
      · simp only [List.zipIdx_cons, List.foldl_cons, List.length_cons, effect, Prod.mk.injEq, Except.ok.injEq, true_and]
        omega
      · intro p' h'
        rw [← hex p' (List.mem_cons_of_mem _ h')]
        have hd := hin p' (List.mem_cons_of_mem _ h') p List.mem_cons_self
        have : World.exists' ⟨Function.update (Function.update w.files (tmpPath j p) none) (scriptPath j qsub s p)
          (some (j.template p.name p.args (ex p))), w.dirs, w.writable⟩ p'.infile = w.exists' p'.infile := by
          simp only [World.exists', Function.update_of_ne (hd.2 s), Function.update_of_ne hd.1]
        simp only [Ps.extra, this]

theorem fold_other (j : JobSet) (qsub : ℕ → Option Str) (ex : Ps → Str) (l : List (Ps × ℕ)) (f : Str → Option Str) (q : Str)
    (h : ∀ pi ∈ l, q ≠ tmpPath j pi.1 ∧ q ≠ scriptPath j qsub pi.2 pi.1) : l.foldl (effect j qsub ex) f q = f q := by
  induction l generalizing f with
  | nil => rfl
  | cons a l ih =>
    rw [List.foldl_cons, ih _ fun pi hp => h pi (List.mem_cons_of_mem _ hp)]
    have := h a List.mem_cons_self
    rw [effect, Function.update_of_ne this.2, Function.update_of_ne this.1]

theorem fold_last (j : JobSet) (qsub : ℕ → Option Str) (ex : Ps → Str) (a b : List (Ps × ℕ)) (pi : Ps × ℕ) (f : Str → Option Str)
    (h : ∀ qk ∈ b, scriptPath j qsub pi.2 pi.1 ≠ tmpPath j qk.1 ∧ scriptPath j qsub pi.2 pi.1 ≠ scriptPath j qsub qk.2 qk.1) :
    (a ++ pi :: b).foldl (effect j qsub ex) f (scriptPath j qsub pi.2 pi.1) =
      some (j.template pi.1.name pi.1.args (ex pi.1)) := by
  rw [List.foldl_append, List.foldl_cons, fold_other j qsub ex b _ _ h, effect, Function.update_self]

theorem fold_tmp (j : JobSet) (qsub : ℕ → Option Str) (ex : Ps → Str) (l : List (Ps × ℕ)) (pi : Ps × ℕ) (hpi : pi ∈ l)
    (f : Str → Option Str) (h : ∀ qk ∈ l, tmpPath j pi.1 ≠ scriptPath j qsub qk.2 qk.1) :
    l.foldl (effect j qsub ex) f (tmpPath j pi.1) = none := by
  have key : ∀ (l : List (Ps × ℕ)) (f : Str → Option Str), (∀ qk ∈ l, tmpPath j pi.1 ≠ scriptPath j qsub qk.2 qk.1) →
      f (tmpPath j pi.1) = none → l.foldl (effect j qsub ex) f (tmpPath j pi.1) = none := by
    intro l
    induction l with
    | nil => exact fun f _ h => h
    | cons a l ih =>
      intro f h hf
      rw [List.foldl_cons]
      refine ih _ (fun qk hq => h qk (List.mem_cons_of_mem _ hq)) ?_
      rw [effect, Function.update_of_ne (h a List.mem_cons_self)]
      by_cases e : tmpPath j pi.1 = tmpPath j a.1
      · rw [e, Function.update_self]
      · rw [Function.update_of_ne e, hf]
  induction l generalizing f with
  | nil => simp at hpi
  | cons a l ih =>
    rw [List.foldl_cons]
    have hl : ∀ qk ∈ l, tmpPath j pi.1 ≠ scriptPath j qsub qk.2 qk.1 := fun qk hq => h qk (List.mem_cons_of_mem _ hq)
    rcases List.mem_cons.1 hpi with rfl | hpi
    · exact key l _ hl (by rw [effect, Function.update_of_ne (h _ List.mem_cons_self), Function.update_self])
    · exact ih hpi _ hl

/-! ### Names -/

/-- The parameters agree with a key. -/
def Ps.Is (p : Ps) (k : Key) : Prop := p.protocol = k.protocol ∧ p.model = k.model ∧ p.depth = ofNat k.depth

theorem Ps.Is.name {p : Ps} {k : Key} (h : p.Is k) : p.name = k.text := by
  rw [Ps.name, join, join, join, h.1, h.2.1, h.2.2, Key.text]
  simp

theorem head_text {k : Key} (h : k.Good) (s : Str) : (k.text ++ s).head? ≠ some '/' := by
  have := h.relative
  rw [Key.text]
  cases e : k.protocol with
  | nil => simp
  | cons c t =>
    rw [e] at this
    simpa using this

theorem pathJoin2_of {a b : Str} (ha : a ≠ []) (ha' : a.getLast? ≠ some '/') (hb : b.head? ≠ some '/') : pathJoin2 a b = a ++ '/' :: b := by
  rw [pathJoin2, if_neg hb, if_neg (by simp [ha, ha'])]

theorem tmpPath_eq {j : JobSet} (hd : j.logDir ≠ []) (hd' : j.logDir.getLast? ≠ some '/') {p : Ps} {k : Key} (h : p.Is k) (hk : k.Good) :
    tmpPath j p = j.logDir ++ '/' :: k.text := by
  have := head_text hk []
  rw [List.append_nil] at this
  rw [tmpPath, h.name, pathJoin2_of hd hd' this]

theorem scriptPath_eq {j : JobSet} (hd : j.logDir ≠ []) (hd' : j.logDir.getLast? ≠ some '/') {p : Ps} {k : Key} (h : p.Is k)
    (hk : k.Good) (qsub : ℕ → Option Str) (i : ℕ) : scriptPath j qsub i p = k.script j.logDir (j.queueName (qsub i)) := by
  rw [scriptPath, h.name, List.append_assoc, pathJoin2_of hd hd' (head_text hk _), Key.script]
  simp

theorem split_text {k : Key} (hk : k.Good) {s : Str} :
    split '-' (k.text ++ '.' :: s) = k.protocol :: k.model :: split '-' (ofNat k.depth ++ '.' :: s) := by
  rw [Key.text, List.append_assoc, List.append_assoc, List.cons_append, List.cons_append, split_append_cons,
    split_of_not_mem hk.protocol]
  rw [List.cons_append, List.nil_append, split_append_cons, split_of_not_mem hk.model]
  rfl

theorem takeWhile_digits (n : ℕ) {s : Str} (h : ∀ c ∈ s.head?, c.isDigit = false) :
    (ofNat n ++ s).takeWhile Char.isDigit = ofNat n := by
  rw [List.takeWhile_append_of_pos fun c hc => isDigit_of_mem_ofNat hc]
  cases s with
  | nil => simp
  | cons c s => rw [List.takeWhile_cons, h c rfl]; simp

theorem ofNat_inj {m n : ℕ} (h : ofNat m = ofNat n) : m = n := by
  have h1 := pyInt_ofNat m
  rw [h, pyInt_ofNat n] at h1
  simpa using h1.symm

theorem head_split_dot {a : Str} (ha : '-' ∉ a) (s : Str) : ∃ t, (split '-' (a ++ '.' :: s)).headD [] = a ++ '.' :: t := by
    induction a with
    | nil =>
      obtain ⟨x, xs, -, e⟩ := split_cons_ne (show '.' ≠ '-' by decide) s
      exact ⟨x, by rw [List.nil_append, e]; rfl⟩
    | cons c a ih =>
      rw [List.mem_cons, not_or] at ha
      obtain ⟨t, ht⟩ := ih ha.2
      obtain ⟨x, xs, e, e'⟩ := split_cons_ne (Ne.symm ha.1) (a ++ '.' :: s)
      rw [e] at ht
      rw [List.cons_append, e']
      exact ⟨t, by simpa using ht⟩

theorem takeWhile_head_split (n : ℕ) (s : Str) :
    ((split '-' (ofNat n ++ '.' :: s)).headD []).takeWhile Char.isDigit = ofNat n := by
  obtain ⟨t, ht⟩ := head_split_dot (not_mem_ofNat (by decide) n : '-' ∉ ofNat n) s
  rw [ht, takeWhile_digits n (by simp)]

theorem text_inj {k k' : Key} (hk : k.Good) (hk' : k'.Good) {s s' : Str} (h : k.text ++ '.' :: s = k'.text ++ '.' :: s') :
    k = k' ∧ s = s' := by
  have h1 := congrArg (split '-') h
  rw [split_text hk, split_text hk'] at h1
  obtain ⟨e1, h1⟩ := List.cons.inj h1
  obtain ⟨e2, h1⟩ := List.cons.inj h1
  have h2 := congrArg (fun l => (l.headD []).takeWhile Char.isDigit) h1
  simp only [takeWhile_head_split] at h2
  have e3 := ofNat_inj h2
  have e : k = k' := by
    cases k
    cases k'
    simp_all
  subst e
  exact ⟨rfl, (List.cons.inj (List.append_cancel_left h)).2⟩

theorem script_inj {k k' : Key} (hk : k.Good) (hk' : k'.Good) {d n n' : Str} (h : k.script d n = k'.script d n') :
    k = k' ∧ n = n' := by
  rw [Key.script, Key.script] at h
  simp only [List.append_assoc, List.cons_append] at h
  have := text_inj hk hk' (List.cons.inj (List.append_cancel_left h)).2
  exact ⟨this.1, List.append_cancel_right this.2⟩

theorem text_ne_script {k k' : Key} {d n : Str} : d ++ '/' :: k.text ≠ k'.script d n := by
  intro h
  have h1 := congrArg List.getLast? h
  have h2 : (d ++ '/' :: k.text).getLast? = (ofNat k.depth).getLast? := by
    have := List.getLast?_eq_some_getLast (ofNat_ne_nil k.depth)
    rw [Key.text, show d ++ '/' :: (k.protocol ++ '-' :: k.model ++ '-' :: ofNat k.depth) =
      (d ++ '/' :: (k.protocol ++ '-' :: k.model ++ ['-'])) ++ ofNat k.depth by simp, List.getLast?_append, this]
    rfl
  have h3 : (k'.script d n).getLast? = some 'h' := by
    rw [Key.script, List.getLast?_append]
    rfl
  rw [h2, h3] at h1
  have := isDigit_of_mem_ofNat (List.mem_of_getLast? h1)
  exact absurd this (by decide)

end Jobs

end Verif
