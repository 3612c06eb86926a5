import Verif.Proofs.JobLogs
import Verif.Props.Jobs

/-!
# C89: the logs of jobs
-/

namespace Verif

open Str Jobs

namespace Jobs

theorem infix_line {p l : Str} (hp : '\n' ∉ p) (hp0 : p ≠ []) : p <:+: l ++ ['\n'] ↔ p <:+: l := by
  constructor
  · rintro ⟨s, t, e⟩
    rcases List.eq_nil_or_concat t with rfl | ⟨t', c, rfl⟩
    · rw [List.append_nil] at e
      have h := congrArg List.getLast? e
      rw [List.getLast?_append, List.getLast?_append, List.getLast?_eq_some_getLast hp0] at h
      simp only [List.getLast?_singleton, Option.some_or, Option.some.injEq] at h
      exact absurd (h ▸ List.getLast_mem hp0) hp
    · rw [List.concat_eq_append, ← List.append_assoc] at e
      exact ⟨s, t', (List.append_inj' e rfl).1⟩
  · rintro ⟨s, t, e⟩
    exact ⟨s, t ++ ['\n'], by rw [← e]; simp⟩

theorem pullStats_textOf {ls : List Str} (h : ∀ l ∈ ls, '\n' ∉ l) {last : Str} (hlast : ls.getLast? = some last) :
    pullStats (textOf ls) =
      if "Starting".toList <:+: last then .ok [("flaked".toList, "True".toList)]
      else if "killed".toList <:+: last then .ok [("killed".toList, strip ((split ':' (last ++ ['\n'])).getLastD []))]
      else .ok (((ls.drop (ls.length - 7)).map (· ++ ['\n'])).foldl statLine []) := by
  have hr : readlines (textOf ls) = ls.map (· ++ ['\n']) := by
    have := readlines_lines ls h []
    rwa [List.append_nil, show readlines [] = [] from rfl, List.append_nil] at this
  have ht : pyTail (ls.map (· ++ ['\n'])) 7 = (ls.drop (ls.length - 7)).map (· ++ ['\n']) := by
    rw [pyTail, if_neg (by decide), List.length_map, List.map_drop]
  have hl : ((ls.drop (ls.length - 7)).map (· ++ ['\n'])).getLast? = some (last ++ ['\n']) := by
    have hne : ls ≠ [] := by
      rintro rfl
      simp at hlast
    have hlen : ls.length - 7 < ls.length := by
      have := List.length_pos_of_ne_nil hne
      omega
    rw [List.getLast?_map, List.getLast?_drop, if_neg (by omega), hlast]
    rfl
  rw [pullStats, hr, ht, hl]
  simp only [infix_line (p := "Starting".toList) (by decide) (by decide), infix_line (p := "killed".toList) (by decide) (by decide)]

theorem says_stat {label v sp rest : Str} (hl : ':' ∉ label) (hsp : ∀ c ∈ sp, isSpace c = true) (hv0 : v ≠ [])
    (hv : ∀ c ∈ v, isSpace c = false ∧ c ≠ ':') (hr : ∀ c ∈ rest.head?, isSpace c = true ∨ c = ':') :
    Says (statOf (label ++ [':']) (sp ++ v ++ rest)) (strip ("    ".toList ++ label)) v := by
  refine ⟨"    ".toList ++ label, List.replicate (15 - (label ++ [':']).length) ' ' ++ ' ' :: sp, rest, ?_, ?_, rfl, ?_, hv0, hv, hr⟩
  · simp [statOf]
  · simp [hl]
  · intro c hc
    rcases List.mem_append.1 hc with hc | hc
    · rw [(List.mem_replicate.1 hc).2]
      decide
    · rcases List.mem_cons.1 hc with rfl | hc
      · decide
      · exact hsp c hc

end Jobs

/-- The statistics of a log are those of its last seven lines; if a statistic occurs twice there, the later counts. -/
theorem C89_stats (ls : List Str) (h : ∀ l ∈ ls, '\n' ∉ l) (last : Str) (hlast : ls.getLast? = some last)
    (h1 : ¬ "Starting".toList <:+: last) (h2 : ¬ "killed".toList <:+: last) :
    ∃ d, pullStats (textOf ls) = .ok d ∧ ∀ k v, d.get? k = some v ↔
      ∃ a l b, ls.drop (ls.length - 7) = a ++ l :: b ∧ Says l k v ∧ ∀ l' ∈ b, ∀ v', ¬ Says l' k v' := by
  refine ⟨_, by rw [pullStats_textOf h hlast, if_neg h1, if_neg h2], fun k v => ?_⟩
  have hd : ∀ l ∈ ls.drop (ls.length - 7), '\n' ∉ l := fun l hl => h l (List.mem_of_mem_drop hl)
  rcases foldl_stat_get (ls.drop (ls.length - 7)) hd [] k with ⟨e, hno⟩ | ⟨a, l, b, v', e1, e2, e3, e4⟩
  · rw [e]
    constructor
    · intro h0
      simp [PyDict.get?] at h0
    · rintro ⟨a, l, b, e1, e2, -⟩
      exact absurd e2 (hno l (by rw [e1]; simp) v)
  · rw [e4, Option.some.injEq]
    constructor
    · rintro rfl
      exact ⟨a, l, b, e1, e2, e3⟩
    · rintro ⟨a', l', b', e1', e2', e3'⟩
      have key : ∀ (a a' b b' : List Str) (l l' : Str), a ++ l :: b = a' ++ l' :: b' → Says l k v' → Says l' k v →
          (∀ l' ∈ b, ∀ v', ¬ Says l' k v') → (∀ l'' ∈ b', ∀ v', ¬ Says l'' k v') → v' = v := by
        intro a a' b b' l l' e hl hl' hb hb'
        induction a generalizing a' with
        | nil =>
          cases a' with
          | nil =>
            obtain ⟨rfl, -⟩ := List.cons.inj e
            exact (says_unique hl hl').2
          | cons x a' =>
            have e0 : b = a' ++ l' :: b' := (List.cons.inj e).2
            exact absurd hl' (hb l' (by rw [e0]; simp) v)
        | cons x a ih =>
          cases a' with
          | nil =>
            have e0 : a ++ l :: b = b' := (List.cons.inj e).2
            exact absurd hl (hb' l (by rw [← e0]; simp) v')
          | cons x' a' => exact ih a' (List.cons.inj e).2
      exact key a a' b b' l l' (e1 ▸ e1') e2 e2' e3 e3'

/-- A log that ends with the line which a job writes at its start is one of a job that did not get further. -/
theorem C89_flaked (ls : List Str) (h : ∀ l ∈ ls, '\n' ∉ l) (last : Str) (hlast : ls.getLast? = some last)
    (h1 : "Starting".toList <:+: last) : pullStats (textOf ls) = .ok [("flaked".toList, "True".toList)] := by
  rw [pullStats_textOf h hlast, if_pos h1]

/-- A log that ends with the message that the job was killed gives the reason: what follows the last colon. -/
theorem C89_killed (ls : List Str) (a reason : Str) (h : ∀ l ∈ ls, '\n' ∉ l) (hlast : ls.getLast? = some (a ++ ':' :: reason))
    (h1 : ¬ "Starting".toList <:+: a ++ ':' :: reason) (h2 : "killed".toList <:+: a ++ ':' :: reason) (hr : ':' ∉ reason) :
    pullStats (textOf ls) = .ok [("killed".toList, strip reason)] := by
  rw [pullStats_textOf h hlast, if_neg h1, if_pos h2]
  have e : a ++ ':' :: reason ++ ['\n'] = a ++ ':' :: (reason ++ ['\n']) := by simp
  have hm : ':' ∉ reason ++ ['\n'] := by simp [hr]
  rw [e, split_append_cons, split_of_not_mem hm]
  have hs : strip (reason ++ ['\n']) = strip reason := by
    unfold strip
    by_cases ha : ∀ c ∈ reason, isSpace c = true
    · have e1 : reason.dropWhile isSpace = [] := List.dropWhile_eq_nil_iff.2 ha
      have e2 : (reason ++ ['\n']).dropWhile isSpace = [] := List.dropWhile_eq_nil_iff.2 (by
        intro c hc
        rcases List.mem_append.1 hc with hc | hc
        · exact ha c hc
        · rw [List.mem_singleton.1 hc]; decide)
      rw [e1, e2]
    · have e1 : reason.dropWhile isSpace ≠ [] := fun e => ha (List.dropWhile_eq_nil_iff.1 e)
      rw [List.dropWhile_append, if_neg (by simpa using e1), List.reverse_append, List.reverse_singleton, List.singleton_append,
        List.dropWhile_cons, if_pos (by decide)]
  simp [List.getLastD_eq_getLast?, hs]

/-- An empty log raises. -/
theorem C89_empty_log : pullStats [] = .error .indexError := rfl

/-- One printed value, a word with white space before it and a unit after it. -/
structure C89_Value where
  sp : Str
  word : Str
  rest : Str

/-- The printed text. -/
def C89_Value.text (x : C89_Value) : Str := x.sp ++ x.word ++ x.rest

/-- The parts of a printed value are as described. -/
structure C89_Value.Good (x : C89_Value) : Prop where
  sp : ∀ c ∈ x.sp, isSpace c = true
  ne : x.word ≠ []
  word : ∀ c ∈ x.word, isSpace c = false ∧ c ≠ ':'
  rest : ∀ c ∈ x.rest.head?, isSpace c = true ∨ c = ':'
  line : '\n' ∉ x.text

/-- The labels of the statistics of `z.py` (z.py:89-96). -/
def C89_labels : List Str :=
  ["Ratio".toList, "Size".toList, "Bits per Byte".toList, "Time".toList, "KB/s".toList, "# of Nodes".toList, "Memory Used".toList]

/-- The lines of statistics. -/
def C89_lines (labels : List Str) (vals : List C89_Value) : List Str :=
  List.zipWith (fun l v => statOf (l ++ [':']) v.text) labels vals

namespace Jobs

theorem mem_zipWith {α β γ : Type} {f : α → β → γ} {l : List α} {l' : List β} {x : γ} (h : x ∈ List.zipWith f l l') :
    ∃ a ∈ l, ∃ b ∈ l', x = f a b := by
  induction l generalizing l' with
  | nil => simp at h
  | cons a l ih =>
    cases l' with
    | nil => simp at h
    | cons b l' =>
      rw [List.zipWith_cons_cons, List.mem_cons] at h
      rcases h with rfl | h
      · exact ⟨a, by simp, b, by simp, rfl⟩
      · obtain ⟨a', ha, b', hb, e⟩ := ih h
        exact ⟨a', by simp [ha], b', by simp [hb], e⟩

theorem strip_head {c : Char} (h : isSpace c = false) (s : Str) : (strip (c :: s)).head? = some c := by
  have hd : ∀ u : Str, (u ++ [c]).dropWhile isSpace = u.dropWhile isSpace ++ [c] := by
    intro u
    induction u with
    | nil => simp [h]
    | cons d u ih =>
      rw [List.cons_append, List.dropWhile_cons, List.dropWhile_cons]
      split_ifs
      · exact ih
      · rfl
  rw [strip, List.dropWhile_cons, h]
  simp only [Bool.false_eq_true, if_false, List.reverse_cons]
  rw [hd, List.reverse_append]
  rfl

theorem good_labels : ∀ l ∈ C89_labels, ':' ∉ l ∧ '\n' ∉ l ∧ strip ("    ".toList ++ l) = l := by decide

theorem completed_says {code date k v : Str} (hcode : ':' ∉ code) (hs : Says (completed code date) k v) : k.head? = some 'C' := by
  obtain ⟨a, sp, rest, e, ha, ek, -⟩ := hs
  have e' : completed code date = ("Completed run with exit code ".toList ++ code ++ " at".toList) ++ ':' :: (" ".toList ++ date) := by
    unfold completed
    generalize code = C
    generalize date = D
    simp
  rw [e'] at e
  have hno : ':' ∉ "Completed run with exit code ".toList ++ code ++ " at".toList := by
    have := hcode
    generalize code = C at this
    simp [this]
  have e2 := congrArg (fun s => (split ':' s).headD []) e
  simp only [List.append_assoc, List.cons_append] at e2
  simp only [← List.append_assoc] at e2
  rw [split_append_cons, split_append_cons, split_of_not_mem hno, split_of_not_mem ha] at e2
  simp only [List.cons_append, List.headD_cons] at e2
  rw [ek, ← e2]
  exact strip_head (c := 'C') (by decide) _

theorem says_label {l : Str} {x : C89_Value} (hl : l ∈ C89_labels) (hx : x.Good) : Says (statOf (l ++ [':']) x.text) l x.word := by
  have h1 := good_labels l hl
  have := says_stat (label := l) (v := x.word) (sp := x.sp) (rest := x.rest) h1.1 hx.sp hx.ne hx.word hx.rest
  rwa [h1.2.2] at this

theorem all_lines {labels : List Str} (hsub : ∀ l ∈ labels, l ∈ C89_labels) {vals : List C89_Value} (hv : ∀ x ∈ vals, x.Good)
    {pre : List Str} (hpre : ∀ l ∈ pre, '\n' ∉ l) {code date : Str} (hcode : '\n' ∉ code) (hdate : '\n' ∉ date) :
    ∀ l ∈ pre ++ C89_lines labels vals ++ [completed code date], '\n' ∉ l := by
  intro l hl
  rcases List.mem_append.1 hl with hl | hl
  · rcases List.mem_append.1 hl with hl | hl
    · exact hpre l hl
    · obtain ⟨a, ha, x, hx, rfl⟩ := mem_zipWith hl
      have := (good_labels a (hsub a ha)).2.1
      have hx := (hv x hx).line
      simp [statOf, this, hx]
  · rw [List.mem_singleton.1 hl]
    unfold completed
    generalize code = C at hcode
    generalize date = D at hdate
    simp [hcode, hdate]

/-- What a log of seven or fewer statistics and the last line says. -/
theorem stats_of_lines {labels : List Str} (hsub : ∀ l ∈ labels, l ∈ C89_labels) (hnd : labels.Nodup) {vals : List C89_Value}
    (hlen : vals.length = labels.length) (hv : ∀ x ∈ vals, x.Good) (pre : List Str) (hpre : ∀ l ∈ pre, '\n' ∉ l)
    {code date : Str} (hcode : '\n' ∉ code ∧ ':' ∉ code) (hdate : '\n' ∉ date)
    (h1 : ¬ "Starting".toList <:+: completed code date) (h2 : ¬ "killed".toList <:+: completed code date) :
    ∃ d, pullStats (textOf (pre ++ C89_lines labels vals ++ [completed code date])) = .ok d ∧
      ∀ (i : ℕ) (l : Str) (x : C89_Value), labels.length ≤ i + 6 → labels[i]? = some l → vals[i]? = some x → d.get? l = some x.word := by
  have hall := all_lines hsub hv hpre hcode.1 hdate
  obtain ⟨d, hd, hg⟩ := C89_stats _ hall (completed code date) (by simp) h1 h2
  refine ⟨d, hd, fun i l x hi hl hx => ?_⟩
  have hi1 : i < labels.length := (List.getElem?_eq_some_iff.1 hl).1
  have hlen' : (C89_lines labels vals).length = labels.length := by
    rw [C89_lines, List.length_zipWith, hlen, Nat.min_self]
  have hget : (C89_lines labels vals)[i]? = some (statOf (l ++ [':']) x.text) := by
    rw [C89_lines, List.getElem?_zipWith, hl, hx]
  have hsay : ∀ (l' : Str) (x' : C89_Value), l' ∈ labels → x' ∈ vals → Says (statOf (l' ++ [':']) x'.text) l' x'.word :=
    fun l' x' hl' hx' => says_label (hsub l' hl') (hv x' hx')
  rw [hg]
  refine ⟨((pre ++ C89_lines labels vals).drop ((pre ++ C89_lines labels vals ++ [completed code date]).length - 7)).take
      ((pre.length + i) - ((pre ++ C89_lines labels vals ++ [completed code date]).length - 7)), statOf (l ++ [':']) x.text,
    (C89_lines labels vals).drop (i + 1) ++ [completed code date], ?_, hsay l x (List.mem_of_getElem? hl) (List.mem_of_getElem? hx), ?_⟩
  · have hn : (pre ++ C89_lines labels vals ++ [completed code date]).length - 7 ≤ pre.length + i := by
      simp only [List.length_append, List.length_singleton, hlen']
      omega
    generalize (pre ++ C89_lines labels vals ++ [completed code date]).length - 7 = n at hn
    have hsplit : pre ++ C89_lines labels vals ++ [completed code date] =
        (pre ++ (C89_lines labels vals).take i) ++ (statOf (l ++ [':']) x.text :: ((C89_lines labels vals).drop (i + 1) ++ [completed code date])) := by
      have hi2 : i < (C89_lines labels vals).length := by rw [hlen']; exact hi1
      have e : (C89_lines labels vals) = (C89_lines labels vals).take i ++ statOf (l ++ [':']) x.text :: (C89_lines labels vals).drop (i + 1) := by
        conv_lhs => rw [← List.take_append_drop i (C89_lines labels vals), List.drop_eq_getElem_cons hi2]
        have hg' : (C89_lines labels vals)[i] = statOf (l ++ [':']) x.text := by
          obtain ⟨q1, q2⟩ := List.getElem?_eq_some_iff.1 hget
          exact q2
        rw [hg']
      conv_lhs => rw [e]
      simp
    rw [hsplit]
    have hL : (pre ++ (C89_lines labels vals).take i).length = pre.length + i := by
      rw [List.length_append, List.length_take, hlen', Nat.min_eq_left (by omega)]
    rw [List.drop_append_of_le_length (by rw [hL]; exact hn)]
    congr 1
    rw [← List.drop_take]
    congr 1
    simp [List.take_append]
  · intro l' hl' v' hs
    rcases List.mem_append.1 hl' with hl' | hl'
    · obtain ⟨n, hn⟩ := List.mem_iff_getElem?.1 hl'
      rw [List.getElem?_drop, C89_lines, List.getElem?_zipWith] at hn
      cases ha : labels[i + 1 + n]? with
      | none => simp [ha] at hn
      | some a =>
        cases hb : vals[i + 1 + n]? with
        | none => simp [ha, hb] at hn
        | some b =>
          rw [ha, hb] at hn
          simp only [Option.some.injEq] at hn
          rw [← hn] at hs
          have e := (says_unique hs (hsay a b (List.mem_of_getElem? ha) (List.mem_of_getElem? hb))).1
          subst e
          obtain ⟨p1, p2⟩ := List.getElem?_eq_some_iff.1 hl
          obtain ⟨q1, q2⟩ := List.getElem?_eq_some_iff.1 ha
          have := (List.Nodup.getElem_inj_iff hnd).1 (p2.trans q2.symm)
          omega
    · rw [List.mem_singleton] at hl'
      rw [hl'] at hs
      have hC := completed_says hcode.2 hs
      have hlC : ∀ l ∈ C89_labels, l.head? ≠ some 'C' := by decide
      exact hlC _ (hsub _ (List.mem_of_getElem? hl)) hC

end Jobs

/-- The log of a job with a model that has no size, six statistics: all of them are found. -/
theorem C89_zlog (vals : List C89_Value) (hlen : vals.length = 6) (hv : ∀ x ∈ vals, x.Good) (pre : List Str)
    (hpre : ∀ l ∈ pre, '\n' ∉ l) (code date : Str) (hcode : '\n' ∉ code ∧ ':' ∉ code) (hdate : '\n' ∉ date)
    (h1 : ¬ "Starting".toList <:+: completed code date) (h2 : ¬ "killed".toList <:+: completed code date) :
    ∃ d, pullStats (textOf (pre ++ C89_lines (C89_labels.erase "# of Nodes".toList) vals ++ [completed code date])) = .ok d ∧
      ∀ (i : ℕ) (l : Str) (x : C89_Value), (C89_labels.erase "# of Nodes".toList)[i]? = some l → vals[i]? = some x →
        d.get? l = some x.word := by
  obtain ⟨d, hd, h⟩ := stats_of_lines (labels := C89_labels.erase "# of Nodes".toList) (fun l hl => List.mem_of_mem_erase hl)
    (by decide) (by rw [hlen]; decide) hv pre hpre hcode hdate h1 h2
  refine ⟨d, hd, fun i l x hl hx => h i l x ?_ hl hx⟩
  have : (C89_labels.erase "# of Nodes".toList).length = 6 := by decide
  omega

/-- The log of a job with a model that has a size, seven statistics: all are found but the ratio, which is in the eighth line from
the end. -/
theorem C89_ratio_lost (vals : List C89_Value) (hlen : vals.length = 7) (hv : ∀ x ∈ vals, x.Good) (pre : List Str)
    (hpre : ∀ l ∈ pre, '\n' ∉ l) (code date : Str) (hcode : '\n' ∉ code ∧ ':' ∉ code) (hdate : '\n' ∉ date)
    (h1 : ¬ "Starting".toList <:+: completed code date) (h2 : ¬ "killed".toList <:+: completed code date) :
    ∃ d, pullStats (textOf (pre ++ C89_lines C89_labels vals ++ [completed code date])) = .ok d ∧
      d.get? "Ratio".toList = none ∧
      ∀ (i : ℕ) (l : Str) (x : C89_Value), 1 ≤ i → C89_labels[i]? = some l → vals[i]? = some x → d.get? l = some x.word := by
  obtain ⟨d, hd, h⟩ := stats_of_lines (labels := C89_labels) (fun l hl => hl) (by decide) (by rw [hlen]; decide) hv pre hpre hcode
    hdate h1 h2
  refine ⟨d, hd, ?_, fun i l x hi hl hx => h i l x ?_ hl hx⟩
  · have hll : (C89_lines C89_labels vals).length = 7 := by
      rw [C89_lines, List.length_zipWith, hlen]
      decide
    obtain ⟨d', hd', hg⟩ := C89_stats _ (all_lines (fun l hl => hl) hv hpre hcode.1 hdate) (completed code date) (by simp) h1 h2
    rw [hd, Except.ok.injEq] at hd'
    subst hd'
    cases e : d.get? "Ratio".toList with
    | none => rfl
    | some v =>
      obtain ⟨a, l, b, e1, hs, -⟩ := (hg _ _).1 e
      have hmem : l ∈ (C89_lines C89_labels vals).drop 1 ++ [completed code date] := by
        have : (pre ++ C89_lines C89_labels vals ++ [completed code date]).drop
            ((pre ++ C89_lines C89_labels vals ++ [completed code date]).length - 7) =
            (C89_lines C89_labels vals).drop 1 ++ [completed code date] := by
          have e2 : (pre ++ C89_lines C89_labels vals ++ [completed code date]).length - 7 = pre.length + 1 := by
            simp only [List.length_append, List.length_singleton, hll]
            omega
          rw [e2, List.append_assoc, List.drop_append, List.drop_of_length_le (by omega), List.nil_append, Nat.add_sub_cancel_left,
            List.drop_append_of_le_length (by omega)]
        rw [← this, e1]
        simp
      rcases List.mem_append.1 hmem with hmem | hmem
      · obtain ⟨n, hn⟩ := List.mem_iff_getElem?.1 hmem
        rw [List.getElem?_drop, C89_lines, List.getElem?_zipWith] at hn
        cases ha : C89_labels[1 + n]? with
        | none => simp [ha] at hn
        | some a' =>
          cases hb : vals[1 + n]? with
          | none => simp [ha, hb] at hn
          | some b' =>
            rw [ha, hb] at hn
            simp only [Option.some.injEq] at hn
            rw [← hn] at hs
            have e3 := (says_unique hs (says_label (List.mem_of_getElem? ha) (hv b' (List.mem_of_getElem? hb)))).1
            subst e3
            obtain ⟨q1, q2⟩ := List.getElem?_eq_some_iff.1 ha
            have hnd : C89_labels.Nodup := by decide
            have := (List.Nodup.getElem_inj_iff hnd (hi := by decide) (hj := q1) (i := 0)).1 q2.symm
            omega
      · rw [List.mem_singleton] at hmem
        rw [hmem] at hs
        exact absurd (completed_says hcode.2 hs) (by decide)
  · have : C89_labels.length = 7 := by decide
    omega

namespace Jobs

theorem statLine_nodup {d : PyDict Str Str} (h : d.keys.Nodup) (l : Str) : (statLine d l).keys.Nodup := by
  unfold statLine
  split
  · split
    · exact PyDict.nodup_keys_set h
    · exact h
  · exact h

theorem pullStats_nodup {c : Str} {s : PyDict Str Str} (h : pullStats c = .ok s) : s.keys.Nodup := by
  have key : ∀ (ls : List Str) (d : PyDict Str Str), d.keys.Nodup → (ls.foldl statLine d).keys.Nodup := by
    intro ls
    induction ls with
    | nil => exact fun d h => h
    | cons l ls ih => exact fun d h => ih _ (statLine_nodup h l)
  unfold pullStats at h
  dsimp only at h
  split at h
  · cases h
  · split_ifs at h
    · cases h
      exact List.nodup_singleton _
    · cases h
      exact List.nodup_singleton _
    · cases h
      exact key _ _ List.nodup_nil

theorem get?_update {s e : PyDict Str Str} (h : s.keys.Nodup) (k : Str) :
    (s.foldl (fun e kv => e.set kv.1 kv.2) e).get? k = (s.get? k).or (e.get? k) := by
  induction s generalizing e with
  | nil => rfl
  | cons x s ih =>
    obtain ⟨a, v⟩ := x
    have h' : a ∉ PyDict.keys s ∧ (PyDict.keys s).Nodup := List.nodup_cons.1 h
    rw [List.foldl_cons, ih h'.2]
    by_cases ek : a = k
    · subst ek
      have : PyDict.get? s a = none := PyDict.get?_eq_none.2 h'.1
      rw [this, PyDict.get?_set_self]
      simp [PyDict.get?]
    · rw [PyDict.get?_set_other _ _ (Ne.symm ek)]
      simp [PyDict.get?, ek]

end Jobs

/-- The entry of a log: its name, the parameters in it, and its statistics.  A statistic goes before. -/
theorem C89_entry (f c pr m dp : Str) (s : PyDict Str Str) (h1 : pullParams f = .ok (pr, m, dp)) (h2 : pullStats c = .ok s) :
    ∃ e, logEntry f c = .ok e ∧
      (∀ k v, s.get? k = some v → e.get? k = some v) ∧
      (s.get? "filename".toList = none → e.get? "filename".toList = some f) ∧
      (s.get? "protocol".toList = none → e.get? "protocol".toList = some pr) ∧
      (s.get? "model".toList = none → e.get? "model".toList = some m) ∧
      (s.get? "depth".toList = none → e.get? "depth".toList = some dp) ∧
      ∀ k ∈ e.keys, k ∈ s.keys ∨ k ∈ ["filename".toList, "protocol".toList, "model".toList, "depth".toList] := by
  have hn := pullStats_nodup h2
  refine ⟨_, by simp only [logEntry, h1, h2, ok_bind, pure_eq_ok]; rfl, ?_, ?_, ?_, ?_, ?_, ?_⟩
  · intro k v h
    rw [get?_update hn, h]
    rfl
  · intro h
    rw [get?_update hn, h]
    rfl
  · intro h
    rw [get?_update hn, h]
    rfl
  · intro h
    rw [get?_update hn, h]
    rfl
  · intro h
    rw [get?_update hn, h]
    rfl
  · intro k hk
    by_contra hc
    rw [not_or] at hc
    have : PyDict.get? (s.foldl (fun e kv => e.set kv.1 kv.2) [("filename".toList, f), ("protocol".toList, pr),
        ("model".toList, m), ("depth".toList, dp)]) k = none := by
      rw [get?_update hn, PyDict.get?_eq_none.2 hc.1, PyDict.get?_eq_none.2 hc.2]
      rfl
    exact PyDict.get?_eq_none.1 this hk

/-- The table of all logs has one entry for every name up to the first full stop, that of the log listed last. -/
theorem C89_all_logs (files : List (Str × Str)) (d : PyDict Str (PyDict Str Str)) (h : allLogs files [] = .ok d) :
    (∀ n, n ∈ d.keys ↔ ∃ f ∈ files, ".log".toList <:+: f.1 ∧ stem f.1 = n) ∧
    ∀ a f b, files = a ++ f :: b → ".log".toList <:+: f.1 → (∀ g ∈ b, ".log".toList <:+: g.1 → stem g.1 ≠ stem f.1) →
      ∃ e, logEntry f.1 f.2 = .ok e ∧ d.get? (stem f.1) = some e := by
  have key : ∀ (files : List (Str × Str)) (d0 d : PyDict Str (PyDict Str Str)), allLogs files d0 = .ok d →
      (∀ n, n ∈ d.keys ↔ n ∈ d0.keys ∨ ∃ f ∈ files, ".log".toList <:+: f.1 ∧ stem f.1 = n) ∧
      (∀ n, (∀ g ∈ files, ".log".toList <:+: g.1 → stem g.1 ≠ n) → d.get? n = d0.get? n) ∧
      ∀ a f b, files = a ++ f :: b → ".log".toList <:+: f.1 → (∀ g ∈ b, ".log".toList <:+: g.1 → stem g.1 ≠ stem f.1) →
        ∃ e, logEntry f.1 f.2 = .ok e ∧ d.get? (stem f.1) = some e := by
    intro files
    induction files with
    | nil =>
      intro d0 d h
      cases h
      exact ⟨by simp, fun _ _ => rfl, by simp⟩
    | cons x files ih =>
      intro d0 d h
      obtain ⟨f, c⟩ := x
      rw [allLogs] at h
      by_cases hl : ".log".toList <:+: f
      · rw [if_pos hl, bind_eq_ok] at h
        obtain ⟨e, he, h⟩ := h
        rw [stem_eq] at h
        obtain ⟨i1, i2, i3⟩ := ih _ _ h
        refine ⟨fun n => ?_, fun n hn => ?_, fun a g b hfs hg hb => ?_⟩
        · rw [i1, PyDict.mem_keys_set]
          simp only [List.mem_cons, exists_eq_or_imp, hl, true_and]
          tauto
        · rw [i2 n fun g hg => hn g (List.mem_cons_of_mem _ hg)]
          exact PyDict.get?_set_other _ _ (Ne.symm (hn (f, c) List.mem_cons_self hl))
        · cases a with
          | nil =>
            obtain ⟨rfl, rfl⟩ := List.cons.inj hfs
            exact ⟨e, he, by rw [i2 _ hb]; exact PyDict.get?_set_self _ _ _⟩
          | cons y a => exact i3 a g b (List.cons.inj hfs).2 hg hb
      · rw [if_neg hl] at h
        obtain ⟨i1, i2, i3⟩ := ih _ _ h
        refine ⟨fun n => ?_, fun n hn => ?_, fun a g b hfs hg hb => ?_⟩
        · rw [i1]
          simp only [List.mem_cons, exists_eq_or_imp, hl, false_and, false_or]
        · exact i2 n fun g hg => hn g (List.mem_cons_of_mem _ hg)
        · cases a with
          | nil =>
            obtain ⟨rfl, rfl⟩ := List.cons.inj hfs
            exact absurd hg hl
          | cons y a => exact i3 a g b (List.cons.inj hfs).2 hg hb
  obtain ⟨h1, -, h3⟩ := key files [] d h
  exact ⟨fun n => by rw [h1]; simp, h3⟩

/-- One log that is empty, or whose name has fewer than two hyphens, and there is no table at all. -/
theorem C89_all_logs_raise (files : List (Str × Str)) (f : Str × Str) (hf : f ∈ files) (hl : ".log".toList <:+: f.1)
    (h : f.2 = [] ∨ f.1.count '-' < 2) (d : PyDict Str (PyDict Str Str)) : allLogs files [] ≠ .ok d := by
  have hbad : ∀ e, logEntry f.1 f.2 ≠ .ok e := by
    intro e he
    simp only [logEntry, bind_eq_ok, Prod.exists] at he
    obtain ⟨a, b, c, h1, s, h2, -⟩ := he
    rcases h with h | h
    · rw [h] at h2
      cases h2
    · rw [(C88_params_raises f.1).2 h] at h1
      cases h1
  have key : ∀ (files : List (Str × Str)) (d0 : PyDict Str (PyDict Str Str)), f ∈ files → allLogs files d0 ≠ .ok d := by
    intro files
    induction files with
    | nil => simp
    | cons x files ih =>
      intro d0 hx h
      obtain ⟨g, c⟩ := x
      rw [allLogs] at h
      by_cases hg : ".log".toList <:+: g
      · rw [if_pos hg, bind_eq_ok] at h
        obtain ⟨e, he, h⟩ := h
        rcases List.mem_cons.1 hx with rfl | hx
        · exact hbad e he
        · exact ih _ hx h
      · rw [if_neg hg] at h
        rcases List.mem_cons.1 hx with rfl | hx
        · exact hg hl
        · exact ih _ hx h
  exact key files [] hf

/-- A protocol with a full stop: the logs of all its models and depths have the same name in the table. -/
theorem C89_dotted (a b m m' : Str) (n n' : ℕ) (rest rest' : Str) (ha : '.' ∉ a) :
    stem ((Key.mk (a ++ '.' :: b) m n).text ++ rest) = stem ((Key.mk (a ++ '.' :: b) m' n').text ++ rest') := by
  have key : ∀ s : Str, stem (a ++ '.' :: s) = a := by
    intro s
    rw [stem, List.takeWhile_append_of_pos fun c hc => by
      have : c ≠ '.' := fun e => ha (e ▸ hc)
      simpa using this]
    simp
  simp only [Key.text, List.append_assoc, List.cons_append, key]

/-- A log with two statistics and one line that says nothing. -/
example : pullStats "noise\n    Size:              123 bytes\n    Time:           1.5s\nCompleted run with exit code 0 at: Mon\n".toList =
    .ok [("Size".toList, "123".toList), ("Time".toList, "1.5s".toList), ("Completed run with exit code 0 at".toList, "Mon".toList)] := by
  decide

/-- Two runs of the same job, and the first is not in the table. -/
example : allLogs [("bib-KT-8.1.log".toList, "Size: 5\n".toList), ("bib-KT-8.2.log".toList, "Size: 6\n".toList)] [] =
    .ok [("bib-KT-8".toList, [("filename".toList, "bib-KT-8.2.log".toList), ("protocol".toList, "bib".toList),
      ("model".toList, "KT".toList), ("depth".toList, "8".toList), ("Size".toList, "6".toList)])] := by
  decide

end Verif
