import Verif.Model.CommandLine
import Verif.Proofs.Strings

/-!
# C108: structures on the command line
-/

namespace Verif

open Str CommandLine

namespace CommandLine

variable {other : Str → Cls}

/-- A string that survives the command line: one token that is not taken for an option. -/
def Safe (s : Str) : Prop := ' ' ∉ s ∧ s.head? ≠ some '-'

/-- The values for which the round trip is claimed. -/
def Fits : Kind → PV → Prop
  | .plain, .str s => Safe s
  | .string, .str s => Safe s
  | .integer, .int _ => True
  | .boolean, .bool _ => True
  | _, _ => False

/-- The tokens of one parameter. -/
def tokens (p : Par) (v : PV) : List Str :=
  match p.kind with
  | .boolean => [if truthy v then p.opt else p.off]
  | _ => [p.opt, argText v]

theorem parArg_tokens {p : Par} {v : PV} (h : Fits p.kind v) : parArg p (some v) = .ok (join ' ' (tokens p v)) := by
  unfold parArg tokens
  cases hk : p.kind <;> rw [hk] at h <;> cases v <;> first | exact h.elim | rfl

theorem parArgs_tokens {l : List (Par × PV)} (h : ∀ pv ∈ l, Fits pv.1.kind pv.2) :
    parArgs (l.map fun pv => (pv.1, some pv.2)) = .ok (l.map fun pv => join ' ' (tokens pv.1 pv.2)) := by
  induction l with
  | nil => rfl
  | cons pv l ih =>
    rw [List.forall_mem_cons] at h
    rw [List.map_cons, parArgs, parArg_tokens h.1, ih h.2]
    rfl

theorem tokens_ne_nil (p : Par) (v : PV) : tokens p v ≠ [] := by
  unfold tokens
  cases p.kind <;> simp

theorem join_join_flatMap {α : Type} (c : Char) (f : α → List Str) (hf : ∀ a, f a ≠ []) (l : List α) :
    join c (l.map fun a => join c (f a)) = join c (l.flatMap f) := by
  have happ : ∀ (xs ys : List Str), xs ≠ [] → ys ≠ [] → join c (xs ++ ys) = join c xs ++ c :: join c ys := by
    intro xs ys hx hy
    induction xs with
    | nil => exact absurd rfl hx
    | cons x xs ih =>
      cases xs with
      | nil => rw [List.singleton_append, join_cons hy]; rfl
      | cons x' xs =>
        rw [List.cons_append, join_cons (p := x) (by simp), ih (by simp), join_cons (p := x) (ps := x' :: xs) (by simp)]
        simp
  induction l with
  | nil => rfl
  | cons a l ih =>
    cases l with
    | nil => simp [join]
    | cons b l =>
      have h1 : (List.flatMap f (b :: l)) ≠ [] := by
        rw [List.flatMap_cons]
        simp [hf b]
      rw [List.map_cons, join_cons (by simp), ih, List.flatMap_cons (x := a), happ _ _ (hf a) h1]

theorem find_option {ps : List Par} (hn : ((options ps).map Prod.fst).Nodup) {x : Str × Par × Option Bool} (hx : x ∈ options ps) :
    (options ps).find? (fun y => y.1 = x.1) = some x := by
  generalize options ps = l at hn hx
  induction l with
  | nil => cases hx
  | cons y l ih =>
    rw [List.map_cons, List.nodup_cons] at hn
    rcases List.mem_cons.1 hx with rfl | hx
    · simp
    · have hne : y.1 ≠ x.1 := fun e => hn.1 (e ▸ List.mem_map_of_mem hx)
      rw [List.find?_cons_of_neg (by simpa using hne)]
      exact ih hn.2 hx

theorem mem_options {ps : List Par} {p : Par} (hp : p ∈ ps) {x : Str × Par × Option Bool} (hx : x ∈ p.options) : x ∈ options ps :=
  List.mem_flatMap.2 ⟨p, hp, hx⟩

theorem opt_mem (p : Par) : ∃ b, (p.opt, p, b) ∈ p.options := by
  unfold Par.options
  cases p.kind <;> simp

/-- Different parameters have different names. -/
theorem name_inj {ps : List Par} (hn : ((options ps).map Prod.fst).Nodup) {p q : Par} (hp : p ∈ ps) (hq : q ∈ ps) (h : p.name = q.name) : p = q := by
  obtain ⟨b, hb⟩ := opt_mem p
  obtain ⟨c, hc⟩ := opt_mem q
  have h1 := find_option hn (mem_options hp hb)
  have h2 := find_option hn (mem_options hq hc)
  have : p.opt = q.opt := by rw [Par.opt, Par.opt, h]
  simp only [this] at h1 h2
  rw [h1] at h2
  have := Option.some.inj h2
  exact congrArg (fun x : Str × Par × Option Bool => x.2.1) this

theorem classify_opt {ps : List Par} {x : Str × Par × Option Bool} (hx : x ∈ options ps) (hh : x.1.head? = some '-') :
    classify other ((options ps).map Prod.fst) x.1 = .known x.1 none := by
  unfold classify
  rw [if_neg (not_not.2 hh), if_pos (List.mem_map_of_mem hx)]

/-- Every option begins with two hyphens. -/
theorem option_form {ps : List Par} {o : Str} (h : o ∈ (options ps).map Prod.fst) : ∃ r, o = '-' :: '-' :: r := by
  obtain ⟨x, hx, rfl⟩ := List.mem_map.1 h
  obtain ⟨p, -, hp⟩ := List.mem_flatMap.1 hx
  unfold Par.options at hp
  cases hk : p.kind <;> rw [hk] at hp <;> simp only [List.mem_cons, List.not_mem_nil, or_false] at hp
  all_goals (try rcases hp with rfl | rfl) <;> (try subst hp) <;> exact ⟨_, rfl⟩

theorem not_option_ofInt {ps : List Par} (n : ℤ) : ofInt n ∉ (options ps).map Prod.fst := by
  intro h
  obtain ⟨r, hr⟩ := option_form h
  unfold ofInt at hr
  have hd : ('-' : Char).isDigit = false := by decide
  split_ifs at hr
  · have : '-' ∈ ofNat n.natAbs := by
      rw [(List.cons.inj hr).2]
      exact List.mem_cons_self
    exact not_mem_ofNat hd _ this
  · exact not_mem_ofNat hd n.natAbs (hr ▸ List.mem_cons_self)

theorem pyInt_ofInt (n : ℤ) : pyInt (ofInt n) = .ok n := by
  unfold ofInt
  by_cases hn : n < 0
  · rw [if_pos hn]
    have hsp : ∀ c ∈ '-' :: ofNat n.natAbs, isSpace c = false := by
      intro c hc
      rcases List.mem_cons.1 hc with rfl | hc
      · decide
      · exact isSpace_of_isDigit (isDigit_of_mem_ofNat hc)
    unfold pyInt
    rw [strip_of hsp]
    have h1 := pyInt_ofNat n.natAbs
    have h2 := unsigned_digits (ofNat_ne_nil n.natAbs) fun c hc => isDigit_of_mem_ofNat hc
    have h3 := pyInt_digits (ofNat_ne_nil n.natAbs) fun c hc => isDigit_of_mem_ofNat hc
    rw [h1] at h3
    simp only [h2]
    have h4 := Except.ok.inj h3
    change (Except.ok (-(_ : ℤ)) : Py ℤ) = _
    rw [← h4, Except.ok.injEq]
    omega
  · rw [if_neg hn, pyInt_ofNat, Except.ok.injEq]
    omega

/-- The function for other tokens takes negative integers for values, as `argparse` does if no option looks like one. -/
def Negatives (other : Str → Cls) : Prop := ∀ n : ℤ, n < 0 → other (ofInt n) = .value

theorem classify_text {ps : List Par} (ho : Negatives other) {p : Par} {v : PV} (h : Fits p.kind v) (hk : p.kind ≠ .boolean) :
    classify other ((options ps).map Prod.fst) (argText v) = .value ∧ convertArg p (argText v) = .ok v := by
  have hstr : ∀ s, Safe s → classify other ((options ps).map Prod.fst) s = .value := fun s hs => by
    unfold classify
    rw [if_pos hs.2]
  cases hkind : p.kind <;> rw [hkind] at h hk <;> cases v <;> first | exact h.elim | skip
  · exact ⟨hstr _ h, by simp [convertArg, hkind, argText]⟩
  · exact ⟨hstr _ h, by simp [convertArg, hkind, argText]⟩
  · rename_i n
    have ht : argText (.int n) = ofInt n := filter_ofInt n
    rw [ht]
    constructor
    · unfold classify
      by_cases hn : n < 0
      · split_ifs with h1 h2
        · rfl
        · exact absurd h2 (not_option_ofInt n)
        · exact ho n hn
      · have hne : (ofInt n).head? ≠ some '-' := by
          unfold ofInt
          rw [if_neg hn]
          intro hh
          exact not_mem_ofNat (by decide) n.natAbs (List.mem_of_mem_head? hh)
        rw [if_pos hne]
    · simp only [convertArg, hkind]
      have : pyInt (ofInt n) = .ok n := pyInt_ofInt n
      rw [this]
  · exact absurd rfl hk

/-- Parsing the tokens of some of the parameters, with no flag of theirs seen before. -/
theorem parseArgs_tokens {ps : List Par} (hn : ((options ps).map Prod.fst).Nodup) (ho : Negatives other) (l : List (Par × PV))
    (hl : ∀ pv ∈ l, pv.1 ∈ ps ∧ Fits pv.1.kind pv.2) (hd : (l.map fun pv => pv.1.name).Nodup) (d : PyDict Str PV) (seen : List Str)
    (hs : ∀ o ∈ seen, ∃ q ∈ ps, (o = q.opt ∨ o = q.off) ∧ q.kind = .boolean ∧ ∀ pv ∈ l, pv.1.name ≠ q.name) :
    parseArgs other ps (l.flatMap fun pv => tokens pv.1 pv.2) d seen = .ok (l.foldl (fun d pv => d.set pv.1.name pv.2) d) := by
  induction l generalizing d seen with
  | nil => simp [parseArgs]
  | cons pv l ih =>
    obtain ⟨p, v⟩ := pv
    rw [List.forall_mem_cons] at hl
    obtain ⟨⟨hp, hf⟩, hl⟩ := hl
    rw [List.map_cons, List.nodup_cons] at hd
    have hrest : ∀ seen', (∀ o ∈ seen', ∃ q ∈ ps, (o = q.opt ∨ o = q.off) ∧ q.kind = .boolean ∧ ∀ pv ∈ l, pv.1.name ≠ q.name) →
        parseArgs other ps (l.flatMap fun pv => tokens pv.1 pv.2) (d.set p.name v) seen' =
          .ok (l.foldl (fun d pv => d.set pv.1.name pv.2) (d.set p.name v)) := fun seen' h' => ih hl hd.2 _ _ h'
    rw [List.flatMap_cons, List.foldl_cons]
    by_cases hk : p.kind = .boolean
    · obtain ⟨b, rfl⟩ : ∃ b, v = .bool b := by
        rw [hk] at hf
        cases v <;> first | exact hf.elim | exact ⟨_, rfl⟩
      set o : Str := if b then p.opt else p.off with hodef
      have htok : tokens p (.bool b) = [o] := by simp only [tokens, hk, truthy, hodef]; rfl
      have hx : (o, p, some b) ∈ options ps := by
        refine mem_options hp ?_
        unfold Par.options
        rw [hk]
        cases b <;> simp [hodef]
      have hhead : o.head? = some '-' := by
        rw [hodef]
        cases b <;> rfl
      have hconf : conflict p o seen = false := by
        unfold conflict
        rw [List.any_eq_false]
        intro s hsm
        obtain ⟨q, hq, hsq, hqk, hqn⟩ := hs s hsm
        have hpq : p.name ≠ q.name := hqn _ List.mem_cons_self
        simp only [Bool.and_eq_true, Bool.or_eq_true, decide_eq_true_eq, not_and]
        rintro - hsp
        have hsq' : ∃ c, (s, q, some c) ∈ options ps := by
          rcases hsq with rfl | rfl
          · exact ⟨true, mem_options hq (by unfold Par.options; rw [hqk]; simp)⟩
          · exact ⟨false, mem_options hq (by unfold Par.options; rw [hqk]; simp)⟩
        have hsp' : ∃ c, (s, p, some c) ∈ options ps := by
          rcases hsp with rfl | rfl
          · exact ⟨true, mem_options hp (by unfold Par.options; rw [hk]; simp)⟩
          · exact ⟨false, mem_options hp (by unfold Par.options; rw [hk]; simp)⟩
        obtain ⟨c, hc⟩ := hsq'
        obtain ⟨c', hc'⟩ := hsp'
        have h1 := find_option hn hc
        have h2 := find_option hn hc'
        rw [h1] at h2
        have := congrArg (fun x : Str × Par × Option Bool => x.2.1) (Option.some.inj h2)
        exact hpq (congrArg Par.name this).symm
      rw [htok, List.singleton_append, parseArgs, classify_opt hx hhead]
      have hfind := find_option hn hx
      simp only at hfind ⊢
      rw [hfind]
      simp only [Option.isSome_none, hconf, Bool.or_self, Bool.false_eq_true, if_false]
      refine hrest _ fun s hsm => ?_
      rcases List.mem_cons.1 hsm with rfl | hsm
      · refine ⟨p, hp, ?_, hk, fun pv hpv e => hd.1 (e ▸ List.mem_map_of_mem (f := fun pv : Par × PV => pv.1.name) hpv)⟩
        rw [hodef]
        cases b
        · exact Or.inr rfl
        · exact Or.inl rfl
      · obtain ⟨q, hq, hsq, hqk, hqn⟩ := hs s hsm
        exact ⟨q, hq, hsq, hqk, fun pv hpv => hqn pv (List.mem_cons_of_mem _ hpv)⟩
    · have htok : tokens p v = [p.opt, argText v] := by
        unfold tokens
        cases h : p.kind <;> first | rfl | exact absurd h hk
      have hx : (p.opt, p, none) ∈ options ps := by
        refine mem_options hp ?_
        unfold Par.options
        cases h : p.kind <;> first | exact absurd h hk | simp
      obtain ⟨hc, hv⟩ := classify_text (ps := ps) ho hf hk
      have hfind := find_option hn hx
      simp only at hfind
      have happ : [p.opt, argText v] ++ (l.flatMap fun pv => tokens pv.1 pv.2) = p.opt :: argText v :: l.flatMap fun pv => tokens pv.1 pv.2 := rfl
      rw [htok, happ, parseArgs, classify_opt hx rfl]
      simp only [hfind, hc, hv, if_true]
      refine hrest _ fun s hsm => ?_
      obtain ⟨q, hq, hsq, hqk, hqn⟩ := hs s hsm
      exact ⟨q, hq, hsq, hqk, fun pv hpv => hqn pv (List.mem_cons_of_mem _ hpv)⟩

theorem get?_foldl_set {l : List (Par × PV)} (hd : (l.map fun pv => pv.1.name).Nodup) (d : PyDict Str PV) {pv : Par × PV} (h : pv ∈ l) :
    (l.foldl (fun d pv => d.set pv.1.name pv.2) d).get? pv.1.name = some pv.2 := by
  have hkeep : ∀ (l : List (Par × PV)) (d : PyDict Str PV) (k : Str), (∀ x ∈ l, x.1.name ≠ k) →
      (l.foldl (fun d pv => d.set pv.1.name pv.2) d).get? k = d.get? k := by
    intro l
    induction l with
    | nil => exact fun _ _ _ => rfl
    | cons x l ih =>
      intro d k hk
      rw [List.forall_mem_cons] at hk
      rw [List.foldl_cons, ih _ _ hk.2, PyDict.get?_set_other _ _ (Ne.symm hk.1)]
  induction l generalizing d with
  | nil => cases h
  | cons x l ih =>
    rw [List.map_cons, List.nodup_cons] at hd
    rw [List.foldl_cons]
    rcases List.mem_cons.1 h with rfl | h
    · rw [hkeep l _ pv.1.name fun y hy e => hd.1 (e ▸ List.mem_map_of_mem (f := fun pv : Par × PV => pv.1.name) hy), PyDict.get?_set_self]
    · exact ih hd.2 _ h

theorem convertVal_fits {p : Par} {v : PV} (h : Fits p.kind v) : convertVal p v = .ok v := by
  unfold convertVal
  cases hk : p.kind <;> rw [hk] at h <;> cases v <;> first | exact h.elim | rfl

/-- The full claim: what is written on the command line is read back. -/
def RoundTrip (other : Str → Cls) (l : List (Par × Option PV)) : Prop :=
  ∀ s, argString l = .ok s → (fromString other (l.map Prod.fst) s).map (List.map some) = .ok (l.map Prod.snd)

end CommandLine

variable (other : Str → Cls)

/-- **C108 (round trip, partial).** If all attributes are there, strings are single tokens that do not begin with a hyphen, and values that are not strings
belong to parameters of their type, a structure is read back from its command line.  It is false otherwise, see the following theorems. -/
theorem C108_roundtrip_partial (ho : Negatives other) (l : List (Par × PV)) (hn : ((options (l.map Prod.fst)).map Prod.fst).Nodup)
    (hsp : ∀ pv ∈ l, ' ' ∉ pv.1.name) (hf : ∀ pv ∈ l, Fits pv.1.kind pv.2) : RoundTrip other (l.map fun pv => (pv.1, some pv.2)) := by
  intro s hs
  have hfst : (l.map fun pv => (pv.1, some pv.2)).map Prod.fst = l.map Prod.fst := by simp
  have hsnd : (l.map fun pv => (pv.1, some pv.2)).map Prod.snd = (l.map Prod.snd).map some := by simp
  rw [hfst, hsnd]
  have hd : (l.map fun pv => pv.1.name).Nodup := by
    have h1 : ∀ (ps : List Par), ((options ps).map Prod.fst).Nodup → (ps.map Par.name).Nodup := by
      intro ps h
      induction ps with
      | nil => simp
      | cons p ps ih =>
        have hcons : options (p :: ps) = p.options ++ options ps := rfl
        have h' := h
        rw [hcons, List.map_append, List.nodup_append] at h'
        rw [List.map_cons, List.nodup_cons]
        refine ⟨fun hm => ?_, ih h'.2.1⟩
        obtain ⟨q, hq, hqn⟩ := List.mem_map.1 hm
        obtain ⟨b, hb⟩ := opt_mem p
        obtain ⟨c, hc⟩ := opt_mem q
        refine h'.2.2 _ (List.mem_map_of_mem hb) _ (List.mem_map_of_mem (mem_options hq hc)) ?_
        simp only [Par.opt, hqn]
    have := h1 _ hn
    rwa [List.map_map] at this
  rw [argString, parArgs_tokens hf, ok_bind] at hs
  obtain rfl := Except.ok.inj hs
  have hsplit : parseArgs other (l.map Prod.fst) (split ' ' (join ' ' (l.map fun pv => join ' ' (tokens pv.1 pv.2)))) [] [] =
      .ok (l.foldl (fun d pv => d.set pv.1.name pv.2) []) := by
    rw [join_join_flatMap ' ' (fun pv : Par × PV => tokens pv.1 pv.2) (fun pv => tokens_ne_nil _ _)]
    cases l with
    | nil => simp [join, split, parseArgs, classify]
    | cons pv l' =>
      rw [split_join]
      · exact parseArgs_tokens hn ho _ (fun pv hpv => ⟨List.mem_map_of_mem hpv, hf pv hpv⟩) hd _ _ (fun o h => (nomatch h))
      · rw [List.flatMap_cons]
        simp [tokens_ne_nil]
      · intro t ht
        obtain ⟨qv, hqv, ht⟩ := List.mem_flatMap.1 ht
        have hname := hsp qv hqv
        have hfit := hf qv hqv
        have hopt : ' ' ∉ qv.1.opt := by simp [Par.opt, hname]
        have hoff : ' ' ∉ qv.1.off := by
          have : ' ' ∉ "_off".toList := by decide
          simp only [Par.off, List.mem_append, List.mem_cons, not_or]
          exact ⟨⟨by decide, by decide, hname⟩, this⟩
        unfold tokens at ht
        cases hk : qv.1.kind <;> rw [hk] at ht hfit <;> cases hv : qv.2 <;> rw [hv] at hfit ht <;> first | exact hfit.elim | skip
        · rcases List.mem_cons.1 ht with rfl | ht
          · exact hopt
          · rw [List.mem_singleton.1 ht]
            exact hfit.1
        · rcases List.mem_cons.1 ht with rfl | ht
          · exact hopt
          · rw [List.mem_singleton.1 ht]
            exact hfit.1
        · rename_i n
          rcases List.mem_cons.1 ht with rfl | ht
          · exact hopt
          · rw [List.mem_singleton.1 ht]
            intro hm
            have := (List.mem_filter.1 hm).2
            exact absurd this (by decide)
        · rw [List.mem_singleton.1 ht]
          split_ifs
          · exact hopt
          · exact hoff
  rw [fromString, fromArgs, hsplit, ok_bind]
  have hentries : ∀ l' : List (Par × PV), (∀ pv ∈ l', pv ∈ l) →
      entries (l.foldl (fun d pv => d.set pv.1.name pv.2) []) (l'.map Prod.fst) = .ok (l'.map Prod.snd) := by
    intro l'
    induction l' with
    | nil => exact fun _ => rfl
    | cons pv l' ih =>
      intro h
      rw [List.forall_mem_cons] at h
      rw [List.map_cons, entries, entry, get?_foldl_set hd _ h.1, ih h.2]
      rfl
  rw [hentries l fun _ h => h, ok_bind]
  have hz : (l.map Prod.fst).zip (l.map Prod.snd) = l := by
    rw [← List.unzip_fst, ← List.unzip_snd, List.zip_unzip]
  have hfrom : ∀ l' : List (Par × PV), (∀ pv ∈ l', Fits pv.1.kind pv.2) → fromEntries l' = .ok (l'.map Prod.snd) := by
    intro l'
    induction l' with
    | nil => exact fun _ => rfl
    | cons pv l' ih =>
      intro h
      rw [List.forall_mem_cons] at h
      rw [fromEntries, convertVal_fits h.1, ih h.2]
      rfl
  rw [hz, hfrom l hf]
  rfl

namespace CommandLine

/-- A class with one parameter whose values are strings. -/
theorem fromString_one {p : Par} (hk : p.kind = .plain ∨ p.kind = .string) (hn : ' ' ∉ p.name) {t a : Str} {ts : List Str} (hs : split ' ' t = a :: ts)
    (ha : classify other [p.opt] a = .value) (hts : ∀ u ∈ ts, u.head? ≠ some '-') :
    fromString other [p] (p.opt ++ ' ' :: t) = .ok [.str a] := by
  have hopt : ' ' ∉ p.opt := by simp [Par.opt, hn]
  have hopts : options [p] = [(p.opt, p, none)] := by
    rcases hk with hk | hk <;> simp [options, Par.options, hk]
  have hkeys : (options [p]).map Prod.fst = [p.opt] := by rw [hopts]; rfl
  have hsplit : split ' ' (p.opt ++ ' ' :: t) = p.opt :: a :: ts := by
    rw [split_append_cons, split_of_not_mem hopt, hs]
    rfl
  have hskip : ∀ (ts : List Str) (d : PyDict Str PV), (∀ t ∈ ts, t.head? ≠ some '-') → parseArgs other [p] ts d [] = .ok d := by
    intro ts
    induction ts with
    | nil => intro d _; rw [parseArgs]
    | cons t ts ih =>
      intro d h
      rw [List.forall_mem_cons] at h
      rw [parseArgs, classify, if_pos h.1]
      exact ih d h.2
  have hconv : convertArg p a = .ok (.str a) := by
    rcases hk with hk | hk <;> simp [convertArg, hk]
  have hcls : classify other ((options [p]).map Prod.fst) p.opt = .known p.opt none := by
    rw [hkeys, classify, if_neg (by simp [Par.opt]), if_pos (by simp)]
  have hfind : (options [p]).find? (fun x => x.1 = p.opt) = some (p.opt, p, none) := by
    rw [hopts]
    simp
  have hparse : parseArgs other [p] (p.opt :: a :: ts) [] [] = .ok [(p.name, .str a)] := by
    rw [parseArgs, hcls]
    have hset : PyDict.set ([] : PyDict Str PV) p.name (.str a) = [(p.name, .str a)] := rfl
    simp only [hfind, hkeys, ha, hconv, if_true]
    rw [hset]
    exact hskip ts [(p.name, .str a)] hts
  have hentry : entry [(p.name, .str a)] p = .ok (.str a) := by simp [entry, PyDict.get?]
  have hval : convertVal p (.str a) = .ok (.str a) := by
    unfold convertVal
    rcases hk with hk | hk <;> rw [hk] <;> rfl
  rw [fromString, hsplit, fromArgs, hparse, ok_bind, entries, hentry, ok_bind, entries, ok_bind, ok_bind, List.zip_cons_cons, List.zip_nil_right,
    fromEntries, hval, ok_bind, fromEntries, ok_bind]

end CommandLine

/-- **C108 (spaces).** A string with a space is cut off at the space. -/
theorem C108_space (p : Par) (a b : Str) (hk : p.kind = .string) (hn : ' ' ∉ p.name) (ha : Safe a) (hb : ∀ t ∈ split ' ' b, t.head? ≠ some '-') :
    ∃ s, argString [(p, some (.str (a ++ ' ' :: b)))] = .ok s ∧ fromString other [p] s = .ok [.str a] := by
  refine ⟨p.opt ++ ' ' :: (a ++ ' ' :: b), by simp [argString, parArgs, parArg, hk, argText, join], ?_⟩
  refine fromString_one other (Or.inr hk) hn (ts := split ' ' b) ?_ ?_ hb
  · rw [split_append_cons, split_of_not_mem ha.1]
    rfl
  · rw [classify, if_pos ha.2]

/-- **C108 (missing attributes).** An attribute that is not there is read back as `None`, as the string `None` for a string, and raises TypeError for an
integer.  A Boolean that is not there raises AttributeError when written, and is read as true from a command line without it. -/
theorem C108_missing (n : Str) :
    argString [(⟨n, .plain, false, none⟩, none)] = .ok [] ∧ fromString other [⟨n, .plain, false, none⟩] [] = .ok [.none] ∧
    fromString other [⟨n, .string, false, none⟩] [] = .ok [.str "None".toList] ∧
    fromString other [⟨n, .integer, false, none⟩] [] = .error (.raised .typeError) ∧
    argString [(⟨n, .boolean, false, none⟩, none)] = .error .attributeError ∧
    fromString other [⟨n, .boolean, false, none⟩] [] = .ok [.bool true] := by
  have hparse : ∀ p : Par, parseArgs other [p] [[]] [] [] = .ok [] := by
    intro p
    have h : classify other ((options [p]).map Prod.fst) [] = .value := by simp [classify]
    rw [parseArgs, h]
    dsimp only
    rw [parseArgs]
  have hgen : ∀ p : Par, p.required = false → fromString other [p] [] = (defaultOf p >>= fun v => convertVal p v >>= fun w => .ok [w]) := by
    intro p hr
    have hs : split ' ' [] = [[]] := rfl
    have hentry : entry [] p = defaultOf p := by simp [entry, PyDict.get?, hr]
    rw [fromString, hs, fromArgs, hparse, ok_bind, entries, hentry]
    cases defaultOf p with
    | error e => rfl
    | ok v =>
      rw [ok_bind, ok_bind, entries, ok_bind, ok_bind, List.zip_cons_cons, List.zip_nil_right, fromEntries]
      rfl
  refine ⟨rfl, ?_, ?_, ?_, rfl, ?_⟩ <;> rw [hgen _ rfl] <;> rfl

/-- **C108 (untyped parameters).** A value of an untyped parameter that is not a string comes back as a string. -/
theorem C108_untyped (ho : Negatives other) (p : Par) (k : ℤ) (hk : p.kind = .plain) (hn : ' ' ∉ p.name) :
    (∃ s, argString [(p, some (.int k))] = .ok s ∧ fromString other [p] s = .ok [.str (ofInt k)]) ∧
    (∃ s, argString [(p, some .none)] = .ok s ∧ fromString other [p] s = .ok [.str "None".toList]) ∧
    (∃ s, argString [(p, some (.bool true))] = .ok s ∧ fromString other [p] s = .ok [.str "True".toList]) ∧
    ∃ s, argString [(p, some (.bool false))] = .ok s ∧ fromString other [p] s = .ok [.str "False".toList] := by
  have hopts : (options [p]).map Prod.fst = [p.opt] := by simp [options, Par.options, hk]
  have hint := (classify_text (ps := [p]) ho (p := ⟨[], .integer, false, none⟩) (v := .int k) trivial (by simp)).1
  have htext : argText (.int k) = ofInt k := filter_ofInt k
  rw [htext, hopts] at hint
  have hsp : ' ' ∉ ofInt k := by
    rw [← htext]
    intro hm
    exact absurd (List.mem_filter.1 hm).2 (by decide)
  refine ⟨⟨p.opt ++ ' ' :: ofInt k, ?_, ?_⟩, ⟨p.opt ++ ' ' :: "None".toList, ?_, ?_⟩, ⟨p.opt ++ ' ' :: "True".toList, ?_, ?_⟩,
    ⟨p.opt ++ ' ' :: "False".toList, ?_, ?_⟩⟩
  · rw [← htext]
    simp [argString, parArgs, parArg, hk, join]
  · exact fromString_one other (Or.inl hk) hn (split_of_not_mem hsp) hint (fun u hu => (nomatch hu))
  · have : argText .none = "None".toList := by decide
    rw [← this]
    simp [argString, parArgs, parArg, hk, join]
  · exact fromString_one other (Or.inl hk) hn (split_of_not_mem (by decide)) (by rw [classify, if_pos (by decide)]) (fun u hu => (nomatch hu))
  · have : argText (.bool true) = "True".toList := by decide
    rw [← this]
    simp [argString, parArgs, parArg, hk, join]
  · exact fromString_one other (Or.inl hk) hn (split_of_not_mem (by decide)) (by rw [classify, if_pos (by decide)]) (fun u hu => (nomatch hu))
  · have : argText (.bool false) = "False".toList := by decide
    rw [← this]
    simp [argString, parArgs, parArg, hk, join]
  · exact fromString_one other (Or.inl hk) hn (split_of_not_mem (by decide)) (by rw [classify, if_pos (by decide)]) (fun u hu => (nomatch hu))

/-- **C108 (other values of Boolean parameters).** Any value of a Boolean parameter comes back as a Boolean, whether it is true in Python: a number unless it
is zero, a string unless it is empty, and never `None`. -/
theorem C108_boolean_values (ho : Negatives other) (p : Par) (hk : p.kind = .boolean) (hn : ' ' ∉ p.name) :
    (∀ n : ℤ, ∃ s, argString [(p, some (.int n))] = .ok s ∧ fromString other [p] s = .ok [.bool (decide (n ≠ 0))]) ∧
    (∀ t : Str, ∃ s, argString [(p, some (.str t))] = .ok s ∧ fromString other [p] s = .ok [.bool (decide (t ≠ []))]) ∧
    ∃ s, argString [(p, some .none)] = .ok s ∧ fromString other [p] s = .ok [.bool false] := by
  have hne : p.opt ≠ p.off := by
    intro e
    have := congrArg List.length e
    simp [Par.opt, Par.off] at this
  have key : ∀ (v : PV) (b : Bool), truthy v = b → ∃ s, argString [(p, some v)] = .ok s ∧ fromString other [p] s = .ok [.bool b] := by
    intro v b hv
    have h := C108_roundtrip_partial other ho [(p, .bool b)] (by simp [options, Par.options, hk, hne, hne.symm]) (by simpa using hn)
      (by simp [hk, Fits])
    have h1 : argString [(p, some (.bool b))] = .ok (if b then p.opt else p.off) := by
      cases b <;> simp [argString, parArgs, parArg, hk, truthy, join]
    have h2 : argString [(p, some v)] = .ok (if b then p.opt else p.off) := by
      cases b <;> simp [argString, parArgs, parArg, hk, hv, join]
    have h3 := h _ h1
    refine ⟨_, h2, ?_⟩
    simp only [List.map_cons, List.map_nil] at h3
    generalize fromString other [p] (if b then p.opt else p.off) = q at h3 ⊢
    match q, h3 with
    | .ok [x], h3 => simpa [Except.map] using h3
  exact ⟨fun n => key _ _ rfl, fun t => key _ _ rfl, key _ _ rfl⟩

/-- **C108 (hyphens).** A string that begins with a hyphen and is neither an option nor a number cannot be read back: `argparse` exits. -/
theorem C108_hyphen (p : Par) (t : Str) (hk : p.kind = .string) (hn : ' ' ∉ p.name) (ht : ' ' ∉ t) (hh : t.head? = some '-') (hne : t ≠ p.opt)
    (ho : other t = .unknown) :
    ∃ s, argString [(p, some (.str t))] = .ok s ∧ fromString other [p] s = .error .exit := by
  refine ⟨p.opt ++ ' ' :: t, by simp [argString, parArgs, parArg, hk, argText, join], ?_⟩
  have hopt : ' ' ∉ p.opt := by simp [Par.opt, hn]
  have hsplit : split ' ' (p.opt ++ ' ' :: t) = [p.opt, t] := by
    rw [split_append_cons, split_of_not_mem hopt, split_of_not_mem ht]
    rfl
  have hopts : options [p] = [(p.opt, p, none)] := by simp [options, Par.options, hk]
  have hkeys : (options [p]).map Prod.fst = [p.opt] := by rw [hopts]; rfl
  have hcls : classify other ((options [p]).map Prod.fst) p.opt = .known p.opt none := by
    rw [hkeys, classify, if_neg (by simp [Par.opt]), if_pos (by simp)]
  have hfind : (options [p]).find? (fun x => x.1 = p.opt) = some (p.opt, p, none) := by
    rw [hopts]
    simp
  have hval : classify other [p.opt] t = .unknown := by
    rw [classify, if_neg (not_not.2 hh), if_neg (by simpa using hne), ho]
  have hparse : parseArgs other [p] [p.opt, t] [] [] = .error .exit := by
    rw [parseArgs, hcls]
    simp [hfind, hkeys, hval]
  rw [fromString, hsplit, fromArgs, hparse]
  rfl

/-- **C108 (required parameters with a default).** On the command line they must be given, the default is not used. -/
theorem C108_required_default (p : Par) (hr : p.required = true) (hk : p.kind ≠ .boolean) : fromString other [p] [] = .error .exit := by
  have hs : split ' ' [] = [[]] := rfl
  have h : classify other ((options [p]).map Prod.fst) [] = .value := by simp [classify]
  have hentry : entry [] p = .error .exit := by simp [entry, PyDict.get?, hr, hk]
  rw [fromString, hs, fromArgs, parseArgs, h]
  dsimp only
  rw [parseArgs, ok_bind, entries, hentry]
  rfl

/-- **C108 (exclusive options).** If both options of a Boolean parameter are given, in any order and between any other tokens, then `argparse` exits. -/
theorem C108_exclusive (ps : List Par) (hn : ((options ps).map Prod.fst).Nodup) (p : Par) (hp : p ∈ ps) (hk : p.kind = .boolean) (ts : List Str)
    (h1 : p.opt ∈ ts) (h2 : p.off ∈ ts) : fromArgs other ps ts = .error .exit := by
  have hm1 : (p.opt, p, some true) ∈ options ps := mem_options hp (by simp [Par.options, hk])
  have hm2 : (p.off, p, some false) ∈ options ps := mem_options hp (by simp [Par.options, hk])
  have hne : p.opt ≠ p.off := by
    intro e
    have := congrArg List.length e
    simp [Par.opt, Par.off] at this
  have hc1 := classify_opt (other := other) hm1 rfl
  have hc2 := classify_opt (other := other) hm2 rfl
  have hf1 := find_option hn hm1
  have hf2 := find_option hn hm2
  have hconv : ∀ (q : Par) (a : Str) (e : Stop), convertArg q a = .error e → e = .exit := by
    intro q a e h
    unfold convertArg at h
    split at h
    · split at h
      · simp at h
      · exact (Except.error.inj h).symm
    · simp at h
  have key : ∀ (n : ℕ) (ts : List Str), ts.length = n → ∀ (d : PyDict Str PV) (seen : List Str), (p.opt ∈ ts ∨ p.opt ∈ seen) → (p.off ∈ ts ∨ p.off ∈ seen) →
      (p.opt ∈ ts ∨ p.off ∈ ts) → parseArgs other ps ts d seen = .error .exit := by
    intro n
    induction n using Nat.strong_induction_on with
    | _ n ih =>
      intro ts hlen d seen a1 a2 a3
      cases ts with
      | nil => simp at a3
      | cons t ts =>
        rw [List.length_cons] at hlen
        by_cases e1 : t = p.opt
        · subst e1
          rw [parseArgs, hc1]
          dsimp only
          rw [hf1]
          dsimp only
          by_cases hs : p.off ∈ seen
          · rw [if_pos]
            simp only [Option.isSome_none, Bool.false_or, conflict, List.any_eq_true]
            exact ⟨p.off, hs, by simp [hne.symm]⟩
          · have hts : p.off ∈ ts := by
              rcases a2 with a2 | a2
              · exact (List.mem_cons.1 a2).resolve_left hne.symm
              · exact absurd a2 hs
            split_ifs
            · rfl
            · exact ih _ (by omega) ts rfl _ _ (Or.inr (by simp)) (Or.inl hts) (Or.inr hts)
        by_cases e2 : t = p.off
        · subst e2
          rw [parseArgs, hc2]
          dsimp only
          rw [hf2]
          dsimp only
          by_cases hs : p.opt ∈ seen
          · rw [if_pos]
            simp only [Option.isSome_none, Bool.false_or, conflict, List.any_eq_true]
            exact ⟨p.opt, hs, by simp [hne]⟩
          · have hts : p.opt ∈ ts := by
              rcases a1 with a1 | a1
              · exact (List.mem_cons.1 a1).resolve_left hne
              · exact absurd a1 hs
            split_ifs
            · rfl
            · exact ih _ (by omega) ts rfl _ _ (Or.inl hts) (Or.inr (by simp)) (Or.inl hts)
        have b1 : p.opt ∈ ts ∨ p.opt ∈ seen := a1.imp_left fun h => (List.mem_cons.1 h).resolve_left (Ne.symm e1)
        have b2 : p.off ∈ ts ∨ p.off ∈ seen := a2.imp_left fun h => (List.mem_cons.1 h).resolve_left (Ne.symm e2)
        have b3 : p.opt ∈ ts ∨ p.off ∈ ts :=
          a3.imp (fun h => (List.mem_cons.1 h).resolve_left (Ne.symm e1)) fun h => (List.mem_cons.1 h).resolve_left (Ne.symm e2)
        have rest : ∀ d seen', (∀ x ∈ seen, x ∈ seen') → parseArgs other ps ts d seen' = .error .exit := fun d seen' hsub =>
          ih _ (by omega) ts rfl d seen' (b1.imp_right (hsub _)) (b2.imp_right (hsub _)) b3
        rw [parseArgs]
        split
        · exact rest _ _ fun _ h => h
        · exact rest _ _ fun _ h => h
        · split
          · rfl
          · split_ifs
            · rfl
            · exact rest _ _ fun x h => by simp [h]
          · split
            · split
              · rename_i h
                rw [hconv _ _ _ h]
              · exact rest _ _ fun _ h => h
            · split
              · rfl
              · rename_i _ u us
                split_ifs with hv
                · split
                  · rename_i h
                    rw [hconv _ _ _ h]
                  · have n1 : u ≠ p.opt := by
                      rintro rfl
                      rw [hc1] at hv
                      cases hv
                    have n2 : u ≠ p.off := by
                      rintro rfl
                      rw [hc2] at hv
                      cases hv
                    refine ih _ (by simp only [List.length_cons] at hlen; omega) us rfl _ _ ?_ ?_ ?_
                    · exact b1.imp_left fun h => (List.mem_cons.1 h).resolve_left (Ne.symm n1)
                    · exact b2.imp_left fun h => (List.mem_cons.1 h).resolve_left (Ne.symm n2)
                    · exact b3.imp (fun h => (List.mem_cons.1 h).resolve_left (Ne.symm n1)) fun h => (List.mem_cons.1 h).resolve_left (Ne.symm n2)
                · rfl
  rw [fromArgs, key _ ts rfl [] [] (Or.inl h1) (Or.inl h2) (Or.inl h1)]
  rfl

/-- **C108 (bad integers).** If what follows the option of an integer is not an integer, then `argparse` exits, whatever comes after it. -/
theorem C108_bad_integer (ps : List Par) (hn : ((options ps).map Prod.fst).Nodup) (p : Par) (hp : p ∈ ps) (hk : p.kind = .integer) (a : Str) (ts : List Str)
    (ha : a.head? ≠ some '-') (e : PyErr) (hi : pyInt a = .error e) : fromArgs other ps (p.opt :: a :: ts) = .error .exit := by
  have hm : (p.opt, p, none) ∈ options ps := mem_options hp (by simp [Par.options, hk])
  have hc := classify_opt (other := other) hm rfl
  have hf := find_option hn hm
  have hv : classify other ((options ps).map Prod.fst) a = .value := by rw [classify, if_pos ha]
  have : parseArgs other ps (p.opt :: a :: ts) [] [] = .error .exit := by
    rw [parseArgs, hc]
    dsimp only
    rw [hf]
    dsimp only
    rw [if_pos hv, convertArg, hk]
    dsimp only
    rw [hi]
  rw [fromArgs, this]
  rfl

/-- `--n x` is not accepted. -/
example : fromArgs (fun _ => .unknown) [⟨"n".toList, .integer, true, none⟩] ["--n".toList, "x".toList] = .error .exit :=
  C108_bad_integer (fun _ => .unknown) _ (by decide +kernel) ⟨"n".toList, .integer, true, none⟩ (by simp) rfl _ [] (by decide) .valueError (by decide +kernel)

/-- One of the options may be given twice, both may not. -/
example : let p : Par := ⟨"safety".toList, .boolean, false, some (.bool true)⟩
    fromArgs (fun _ => .unknown) [p] [p.off, p.off] = .ok [.bool false] ∧ fromArgs (fun _ => .unknown) [p] [p.off, "x".toList, p.opt] = .error .exit := by
  refine ⟨?_, C108_exclusive (fun _ => .unknown) _ (by decide +kernel) ⟨"safety".toList, .boolean, false, some (.bool true)⟩ (by simp) rfl _ (by simp) (by simp)⟩
  simp [fromArgs, parseArgs, classify, options, Par.options, Par.off, Par.opt, conflict, entries, entry, fromEntries, convertVal, truthy, PyDict.set, PyDict.get?,
    ok_bind, pure_eq_ok]

namespace CommandLine

/-- A function for other tokens: those with a digit in second place are values. -/
def exampleOther (t : Str) : Cls := if (t.drop 1).head?.any Char.isDigit then .value else .unknown

theorem exampleOther_negatives : Negatives exampleOther := by
  intro n hn
  have hne := ofNat_ne_nil n.natAbs
  obtain ⟨c, r, h⟩ := List.exists_cons_of_ne_nil hne
  have hd : c.isDigit = true := isDigit_of_mem_ofNat (n := n.natAbs) (h ▸ List.mem_cons_self)
  simp [exampleOther, ofInt, hn, h, hd]

/-- The class of test_datasets.py:160-163 with an integer. -/
def exampleList : List (Par × PV) :=
  [(⟨"safety".toList, .boolean, false, some (.bool true)⟩, .bool false), (⟨"hello".toList, .plain, false, some (.str "world".toList)⟩, .str "you".toList),
    (⟨"n".toList, .integer, true, none⟩, .int (-3))]

/-- It is read back. -/
example : argString (exampleList.map fun pv => (pv.1, some pv.2)) = .ok "--safety_off --hello you --n -3".toList ∧
    RoundTrip exampleOther (exampleList.map fun pv => (pv.1, some pv.2)) := by
  refine ⟨by decide +kernel, C108_roundtrip_partial _ exampleOther_negatives _ (by decide +kernel) ?_ ?_⟩
  · intro pv h
    simp only [exampleList, List.mem_cons, List.not_mem_nil, or_false] at h
    rcases h with rfl | rfl | rfl <;> decide
  · intro pv h
    simp only [exampleList, List.mem_cons, List.not_mem_nil, or_false] at h
    rcases h with rfl | rfl | rfl
    · trivial
    · exact ⟨by decide, by decide⟩
    · trivial

/-- `hello world` comes back as `hello`, `-x` does not come back. -/
example : (∃ s, argString [(⟨"m".toList, .string, true, none⟩, some (.str "hello world".toList))] = .ok s ∧
      fromString exampleOther [⟨"m".toList, .string, true, none⟩] s = .ok [.str "hello".toList]) ∧
    ∃ s, argString [(⟨"m".toList, .string, true, none⟩, some (.str "-x".toList))] = .ok s ∧
      fromString exampleOther [⟨"m".toList, .string, true, none⟩] s = .error .exit :=
  ⟨C108_space exampleOther ⟨"m".toList, .string, true, none⟩ "hello".toList "world".toList rfl (by decide) ⟨by decide, by decide⟩ (by decide),
    C108_hyphen exampleOther ⟨"m".toList, .string, true, none⟩ "-x".toList rfl (by decide) (by decide) (by decide) (by decide) rfl⟩

end CommandLine

end Verif
