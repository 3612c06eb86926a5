import Verif.Spec.Literals
import Verif.Py

namespace Verif

namespace Literals

variable {ν : Type} {num : Str → Py ν}

theorem tokens_comma (s t : Str) : ∀ acc, tokens acc (s ++ ',' :: t) = tokens acc s ++ .comma :: tokens [] t := by
  induction s with
  | nil => intro acc; simp [tokens]
  | cons c s ih =>
    intro acc
    simp only [List.cons_append, tokens, ih]
    split_ifs <;> simp

theorem tokens_close (s t : Str) : ∀ acc, tokens acc (s ++ ']' :: t) = tokens acc s ++ .close :: tokens [] t := by
  induction s with
  | nil => intro acc; simp [tokens]
  | cons c s ih =>
    intro acc
    simp only [List.cons_append, tokens, ih]
    split_ifs <;> simp

/-- The tokens of a list of texts. -/
def inter : List (List Tok) → List Tok
  | [] => []
  | [t] => t
  | t :: u :: l => t ++ .comma :: inter (u :: l)

theorem tokens_join (rest : Str) (ss : List Str) : tokens [] (Format.joinWith [',', ' '] ss ++ ']' :: rest) =
    inter (ss.map (tokens [])) ++ .close :: tokens [] rest := by
  induction ss with
  | nil => simp [Format.joinWith, inter, tokens, flush]
  | cons s ss ih =>
    cases ss with
    | nil => simp only [Format.joinWith, List.map_cons, List.map_nil, inter, tokens_close]
    | cons t l =>
      have : tokens [] (' ' :: (Format.joinWith [',', ' '] (t :: l) ++ ']' :: rest)) = tokens [] (Format.joinWith [',', ' '] (t :: l) ++ ']' :: rest) := by
        simp [tokens]
      simp only [Format.joinWith, List.append_assoc, List.cons_append, List.nil_append, tokens_comma, this, ih, List.map_cons, inter]

theorem tokens_bracket (ss : List Str) : tokens [] (bracket ss) = .open :: (inter (ss.map (tokens [])) ++ [.close]) := by
  rw [bracket, List.cons_append, tokens, if_pos rfl, tokens_join []]
  simp [flush, tokens]

theorem flush_plain {s : Str} (h : ∀ c ∈ s, c ≠ ' ') (hs : s ≠ []) : flush s = [.atom s.reverse] := by
  cases s with
  | nil => exact absurd rfl hs
  | cons c s =>
    have : c ≠ ' ' := h c (by simp)
    simp [flush, this]

theorem tokens_plain {s : Str} (hs : Plain s) : tokens [] s = [.atom s] := by
  have key : ∀ (s acc : Str), (∀ c ∈ s, c ≠ ' ' ∧ c ≠ ',' ∧ c ≠ '[' ∧ c ≠ ']') → tokens acc s = flush (s.reverse ++ acc) := by
    intro s
    induction s with
    | nil => intro acc _; simp [tokens]
    | cons c s ih =>
      intro acc h
      rw [List.forall_mem_cons] at h
      obtain ⟨⟨h1, h2, h3, h4⟩, h⟩ := h
      rw [tokens, if_neg h3, if_neg h4, if_neg h2, if_neg (fun h => h1 h.1), ih _ h]
      simp
  rw [key s [] hs.2, List.append_nil, flush_plain (fun c hc => (hs.2 c (by simpa using hc)).1) (by simpa using hs.1), List.reverse_reverse]

/-- Reading a value inside a list. -/
theorem parse_inner (f : Frame ν) (fs : List (Frame ν)) (rest : List Tok) (v : Lit ν) (ts : List Tok) : ∀ (f0 : Frame ν) (fs0 : List (Frame ν)),
    parse num f0 fs0 ts = .ok v → parse num f0 (fs0 ++ f :: fs) (ts ++ rest) = parse num (f.push v) fs rest := by
  induction ts with
  | nil => intro f0 fs0 h; simp [parse, throw, throwThe, MonadExceptOf.throw] at h
  | cons t ts ih =>
    intro f0 fs0 h
    cases t with
    | «open» =>
      rw [parse] at h
      rw [List.cons_append, parse]
      split_ifs at h ⊢ with hr
      exact ih _ (f0 :: fs0) h
    | close =>
      rw [List.cons_append]
      cases fs0 with
      | nil =>
        cases ts with
        | nil =>
          rw [parse] at h
          rw [← Except.ok.inj h, List.nil_append, List.nil_append, parse]
        | cons u us => rw [parse] at h; cases h
      | cons g gs =>
        rw [parse] at h
        rw [List.cons_append, parse]
        exact ih _ gs h
    | comma =>
      rw [parse] at h
      rw [List.cons_append, parse]
      split_ifs at h ⊢ with hr
      exact ih _ fs0 h
    | atom s =>
      rw [parse] at h
      rw [List.cons_append, parse]
      split_ifs at h ⊢ with hr
      · obtain ⟨x, hx, h⟩ := bind_eq_ok.1 h
        rw [hx, ok_bind]
        exact ih _ fs0 h

theorem parse_value {ts : List Tok} {v : Lit ν} (h : evalToks num ts = .ok v) {f : Frame ν} (hf : f.ready = true) (fs : List (Frame ν)) (rest : List Tok) :
    parse num f fs (ts ++ rest) = parse num (f.push v) fs rest := by
  cases ts with
  | nil => cases h
  | cons t ts =>
    cases t with
    | «open» =>
      rw [List.cons_append, parse, if_pos hf]
      exact parse_inner f fs rest v ts ⟨[], true⟩ [] h
    | close => cases h
    | comma => cases h
    | atom s =>
      cases ts with
      | cons u us => cases h
      | nil =>
        rw [evalToks] at h
        obtain ⟨x, hx, h⟩ := bind_eq_ok.1 h
        rw [List.cons_append, parse, if_pos hf, hx, ok_bind, ← Except.ok.inj h, List.nil_append]

theorem parse_list {tss : List (List Tok)} {vs : List (Lit ν)} (h : List.Forall₂ (fun ts v => evalToks num ts = .ok v) tss vs) : ∀ acc : List (Lit ν),
    parse num ⟨acc, true⟩ [] (inter tss ++ [.close]) = .ok (.list (acc.reverse ++ vs)) := by
  induction h with
  | nil => intro acc; simp [inter, parse, pure, Except.pure]
  | @cons ts v tss vs h1 h2 ih =>
    intro acc
    cases tss with
    | nil =>
      cases h2
      rw [inter, parse_value h1 rfl, parse]
      simp [Frame.push, pure, Except.pure]
    | cons t l =>
      rw [inter, List.append_assoc, parse_value h1 rfl, List.cons_append, parse, if_neg (by simp [Frame.push])]
      rw [show ({ items := (Frame.push ⟨acc, true⟩ v).items, ready := true } : Frame ν) = ⟨v :: acc, true⟩ from rfl, ih]
      simp

theorem literalEval_bracket {ss : List Str} {vs : List (Lit ν)} (h : List.Forall₂ (fun s v => literalEval num s = .ok v) ss vs) :
    literalEval num (bracket ss) = .ok (.list vs) := by
  rw [literalEval, tokens_bracket, evalToks]
  exact parse_list (List.forall₂_map_left_iff.2 h) []

theorem texts_some (ss : List Str) : texts ((ss.map some).map .scalar) = .ok ss := by
  induction ss with
  | nil => rfl
  | cons s ss ih => rw [List.map_cons, List.map_cons, texts, ih]; rfl

/-- Everything that is read is a number. -/
theorem parse_atoms {v : Lit ν} (ts : List Tok) : ∀ (f : Frame ν) (fs : List (Frame ν)), parse num f fs ts = .ok v → ∀ s, Tok.atom s ∈ ts → ∃ x, num s = .ok x := by
  induction ts with
  | nil => intro f fs _ s hs; cases hs
  | cons t ts ih =>
    intro f fs h s hs
    cases t with
    | «open» =>
      rw [parse] at h
      split_ifs at h
      exact ih _ _ h s (by simpa using hs)
    | close =>
      cases fs with
      | nil =>
        cases ts with
        | nil => simp at hs
        | cons u us => rw [parse] at h; cases h
      | cons g gs =>
        rw [parse] at h
        exact ih _ _ h s (by simpa using hs)
    | comma =>
      rw [parse] at h
      split_ifs at h
      exact ih _ _ h s (by simpa using hs)
    | atom u =>
      rw [parse] at h
      split_ifs at h
      · obtain ⟨x, hx, h⟩ := bind_eq_ok.1 h
        rcases List.mem_cons.1 hs with hs | hs
        · cases hs
          exact ⟨x, hx⟩
        · exact ih _ _ h s hs

theorem mem_inter {t : Tok} {ts : List Tok} {tss : List (List Tok)} (h : ts ∈ tss) (ht : t ∈ ts) : t ∈ inter tss := by
  induction tss with
  | nil => cases h
  | cons u l ih =>
    cases l with
    | nil =>
      rw [List.mem_singleton] at h
      rw [inter, ← h]
      exact ht
    | cons w l =>
      rw [inter, List.mem_append]
      rcases List.mem_cons.1 h with rfl | h
      · exact .inl ht
      · exact .inr (List.mem_cons_of_mem _ (ih h))

theorem text_list (tx : ν → Str) (l : List (Lit ν)) : (Lit.list l).text tx = bracket (l.map (Lit.text tx)) := by
  rw [Lit.text, bracket]

theorem has_token {tx : ν → Str} {x : ν} {v : Lit ν} (h : v.Has x) (hx : Plain (tx x)) : Tok.atom (tx x) ∈ tokens [] (v.text tx) := by
  induction h with
  | num => rw [Lit.text, tokens_plain hx]; simp
  | @list l v hv _ ih =>
    rw [text_list, tokens_bracket]
    refine List.mem_cons_of_mem _ (List.mem_append_left _ (mem_inter (ts := tokens [] (v.text tx)) ?_ ih))
    simp only [List.mem_map]
    exact ⟨_, ⟨v, hv, rfl⟩, rfl⟩

theorem literalEval_text {tx : ν → Str} : ∀ v : Lit ν, (∀ x, v.Has x → Plain (tx x) ∧ num (tx x) = .ok x) → literalEval num (v.text tx) = .ok v
  | .num x, h => by
    obtain ⟨h1, h2⟩ := h x .num
    rw [Lit.text, literalEval, tokens_plain h1, evalToks, h2]
    rfl
  | .list l, h => by
    rw [text_list]
    refine literalEval_bracket ?_
    rw [List.forall₂_map_left_iff, List.forall₂_same]
    exact fun v hv => literalEval_text v fun x hx => h x (.list hv hx)

end Literals

end Verif
