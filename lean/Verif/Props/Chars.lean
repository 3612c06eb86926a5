import Verif.Model.Chars
import Verif.Props.CTWHeap

/-!
# C152: alphabets of `modelfast.CTW_KT`

Symbols travel as bytes and arrive as `char`.  Every alphabet of up to 128 symbols works, on every platform.  Where `char` is signed, every
use of a symbol from 128 on leaves the arrays of the node.  Elsewhere alphabets of up to 256 symbols work.  Larger symbols raise ValueError.
-/

namespace Verif

open Predictor

namespace Chars

variable {k : ℕ}

theorem update_hist (a : Fin k) (h h' : List (Fin k)) (w : ℝ) (cs : List (Fin k)) (n : CTWNode (Fin k → ℝ) (Fin k)) :
    n.update (Fast.kt k) (Fast.fresh k) a h w cs = n.update (Fast.kt k) (Fast.fresh k) a h' w cs := by
  induction cs generalizing n with
  | nil => simp [CTWNode.update, Fast.kt]
  | cons c cs ih =>
    simp only [CTWNode.update, ih]
    simp [Fast.kt]

theorem logPredict_hist (a : Fin k) (h h' : List (Fin k)) (cs : List (Fin k)) (n : CTWNode (Fin k → ℝ) (Fin k)) :
    n.logPredict (Fast.kt k) (Fast.fresh k) a h cs = n.logPredict (Fast.kt k) (Fast.fresh k) a h' cs := by
  induction cs generalizing n with
  | nil => simp [CTWNode.logPredict, Fast.kt]
  | cons c cs ih =>
    simp only [CTWNode.logPredict, ih]
    simp [Fast.kt]

theorem update_ok (a : Fin k) (h : List (Fin k)) (w : ℝ) (cs : List (Fin k)) (n : CTWNode (Fin k → ℝ) (Fin k)) :
    ∃ p, n.update (Fast.kt k) (Fast.fresh k) a h w cs = .ok p := by
  induction cs generalizing n with
  | nil => exact ⟨_, rfl⟩
  | cons c cs ih =>
    obtain ⟨p, hp⟩ := ih ((n.children c).getD (CTWNode.new (Fast.fresh k)))
    have h1 : (Fast.kt k).update n.base a h w = .ok (Fast.logRatio n.base a, Function.update n.base a (n.base a + w)) := rfl
    simp only [CTWNode.update, hp, h1, ok_bind, pure_eq_ok]
    exact ⟨_, rfl⟩

theorem logPredict_ok (a : Fin k) (h : List (Fin k)) (cs : List (Fin k)) (n : CTWNode (Fin k → ℝ) (Fin k)) :
    ∃ p, n.logPredict (Fast.kt k) (Fast.fresh k) a h cs = .ok p := by
  induction cs generalizing n with
  | nil => exact ⟨_, rfl⟩
  | cons c cs ih =>
    obtain ⟨p, hp⟩ := ih ((n.children c).getD (CTWNode.new (Fast.fresh k)))
    have h1 : (Fast.kt k).logPredict n.base a h = .ok (Fast.logRatio n.base a, n.base) := rfl
    simp only [CTWNode.logPredict, hp, h1, ok_bind, pure_eq_ok]
    exact ⟨_, rfl⟩

/-- The alphabets that work: up to 128 symbols, or up to 256 where `char` is not signed. -/
def Fits (signed : Bool) (k : ℕ) : Prop := k ≤ 128 ∨ (signed = false ∧ k ≤ 256)

theorem Fits.le {signed : Bool} (h : Fits signed k) : k ≤ 256 := by
  rcases h with h | h
  · omega
  · exact h.2

/-- The symbol as an integer. -/
def int (i : Fin k) : ℤ := (i : ℕ)

theorem bytes_int (hk : k ≤ 256) (l : List (Fin k)) : bytes (l.map int) = .ok (l.map fun i : Fin k => (i : ℕ)) := by
  unfold bytes
  rw [if_pos]
  · simp [int, Function.comp_def]
  · rw [List.all_eq_true]
    intro y hy
    obtain ⟨x, -, rfl⟩ := List.mem_map.1 hy
    have := x.2
    have h1 : 0 ≤ int x ∧ int x < 256 := by unfold int; omega
    simpa using h1

theorem index_value {signed : Bool} (hf : Fits signed k) (i : Fin k) : index k (value signed i) = some i := by
  have hv : value signed i = (i : ℕ) := by
    unfold value
    rw [if_neg]
    simp only [Bool.and_eq_true, decide_eq_true_eq, not_and]
    rintro rfl
    rcases hf with h | h
    · have := i.2; omega
    · simp at h
  rw [hv]
  unfold index
  have := i.2
  rw [dif_pos (by omega)]
  simp

theorem mapM_index {signed : Bool} (hf : Fits signed k) (l : List (Fin k)) :
    (l.map fun i : Fin k => (i : ℕ)).mapM (fun b => index k (value signed b)) = some l := by
  induction l with
  | nil => rfl
  | cons a l ih => simp [ih, index_value hf]

theorem args_int [NeZero k] {signed : Bool} (hf : Fits signed k) (depth : ℕ) (a : Fin k) (h : List (Fin k)) :
    args signed k depth (int a) (h.map int) = .ok (some (a, (Fast.ctx depth h).reverse)) := by
  have h0 : (0 : ℤ) = int (0 : Fin k) := by simp [int]
  have h1 : bytes [int a] = .ok [(a : ℕ)] := bytes_int hf.le [a]
  unfold args
  rw [h0, Fast.map_mkcontext, bytes_int hf.le, h1]
  simp only [ok_bind, pure_eq_ok]
  rw [← List.map_take, ← List.map_reverse, mapM_index hf]
  simp [index_value hf, Fast.ctx]

theorem step_int [NeZero k] {signed : Bool} (hf : Fits signed k) (depth : ℕ) (n : CTWNode (Fin k → ℝ) (Fin k)) (c : Call (Fin k)) :
    ∃ p, (Fast.predictor k depth).step n c = .ok p ∧ step signed depth n (c.map int) = .ok (some (.ok p)) := by
  cases c with
  | update a h w =>
    obtain ⟨p, hp⟩ := update_ok a h w (Fast.ctx depth h).reverse n
    refine ⟨p, hp, ?_⟩
    simp only [Call.map, step, args_int hf, ok_bind, pure_eq_ok, Option.map_some]
    rw [update_hist a [] h, hp]
  | predict a h =>
    obtain ⟨p, hp⟩ := logPredict_ok a h (Fast.ctx depth h).reverse n
    refine ⟨p, hp, ?_⟩
    simp only [Call.map, step, args_int hf, ok_bind, pure_eq_ok, Option.map_some]
    rw [logPredict_hist a [] h, hp]

theorem results_int [NeZero k] {signed : Bool} (hf : Fits signed k) (depth : ℕ) (cs : List (Call (Fin k)))
    (n : CTWNode (Fin k → ℝ) (Fin k)) :
    results signed depth n (cs.map (Call.map int)) = some ((Fast.predictor k depth).outputs n cs) := by
  induction cs generalizing n with
  | nil => rfl
  | cons c cs ih =>
    obtain ⟨⟨r, n'⟩, h1, h2⟩ := step_int hf depth n c
    simp only [List.map_cons, results, h2, outputs, h1, ih, Option.map_some]

theorem bytes_ok {l : List ℤ} (h : ∀ x ∈ l, 0 ≤ x ∧ x < 256) : bytes l = .ok (l.map Int.toNat) := by
  unfold bytes
  rw [if_pos]
  simpa using h

theorem bytes_error {l : List ℤ} {x : ℤ} (hx : x ∈ l) (h : x < 0 ∨ 256 ≤ x) : bytes l = .error .valueError := by
  unfold bytes
  rw [if_neg]
  simp only [List.all_eq_true, Bool.and_eq_true, decide_eq_true_eq, not_forall]
  exact ⟨x, hx, by omega⟩

theorem value_high {x : ℤ} (h0 : 128 ≤ x) (h1 : x < 256) : index k (value true x.toNat) = none := by
  have : value true x.toNat = x - 256 := by
    unfold value
    rw [if_pos]
    · omega
    · simp; omega
  rw [this]
  unfold index
  rw [dif_neg]
  omega

theorem mapM_none {l : List ℕ} {f : ℕ → Option (Fin k)} {x : ℕ} (hx : x ∈ l) (h : f x = none) : l.mapM f = none := by
  induction l with
  | nil => simp at hx
  | cons a l ih =>
    rcases List.mem_cons.1 hx with rfl | hx
    · simp [h]
    · rw [List.mapM_cons, ih hx]
      cases f a <;> rfl

theorem mem_mkcontext {depth : ℕ} {x : ℤ} {h : List ℤ} (hx : x ∈ CTW.mkcontext depth 0 h) : x = 0 ∨ x ∈ h := by
  simp only [CTW.mkcontext, List.mem_append, List.mem_replicate] at hx
  rcases hx with hx | hx
  · exact .inl hx.2
  · right
    unfold pyTail at hx
    split_ifs at hx
    · exact hx
    · exact List.mem_of_mem_drop hx

theorem context_bytes {depth : ℕ} {h : List ℤ} (hh : ∀ x ∈ h, 0 ≤ x ∧ x < 256) :
    bytes (CTW.mkcontext depth 0 h) = .ok ((CTW.mkcontext depth 0 h).map Int.toNat) := by
  apply bytes_ok
  intro x hx
  rcases mem_mkcontext hx with rfl | hx
  · omega
  · exact hh x hx

/-- The symbol of a call. -/
def sym : Call ℤ → ℤ
  | .update a _ _ => a
  | .predict a _ => a

/-- The history of a call. -/
def hist : Call ℤ → List ℤ
  | .update _ h _ => h
  | .predict _ h => h

theorem step_of_args {signed : Bool} {depth : ℕ} (n : CTWNode (Fin k → ℝ) (Fin k)) (c : Call ℤ) :
    (∀ e, args signed k depth (sym c) (hist c) = .error e → step signed depth n c = .error e) ∧
    (args signed k depth (sym c) (hist c) = .ok none → step signed depth n c = .ok none) := by
  cases c <;> constructor <;> simp only [sym, hist, step] <;> intros <;> simp_all <;> rfl

end Chars

open Chars

/-- Every alphabet of up to 128 symbols works, and every alphabet of up to 256 symbols where `char` is not signed: calls with symbols and
histories from the alphabet have the results of the model of C22.  What is missing: larger alphabets, for which this is false. -/
theorem C152_alphabets_partial {k : ℕ} [NeZero k] (signed : Bool) (hk : k ≤ 128 ∨ (signed = false ∧ k ≤ 256)) (depth : ℕ)
    (cs : List (Call (Fin k))) :
    Chars.results signed depth (CTW.init (Fast.fresh k)) (cs.map (Call.map fun i : Fin k => ((i : ℕ) : ℤ))) =
      some ((Fast.predictor k depth).outputs (CTW.init (Fast.fresh k)) cs) :=
  results_int hk depth cs _

/-- These are the results of `model.CTW` over `KT(range(k))`. -/
theorem C152_python_partial {k : ℕ} [NeZero k] (signed : Bool) (hk : k ≤ 128 ∨ (signed = false ∧ k ≤ 256)) (depth : ℕ) (hd : 1 ≤ depth)
    (t : KT (Fin k)) (ht : KT.init (List.finRange k) none = .ok t) (cs : List (Call (Fin k)))
    (hw : ∀ a h w, Call.update a h w ∈ cs → 0 ≤ w) :
    Chars.results signed depth (CTW.init (Fast.fresh k)) (cs.map (Call.map fun i : Fin k => ((i : ℕ) : ℤ))) =
      some ((CTW.predictor KT.predictor t (CTW.mkcontext depth 0)).outputs (CTW.init t) cs) := by
  rw [C152_alphabets_partial signed hk, C22_fast_eq_python_alphabet k depth hd t ht cs hw]

/-- Where `char` is signed, every call with a symbol from 128 on leaves the arrays, whatever the alphabet and the state. -/
theorem C152_signed_symbol {k : ℕ} (depth : ℕ) (n : CTWNode (Fin k → ℝ) (Fin k)) (c : Call ℤ) (h0 : 128 ≤ Chars.sym c)
    (h1 : Chars.sym c < 256) (hh : ∀ x ∈ Chars.hist c, 0 ≤ x ∧ x < 256) : Chars.step true depth n c = .ok none := by
  refine (step_of_args n c).2 ?_
  unfold args
  rw [context_bytes hh, bytes_ok (l := [Chars.sym c]) (by simp; omega)]
  simp [value_high h0 h1]

/-- So does every call whose context holds such a symbol. -/
theorem C152_signed_context {k : ℕ} (depth : ℕ) (n : CTWNode (Fin k → ℝ) (Fin k)) (c : Call ℤ) (ha : 0 ≤ Chars.sym c ∧ Chars.sym c < 256)
    (hh : ∀ x ∈ Chars.hist c, 0 ≤ x ∧ x < 256) (x : ℤ) (hx : x ∈ (Chars.hist c).drop ((Chars.hist c).length - depth)) (h0 : 128 ≤ x) :
    Chars.step true depth n c = .ok none := by
  refine (step_of_args n c).2 ?_
  have hx1 : x < 256 := (hh x (List.mem_of_mem_drop hx)).2
  have hd : depth ≠ 0 := by
    rintro rfl
    simp at hx
  have hm : x.toNat ∈ ((((CTW.mkcontext depth 0 (Chars.hist c)).map Int.toNat).take depth)).reverse := by
    rw [List.mem_reverse, List.take_of_length_le]
    · refine List.mem_map_of_mem ?_
      simp only [CTW.mkcontext, List.mem_append]
      right
      unfold pyTail
      rwa [if_neg (by omega)]
    · simp only [CTW.mkcontext, pyTail, List.length_map, List.length_append, List.length_replicate]
      rw [if_neg (by omega), List.length_drop]
      omega
  unfold args
  rw [context_bytes hh, bytes_ok (l := [Chars.sym c]) (by simpa using ha)]
  simp only [ok_bind, pure_eq_ok]
  rw [mapM_none hm (value_high h0 hx1)]
  congr 1
  cases ([Chars.sym c].map Int.toNat).mapM (fun b => index k (value true b)) with
  | none => rfl
  | some l => cases l <;> rfl

/-- Integers that are not in `range(256)` raise ValueError as symbols, whatever the alphabet, the platform, the history and the state. -/
theorem C152_not_a_byte {k : ℕ} (signed : Bool) (depth : ℕ) (n : CTWNode (Fin k → ℝ) (Fin k)) (c : Call ℤ)
    (h : Chars.sym c < 0 ∨ 256 ≤ Chars.sym c) : Chars.step signed depth n c = .error .valueError := by
  refine (step_of_args n c).1 _ ?_
  unfold args
  rw [bytes_error (l := [Chars.sym c]) (by simp) h]
  unfold bytes
  split_ifs <;> rfl

/-- These are all alphabets that work. -/
theorem C152_exactly {k : ℕ} [NeZero k] (signed : Bool) :
    (k ≤ 128 ∨ (signed = false ∧ k ≤ 256)) ↔ ∀ (depth : ℕ) (cs : List (Call (Fin k))),
      Chars.results signed depth (CTW.init (Fast.fresh k)) (cs.map (Call.map fun i : Fin k => ((i : ℕ) : ℤ))) =
        some ((Fast.predictor k depth).outputs (CTW.init (Fast.fresh k)) cs) := by
  refine ⟨fun hk => C152_alphabets_partial signed hk, fun hall => ?_⟩
  by_contra hk
  push Not at hk
  obtain ⟨hk1, hk2⟩ := hk
  by_cases hs : signed = true
  · subst hs
    have h := hall 0 [.predict ⟨128, hk1⟩ []]
    have h2 := C152_signed_symbol 0 (CTW.init (Fast.fresh k)) (.predict 128 []) (by simp [Chars.sym]) (by simp [Chars.sym])
      (by simp [Chars.hist])
    simp only [List.map_cons, List.map_nil, Call.map, Chars.results] at h
    simp only [Nat.cast_ofNat] at h
    rw [h2] at h
    simp at h
  · have hs' : signed = false := by simpa using hs
    have h3 := hk2 hs'
    have h := hall 0 [.predict ⟨256, h3⟩ []]
    have h2 := C152_not_a_byte signed 0 (CTW.init (Fast.fresh k)) (.predict 256 []) (by simp [Chars.sym])
    obtain ⟨p, hp⟩ := logPredict_ok (⟨256, h3⟩ : Fin k) [] (Fast.ctx 0 []).reverse (CTW.init (Fast.fresh k))
    simp only [List.map_cons, List.map_nil, Call.map, Chars.results] at h
    simp only [Nat.cast_ofNat] at h
    rw [h2] at h
    simp [outputs, Predictor.step, Fast.predictor, CTW.predictor, hp] at h

/-- The hypotheses can be met: bytes as symbols, on both kinds of platforms. -/
example (n : CTWNode (Fin 256 → ℝ) (Fin 256)) : Chars.step true 2 n (.update 200 [1, 2, 7] 1) = .ok none :=
  C152_signed_symbol 2 n _ (by norm_num [Chars.sym]) (by norm_num [Chars.sym]) (by norm_num [Chars.hist])

example (n : CTWNode (Fin 256 → ℝ) (Fin 256)) : Chars.step true 2 n (.predict 3 [1, 200, 7]) = .ok none :=
  C152_signed_context 2 n _ (by norm_num [Chars.sym]) (by norm_num [Chars.hist]) 200 (by norm_num [Chars.hist]) (by norm_num)

example : Chars.results (k := 256) false 2 (CTW.init (Fast.fresh 256)) [.update 200 [1, 2, 7] 1] =
    some ((Fast.predictor 256 2).outputs (CTW.init (Fast.fresh 256)) [.update 200 [1, 2, 7] 1]) :=
  C152_alphabets_partial (k := 256) false (.inr ⟨rfl, le_refl _⟩) 2 [.update 200 [1, 2, 7] 1]

end Verif
