import Verif.Spec.FMN
import Verif.Spec.Copy
import Verif.Model.KT
import Verif.Model.CTW

/-!
# Models put together from the classes of model.py

`Built A cp co σ P s` says that an object with the methods `P` and the state `s` can be put together from the classes of model.py, for
symbols from `A`.  `cp` tells whether it has a working `copy`, and `co` whether all of its parts have a `log_predict` that agrees with
`update`, which partition trees have not (C27).

Two objects that are the same object in Python (aliases) are not described: every part is an object of its own.
-/

namespace Verif

/-- Objects of different classes in one list: a method is that of the object's own class (Python's method call, as in model.py:202-226 and
853-865). -/
def Predictor.either {ι α : Type} {σ : ι → Type} (P : ∀ i, Predictor (σ i) α) : Predictor (Σ i, σ i) α where
  update s a h w := do
    let p ← (P s.1).update s.2 a h w
    pure (p.1, ⟨s.1, p.2⟩)
  logPredict s a h := do
    let p ← (P s.1).logPredict s.2 a h
    pure (p.1, ⟨s.1, p.2⟩)
  copy s := do
    let t ← (P s.1).copy s.2
    pure ⟨s.1, t⟩

/-- What a class of the user's own has to provide: on the states that satisfy `I` no method raises, predictions agree with updates and sum to
one; copies answer as the original; and asking for predictions has no effect. -/
structure Contract {σ α : Type} (P : Predictor σ α) (A : List α) (I : σ → Prop) : Prop where
  lawful : P.Lawful I A fun w => 0 ≤ w
  copy : P.FaithfulCopy I
  copyAny : P.FaithfulCopy fun _ => True
  pure : P.PurePredict

/-- What can be put together. -/
inductive Built {α : Type} [DecidableEq α] (A : List α) : Bool → Bool → (σ : Type) → Predictor σ α → σ → Prop
  /-- An object of a class of the user's own. -/
  | user {σ : Type} {P : Predictor σ α} {I : σ → Prop} {s : σ} : Contract P A I → I s → Built A true true σ P s
  /-- `KT(alphabet)`. -/
  | kt {s : KT α} : KT.init A none = .ok s → Built A true true (KT α) KT.predictor s
  /-- `Averager(models)`, the models being of any classes. -/
  | averager {cp co : Bool} {ι : Type} {σ : ι → Type} {P : ∀ i, Predictor (σ i) α} {m : ∀ i, σ i} {is : List ι}
      {t : Averager (Σ i, σ i)} : (∀ i, Built A cp co (σ i) (P i) (m i)) → Averager.init (is.map fun i => ⟨i, m i⟩) = .ok t →
      Built A cp co (Averager (Σ i, σ i)) (Averager.predictor (Predictor.either P)) t
  /-- `Factored(factors)` with at least one factor. -/
  | factored {cp co : Bool} {ι : Type} {σ : ι → Type} {P : ∀ i, Predictor (σ i) α} {m : ∀ i, σ i} {is : List ι} :
      (∀ i, Built A cp co (σ i) (P i) (m i)) → is ≠ [] →
      Built A cp co (Factored (Σ i, σ i)) (Factored.predictor (Predictor.either P)) ⟨is.map fun i => ⟨i, m i⟩⟩
  /-- `CTW(depth, model_factory)` whose contexts are bits. -/
  | ctwBits {cp co : Bool} {σ : Type} {P : Predictor σ α} {s : σ} {depth : ℕ} (zero : α) (bit : α → Bool) : Built A cp co σ P s → depth ≠ 0 →
      Built A cp co (CTWNode σ Bool) (CTW.predictor P s fun h => (CTW.mkcontext depth zero h).map bit) (CTW.init s)
  /-- `CTW(depth, model_factory)` with other contexts, whose `copy` raises TypeError (C23). -/
  | ctw {cp co : Bool} {σ : Type} {P : Predictor σ α} {s : σ} {depth : ℕ} (zero : α) : Built A cp co σ P s → depth ≠ 0 →
      Built A false co (CTWNode σ α) { CTW.predictor P s (CTW.mkcontext depth zero) with copy := CTW.copyDict P } (CTW.init s)
  /-- `PTW(model_factory, min_partition_length)`. -/
  | ptw {cp co : Bool} {σ : Type} {P : Predictor σ α} {s : σ} (m : ℕ) : Built A cp co σ P s →
      Built A false false (PTW σ) (PTW.predictor P s m) (PTW.init s m)
  /-- `FMN(model_factory, min_partition_length)` with `LogStore`. -/
  | fmn {co : Bool} {σ : Type} {P : Predictor σ α} {s : σ} {m : ℕ} {t : FMN (LogStore σ) σ} : Built A true co σ P s →
      FMN.init (LogStore.store σ) P s m = .ok t → Built A false false (FMN (LogStore σ) σ) (FMN.predictor (LogStore.store σ) P m) t
  /-- `FMN(model_factory, min_partition_length)` with `LogStoreUniform`. -/
  | fmnUniform {co : Bool} {σ : Type} {P : Predictor σ α} {s : σ} {m : ℕ} {t : FMN (LogStoreUniform σ) σ} : Built A true co σ P s →
      FMN.init (LogStoreUniform.store σ) P s m = .ok t →
      Built A false false (FMN (LogStoreUniform σ) σ) (FMN.predictor (LogStoreUniform.store σ) P m) t
  /-- An object that has been trained. -/
  | trained {cp co : Bool} {σ : Type} {P : Predictor σ α} {s t : σ} {xs : List (Obs α)} {r : ℝ} : Built A cp co σ P s →
      (∀ o ∈ xs, o.sym ∈ A ∧ 0 ≤ o.weight) → P.run s xs = .ok (r, t) → Built A cp co σ P t
  /-- Leaving out what is known, so that objects with and without these properties can be parts of one object. -/
  | forget {cp co cp' co' : Bool} {σ : Type} {P : Predictor σ α} {s : σ} : Built A cp co σ P s → (cp' = true → cp = true) →
      (co' = true → co = true) → Built A cp' co' σ P s

/-- All sequences of `n` symbols. -/
def words {α : Type} (A : List α) : ℕ → List (List α)
  | 0 => [[]]
  | n + 1 => A.flatMap fun a => (words A n).map (a :: ·)

end Verif
