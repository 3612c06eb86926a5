import Verif.Model.Predictor

/-!
# What a well-behaved sequence predictor is

Contracts stated only in terms of the methods of a `Predictor`.  They are used to state properties of
composite models over an arbitrary base model.
-/

namespace Verif

/-- The total weight given to symbol `a` in a list of observations. -/
noncomputable def weightOf {α : Type} [DecidableEq α] (a : α) (xs : List (Obs α)) : ℝ :=
  (xs.map fun o => if o.sym = a then o.weight else 0).sum

/-- The total weight in a list of observations. -/
noncomputable def totalWeight {α : Type} (xs : List (Obs α)) : ℝ := (xs.map Obs.weight).sum

namespace Predictor

variable {σ α : Type}

/-- On states satisfying `Inv`, `update` with a symbol of the alphabet `A` and a weight satisfying `W`
never raises and leads to a state satisfying `Inv`; and the probabilities that `update` reports for the
symbols of `A` sum to one. -/
structure UpdateLawful (P : Predictor σ α) (Inv : σ → Prop) (A : List α) (W : ℝ → Prop) : Prop where
  total : ∀ s a h w, Inv s → a ∈ A → W w → ∃ r s', P.update s a h w = .ok (r, s') ∧ Inv s'
  normalised : ∀ s h w, Inv s → W w → ∀ f : α → ℝ,
    (∀ a ∈ A, ∃ s', P.update s a h w = .ok (f a, s')) → (A.map fun a => Real.exp (f a)).sum = 1

/-- On states satisfying `Inv`, `log_predict` returns exactly what `update` would return. -/
def Coherent (P : Predictor σ α) (Inv : σ → Prop) (A : List α) (W : ℝ → Prop) : Prop :=
  ∀ s a h w, Inv s → a ∈ A → W w → ∀ r s', P.update s a h w = .ok (r, s') →
    ∃ t, P.logPredict s a h = .ok (r, t)

/-- Two results agree: the same exception, or the same value with related states. -/
def SameResult (R : σ → σ → Prop) : Py (ℝ × σ) → Py (ℝ × σ) → Prop
  | .ok (r, s), .ok (r', s') => r = r' ∧ R s s'
  | .error e, .error e' => e = e'
  | _, _ => False

/-- `R` relates only states that no sequence of calls can tell apart. -/
def Bisimulation (P : Predictor σ α) (R : σ → σ → Prop) : Prop :=
  ∀ s t, R s t →
    (∀ a h w, SameResult R (P.update s a h w) (P.update t a h w)) ∧
    (∀ a h, SameResult R (P.logPredict s a h) (P.logPredict t a h))

/-- No sequence of calls can tell `s` and `t` apart. -/
def Indist (P : Predictor σ α) (s t : σ) : Prop := ∃ R, Bisimulation P R ∧ R s t

/-- `log_predict` has no observable effect. -/
def PurePredict (P : Predictor σ α) : Prop :=
  ∀ s a h r t, P.logPredict s a h = .ok (r, t) → Indist P s t

/-- The value that a successful computation returns, as a probability. -/
noncomputable def probOf (x : Py (ℝ × σ)) : ℝ :=
  match x with
  | .ok (r, _) => Real.exp r
  | .error _ => 0

/-- The probability that the predictor, started in `s`, assigns to the observations `xs` in sequence
(0 if it raises). -/
noncomputable def seqProb (P : Predictor σ α) (s : σ) (xs : List (Obs α)) : ℝ := probOf (P.run s xs)

/-- The states reachable from `s` by `update` calls (symbols from `A`, weights satisfying `W`) and
`log_predict` calls (symbols from `A`), in any order and with any histories. -/
inductive Reach (P : Predictor σ α) (A : List α) (W : ℝ → Prop) (s : σ) : σ → Prop
  | refl : Reach P A W s s
  | update {t t' : σ} {a : α} {h : List α} {w r : ℝ} : Reach P A W s t → a ∈ A → W w →
      P.update t a h w = .ok (r, t') → Reach P A W s t'
  | predict {t t' : σ} {a : α} {h : List α} {r : ℝ} : Reach P A W s t → a ∈ A →
      P.logPredict t a h = .ok (r, t') → Reach P A W s t'

/-- The full contract of a sequence predictor over the alphabet `A`, on states satisfying `Inv`: neither
method raises, both keep `Inv`, `log_predict` returns what `update` would return, and the predicted
probabilities sum to one. -/
structure Lawful (P : Predictor σ α) (Inv : σ → Prop) (A : List α) (W : ℝ → Prop) : Prop where
  update_ok : ∀ s a h w, Inv s → a ∈ A → W w → ∃ r s', P.update s a h w = .ok (r, s') ∧ Inv s'
  predict_ok : ∀ s a h, Inv s → a ∈ A → ∃ r s', P.logPredict s a h = .ok (r, s') ∧ Inv s'
  coherent : P.Coherent Inv A W
  normalised : ∀ s h, Inv s → (A.map fun a => probOf (P.logPredict s a h)).sum = 1

theorem Lawful.reach {P : Predictor σ α} {Inv : σ → Prop} {A : List α} {W : ℝ → Prop}
    (hP : P.Lawful Inv A W) {s t : σ} (hs : Inv s) (hr : Reach P A W s t) : Inv t := by
  induction hr with
  | refl => exact hs
  | update _ ha hw hu ih =>
    obtain ⟨r, s', h1, h2⟩ := hP.update_ok _ _ _ _ ih ha hw
    rw [h1] at hu
    simp only [Except.ok.injEq, Prod.mk.injEq] at hu
    exact hu.2 ▸ h2
  | predict _ ha hu ih =>
    obtain ⟨r, s', h1, h2⟩ := hP.predict_ok _ _ _ ih ha
    rw [h1] at hu
    simp only [Except.ok.injEq, Prod.mk.injEq] at hu
    exact hu.2 ▸ h2

/-- A fully lawful predictor reports normalised probabilities from `update` too. -/
theorem Lawful.updateLawful {P : Predictor σ α} {Inv : σ → Prop} {A : List α} {W : ℝ → Prop}
    (hP : P.Lawful Inv A W) : P.UpdateLawful Inv A W where
  total := hP.update_ok
  normalised := by
    intro s h w hs hw f hf
    rw [← hP.normalised s h hs]
    congr 1
    apply List.map_congr_left
    intro a ha
    obtain ⟨s', hs'⟩ := hf a ha
    obtain ⟨t, ht⟩ := hP.coherent s a h w hs ha hw _ _ hs'
    rw [ht]
    rfl

/-- The `f`-free form of `UpdateLawful.normalised`. -/
theorem UpdateLawful.sum_probOf {P : Predictor σ α} {Inv : σ → Prop} {A : List α} {W : ℝ → Prop}
    (hP : P.UpdateLawful Inv A W) {s : σ} (hs : Inv s) {w : ℝ} (hw : W w) (h : List α) :
    (A.map fun a => probOf (P.update s a h w)).sum = 1 := by
  have hex : ∀ a, ∃ q, a ∈ A → ∃ s', P.update s a h w = .ok (q, s') := by
    intro a
    by_cases ha : a ∈ A
    · obtain ⟨q, s', hq, _⟩ := hP.total s a h w hs ha hw
      exact ⟨q, fun _ => ⟨s', hq⟩⟩
    · exact ⟨0, fun h => absurd h ha⟩
  choose q hq using hex
  rw [← hP.normalised s h w hs hw q (fun a ha => hq a ha)]
  congr 1
  apply List.map_congr_left
  intro a ha
  obtain ⟨s', hs'⟩ := hq a ha
  rw [hs']
  rfl

end Predictor

end Verif

namespace Verif

namespace Predictor

variable {σ α : Type}

/-- A method call on a model. -/
inductive Call (α : Type)
  | update (a : α) (h : List α) (w : ℝ)
  | predict (a : α) (h : List α)

/-- One call: the returned value and the new state. -/
def step (P : Predictor σ α) (s : σ) : Call α → Py (ℝ × σ)
  | .update a h w => P.update s a h w
  | .predict a h => P.logPredict s a h

/-- What a caller sees from a sequence of calls: the returned values in order, up to and including the first
exception. -/
def outputs (P : Predictor σ α) (s : σ) : List (Call α) → List (Py ℝ)
  | [] => []
  | c :: cs =>
    match P.step s c with
    | .error e => [.error e]
    | .ok (r, s') => .ok r :: outputs P s' cs

theorem Indist.refl (P : Predictor σ α) (s : σ) : Indist P s s := by
  refine ⟨Eq, ?_, rfl⟩
  rintro s t rfl
  constructor
  · intro a h w
    cases P.update s a h w with
    | error e => rfl
    | ok p => exact ⟨rfl, rfl⟩
  · intro a h
    cases P.logPredict s a h with
    | error e => rfl
    | ok p => exact ⟨rfl, rfl⟩

theorem SameResult.mono {R R' : σ → σ → Prop} (hR : ∀ s t, R s t → R' s t) {x y : Py (ℝ × σ)}
    (h : SameResult R x y) : SameResult R' x y := by
  cases x with
  | error e =>
    cases y with
    | error e' => exact h
    | ok q => exact h
  | ok p =>
    cases y with
    | error e' => exact h
    | ok q => exact ⟨h.1, hR _ _ h.2⟩

theorem indist_bisimulation (P : Predictor σ α) : Bisimulation P (Indist P) := by
  rintro s t ⟨R, hR, hst⟩
  have hmono : ∀ s t, R s t → Indist P s t := fun s t h => ⟨R, hR, h⟩
  exact ⟨fun a h w => ((hR s t hst).1 a h w).mono hmono, fun a h => ((hR s t hst).2 a h).mono hmono⟩

/-- Indistinguishable states give the same outputs to every sequence of calls. -/
theorem Indist.outputs_eq {P : Predictor σ α} {s t : σ} (h : Indist P s t) (cs : List (Call α)) :
    P.outputs s cs = P.outputs t cs := by
  induction cs generalizing s t with
  | nil => rfl
  | cons c cs ih =>
    have hb := indist_bisimulation P s t h
    have hs : SameResult (Indist P) (P.step s c) (P.step t c) := by
      cases c with
      | update a h w => exact hb.1 a h w
      | predict a h => exact hb.2 a h
    simp only [outputs]
    cases h1 : P.step s c with
    | error e =>
      cases h2 : P.step t c with
      | error e' =>
        rw [h1, h2] at hs
        simp only [SameResult] at hs
        simp [hs]
      | ok q =>
        rw [h1, h2] at hs
        exact hs.elim
    | ok p =>
      cases h2 : P.step t c with
      | error e' =>
        rw [h1, h2] at hs
        exact hs.elim
      | ok q =>
        rw [h1, h2] at hs
        obtain ⟨r, s'⟩ := p
        obtain ⟨r', t'⟩ := q
        obtain ⟨hr, hst⟩ := hs
        simp [hr, ih hst]

end Predictor

end Verif
