import Verif.Model.CTWHeap

/-!
# Separate models

The specification of copying: a session in which every model owns a tree, `copy` duplicates the whole tree, and
no operation on one model can touch another.
-/

namespace Verif

/-- The models of a session without sharing: each existing model has its context function and its own tree. -/
abbrev Trees (σ α : Type) (k : ℕ) := List (Option ((List α → List (Fin k)) × CTWNode σ (Fin k)))

namespace Trees

variable {σ α : Type} {k : ℕ}

noncomputable def step (P : Predictor σ α) (fresh : σ) (vs : Trees σ α k) : HOp α k → Py (Option ℝ × Trees σ α k)
  | .new ctx => .ok (none, vs ++ [some (ctx, CTW.init fresh)])
  | .copy i =>
    match vs[i]? with
    | some (some p) => .ok (none, vs ++ [some p])
    | _ => .ok (none, vs)
  | .update i a h w =>
    match vs[i]? with
    | some (some (ctx, T)) => do
      let (r, T') ← (CTW.predictor P fresh ctx).update T a h w
      pure (some r, vs.set i (some (ctx, T')))
    | _ => .ok (none, vs)
  | .predict i a h =>
    match vs[i]? with
    | some (some (ctx, T)) => do
      let (r, T') ← (CTW.predictor P fresh ctx).logPredict T a h
      pure (some r, vs.set i (some (ctx, T')))
    | _ => .ok (none, vs)
  | .destroy i =>
    match vs[i]? with
    | some (some _) => .ok (none, vs.set i none)
    | _ => .ok (none, vs)

/-- Values returned by a sequence of operations, up to the first exception, and the final models or exception. -/
noncomputable def run (P : Predictor σ α) (fresh : σ) (vs : Trees σ α k) :
    List (HOp α k) → List (Option ℝ) × Py (Trees σ α k)
  | [] => ([], .ok vs)
  | op :: ops =>
    match step P fresh vs op with
    | .error e => ([], .error e)
    | .ok (o, vs') => (o :: (run P fresh vs' ops).1, (run P fresh vs' ops).2)

end Trees

namespace Session

variable {σ α : Type} {k : ℕ}

/-- No memory, no models. -/
def start : Session σ α k := ⟨Heap.empty, []⟩

/-- The same for sessions over shared memory. -/
noncomputable def run (P : Predictor σ α) (fresh : σ) (fuel : ℕ) (S : Session σ α k) :
    List (HOp α k) → List (Option ℝ) × HM (Session σ α k)
  | [] => ([], .ok S)
  | op :: ops =>
    match step P fresh fuel S op with
    | .error e => ([], .error e)
    | .ok (o, S') => (o :: (run P fresh fuel S' ops).1, (run P fresh fuel S' ops).2)

/-- Roots of the models that exist. -/
def roots (S : Session σ α k) : List ℕ := S.models.filterMap (fun o => o.map Prod.snd)

/-- Addresses that can be reached from the existing models by following child pointers. -/
inductive Reachable (S : Session σ α k) : ℕ → Prop
  | root {a : ℕ} : a ∈ S.roots → Reachable S a
  | child {a b : ℕ} {n : HNode σ k} {c : Fin k} :
      Reachable S a → S.heap.mem a = some n → n.children c = some b → Reachable S b

end Session

end Verif
