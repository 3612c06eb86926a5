import Verif.Spec.FMN
import Verif.Proofs.PTWRegret
import Verif.Props.Mixtures

/-! `FMN`. -/

namespace Verif

open Predictor PTWNode

namespace LogStore

variable {β : Type}

theorem last_add {s : LogStore β} {f : β} (h : s.getLast? = some (f, true)) (x : β) :
    (s.add x).getLast? = some (f, true) := by
  induction s generalizing x with
  | nil => simp at h
  | cons p rest ih =>
    obtain ⟨y, b⟩ := p
    cases b with
    | true =>
      cases rest with
      | nil =>
        simp only [List.getLast?_singleton, Option.some.injEq, Prod.mk.injEq, and_true] at h
        subst h
        simp [add]
      | cons q rest =>
        rw [List.getLast?_cons_cons] at h
        have := ih h y
        cases hq : add (q :: rest) y with
        | nil => rw [hq] at this; simp at this
        | cons z zs =>
          simp only [add] at hq ⊢
          rw [hq] at this ⊢
          rwa [List.getLast?_cons_cons]
    | false =>
      cases rest with
      | nil => simp at h
      | cons q rest =>
        rw [List.getLast?_cons_cons] at h
        simpa [add] using h

theorem mem_add {s : LogStore β} {x y : β} (h : y ∈ (s.add x).items) : y ∈ s.items ∨ y = x := by
  induction s generalizing x with
  | nil => simpa [add, items] using h
  | cons p rest ih =>
    obtain ⟨z, b⟩ := p
    cases b with
    | true =>
      simp only [add, items, List.map_cons, List.mem_cons] at h ⊢
      rcases h with rfl | h
      · exact .inr rfl
      · rcases ih h with h | rfl
        · exact .inl (.inr h)
        · exact .inl (.inl rfl)
    | false =>
      simp only [add, items, List.map_cons, List.mem_cons] at h ⊢
      rcases h with rfl | h
      · exact .inr rfl
      · exact .inl (.inr h)

theorem lawful (σ : Type) : (store σ).Lawful add (fun s f => s.getLast? = some (f, true)) where
  lazyAdd _ _ := rfl
  first _ := ⟨rfl, rfl⟩
  keep _ _ x h := last_add h x
  mem _ f h := List.mem_map.mpr ⟨(f, true), List.mem_of_getLast? h, rfl⟩
  sub _ _ _ h := mem_add h

end LogStore

namespace LogStoreUniform

variable {β : Type}

theorem add_items (s : LogStoreUniform β) (x : β) : (s.add x).items = s.items ∨
    (s.add x).items = s.items ++ [x] ∨ ∃ i, 0 < i ∧ (s.add x).items = (s.items ++ [x]).eraseIdx i := by
  unfold add
  by_cases h1 : s.numToSkip ≠ 0
  · simp [h1]
  · by_cases h2 : 0 < s.indexToRemove
    · refine .inr (.inr ⟨s.indexToRemove.toNat, by omega, ?_⟩)
      simp only [h1, if_false, h2, if_true]
      split_ifs <;> rfl
    · refine .inr (.inl ?_)
      simp only [h1, if_false, h2]
      split_ifs <;> rfl

theorem head_add {s : LogStoreUniform β} {f : β} (h : s.items.head? = some f) (x : β) :
    (s.add x).items.head? = some f := by
  obtain ⟨l, hl⟩ : ∃ l, s.items = f :: l := by
    cases hi : s.items with
    | nil => rw [hi] at h; simp at h
    | cons y l => rw [hi] at h; simp at h; exact ⟨l, by rw [h]⟩
  rcases add_items s x with h1 | h1 | ⟨i, hi, h1⟩
  · rw [h1, h]
  · rw [h1, hl]; simp
  · obtain ⟨i, rfl⟩ := Nat.exists_eq_succ_of_ne_zero hi.ne'
    rw [h1, hl]; simp

theorem lawful (σ : Type) : (store σ).Lawful add (fun s f => s.items.head? = some f) where
  lazyAdd s x := by
    unfold store add
    by_cases h : s.numToSkip ≠ 0
    · simp [h]
    · simp [h]
  first x := by
    constructor
    · simp [store, add, init]
    · simp [store, add, init, list]
  keep _ _ x h := head_add h x
  mem s f h := by
    simp only [store, list, List.mem_reverse]
    exact List.mem_of_head? h
  sub s x y h := by
    simp only [store, list, List.mem_reverse] at h ⊢
    rcases add_items s x with h1 | h1 | ⟨i, _, h1⟩
    · rw [h1] at h; exact .inl h
    · rw [h1] at h; simpa using h
    · rw [h1] at h
      have := List.mem_of_mem_eraseIdx h
      simpa using this

end LogStoreUniform

/-- Only the values of the factory up to the current time matter, on parts of the sequence. -/
theorem PTWNode.ptwProb_congr_on {β : Type} {p q : ℕ → List β → ℝ} {m : ℕ} (G : List β → Prop)
    (htk : ∀ xs n, G xs → G (xs.take n)) (hdr : ∀ xs n, G xs → G (xs.drop n))
    (hp : ∀ t, p t [] = 1) (hq : ∀ t, q t [] = 1)
    (k t : ℕ) (xs : List β) (hG : G xs) (h : ∀ i ys, G ys → i < t + xs.length → p i ys = q i ys) :
    ptwProb p m k t xs = ptwProb q m k t xs := by
  by_cases hne : xs = []
  · subst hne
    rw [ptwProb_nil hp, ptwProb_nil hq]
  have hpos := List.length_pos_iff.mpr hne
  induction k generalizing t xs with
  | zero => exact h t xs hG (by omega)
  | succ k ih =>
    simp only [ptwProb]
    have hpow : 0 < 2 ^ (m + k) := by positivity
    rw [h t xs hG (by omega)]
    congr 2
    have htake : xs.take (2 ^ (m + k)) ≠ [] := by
      intro h0
      have := congrArg List.length h0
      rw [List.length_take, List.length_nil] at this
      omega
    rw [ih t _ (htk _ _ hG) (fun i ys hy hi => h i ys hy (by rw [List.length_take] at hi; omega)) htake
      (List.length_pos_iff.mpr htake)]
    congr 1
    by_cases hd : xs.drop (2 ^ (m + k)) = []
    · rw [hd, ptwProb_nil hp, ptwProb_nil hq]
    · refine ih _ _ (hdr _ _ hG) (fun i ys hy hi => h i ys hy ?_) hd (List.length_pos_iff.mpr hd)
      have hlt := List.length_pos_iff.mpr hd
      rw [List.length_drop] at hi hlt
      omega

theorem PTWNode.ptwProb_congr {β : Type} {p q : ℕ → List β → ℝ} {m : ℕ} (hp : ∀ t, p t [] = 1) (hq : ∀ t, q t [] = 1)
    (k t : ℕ) (xs : List β) (h : ∀ i ys, i < t + xs.length → p i ys = q i ys) :
    ptwProb p m k t xs = ptwProb q m k t xs :=
  ptwProb_congr_on (fun _ => True) (fun _ _ _ => trivial) (fun _ _ _ => trivial) hp hq k t xs trivial
    (fun i ys _ => h i ys)

theorem PTWNode.blockProb_congr {σ α : Type} {P : Predictor σ α} {fr gr : ℕ → σ} {n : ℕ} (h : ∀ i ≤ n, fr i = gr i) :
    ∀ i ys, i ≤ n → blockProb P fr i ys = blockProb P gr i ys := by
  intro i ys hi
  unfold blockProb
  rw [h i hi]

theorem PTWNode.Rep.congr {σ α : Type} {P : Predictor σ α} {fr gr : ℕ → σ} {m t : ℕ} {n : PTWNode σ} {xs : List (Obs α)}
    (hr : Rep P fr m t n xs) (h : ∀ i ≤ t + xs.length, fr i = gr i) : Rep P gr m t n xs := by
  induction hr with
  | @leaf t d xs h1 h2 h3 h4 => exact .leaf (h t (by omega) ▸ h1) h2 h3 h4
  | @inner t k d r xs h1 h2 h3 h4 h5 h6 h7 ih =>
    have hb := blockProb_congr (P := P) h
    refine .inner (h t (by omega) ▸ h1) h2 h3 h4 ?_ ?_ (ih ?_)
    · rw [h5]
      refine PTWNode.ptwProb_congr (blockProb_nil P _) (blockProb_nil P _) _ _ _ (fun i ys hi => hb i ys ?_)
      rw [List.length_take] at hi
      omega
    · rw [h6]
      exact PTWNode.ptwProb_congr (blockProb_nil P _) (blockProb_nil P _) _ _ _ (fun i ys hi => hb i ys hi.le)
    · intro i hi
      apply h i
      rw [List.length_drop] at hi
      omega

theorem PTWNode.mapNodes_ne {σ : Type} (n : PTWNode σ) (l : ℝ) : n.mapNodes l ≠ [] := by
  cases n <;> simp [mapNodes]

theorem PTWNode.mapNodes_all {σ : Type} {I : σ → Prop} {n : PTWNode σ} (h : All I n) (l : ℝ) :
    ∀ p ∈ n.mapNodes l, I p.1 := by
  induction n generalizing l with
  | leaf d =>
    intro p hp
    simp only [mapNodes, List.mem_singleton] at hp
    subst hp
    exact h
  | inner d r ih =>
    intro p hp
    simp only [mapNodes, List.mem_cons] at hp
    rcases hp with rfl | hp
    · exact h.1
    · exact ih h.2 _ p hp

theorem Averager.maxByKey_mem {σ : Type} (x : σ × ℝ) (xs : List (σ × ℝ)) : maxByKey x xs ∈ x :: xs := by
  obtain ⟨i, hi, h1, _⟩ := maxByKey_spec x xs
  rw [h1]
  exact List.getElem_mem _

theorem PTW.map_ok {σ : Type} {I : σ → Prop} {s : PTW σ} (h : All I s.tree) : ∃ b, s.map = .ok b ∧ I b := by
  unfold PTW.map
  cases hm : s.tree.mapNodes 0 with
  | nil => exact absurd hm (mapNodes_ne _ _)
  | cons x xs =>
    refine ⟨_, rfl, mapNodes_all h 0 _ ?_⟩
    rw [hm]
    exact Averager.maxByKey_mem x xs

theorem Averager.map_ok {σ : Type} {I : σ → Prop} {s : Averager σ} (h : Over I s) : ∃ b, s.map = .ok b ∧ I b := by
  obtain ⟨models, lp⟩ := s
  cases models with
  | nil => exact absurd rfl h.inv.ne
  | cons x xs => exact ⟨_, rfl, h.all _ (Averager.maxByKey_mem x xs)⟩

namespace FMN

variable {S σ α : Type} {P : Predictor σ α} {I : σ → Prop}

theorem copies_ok (hC : P.Copyable I) {ms : List σ} (h : ∀ x ∈ ms, I x) :
    ∃ ys, copies P ms = .ok ys ∧
      List.Forall₂ (fun x y => P.copy x = .ok y ∧ I y ∧ ∀ xs, P.seqProb y xs = P.seqProb x xs) ms ys := by
  induction ms with
  | nil => exact ⟨[], rfl, .nil⟩
  | cons x ms ih =>
    obtain ⟨ys, h1, h2⟩ := ih (fun y hy => h y (by simp [hy]))
    obtain ⟨y, h3, h4⟩ := hC x (h x (by simp))
    exact ⟨y :: ys, by simp only [copies, h1, h3, ok_bind, pure_eq_ok], .cons ⟨h3, h4⟩ h2⟩

theorem forall₂_sum {ms ys : List σ} (xs : List (Obs α))
    (h : List.Forall₂ (fun x y => P.copy x = .ok y ∧ I y ∧ ∀ xs, P.seqProb y xs = P.seqProb x xs) ms ys) :
    (ys.map fun m => P.seqProb m xs).sum = (ms.map fun m => P.seqProb m xs).sum := by
  induction h with
  | nil => rfl
  | cons h _ ih => simp [ih, h.2.2]

theorem forall₂_inv {ms ys : List σ}
    (h : List.Forall₂ (fun x y => P.copy x = .ok y ∧ I y ∧ ∀ xs, P.seqProb y xs = P.seqProb x xs) ms ys) :
    ∀ y ∈ ys, I y := by
  induction h with
  | nil => simp
  | cons h _ ih =>
    intro y hy
    rcases List.mem_cons.mp hy with rfl | hy
    · exact h.2.1
    · exact ih y hy

/-- The factory succeeds on a non-empty store, and its result assigns the mean of the stored models' probabilities. -/
theorem modelFactory_ok {A : List α} {W : ℝ → Prop} (hP : P.UpdateLawful I A W) (hC : P.Copyable I) {ms : List σ}
    (h : ∀ x ∈ ms, I x) (hne : ms ≠ []) :
    ∃ v, modelFactory P ms = .ok v ∧ Averager.Over I v ∧ ∀ xs, GoodObs A W xs →
      (Averager.predictor P).seqProb v xs = (ms.map fun m => P.seqProb m xs).sum / ms.length := by
  obtain ⟨ys, h1, h2⟩ := copies_ok hC h
  have hne' : ys ≠ [] := by
    rintro rfl
    cases h2
    exact hne rfl
  have hinit : Averager.init ys = .ok _ := Averager.init_ok.mpr ⟨hne', rfl⟩
  refine ⟨_, by simp only [modelFactory, h1, ok_bind]; exact hinit, Averager.over_init (forall₂_inv h2) hinit, ?_⟩
  intro xs hx
  obtain ⟨s0, g0, giff, gmix⟩ := C08_Averager_mixture P ys hne' xs
  rw [hinit] at g0
  simp only [Except.ok.injEq] at g0
  subst g0
  obtain ⟨r, s, hr⟩ := giff.mpr (fun y hy => by
    obtain ⟨r, t, h3, _⟩ := hP.run_ok (forall₂_inv h2 y hy) hx
    exact ⟨r, t, h3⟩)
  rw [seqProb_of_run hr, (gmix r s hr).1, forall₂_sum xs h2, h2.length_eq]

variable {St : Store S σ} {add : S → σ → S} {Keep : S → σ → Prop} {m : ℕ}

/-- What holds in every state, apart from the history. -/
structure Good (St : Store S σ) (Keep : S → σ → Prop) (I : σ → Prop) (f : σ) (s : FMN S σ) : Prop where
  tree : All (Averager.Over I) s.ptw.tree
  keep : Keep s.store f
  all : ∀ x ∈ St.items s.store, I x

theorem best_ok (hC : P.Copyable I) {p : PTW (Averager σ)} (h : All (Averager.Over I) p.tree) :
    ∃ b, best P p = .ok b ∧ I b := by
  obtain ⟨a, h1, h2⟩ := PTW.map_ok h
  obtain ⟨b, h3, h4⟩ := Averager.map_ok h2
  obtain ⟨c, h5, h6, _⟩ := hC b h4
  exact ⟨c, by simp only [best, h1, h3, h5, ok_bind], h6⟩

theorem Good.factory {A : List α} {W : ℝ → Prop} (hP : P.UpdateLawful I A W) (hC : P.Copyable I)
    (hSt : St.Lawful add Keep) {f : σ} {s : FMN S σ} (hs : Good St Keep I f s) :
    ∃ v, modelFactory P (St.items s.store) = .ok v ∧ Averager.Over I v ∧ ∀ xs, GoodObs A W xs →
      (Averager.predictor P).seqProb v xs =
        ((St.items s.store).map fun m => P.seqProb m xs).sum / (St.items s.store).length :=
  modelFactory_ok hP hC hs.all (List.ne_nil_of_mem (hSt.mem _ _ hs.keep))

theorem init_ok {A : List α} {W : ℝ → Prop} (hP : P.UpdateLawful I A W) (hC : P.Copyable I)
    (hSt : St.Lawful add Keep) {f : σ} (hf : I f) :
    ∃ v, modelFactory P [f] = .ok v ∧ Averager.Over I v ∧
      init St P f m = .ok ⟨PTW.init v m, add St.empty f, 0⟩ ∧
      Good St Keep I f ⟨PTW.init v m, add St.empty f, 0⟩ := by
  have h1 := hSt.first f
  obtain ⟨v, h2, h3, _⟩ := modelFactory_ok (ms := [f]) hP hC (by simpa using hf) (by simp)
  refine ⟨v, h2, h3, ?_, h3, h1.1, ?_⟩
  · simp only [init, hSt.lazyAdd, ok_bind, h1.2, h2, pure_eq_ok]
  · intro x hx
    rw [h1.2, List.mem_singleton] at hx
    exact hx ▸ hf

/-- One update succeeds; it performs a `PTW` update with the current factory, and at the end of a period adds the best
model. -/
theorem update_ok {A : List α} {W : ℝ → Prop} (hP : P.UpdateLawful I A W) (hC : P.Copyable I)
    (hSt : St.Lawful add Keep) {f : σ} {s : FMN S σ} (hs : Good St Keep I f s) {v : Averager σ}
    (hv : modelFactory P (St.items s.store) = .ok v) {a : α} (ha : a ∈ A) (h : List α) {w : ℝ} (hw : W w) :
    ∃ r p b, s.ptw.update (Averager.predictor P) (.ok v) m a h w = .ok (r, p) ∧ best P p = .ok b ∧
      update St P m s a h w =
        .ok (r, ⟨p, if (s.t + 1) % 2 ^ m = 0 then add s.store b else s.store, s.t + 1⟩) ∧
      Good St Keep I f ⟨p, if (s.t + 1) % 2 ^ m = 0 then add s.store b else s.store, s.t + 1⟩ := by
  obtain ⟨v', g1, g2, _⟩ := hs.factory hP hC hSt
  rw [hv] at g1
  simp only [Except.ok.injEq] at g1
  subst g1
  obtain ⟨r, p, h1, h2⟩ := PTW.update_total (m := m) (Averager.updateLawful hP) g2 hs.tree ha h hw
  obtain ⟨b, h3, h4⟩ := best_ok hC h2
  refine ⟨r, p, b, h1, h3, ?_, h2, ?_, ?_⟩
  · simp only [update, hv, h1, ok_bind, h3, hSt.lazyAdd]
    split_ifs <;> rfl
  · simp only
    split_ifs
    · exact hSt.keep _ _ _ hs.keep
    · exact hs.keep
  · simp only
    split_ifs
    · intro x hx
      rcases hSt.sub _ _ _ hx with hx | rfl
      · exact hs.all x hx
      · exact h4
    · exact hs.all

/-- The run so far: `fr t` is what the factory returns after `t` observations, and `ms` are the models stored since the
start. -/
structure Hist (St : Store S σ) (add : S → σ → S) (Keep : S → σ → Prop) (I : σ → Prop) (P : Predictor σ α) (m : ℕ)
    (f : σ) (s0 : FMN S σ) (fr : ℕ → Averager σ) (ms : List σ) (xs : List (Obs α)) (r : ℝ) (s : FMN S σ) : Prop where
  run : (predictor St P m).run s0 xs = .ok (r, s)
  ptw : PTW.Inv (Averager.predictor P) fr m s.ptw xs
  total : r = s.ptw.logProb
  adj : (2/3 : ℝ) ^ levelsFor m xs.length ≤ Real.exp s.ptw.adj
  t : s.t = xs.length
  factory : ∀ t ≤ xs.length, ∃ r' s', (predictor St P m).run s0 (xs.take t) = .ok (r', s') ∧
    Good St Keep I f s' ∧ modelFactory P (St.items s'.store) = .ok (fr t)
  over : ∀ t, Averager.Over I (fr t)
  store : s.store = (f :: ms).foldl add St.empty
  count : ms.length = xs.length / 2 ^ m
  models : ∀ (i : ℕ) (hi : i < ms.length), ∃ r' s', (predictor St P m).run s0 (xs.take ((i + 1) * 2 ^ m)) = .ok (r', s') ∧
    best P s'.ptw = .ok ms[i]

theorem hist_step {A : List α} {W : ℝ → Prop} (hP : P.UpdateLawful I A W) (hC : P.Copyable I)
    (hSt : St.Lawful add Keep) {f : σ} {s0 s : FMN S σ} {fr : ℕ → Averager σ} {ms : List σ} {xs : List (Obs α)} {r : ℝ}
    (hh : Hist St add Keep I P m f s0 fr ms xs r s) (hs : Good St Keep I f s) {o : Obs α} (ha : o.sym ∈ A) (hw : W o.weight) :
    ∃ q s' fr' ms', update St P m s o.sym o.hist o.weight = .ok (q, s') ∧ Good St Keep I f s' ∧
      Hist St add Keep I P m f s0 fr' ms' (xs ++ [o]) (r + q) s' := by
  obtain ⟨r', s', h1, _, h2⟩ := hh.factory xs.length le_rfl
  rw [List.take_length, hh.run] at h1
  simp only [Except.ok.injEq, Prod.mk.injEq] at h1
  obtain ⟨rfl, rfl⟩ := h1
  obtain ⟨q, p, b, g1, g2, g3, g4⟩ := update_ok (m := m) hP hC hSt hs h2 ha o.hist hw
  obtain ⟨v, e1, e2, _⟩ := g4.factory hP hC hSt
  generalize hs' : (⟨p, if (s.t + 1) % 2 ^ m = 0 then add s.store b else s.store, s.t + 1⟩ : FMN S σ) = s' at *
  have hrun : (predictor St P m).run s0 (xs ++ [o]) = .ok (r + q, s') := CTWNode.run_snoc_ok hh.run g3
  have hptw := (hh.ptw.update (o := o) g1).1
  have hcongr : ∀ i ≤ xs.length, fr i = Function.update fr (xs.length + 1) v i := by
    intro i hi
    rw [Function.update_of_ne (by omega)]
  have hptw' : PTW.Inv (Averager.predictor P) (Function.update fr (xs.length + 1) v) m p (xs ++ [o]) := by
    have h3 : PTW.Inv (Averager.predictor P) (Function.update fr (xs.length + 1) v) m s.ptw xs :=
      ⟨hh.ptw.rep.congr (by simpa using hcongr), hh.ptw.lp⟩
    refine (h3.update (o := o) (r := q) ?_).1
    rw [← hcongr _ le_rfl]
    exact g1
  have hpos : 0 < 2 ^ m := by positivity
  refine ⟨q, s', Function.update fr (xs.length + 1) v,
    if (xs.length + 1) % 2 ^ m = 0 then ms ++ [b] else ms, g3, g4, hrun, ?_, ?_, ?_, ?_, ?_, ?_, ?_, ?_, ?_⟩
  · rw [← hs']; exact hptw'
  · rw [← hs']
    simp only [PTW.update, bind_eq_ok, pure_eq_ok, Except.ok.injEq, Prod.mk.injEq] at g1
    obtain ⟨n, hn, rfl, rfl⟩ := g1
    rw [hh.total]
    ring
  · have hadj := PTW.exp_adjusted_ge hh.ptw hh.adj
    simp only [PTW.update, bind_eq_ok, pure_eq_ok, Except.ok.injEq, Prod.mk.injEq] at g1
    obtain ⟨n, hn, rfl, rfl⟩ := g1
    rw [← hs']
    simpa using hadj
  · rw [← hs']; simp [hh.t]
  · intro t ht
    rw [List.length_append, List.length_singleton] at ht
    rcases Nat.lt_or_ge xs.length t with hlt | hle
    · have : t = xs.length + 1 := by omega
      subst this
      refine ⟨r + q, s', ?_, g4, ?_⟩
      · rw [List.take_of_length_le (by simp)]
        exact hrun
      · rw [Function.update_self]
        exact e1
    · obtain ⟨r1, s1, k1, k3, k2⟩ := hh.factory t hle
      refine ⟨r1, s1, ?_, k3, ?_⟩
      · rw [List.take_append_of_le_length hle]; exact k1
      · rw [← hcongr t hle]; exact k2
  · intro t
    by_cases ht : t = xs.length + 1
    · subst ht
      rw [Function.update_self]
      exact e2
    · rw [Function.update_of_ne ht]
      exact hh.over t
  · rw [← hs']
    simp only [hh.t]
    split_ifs
    · rw [hh.store, ← List.cons_append, List.foldl_append]; rfl
    · exact hh.store
  · rw [List.length_append, List.length_singleton, Nat.succ_div]
    have := hh.count
    split_ifs with c1 c2 c2
    · simp [hh.count]
    · exact absurd (Nat.dvd_of_mod_eq_zero c1) c2
    · exact absurd (Nat.mod_eq_zero_of_dvd c2) c1
    · simpa using hh.count
  · intro i hi
    have hcount := hh.count
    by_cases hlt : i < ms.length
    · obtain ⟨r1, s1, k1, k2⟩ := hh.models i hlt
      refine ⟨r1, s1, ?_, ?_⟩
      · rw [List.take_append_of_le_length]
        · exact k1
        · calc (i + 1) * 2 ^ m ≤ ms.length * 2 ^ m := Nat.mul_le_mul_right _ hlt
            _ ≤ xs.length := by rw [hcount]; exact Nat.div_mul_le_self _ _
      · rw [k2]
        congr 1
        split_ifs <;> simp [List.getElem_append_left, hlt]
    · split_ifs at hi with c
      · rw [List.length_append, List.length_singleton] at hi
        have hi' : i = ms.length := by omega
        subst hi'
        have hdvd := Nat.dvd_of_mod_eq_zero c
        have hval : (ms.length + 1) * 2 ^ m = xs.length + 1 := by
          rw [hcount]
          obtain ⟨c, hc⟩ := hdvd
          have : (xs.length + 1) / 2 ^ m = c := by rw [hc, Nat.mul_div_cancel_left _ hpos]
          rw [Nat.succ_div, if_pos ⟨c, hc⟩] at this
          rw [this, hc, mul_comm]
        refine ⟨r + q, s', ?_, ?_⟩
        · rw [hval, List.take_of_length_le (by simp)]
          exact hrun
        · rw [← hs', g2]
          simp [c]
      · exact absurd hi hlt

theorem hist_run {A : List α} {W : ℝ → Prop} (hP : P.UpdateLawful I A W) (hC : P.Copyable I)
    (hSt : St.Lawful add Keep) {f : σ} (hf : I f) {xs : List (Obs α)} (hx : GoodObs A W xs) :
    ∃ s0 r s fr ms, init St P f m = .ok s0 ∧ Good St Keep I f s ∧ Hist St add Keep I P m f s0 fr ms xs r s := by
  obtain ⟨v, h1, h2, h3, h4⟩ := init_ok (m := m) hP hC hSt hf
  induction xs using List.reverseRecOn with
  | nil =>
    refine ⟨_, 0, _, fun _ => v, [], h3, h4, rfl, PTW.inv_init, rfl, ?_, rfl, ?_, fun _ => h2, rfl, by simp, ?_⟩
    · simp [levelsFor_zero, PTW.init]
    · intro t _
      refine ⟨0, ⟨PTW.init v m, add St.empty f, 0⟩, by simp [Predictor.run], h4, ?_⟩
      rw [(hSt.first f).2]
      exact h1
    · intro i hi
      simp at hi
  | append_singleton xs o ih =>
    obtain ⟨s0, r, s, fr, ms, g1, g2, g3⟩ := ih (fun x hx' => hx x (by simp [hx']))
    have ho := hx o (by simp)
    obtain ⟨q, s', fr', ms', k1, k2, k3⟩ := hist_step hP hC hSt g3 g2 ho.1 ho.2
    exact ⟨s0, r + q, s', fr', ms', g1, k2, k3⟩

end FMN

end Verif
