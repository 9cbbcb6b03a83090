import Verif.Model.CausalEffect
import Verif.Proofs.IMap
import Verif.Proofs.VermaPearl
import Mathlib.LinearAlgebra.Matrix.Notation
import Mathlib.Data.Matrix.Mul
import Mathlib.Tactic.Linarith
import Mathlib.Tactic.Ring
import Mathlib.Tactic.LinearCombination
import Mathlib.Tactic.FieldSimp
import Mathlib.Tactic.NormNum

/-!
# C96–C98: interventional effects of a linear causal model
-/
namespace CL
namespace Effect
open Spec Relation
variable {n : Nat} {K : Type} [Field K] [LinearOrder K]

/-! ## Specification -/

/-- `order` lists every variable once, and a variable only after all variables in its equation. -/
def Topological (B : Fin n → Fin n → K) (order : List (Fin n)) : Prop :=
  order.Perm (List.finRange n) ∧ ∀ i j, B i j ≠ 0 → ∃ l₁ l₂, order = l₁ ++ i :: l₂ ∧ j ∈ l₁

/-- `x` solves the structural equations `x_i = Σ_j B i j x_j + e_i` in which the equation of `idx` is replaced by `x_idx = v`: the
expectations after the intervention `do(idx = v)`. -/
def DoSolution (B : Fin n → Fin n → K) (e : Fin n → K) (idx : Fin n) (v : K) (x : Fin n → K) : Prop :=
  x idx = v ∧ ∀ i, i ≠ idx → x i = ∑ j, B i j * x j + e i

/-- The total effect of `i` on `k`: the sum over all directed walks from `i` to `k` of the products of their coefficients (in an acyclic
model walks are paths and have fewer than `n` edges). -/
def totalEffect (B : Fin n → Fin n → K) (k i : Fin n) : K := ∑ m ∈ Finset.range n, (Matrix.of B ^ m) k i

/-! ## C96: the causal order of a matrix -/

theorem orderLoop_spec {eps : K} {B : Fin n → Fin n → K} (k : Nat) (orig l : List (Fin n)) (hn : orig.Nodup) (hk : orig.length = k)
    (h : orderLoop eps B k orig = some l) :
    l.Perm orig ∧ ∀ l₁ i l₂, l = l₁ ++ i :: l₂ → ((i :: l₂).map fun j => |B i j|).sum < eps := by
  induction k generalizing orig l with
  | zero =>
    obtain rfl := List.length_eq_zero_iff.1 hk
    simp only [orderLoop, Option.some.injEq] at h
    subst h
    exact ⟨List.Perm.refl _, by simp⟩
  | succ k ih =>
    rw [orderLoop, Option.bind_eq_some_iff] at h
    obtain ⟨i, h1, h2⟩ := h
    rw [Option.map_eq_some_iff] at h2
    obtain ⟨l', h2, rfl⟩ := h2
    have him : i ∈ orig := List.mem_of_find?_eq_some h1
    have hp : (i :: orig.filter (· ≠ i)).Perm orig := by
      have he : orig.filter (· ≠ i) = orig.erase i := by
        rw [hn.erase_eq_filter]; apply List.filter_congr; intro x _; by_cases hx : x = i <;> simp [hx]
      rw [he]; exact (List.perm_cons_erase him).symm
    obtain ⟨p1, p2⟩ := ih (orig.filter (· ≠ i)) l' (hn.filter _) (by have := hp.length_eq; simp at this ⊢; omega) h2
    refine ⟨(p1.cons i).trans hp, fun l₁ a l₂ he => ?_⟩
    cases l₁ with
    | nil =>
      simp only [List.nil_append, List.cons.injEq] at he
      obtain ⟨rfl, rfl⟩ := he
      have h3 := List.find?_some h1
      have : ((orig.map fun j => |B i j|)).sum = ((i :: l').map fun j => |B i j|).sum := ((((p1.cons i).trans hp).map _).sum_eq).symm
      rw [← this]
      simpa using h3
    | cons b l₁ =>
      simp only [List.cons_append, List.cons.injEq] at he
      exact p2 l₁ a l₂ he.2

theorem orderLoop_some [IsStrictOrderedRing K] {eps : K} (he : 0 < eps) {B : Fin n → Fin n → K} (hac : Acyclic fun j i => B i j ≠ 0) (k : Nat) (orig : List (Fin n))
    (hn : orig.Nodup) (hk : orig.length = k) : ∃ l, orderLoop eps B k orig = some l := by
  obtain ⟨ρ, hr⟩ := Acyclic.exists_rank hac
  induction k generalizing orig with
  | zero => exact ⟨[], rfl⟩
  | succ k ih =>
    rw [orderLoop]
    have hne : orig.toFinset.Nonempty := by
      obtain ⟨a, ha⟩ := List.exists_mem_of_length_pos (l := orig) (by omega)
      exact ⟨a, by simpa using ha⟩
    obtain ⟨i, hi, hmin⟩ := Finset.exists_min_image orig.toFinset ρ hne
    have hi' : i ∈ orig := by simpa using hi
    have hsum : (orig.map fun j => |B i j|).sum = 0 := by
      apply List.sum_eq_zero
      intro x hx
      obtain ⟨j, hj, rfl⟩ := List.mem_map.1 hx
      rw [abs_eq_zero]
      by_contra hb
      have := hr _ _ hb
      have := hmin j (by simpa using hj)
      omega
    obtain ⟨a, ha⟩ : ∃ a, (orig.find? fun i => decide ((orig.map fun j => |B i j|).sum < eps)) = some a := by
      cases hf : orig.find? fun i => decide ((orig.map fun j => |B i j|).sum < eps) with
      | some a => exact ⟨a, rfl⟩
      | none =>
        have := List.find?_eq_none.1 hf i hi'
        rw [hsum] at this
        simp [he] at this
    have ham := List.mem_of_find?_eq_some ha
    obtain ⟨l, hl⟩ := ih (orig.filter (· ≠ a)) (hn.filter _) (by
      have he : orig.filter (· ≠ a) = orig.erase a := by
        rw [hn.erase_eq_filter]; apply List.filter_congr; intro x _; by_cases hx : x = a <;> simp [hx]
      rw [he, List.length_erase_of_mem ham]; omega)
    exact ⟨a :: l, by rw [ha, Option.bind_some, hl]; rfl⟩

theorem topological_rank {B : Fin n → Fin n → K} {l : List (Fin n)} (h : Topological B l) : ∀ i j, B i j ≠ 0 → l.idxOf j < l.idxOf i := by
  intro i j hb
  obtain ⟨l₁, l₂, rfl, hj⟩ := h.2 i j hb
  have hn : (l₁ ++ i :: l₂).Nodup := h.1.nodup_iff.2 (List.nodup_finRange n)
  have hi : i ∉ l₁ := fun hi => by
    have := List.disjoint_of_nodup_append hn hi
    simp at this
  rw [List.idxOf_append_of_mem hj, List.idxOf_append_of_notMem hi]
  have := List.idxOf_lt_length_of_mem hj
  omega

theorem topological_acyclic {B : Fin n → Fin n → K} {l : List (Fin n)} (h : Topological B l) : Acyclic fun j i => B i j ≠ 0 :=
  acyclic_of_rank (ρ := fun v => l.idxOf v) fun j i hb => topological_rank h i j hb

/-- **C96.** For a square matrix whose coefficients are zero or not smaller than the tolerance, the constructor finds a causal order
exactly when the model has no directed cycle, and the order lists every variable once, after all variables in its equation. -/
theorem C96_causal_order [IsStrictOrderedRing K] (eps : K) (he : 0 < eps) (B : Fin n → Fin n → K) (hB : ∀ i j, B i j ≠ 0 → eps ≤ |B i j|) :
    ((∃ l, causalOrder eps B = some l) ↔ Acyclic fun j i => B i j ≠ 0) ∧ ∀ l, causalOrder eps B = some l → Topological B l := by
  have key : ∀ l, causalOrder eps B = some l → Topological B l := by
    intro l h
    obtain ⟨p1, p2⟩ := orderLoop_spec n _ l (List.nodup_finRange n) (by simp) h
    refine ⟨p1, fun i j hb => ?_⟩
    obtain ⟨l₁, l₂, rfl⟩ := List.append_of_mem (p1.mem_iff.2 (List.mem_finRange i))
    refine ⟨l₁, l₂, rfl, ?_⟩
    have hj := p1.mem_iff.2 (List.mem_finRange j)
    rw [List.mem_append] at hj
    refine hj.resolve_right fun hj => ?_
    have h1 := p2 l₁ i l₂ rfl
    have h2 : |B i j| ≤ ((i :: l₂).map fun j => |B i j|).sum :=
      List.single_le_sum (by intro x hx; obtain ⟨_, -, rfl⟩ := List.mem_map.1 hx; exact abs_nonneg _) _ (List.mem_map.2 ⟨j, hj, rfl⟩)
    exact absurd (hB i j hb) (not_le.2 (lt_of_le_of_lt h2 h1))
  exact ⟨⟨fun ⟨l, h⟩ => topological_acyclic (key l h), fun h => orderLoop_some he h n _ (List.nodup_finRange n) (by simp)⟩, key⟩

/-- **C96, any matrix.** Whatever the matrix, an order that is returned lists every variable once, and the coefficients of the variables
that are not before a variable in its own equation sum up to less than the tolerance in absolute value. -/
theorem C96_within_tolerance (eps : K) (B : Fin n → Fin n → K) (l : List (Fin n)) (h : causalOrder eps B = some l) :
    l.Perm (List.finRange n) ∧ ∀ l₁ i l₂, l = l₁ ++ i :: l₂ → ((i :: l₂).map fun j => |B i j|).sum < eps :=
  orderLoop_spec n _ l (List.nodup_finRange n) (by simp) h

/-! ## C97: expectations after an intervention -/

theorem foldl_notMem {B : Fin n → Fin n → K} {e : Fin n → K} {idx : Fin n} {v : K} (l : List (Fin n)) (x : Fin n → K) (i : Fin n) (hi : i ∉ l) :
    l.foldl (propStep B e idx v) x i = x i := by
  induction l generalizing x with
  | nil => rfl
  | cons a l ih =>
    rw [List.foldl_cons, ih _ (fun h => hi (List.mem_cons_of_mem _ h)), propStep, Function.update_of_ne (fun h : i = a => hi (h ▸ List.mem_cons_self))]

theorem propagate_solution {B : Fin n → Fin n → K} {l : List (Fin n)} (h : Topological B l) (e : Fin n → K) (idx : Fin n) (v : K) :
    DoSolution B e idx v (propagate B l e idx v) := by
  have hn : l.Nodup := h.1.nodup_iff.2 (List.nodup_finRange n)
  have hmem : ∀ i, i ∈ l := fun i => h.1.mem_iff.2 (List.mem_finRange i)
  have key : ∀ i, propagate B l e idx v i = if i = idx then v else ∑ j, B i j * propagate B l e idx v j + e i := by
    intro i
    obtain ⟨l₁, l₂, rfl⟩ := List.append_of_mem (hmem i)
    have hn' := List.nodup_append.1 hn
    have hi2 : i ∉ l₂ := (List.nodup_cons.1 hn'.2.1).1
    unfold propagate
    rw [List.foldl_append, List.foldl_cons]
    conv_lhs => rw [foldl_notMem l₂ _ i hi2, propStep, Function.update_self]
    split
    · rfl
    · congr 1
      apply Finset.sum_congr rfl
      intro j _
      by_cases hb : B i j = 0
      · rw [hb]; simp
      congr 1
      obtain ⟨m₁, m₂, hm, hj⟩ := h.2 i j hb
      have hj1 : j ∈ l₁ := by
        have := topological_rank h i j hb
        by_contra hc
        have hi1 : i ∉ l₁ := fun hi1 => hn'.2.2 i hi1 i List.mem_cons_self rfl
        rw [List.idxOf_append_of_notMem hc, List.idxOf_append_of_notMem hi1] at this
        simp at this
      have hj2 : j ∉ i :: l₂ := fun hj2 => hn'.2.2 j hj1 j hj2 rfl
      have := foldl_notMem (B := B) (e := e) (idx := idx) (v := v) (i :: l₂) (l₁.foldl (propStep B e idx v) fun _ => 0) j hj2
      rw [List.foldl_cons] at this
      exact this.symm
  exact ⟨by rw [key]; simp, fun i hi => by rw [key, if_neg hi]⟩

theorem doSolution_unique {B : Fin n → Fin n → K} (hac : Acyclic fun j i => B i j ≠ 0) {e : Fin n → K} {idx : Fin n} {v : K} {x y : Fin n → K}
    (hx : DoSolution B e idx v x) (hy : DoSolution B e idx v y) : x = y := by
  obtain ⟨ρ, hr⟩ := Acyclic.exists_rank hac
  funext i
  induction hm : ρ i using Nat.strong_induction_on generalizing i with
  | _ m ih =>
    by_cases hi : i = idx
    · rw [hi, hx.1, hy.1]
    · rw [hx.2 i hi, hy.2 i hi]
      congr 1
      apply Finset.sum_congr rfl
      intro j _
      by_cases hb : B i j = 0
      · rw [hb]; simp
      · rw [ih (ρ j) (by rw [← hm]; exact hr _ _ hb) j rfl]

/-- **C97.** With a topological order, the propagated effects are the one and only solution of the intervened structural equations. -/
theorem C97_propagated_effects (B : Fin n → Fin n → K) (l : List (Fin n)) (h : Topological B l) (e : Fin n → K) (idx : Fin n) (v : K)
    (x : Fin n → K) : DoSolution B e idx v x ↔ x = propagate B l e idx v :=
  ⟨fun hx => doSolution_unique (topological_acyclic h) hx (propagate_solution h e idx v), fun hx => hx ▸ propagate_solution h e idx v⟩

/-! ### total effects -/

theorem pow_rank {B : Fin n → Fin n → K} {ρ : Fin n → Nat} (hr : ∀ j i, B i j ≠ 0 → ρ j < ρ i) (m : Nat) (k i : Fin n)
    (h : (Matrix.of B ^ m) k i ≠ 0) : ρ i + m ≤ ρ k ∧ (m = 0 → k = i) := by
  induction m generalizing k with
  | zero =>
    rw [pow_zero, Matrix.one_apply] at h
    split at h
    · rename_i hk; subst hk; simp
    · exact absurd rfl h
  | succ m ih =>
    rw [pow_succ', Matrix.mul_apply] at h
    obtain ⟨q, -, hq⟩ := Finset.exists_ne_zero_of_sum_ne_zero h
    have h1 : B k q ≠ 0 := fun hc => hq (by rw [Matrix.of_apply, hc, zero_mul])
    have h2 : (Matrix.of B ^ m) q i ≠ 0 := fun hc => hq (by rw [hc, mul_zero])
    have := hr _ _ h1
    have := (ih q h2).1
    exact ⟨by omega, by omega⟩

theorem totalEffect_rec {B : Fin n → Fin n → K} {l : List (Fin n)} (h : Topological B l) (k i : Fin n) :
    totalEffect B k i = (if k = i then 1 else 0) + ∑ q, B k q * totalEffect B q i := by
  have hr : ∀ j i, B i j ≠ 0 → l.idxOf j < l.idxOf i := fun j i hb => topological_rank h i j hb
  have hlt : l.idxOf k < n := by
    have := List.idxOf_lt_length_of_mem (h.1.mem_iff.2 (List.mem_finRange k))
    rw [h.1.length_eq, List.length_finRange] at this
    exact this
  have hz : (Matrix.of B ^ n) k i = 0 := by
    by_contra hc
    have := (pow_rank hr n k i hc).1
    omega
  have h1 : totalEffect B k i = ∑ m ∈ Finset.range (n + 1), (Matrix.of B ^ m) k i := by
    rw [Finset.sum_range_succ, hz, add_zero]; rfl
  rw [h1, Finset.sum_range_succ', pow_zero, Matrix.one_apply, add_comm]
  congr 1
  simp only [totalEffect, Finset.mul_sum, pow_succ', Matrix.mul_apply, Matrix.of_apply]
  rw [Finset.sum_comm]

theorem totalEffect_solution {B : Fin n → Fin n → K} {l : List (Fin n)} (h : Topological B l) (i : Fin n) :
    DoSolution B (fun _ => 0) i 1 fun k => totalEffect B k i := by
  have hr : ∀ j i, B i j ≠ 0 → l.idxOf j < l.idxOf i := fun j i hb => topological_rank h i j hb
  have hrec : ∀ k, totalEffect B k i = (if k = i then 1 else 0) + ∑ q, B k q * totalEffect B q i := fun k => totalEffect_rec h k i
  refine ⟨?_, fun k hk => by show totalEffect B k i = ∑ j, B k j * totalEffect B j i + 0; rw [hrec, if_neg hk]; ring⟩
  show totalEffect B i i = 1
  rw [hrec, if_pos rfl, Finset.sum_eq_zero, add_zero]
  intro q _
  by_contra hc
  have h1 : B i q ≠ 0 := fun h0 => hc (by rw [h0, zero_mul])
  have h2 : totalEffect B q i ≠ 0 := fun h0 => hc (by rw [h0, mul_zero])
  obtain ⟨m, -, hm⟩ := Finset.exists_ne_zero_of_sum_ne_zero h2
  have := (pow_rank hr m q i hm).1
  have := hr q i h1
  omega

theorem noise_solution (B : Fin n → Fin n → K) (Ex : Fin n → K) (i : Fin n) : DoSolution B (noise B Ex) i (Ex i) Ex :=
  ⟨rfl, fun k _ => by unfold noise; ring⟩

/-- the intervened expectations are affine in the intervention, with the total effects as slopes -/
theorem propagate_linear {B : Fin n → Fin n → K} {l : List (Fin n)} (h : Topological B l) (Ex : Fin n → K) (i : Fin n) (v : K) (k : Fin n) :
    propagate B l (noise B Ex) i v k = Ex k + totalEffect B k i * (v - Ex i) := by
  have ht := totalEffect_solution h i
  have : DoSolution B (noise B Ex) i v fun k => Ex k + totalEffect B k i * (v - Ex i) := by
    refine ⟨?_, fun k hk => ?_⟩
    · have := ht.1
      show Ex i + totalEffect B i i * (v - Ex i) = v
      rw [show totalEffect B i i = 1 from this]; ring
    · have h1 : totalEffect B k i = ∑ j, B k j * totalEffect B j i + 0 := ht.2 k hk
      show Ex k + totalEffect B k i * (v - Ex i) = _
      rw [h1]
      simp only [mul_add, Finset.sum_add_distrib, noise, add_zero]
      rw [Finset.sum_mul]
      have : ∑ x, B k x * (totalEffect B x i * (v - Ex i)) = ∑ x, B k x * totalEffect B x i * (v - Ex i) :=
        Finset.sum_congr rfl fun x _ => by ring
      rw [this]; ring
  exact (congrFun (doSolution_unique (topological_acyclic h) this (propagate_solution h _ i v)) k).symm

/-- **C97 (prediction).** Row `i` of `estimate_effects_on_prediction` compares the prediction at the means with the predictions at the
solutions of the structural equations under `do(i = mean ± std)`, whose components are `mean_k` ± (total effect of `i` on `k`) · std. -/
theorem C97_effects_on_prediction (B : Fin (n + 1) → Fin (n + 1) → K) (l : List (Fin (n + 1))) (h : Topological B l)
    (Ex std : Fin (n + 1) → K) (target : Fin (n + 1)) (pred : (Fin n → K) → K) (i : Fin (n + 1)) :
    ∃ up down : Fin (n + 1) → K, DoSolution B (noise B Ex) i (Ex i + std i) up ∧ DoSolution B (noise B Ex) i (Ex i - std i) down ∧
      (∀ k, up k = Ex k + totalEffect B k i * std i ∧ down k = Ex k - totalEffect B k i * std i) ∧
      effectsOnPrediction B l Ex std target pred i =
        (|pred (fun k => Ex (target.succAbove k)) - pred (fun k => up (target.succAbove k))|,
         |pred (fun k => Ex (target.succAbove k)) - pred (fun k => down (target.succAbove k))|) := by
  refine ⟨_, _, propagate_solution h _ i _, propagate_solution h _ i _, fun k => ⟨?_, ?_⟩, ?_⟩
  · rw [propagate_linear h]; ring
  · rw [propagate_linear h]; ring
  · have : propagate B l (noise B Ex) i (Ex i) = Ex := ((C97_propagated_effects B l h _ i _ Ex).1 (noise_solution B Ex i)).symm
    simp only [effectsOnPrediction, this]

/-- **C97 (linear prediction).** For a linear predictor both columns hold `|std_i · Σ_k coef_k · (total effect of i on k)|`. -/
theorem C97_linear_prediction [IsStrictOrderedRing K] (B : Fin (n + 1) → Fin (n + 1) → K) (l : List (Fin (n + 1))) (h : Topological B l)
    (Ex std : Fin (n + 1) → K) (target : Fin (n + 1)) (coef : Fin n → K) (b : K) (i : Fin (n + 1)) :
    effectsOnPrediction B l Ex std target (fun x => ∑ k, coef k * x k + b) i =
      (|std i * ∑ k, coef k * totalEffect B (target.succAbove k) i|, |std i * ∑ k, coef k * totalEffect B (target.succAbove k) i|) := by
  obtain ⟨up, down, -, -, h3, h4⟩ := C97_effects_on_prediction B l h Ex std target (fun x => ∑ k, coef k * x k + b) i
  rw [h4]
  have h1 : (∑ k, coef k * Ex (target.succAbove k) + b) - (∑ k, coef k * up (target.succAbove k) + b) =
      -(std i * ∑ k, coef k * totalEffect B (target.succAbove k) i) := by
    rw [Finset.mul_sum, add_sub_add_right_eq_sub, ← Finset.sum_sub_distrib, ← Finset.sum_neg_distrib]
    exact Finset.sum_congr rfl fun k _ => by rw [(h3 _).1]; ring
  have h2 : (∑ k, coef k * Ex (target.succAbove k) + b) - (∑ k, coef k * down (target.succAbove k) + b) =
      std i * ∑ k, coef k * totalEffect B (target.succAbove k) i := by
    rw [Finset.mul_sum, add_sub_add_right_eq_sub, ← Finset.sum_sub_distrib]
    exact Finset.sum_congr rfl fun k _ => by rw [(h3 _).2]; ring
  rw [h1, h2, abs_neg]

/-! ## C98: the optimal intervention -/

/-- invariant of the loop: the variables done hold the intervened expectations as a function of the intervention -/
structure OptInv (B : Fin n → Fin n → K) (Ex : Fin n → K) (idx : Fin n) (st : St n K) : Prop where
  intv : idx ∉ st.s ∧ st.Ex idx = 0 ∧ st.alpha idx = 1
  sol : ∀ c x, DoSolution B (noise B Ex) idx c x → ∀ k, k ∉ st.s → x k = st.Ex k + st.alpha k * c

theorem OptInv.init {B : Fin n → Fin n → K} (Ex : Fin n → K) (idx : Fin n)
    (hroot : ∀ k, k ≠ idx → ∑ j, B k j = 0 → ∀ j, B k j = 0) : OptInv B Ex idx (optInit B Ex idx) := by
  refine ⟨by simp [optInit], fun c x hx k hk => ?_⟩
  by_cases hi : k = idx
  · subst hi; simp [optInit, hx.1]
  · have h0 : ∑ j, B k j = 0 := by
      by_contra hc
      exact hk (by simp [optInit, hi, hc])
    have hz := hroot k hi h0
    rw [hx.2 k hi]
    simp [optInit, hi, hz, noise]

theorem OptInv.step {B : Fin n → Fin n → K} {Ex : Fin n → K} {idx : Fin n} {st : St n K} (h : OptInv B Ex idx st) (k : Fin n) (hk : k ∈ st.s) :
    OptInv B Ex idx (optStep B (Function.update (noise B Ex) idx 0) idx st k) := by
  unfold optStep
  split
  · rename_i hp
    have hp : ∀ q ∈ st.s, B k q = 0 := by simpa [List.all_eq_true] using hp
    have hki : k ≠ idx := fun e => h.intv.1 (e ▸ hk)
    refine ⟨⟨fun hm => h.intv.1 (List.mem_filter.1 hm).1, ?_, ?_⟩, fun c x hx q hq => ?_⟩
    · show Function.update _ _ _ _ = _
      rw [Function.update_of_ne hki.symm]; exact h.intv.2.1
    · show Function.update _ _ _ _ = _
      rw [Function.update_of_ne hki.symm]; exact h.intv.2.2
    · dsimp only
      by_cases hqk : q = k
      · subst hqk
        rw [Function.update_self, Function.update_self, hx.2 q hki, Function.update_of_ne hki, Finset.sum_mul]
        have : ∑ j, B q j * x j = (∑ j, if j ≠ idx then B q j * st.Ex j else 0) + ∑ j, B q j * st.alpha j * c := by
          rw [← Finset.sum_add_distrib]
          refine Finset.sum_congr rfl fun j _ => ?_
          by_cases hj : j ∈ st.s
          · rw [hp j hj]; simp
          · rw [h.sol c x hx j hj]
            by_cases hji : j = idx
            · rw [hji, h.intv.2.1, h.intv.2.2]; simp
            · rw [if_pos hji]; ring
        rw [this]; ring
      · rw [Function.update_of_ne hqk, Function.update_of_ne hqk]
        exact h.sol c x hx q fun hm => hq (List.mem_filter.2 ⟨hm, by simpa using hqk⟩)
  · exact h

theorem optLoop_spec {B : Fin n → Fin n → K} {Ex : Fin n → K} {idx : Fin n} (draws : List (Fin n)) (st : St n K) (h : OptInv B Ex idx st)
    (st' : St n K) (hr : optLoop B (Function.update (noise B Ex) idx 0) idx draws st = some st') : OptInv B Ex idx st' ∧ st'.s = [] := by
  induction draws generalizing st with
  | nil =>
    rw [optLoop] at hr
    split at hr
    · cases hr; exact ⟨h, ‹_›⟩
    · cases hr
  | cons k draws ih =>
    rw [optLoop] at hr
    split at hr
    · cases hr; exact ⟨h, ‹_›⟩
    · split at hr
      · exact ih _ (h.step k ‹_›) hr
      · cases hr

/-- **C98, what holds.** If no variable with causes has a row whose coefficients sum to zero, then, whatever the random choices, a value
returned by `estimate_optimal_intervention` achieves the desired output: the linear prediction at the expectations after
`do(idx = value)` is `desired` (provided the total effect of the intervention on the prediction is not zero). -/
theorem C98_optimal_intervention_partial (B : Fin (n + 1) → Fin (n + 1) → K) (l : List (Fin (n + 1))) (h : Topological B l)
    (Ex : Fin (n + 1) → K) (target : Fin (n + 1)) (coef : Fin n → K) (b : K) (idx : Fin (n + 1)) (desired : K) (draws : List (Fin (n + 1)))
    (hroot : ∀ k, k ≠ idx → ∑ j, B k j = 0 → ∀ j, B k j = 0)
    (heff : ∑ k, coef k * totalEffect B (target.succAbove k) idx ≠ 0)
    (value : K) (hv : optimalIntervention B Ex target coef b idx desired draws = some value) (x : Fin (n + 1) → K)
    (hx : DoSolution B (noise B Ex) idx value x) : ∑ k, coef k * x (target.succAbove k) + b = desired := by
  unfold optimalIntervention at hv
  rw [Option.map_eq_some_iff] at hv
  obtain ⟨st, h1, h2⟩ := hv
  obtain ⟨hi, hs⟩ := optLoop_spec draws _ (OptInv.init Ex idx hroot) st h1
  have hins : ∀ f : Fin (n + 1) → K, ∑ k, target.insertNth (α := fun _ => K) 0 coef k * f k = ∑ k, coef k * f (target.succAbove k) := by
    intro f
    rw [Fin.sum_univ_succAbove _ target]
    simp
  rw [hins, hins] at h2
  have hal : ∀ k, st.alpha k = totalEffect B k idx := by
    intro k
    have e0 := hi.sol 0 _ (propagate_solution h _ idx 0) k (by rw [hs]; simp)
    have e1 := hi.sol 1 _ (propagate_solution h _ idx 1) k (by rw [hs]; simp)
    rw [propagate_linear h] at e0 e1
    have : totalEffect B k idx * (1 - Ex idx) - totalEffect B k idx * (0 - Ex idx) = st.alpha k * 1 - st.alpha k * 0 := by
      linear_combination e1 - e0
    linear_combination -this
  simp only [hal] at h2
  have hxk : ∀ k, coef k * x (target.succAbove k) = coef k * st.Ex (target.succAbove k) + coef k * totalEffect B (target.succAbove k) idx * value := by
    intro k
    rw [hi.sol value x hx _ (by rw [hs]; simp), hal]; ring
  rw [Finset.sum_congr rfl fun k _ => hxk k, Finset.sum_add_distrib, ← Finset.sum_mul, ← h2]
  field_simp
  ring

/-- **C98 (progress).** In an acyclic model the loop is never stuck: as long as variables are left, one of the possible draws removes one. -/
theorem C98_never_stuck (B : Fin n → Fin n → K) (hac : Acyclic fun j i => B i j ≠ 0) (e : Fin n → K) (idx : Fin n) (st : St n K)
    (hs : st.s ≠ []) : ∃ k ∈ st.s, (optStep B e idx st k).s.length < st.s.length := by
  obtain ⟨ρ, hr⟩ := Acyclic.exists_rank hac
  obtain ⟨a, ha⟩ := List.exists_mem_of_ne_nil _ hs
  obtain ⟨i, hi, hmin⟩ := Finset.exists_min_image st.s.toFinset ρ ⟨a, by simpa using ha⟩
  have hi' : i ∈ st.s := by simpa using hi
  refine ⟨i, hi', ?_⟩
  unfold optStep
  rw [if_pos]
  · refine lt_of_le_of_ne (List.length_filter_le _ _) fun he => ?_
    have := (List.length_filter_eq_length_iff.1 he) i hi'
    simp at this
  · rw [List.all_eq_true]
    intro q hq
    rw [decide_eq_true_eq, not_not]
    by_contra hb
    have := hr _ _ hb
    have := hmin q (by simpa using hq)
    omega

/-! ### Examples and the counterexample -/

/-- `x1 = 2 x0`, `x2 = x0 + 3 x1` -/
def exB : Fin 3 → Fin 3 → ℚ := ![![0, 0, 0], ![2, 0, 0], ![1, 3, 0]]

theorem exB_topological : Topological exB [0, 1, 2] := by
  refine ⟨by decide, ?_⟩
  intro i j hb
  have : (i = 1 ∧ j = 0) ∨ (i = 2 ∧ j = 0) ∨ (i = 2 ∧ j = 1) := by
    revert hb; revert i j; unfold exB; decide
  rcases this with ⟨rfl, rfl⟩ | ⟨rfl, rfl⟩ | ⟨rfl, rfl⟩
  · exact ⟨[0], [2], rfl, by decide⟩
  · exact ⟨[0, 1], [], rfl, by decide⟩
  · exact ⟨[0, 1], [], rfl, by decide⟩

/-- The constructor finds the order; the total effect of 0 on 2 is `1 + 2 · 3`. -/
example : causalOrder (1 / 10) exB = some [0, 1, 2] ∧ (∀ i j, exB i j ≠ 0 → 1 / 10 ≤ |exB i j|) ∧ totalEffect exB 2 0 = 7 := by
  decide +kernel

/-- A cyclic model is refused. -/
example : causalOrder (1 / 10 : ℚ) (![![0, 1], ![1, 0]] : Fin 2 → Fin 2 → ℚ) = none := by decide +kernel

/-- The hypotheses of `C98_optimal_intervention_partial` are met: to get the prediction `7 x0 + 1 x1 = 90` of the target 2, set `x0 = 10`. -/
example : (∀ k, k ≠ 0 → ∑ j, exB k j = 0 → ∀ j, exB k j = 0) ∧ ∑ k, (![7, 1] : Fin 2 → ℚ) k * totalEffect exB ((2 : Fin 3).succAbove k) 0 ≠ 0 ∧
    optimalIntervention exB ![1, 2, 7] 2 ![7, 1] 0 0 90 [2, 1, 2] = some 10 := by
  decide +kernel

/-- `x2 = x0 - x1` -/
def badB : Fin 3 → Fin 3 → ℚ := ![![0, 0, 0], ![0, 0, 0], ![1, -1, 0]]

theorem badB_topological : Topological badB [0, 1, 2] := by
  refine ⟨by decide, ?_⟩
  intro i j hb
  have : i = 2 ∧ (j = 0 ∨ j = 1) := by
    revert hb; revert i j; unfold badB; decide
  rcases this with ⟨rfl, rfl | rfl⟩
  · exact ⟨[0, 1], [], rfl, by decide⟩
  · exact ⟨[0, 1], [], rfl, by decide⟩

/-- **C98 violated.** In the model `x2 = x0 - x1` (all means zero) the row of `x2` sums to zero, so it is taken for a root. Asked for the
intervention on 0 that makes the prediction `x0 + x2` (of the target 1) equal to 2, the program returns 2; the prediction is then 4. -/
theorem C98_cancelling_row_violated : ∃ (B : Fin 3 → Fin 3 → ℚ) (x : Fin 3 → ℚ), Topological B [0, 1, 2] ∧
    ∑ k, (![1, 1] : Fin 2 → ℚ) k * totalEffect B ((1 : Fin 3).succAbove k) 0 ≠ 0 ∧
    optimalIntervention B (fun _ => 0) 1 ![1, 1] 0 0 2 [] = some 2 ∧ DoSolution B (noise B fun _ => 0) 0 2 x ∧
    ∑ k, (![1, 1] : Fin 2 → ℚ) k * x ((1 : Fin 3).succAbove k) + 0 = 4 := by
  refine ⟨badB, ![2, 0, 2], badB_topological, by decide +kernel, by decide +kernel, ?_, by decide +kernel⟩
  unfold DoSolution
  decide +kernel

end Effect
end CL
