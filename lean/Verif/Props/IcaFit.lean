import Verif.Model.IcaFit
import Verif.Props.LingamPaths
import Verif.Proofs.Essential
import Mathlib.Tactic.Linarith
import Mathlib.Tactic.Ring
import Mathlib.Algebra.Group.End
import Verif.Proofs.VermaPearl
import Verif.Proofs.IMap
import Mathlib.Tactic.FinCases
import Mathlib.Data.Fintype.Perm
import Mathlib.Tactic.FieldSimp
import Mathlib.Algebra.Order.BigOperators.Group.Finset

/-!
# C176: ICA-LiNGAM on an exact unmixing matrix
-/
open Spec
namespace CL.Lingam
variable {n : Nat}

/-- `W` is the unmixing matrix of the model `x = B x + e`, up to the order and the scale of its rows (all that ICA can identify). -/
def Unmixing (B : Fin n → Fin n → ℝ) (W : Fin n → Fin n → ℝ) : Prop :=
  ∃ (π : Equiv.Perm (Fin n)) (s : Fin n → ℝ), (∀ i, s i ≠ 0) ∧ ∀ i j, W i j = s i * ((if π i = j then 1 else 0) - B (π i) j)

/-- The coefficients form a DAG (`B c p` is the effect of `p` on `c`). -/
def DagCoef (B : Fin n → Fin n → ℝ) : Prop := Acyclic fun p c => B c p ≠ 0

theorem perm_of_rank {ρ : Fin n → Nat} {τ : Equiv.Perm (Fin n)} (h : ∀ a, τ a = a ∨ ρ (τ a) < ρ a) : τ = 1 := by
  have hs : ∑ a, ρ (τ a) = ∑ a, ρ a := Equiv.sum_comp τ ρ
  have hle : ∀ a ∈ Finset.univ, ρ (τ a) ≤ ρ a := fun a _ => (h a).elim (fun e => by rw [e]) fun e => e.le
  have := (Finset.sum_eq_sum_iff_of_le hle).1 hs
  ext a
  rcases h a with e | e
  · simp [e]
  · exact absurd (this a (Finset.mem_univ a)) e.ne

theorem feasible_unique {B W : Fin n → Fin n → ℝ} (hB : DagCoef B) {π : Equiv.Perm (Fin n)} {s : Fin n → ℝ} (hs : ∀ i, s i ≠ 0)
    (hW : ∀ i j, W i j = s i * ((if π i = j then 1 else 0) - B (π i) j)) (σ : Equiv.Perm (Fin n)) : Feasible W σ ↔ σ = π := by
  obtain ⟨ρ, hρ⟩ := Acyclic.exists_rank hB
  constructor
  · intro h
    have : (σ * π⁻¹ : Equiv.Perm (Fin n)) = 1 := by
      refine perm_of_rank (ρ := ρ) fun a => ?_
      by_contra hc
      push Not at hc
      have hf := h (π⁻¹ a)
      rw [hW] at hf
      have e1 : π (π⁻¹ a) = a := by simp
      rw [e1] at hf
      have e2 : (σ * π⁻¹ : Equiv.Perm (Fin n)) a = σ (π⁻¹ a) := rfl
      rw [e2] at hc
      rw [if_neg (fun e => hc.1 e.symm)] at hf
      have : B a (σ (π⁻¹ a)) ≠ 0 := fun e => hf (by rw [e]; simp)
      exact absurd (hρ _ _ this) (not_lt.2 hc.2)
    exact mul_inv_eq_one.1 this
  · rintro rfl i
    rw [hW, if_pos rfl]
    have : B (σ i) (σ i) = 0 := by
      by_contra h
      exact hB.irrefl _ h
    rw [this]
    simpa using hs i

/-- **C176.** From an exact unmixing matrix `fit` reconstructs the coefficient matrix exactly: the assignment does not fail, and undoes permutation and scaling. -/
theorem C176_coefficients {B W : Fin n → Fin n → ℝ} (hB : DagCoef B) (hW : Unmixing B W) (A : Assignment n) :
    ∃ σ, A.find W = some σ ∧ bEstimate W σ = B := by
  obtain ⟨π, s, hs, hW⟩ := hW
  have hf := feasible_unique hB hs hW
  cases h : A.find W with
  | none => exact absurd ((hf π).2 rfl) ((A.raises W).1 h π)
  | some σ =>
    refine ⟨σ, rfl, ?_⟩
    have := (hf σ).1 (A.best W σ h).1
    subst this
    funext a b
    have h0 : B a a = 0 := by
      by_contra h
      exact hB.irrefl _ h
    unfold bEstimate permuted
    simp only [hW, Equiv.apply_symm_apply, if_true, h0, sub_zero, mul_one]
    rw [mul_div_cancel_left₀ _ (hs _)]
    ring

/-! ## The order -/

theorem take_zero {α : Type} (f : α → ℝ) : ∀ (l : List α) (m : Nat), (l.Pairwise fun p q => |f p| ≤ |f q|) → m ≤ l.countP (fun p => decide (f p = 0)) →
    ∀ p ∈ l.take m, f p = 0
  | [], m, _, _, p, hp => by simp at hp
  | a :: l, 0, _, _, p, hp => by simp at hp
  | a :: l, m + 1, hs, hm, p, hp => by
    rw [List.pairwise_cons] at hs
    have ha : f a = 0 := by
      by_contra ha
      have : List.countP (fun p => decide (f p = 0)) (a :: l) = 0 := by
        rw [List.countP_eq_zero]
        intro q hq
        rcases List.mem_cons.1 hq with rfl | hq
        · simpa using ha
        · have h1 := hs.1 q hq
          have h2 := abs_pos.2 ha
          simp only [decide_eq_true_eq]
          intro h0
          rw [h0, abs_zero] at h1
          linarith
      omega
    rw [List.take_succ_cons, List.mem_cons] at hp
    rcases hp with rfl | hp
    · exact ha
    · refine take_zero f l m hs.2 ?_ p hp
      rw [List.countP_cons] at hm
      simp [ha] at hm
      omega

theorem put_zero_id (m : Nat → Nat → ℝ) : ∀ (ps : List (Nat × Nat)), (∀ p ∈ ps, m p.1 p.2 = 0) → ps.foldl (fun (m : Nat → Nat → ℝ) p => put m p.1 p.2 0) m = m
  | [], _ => rfl
  | p :: ps, h => by
    have : put m p.1 p.2 0 = m := by
      funext a b
      unfold put
      split_ifs with hc
      · rw [hc.1, hc.2, h p (List.mem_cons_self ..)]
      · rfl
    rw [List.foldl_cons, this]
    exact put_zero_id m ps fun q hq => h q (List.mem_cons_of_mem _ hq)

theorem before_of_sorted {ρ : Nat → Nat} {a b : Nat} (hab : ρ a < ρ b) : ∀ {K : List Nat}, (K.Pairwise fun x y => ρ x ≤ ρ y) → a ∈ K → b ∈ K → Before K a b
  | [], _, ha, _ => by simp at ha
  | x :: K, hs, ha, hb => by
    rw [List.pairwise_cons] at hs
    rcases List.mem_cons.1 ha with rfl | ha
    · rcases List.mem_cons.1 hb with rfl | hb
      · exact absurd hab (lt_irrefl _)
      · exact List.Sublist.cons_cons _ (List.singleton_sublist.2 hb)
    · rcases List.mem_cons.1 hb with hbx | hb
      · exact absurd (hs.1 a ha) (not_le.2 (hbx ▸ hab))
      · exact List.Sublist.cons _ (before_of_sorted hab hs.2 ha hb)

theorem exists_order {B : Fin n → Fin n → ℝ} (hB : DagCoef B) : ∃ K : List Nat, K.Perm (List.range n) ∧ StrictlyLower (natMat B) K := by
  obtain ⟨ρ, hρ⟩ := Acyclic.exists_rank hB
  let r : Nat → Nat := fun a => if h : a < n then ρ ⟨a, h⟩ else 0
  refine ⟨(List.range n).insertionSort fun a b => r a ≤ r b, List.perm_insertionSort _ _, fun i j hi hj hij => ?_⟩
  refine before_of_sorted (ρ := r) ?_ (List.pairwise_insertionSort (fun a b => r a ≤ r b) _) hj hi
  unfold natMat at hij
  split_ifs at hij with h
  · have := hρ _ _ hij
    simp only [r, h.1, h.2, dif_pos]
    exact this
  · exact absurd rfl hij

theorem strictly_mono {m m' : Nat → Nat → ℝ} {K : List Nat} (h : StrictlyLower m K) (hm : ∀ i j, m' i j ≠ 0 → m i j ≠ 0) : StrictlyLower m' K :=
  fun i j hi hj hij => h i j hi hj (hm i j hij)

/-- The number of zero entries of a DAG matrix, twice. -/
theorem zeros_count {B : Fin n → Fin n → ℝ} (hB : DagCoef B) (E : Finset (Fin n × Fin n)) (hE : ∀ p ∈ E, p.1 ≠ p.2 ∧ B p.1 p.2 = 0 ∧ B p.2 p.1 = 0) :
    n * n + n + E.card ≤ 2 * (indexPairs n).countP (fun p => decide (natMat B p.1 p.2 = 0)) := by
  classical
  have hc : (indexPairs n).countP (fun p => decide (natMat B p.1 p.2 = 0)) = (Finset.univ.filter fun p : Fin n × Fin n => B p.1 p.2 = 0).card := by
    rw [List.countP_eq_length_filter, ← List.toFinset_card_of_nodup ((indexPairs_nodup n).filter _)]
    symm
    refine Finset.card_bij (fun p _ => (p.1.val, p.2.val)) ?_ ?_ ?_
    · intro p hp
      simp only [Finset.mem_filter, Finset.mem_univ, true_and] at hp
      simp [mem_indexPairs, natMat, hp]
    · intro p _ q _ h
      simp only [Prod.mk.injEq] at h
      exact Prod.ext (Fin.ext h.1) (Fin.ext h.2)
    · intro q hq
      simp only [List.mem_toFinset, List.mem_filter, mem_indexPairs, decide_eq_true_eq] at hq
      refine ⟨(⟨q.1, hq.1.1⟩, ⟨q.2, hq.1.2⟩), ?_, rfl⟩
      have := hq.2
      unfold natMat at this
      rw [dif_pos hq.1] at this
      simpa using this
  rw [hc]
  set Z := Finset.univ.filter fun p : Fin n × Fin n => B p.1 p.2 = 0
  have hswap : (Z.image Prod.swap).card = Z.card := Finset.card_image_of_injective _ Prod.swap_injective
  have hun : Z ∪ Z.image Prod.swap = Finset.univ := by
    ext p
    simp only [Z, Finset.mem_union, Finset.mem_filter, Finset.mem_univ, true_and, Finset.mem_image, iff_true]
    by_cases h : B p.1 p.2 = 0
    · exact .inl h
    · right
      refine ⟨p.swap, ?_, Prod.swap_swap p⟩
      by_contra h'
      exact hB _ (.tail (.single h') h)
  have hin : (Finset.univ.image fun a : Fin n => (a, a)) ∪ E ⊆ Z ∩ Z.image Prod.swap := by
    intro p hp
    have key : B p.1 p.2 = 0 ∧ B p.2 p.1 = 0 := by
      rcases Finset.mem_union.1 hp with hp | hp
      · obtain ⟨a, -, rfl⟩ := Finset.mem_image.1 hp
        have : B a a = 0 := by
          by_contra h
          exact hB.irrefl _ h
        exact ⟨this, this⟩
      · exact (hE p hp).2
    simp only [Z, Finset.mem_inter, Finset.mem_filter, Finset.mem_univ, true_and, Finset.mem_image]
    exact ⟨key.1, p.swap, key.2, Prod.swap_swap p⟩
  have hd : ((Finset.univ.image fun a : Fin n => (a, a)) ∪ E).card = n + E.card := by
    rw [Finset.card_union_of_disjoint, Finset.card_image_of_injective _ (fun a b h => (Prod.mk.inj h).1), Finset.card_univ, Fintype.card_fin]
    rw [Finset.disjoint_left]
    intro p hp hpE
    obtain ⟨a, -, rfl⟩ := Finset.mem_image.1 hp
    exact (hE _ hpE).1 rfl
  have h1 := Finset.card_union_add_card_inter Z (Z.image Prod.swap)
  have h2 := Finset.card_le_card hin
  rw [hun, hswap, Finset.card_univ, Fintype.card_prod, Fintype.card_fin] at h1
  omega

/-- **C176.** With at least two variables `fit` finds an order of all variables that puts causes before effects, for every edge except possibly one of least weight;
if some pair of variables is not adjacent, for every edge. -/
theorem C176_order_partial {B W : Fin n → Fin n → ℝ} (hn : 2 ≤ n) (hB : DagCoef B) (hW : Unmixing B W) (A : Assignment n) (S : Argsort n) :
    ∃ K, icaFitOrder A S W = some (some K) ∧ K.Perm (List.range n) ∧
      (∃ c0 p0 : Nat, (∀ c p : Fin n, B c p ≠ 0 → |natMat B c0 p0| ≤ |B c p|) ∧
        ∀ c p : Fin n, B c p ≠ 0 → ((c : Nat), (p : Nat)) ≠ (c0, p0) → Before K p c) ∧
      ((∃ a b : Fin n, a ≠ b ∧ B a b = 0 ∧ B b a = 0) → ∀ c p : Fin n, B c p ≠ 0 → Before K p c) := by
  classical
  obtain ⟨σ, h1, h2⟩ := C176_coefficients hB hW A
  unfold icaFitOrder
  rw [h1, Option.map_some, h2]
  set m := natMat B with hm
  set pos := S.sort m with hpos
  have hcount : ∀ k, k ≤ (indexPairs n).countP (fun p => decide (natMat B p.1 p.2 = 0)) → ∀ p ∈ pos.take k, m p.1 p.2 = 0 := fun k hk =>
    take_zero (fun p : Nat × Nat => m p.1 p.2) pos k (S.mono m) (by rw [(S.perm m).countP_eq]; exact hk)
  have hlen : pos.length = n * n := by
    rw [(S.perm m).length_eq]
    unfold indexPairs
    simp
  have hk : n * (n + 1) / 2 ≤ (indexPairs n).countP (fun p => decide (natMat B p.1 p.2 = 0)) := by
    have := zeros_count hB ∅ (by simp)
    have e : n * (n + 1) = n * n + n := Nat.mul_succ n n
    simp only [Finset.card_empty] at this
    omega
  have hlt : n * (n + 1) / 2 < n * n := by
    rw [Nat.div_lt_iff_lt_mul (by decide)]
    have : n * (n + 1) = n * n + n := Nat.mul_succ n n
    have : n * 2 ≤ n * n := Nat.mul_le_mul_left n hn
    omega
  unfold icaEstimateOrder
  dsimp only
  rw [put_zero_id m _ (hcount _ hk)]
  have hdrop : pos.drop (n * (n + 1) / 2) = pos[n * (n + 1) / 2]'(by omega) :: pos.drop (n * (n + 1) / 2 + 1) := List.drop_eq_getElem_cons (by omega)
  set q := pos[n * (n + 1) / 2]'(by omega) with hq
  rw [hdrop]
  obtain ⟨K0, hK0, hl0⟩ := exists_order hB
  have hput : ∀ i j, put m q.1 q.2 0 i j ≠ 0 → m i j ≠ 0 := by
    intro i j hij
    unfold put at hij
    split_ifs at hij
    · exact absurd rfl hij
    · exact hij
  obtain ⟨K, hK⟩ := C46_order_complete n (put m q.1 q.2 0) K0 hK0 (strictly_mono hl0 hput)
  obtain ⟨hKp, hKl⟩ := C46_order_sound n _ K hK
  refine ⟨K, ?_, hKp, ⟨q.1, q.2, ?_, ?_⟩, ?_⟩
  · rw [show icaLoop n (q :: pos.drop (n * (n + 1) / 2 + 1)) m = (match icaSearchOrder n (put m q.1 q.2 0) with
      | some o => some o
      | none => icaLoop n (pos.drop (n * (n + 1) / 2 + 1)) (put m q.1 q.2 0)) from rfl, hK]
  · intro c p hcp
    have hmem : ((c : Nat), (p : Nat)) ∈ pos := (S.perm m).mem_iff.2 ((mem_indexPairs _ _).2 ⟨c.2, p.2⟩)
    have hval : m c p = B c p := by simp [hm, natMat]
    rw [← List.take_append_drop (n * (n + 1) / 2) pos, List.mem_append] at hmem
    rcases hmem with h | h
    · exact absurd (hval ▸ hcount _ hk _ h) hcp
    · rw [hdrop, List.mem_cons] at h
      rcases h with h | h
      · rw [← h, hval]
      · have hsorted : (pos.drop (n * (n + 1) / 2)).Pairwise fun p q => |m p.1 p.2| ≤ |m q.1 q.2| := (S.mono m).sublist (List.drop_sublist _ _)
        rw [hdrop, List.pairwise_cons] at hsorted
        have := hsorted.1 _ h
        rwa [hval] at this
  · intro c p hcp hne
    refine hKl c p (hKp.mem_iff.2 (List.mem_range.2 c.2)) (hKp.mem_iff.2 (List.mem_range.2 p.2)) ?_
    unfold put
    rw [if_neg (fun h => hne (Prod.ext h.1 h.2))]
    simpa [hm, natMat] using hcp
  · rintro ⟨a, b, hab, h3, h4⟩ c p hcp
    have hk' : n * (n + 1) / 2 + 1 ≤ (indexPairs n).countP (fun p => decide (natMat B p.1 p.2 = 0)) := by
      have := zeros_count hB {(a, b), (b, a)} (by
        intro p hp
        simp only [Finset.mem_insert, Finset.mem_singleton] at hp
        rcases hp with rfl | rfl
        · exact ⟨hab, h3, h4⟩
        · exact ⟨hab.symm, h4, h3⟩)
      rw [Finset.card_pair (by simp [hab])] at this
      have e : n * (n + 1) = n * n + n := Nat.mul_succ n n
      omega
    have hq0 : m q.1 q.2 = 0 := hcount _ hk' q (by
      rw [hq, List.mem_take_iff_getElem]
      exact ⟨n * (n + 1) / 2, by omega, rfl⟩)
    refine hKl c p (hKp.mem_iff.2 (List.mem_range.2 c.2)) (hKp.mem_iff.2 (List.mem_range.2 p.2)) ?_
    unfold put
    split_ifs with h
    · exfalso
      rw [← h.1, ← h.2] at hq0
      exact hcp (by simpa [hm, natMat] using hq0)
    · simpa [hm, natMat] using hcp

/-- **C176, violated.** For two variables the order is always `[0, 1]`, whatever the data: one entry more than the `n (n + 1) / 2` smallest ones is set to zero before
the first search, and that is the only edge. If variable 1 causes variable 0, the order is wrong. -/
theorem C176_pair_violated (A : Assignment 2) (S : Argsort 2) :
    (∀ W σ, A.find W = some σ → icaFitOrder A S W = some (some [0, 1])) ∧
    ∃ B W : Fin 2 → Fin 2 → ℝ, DagCoef B ∧ Unmixing B W ∧ B 0 1 ≠ 0 ∧ icaFitOrder A S W = some (some [0, 1]) := by
  have main : ∀ W σ, A.find W = some σ → icaFitOrder A S W = some (some [0, 1]) := by
    intro W σ h
    unfold icaFitOrder
    rw [h, Option.map_some]
    congr 1
    set m := natMat (bEstimate W σ)
    have hlen : (S.sort m).length = 4 := by
      rw [(S.perm m).length_eq]
      rfl
    obtain ⟨p1, p2, p3, p4, he⟩ : ∃ p1 p2 p3 p4, S.sort m = [p1, p2, p3, p4] := by
      match S.sort m, hlen with
      | [p1, p2, p3, p4], _ => exact ⟨p1, p2, p3, p4, rfl⟩
    have hall : ∀ a b, a < 2 → b < 2 → put (put (put (put m p1.1 p1.2 0) p2.1 p2.2 0) p3.1 p3.2 0) p4.1 p4.2 0 a b = 0 := by
      intro a b ha hb
      have : (a, b) ∈ S.sort m := (S.perm m).mem_iff.2 ((mem_indexPairs _ _).2 ⟨ha, hb⟩)
      rw [he] at this
      simp only [List.mem_cons, List.not_mem_nil, or_false] at this
      unfold put
      rcases this with h | h | h | h <;> subst h <;> simp
    have hs : ∀ M : Nat → Nat → ℝ, (∀ a b, a < 2 → b < 2 → M a b = 0) → icaSearchOrder 2 M = some [0, 1] := by
      intro M hM
      have h00 := hM 0 0 (by omega) (by omega)
      have h01 := hM 0 1 (by omega) (by omega)
      have h10 := hM 1 0 (by omega) (by omega)
      have h11 := hM 1 1 (by omega) (by omega)
      simp [icaSearchOrder, icaSearch, List.range_succ, h00, h01, h10, h11]
    rw [he]
    unfold icaEstimateOrder
    show icaLoop 2 [p4] (put (put (put m p1.1 p1.2 0) p2.1 p2.2 0) p3.1 p3.2 0) = _
    unfold icaLoop
    dsimp only
    rw [hs _ hall]
  refine ⟨main, fun c p => if c = 0 ∧ p = 1 then 1 else 0, fun i j => (if i = j then 1 else 0) - (if i = 0 ∧ j = 1 then 1 else 0), ?_, ?_, by simp, ?_⟩
  · exact Spec.acyclic_of_rank (ρ := fun i : Fin 2 => 1 - i.val) fun a b hab => by
      simp only [ne_eq, ite_eq_right_iff, one_ne_zero, imp_false, not_not] at hab
      rw [hab.1, hab.2]
      decide
  · exact ⟨1, fun _ => 1, fun _ => one_ne_zero, fun i j => by fin_cases i <;> fin_cases j <;> simp⟩
  · obtain ⟨σ, h, -⟩ := C176_coefficients (n := 2) (B := fun c p => if c = 0 ∧ p = 1 then 1 else 0)
      (W := fun i j => (if i = j then 1 else 0) - (if i = 0 ∧ j = 1 then 1 else 0))
      (Spec.acyclic_of_rank (ρ := fun i : Fin 2 => 1 - i.val) fun a b hab => by
        simp only [ne_eq, ite_eq_right_iff, one_ne_zero, imp_false, not_not] at hab
        rw [hab.1, hab.2]
        decide) ⟨1, fun _ => 1, fun _ => one_ne_zero, fun i j => by fin_cases i <;> fin_cases j <;> simp⟩ A
    exact main _ σ h

/-- **C176, violated.** With one variable there is no order. -/
theorem C176_single_violated (A : Assignment 1) (S : Argsort 1) (W : Fin 1 → Fin 1 → ℝ) (σ : Equiv.Perm (Fin 1)) (h : A.find W = some σ) :
    icaFitOrder A S W = some none := by
  unfold icaFitOrder
  rw [h, Option.map_some]
  congr 1
  set m := natMat (bEstimate W σ)
  have hlen : (S.sort m).length = 1 := by
    rw [(S.perm m).length_eq]
    rfl
  obtain ⟨p1, he⟩ : ∃ p1, S.sort m = [p1] := by
    match S.sort m, hlen with
    | [p1], _ => exact ⟨p1, rfl⟩
  rw [he]
  rfl

end CL.Lingam

namespace CL.Lingam

open Classical in
/-- The parameters exist: a correct assignment solver. -/
theorem assignment_exists (n : Nat) : Nonempty (Assignment n) := by
  have key : ∀ W : Fin n → Fin n → ℝ, ∃ o : Option (Equiv.Perm (Fin n)), (o = none ↔ ∀ σ, ¬ Feasible W σ) ∧
      ∀ σ, o = some σ → Feasible W σ ∧ ∀ τ, Feasible W τ → ∑ i, 1 / |W i (σ i)| ≤ ∑ i, 1 / |W i (τ i)| := by
    intro W
    by_cases h : ∃ σ, Feasible W σ
    · obtain ⟨σ, hσ, hmin⟩ := Finset.exists_min_image (Finset.univ.filter fun σ : Equiv.Perm (Fin n) => Feasible W σ) (fun σ => ∑ i, 1 / |W i (σ i)|)
        (by obtain ⟨σ, h⟩ := h; exact ⟨σ, Finset.mem_filter.2 ⟨Finset.mem_univ _, h⟩⟩)
      refine ⟨some σ, ⟨fun hh => (Option.some_ne_none _ hh).elim, fun hh => (hh σ (Finset.mem_filter.1 hσ).2).elim⟩, ?_⟩
      intro σ' he
      obtain rfl := Option.some.inj he
      exact ⟨(Finset.mem_filter.1 hσ).2, fun τ hτ => hmin τ (Finset.mem_filter.2 ⟨Finset.mem_univ _, hτ⟩)⟩
    · exact ⟨none, ⟨fun _ σ hσ => h ⟨σ, hσ⟩, fun _ => rfl⟩, fun σ he => by cases he⟩
  choose f h1 h2 using key
  exact ⟨⟨f, h1, h2⟩⟩

open Classical in
/-- The parameters exist: a correct argsort. -/
theorem argsort_exists (n : Nat) : Nonempty (Argsort n) :=
  ⟨⟨fun m => (indexPairs n).insertionSort fun p q => |m p.1 p.2| ≤ |m q.1 q.2|,
    fun m => List.perm_insertionSort _ _,
    fun m => by
      haveI : Std.Total (fun p q : Nat × Nat => |m p.1 p.2| ≤ |m q.1 q.2|) := ⟨fun p q => le_total _ _⟩
      haveI : IsTrans (Nat × Nat) (fun p q => |m p.1 p.2| ≤ |m q.1 q.2|) := ⟨fun p q r => le_trans⟩
      exact List.pairwise_insertionSort _ _⟩⟩

end CL.Lingam
