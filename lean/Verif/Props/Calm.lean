import Verif.Model.Calm
import Verif.Props.GraphEdge
import Verif.Spec.DSep
import Mathlib.Algebra.Order.BigOperators.Ring.Finset
import Mathlib.Data.Nat.Choose.Sum
import Mathlib.Data.Rat.Cast.Order
import Mathlib.Tactic.Ring
import Mathlib.Tactic.NormNum
import Mathlib.Tactic.IntervalCases
import Mathlib.Algebra.Group.Fin.Basic
import Mathlib.Tactic.FieldSimp
import Mathlib.Tactic.Linarith

/-!
# C75: CALM's graph is acyclic when the tolerance is small enough for the number of variables
-/
open Finset Spec Relation
namespace CL.Calm
variable {d : Nat} {K : Type} [Field K] [LinearOrder K] [IsStrictOrderedRing K]

/-- A walk of `k` steps. -/
def Walk {V : Type} (B : V → V → Prop) (k : Nat) (a b : V) : Prop := ∃ x : Nat → V, x 0 = a ∧ x k = b ∧ ∀ i < k, B (x i) (x (i + 1))

theorem walk_of_transGen {V : Type} {B : V → V → Prop} {a b : V} (h : TransGen B a b) : ∃ k, 0 < k ∧ Walk B k a b := by
  induction h with
  | @single b hb => exact ⟨1, Nat.one_pos, fun i => if i = 0 then a else b, rfl, rfl, fun i hi => by
      obtain rfl : i = 0 := by omega
      exact hb⟩
  | @tail b c _ hbc ih =>
    obtain ⟨k, hk, x, x0, xk, hx⟩ := ih
    refine ⟨k + 1, by omega, fun i => if i ≤ k then x i else c, by simpa using x0, by simp, fun i hi => ?_⟩
    by_cases e : i = k
    · subst e; simp [xk, hbc]
    · have h1 : i ≤ k := by omega
      have h2 : i + 1 ≤ k := by omega
      simp only [h1, h2, if_true]
      exact hx i (by omega)

/-- A shortest closed walk visits as many nodes as it has steps, and each of them has a closed walk of that length. -/
theorem short_cycle {V : Type} {B : V → V → Prop} {a : V} (h : TransGen B a a) :
    ∃ k, 0 < k ∧ ∃ x : Fin k → V, Function.Injective x ∧ ∀ i, Walk B k (x i) (x i) := by
  classical
  have hex : ∃ k, 0 < k ∧ ∃ v, Walk B k v v := by
    obtain ⟨k, hk, hw⟩ := walk_of_transGen h
    exact ⟨k, hk, a, hw⟩
  have hspec := Nat.find_spec hex
  have hmin : ∀ m, 0 < m → m < Nat.find hex → ¬ ∃ v, Walk B m v v := fun m hm hlt he => Nat.find_min hex hlt ⟨hm, he⟩
  generalize Nat.find hex = k at hspec hmin
  obtain ⟨hk, v, x, x0, xk, hx⟩ := hspec
  refine ⟨k, hk, fun i => x i.1, ?_, ?_⟩
  · have key : ∀ i j : Nat, i < j → j < k → x i ≠ x j := by
      intro i j hij hj e
      refine hmin (j - i) (by omega) (by omega) ⟨x i, fun t => x (i + t), rfl, ?_, fun t ht => ?_⟩
      · have e2 : i + (j - i) = j := by omega
        show x (i + (j - i)) = x i
        rw [e2, e]
      · exact hx (i + t) (by omega)
    intro i j e
    rcases Nat.lt_trichotomy i.1 j.1 with h1 | h1 | h1
    · exact absurd e (key _ _ h1 j.2)
    · exact Fin.ext h1
    · exact absurd e.symm (key _ _ h1 i.2)
  · intro i
    have hi := i.2
    refine ⟨fun t => if i.1 + t ≤ k then x (i.1 + t) else x (i.1 + t - k), ?_, ?_, fun t ht => ?_⟩
    · simp [hi.le]
    · by_cases e : i.1 = 0
      · simp [e, xk, x0]
      · simp [e]
    · by_cases e1 : i.1 + (t + 1) ≤ k
      · have e2 : i.1 + t ≤ k := by omega
        simp only [e1, e2, if_true]
        exact hx _ (by omega)
      · by_cases e2 : i.1 + t ≤ k
        · have e3 : i.1 + t = k := by omega
          simp only [e1, e2, if_true, if_false]
          have e4 : i.1 + (t + 1) - k = 0 + 1 := by omega
          rw [e3, xk, e4, ← x0]
          exact hx 0 hk
        · simp only [e1, e2, if_false]
          have e4 : i.1 + (t + 1) - k = (i.1 + t - k) + 1 := by omega
          rw [e4]
          exact hx _ (by omega)

theorem pow_nonneg' (A : Matrix (Fin d) (Fin d) K) (hA : ∀ i j, 0 ≤ A i j) (k : Nat) (i j : Fin d) : 0 ≤ (A ^ k) i j := by
  induction k generalizing i j with
  | zero => rw [pow_zero, Matrix.one_apply]; split <;> simp
  | succ k ih =>
    rw [pow_succ, Matrix.mul_apply]
    exact sum_nonneg fun c _ => mul_nonneg (ih i c) (hA c j)

theorem walk_le (A : Matrix (Fin d) (Fin d) K) (hA : ∀ i j, 0 ≤ A i j) (t : K) (ht : 0 ≤ t) {B : Fin d → Fin d → Prop} (hB : ∀ i j, B i j → t ≤ A i j)
    (k : Nat) {a b : Fin d} (hw : Walk B k a b) : t ^ k ≤ (A ^ k) a b := by
  induction k generalizing b with
  | zero =>
    obtain ⟨x, x0, xk, -⟩ := hw
    have : a = b := by rw [← x0, ← xk]
    subst this
    simp
  | succ k ih =>
    obtain ⟨x, x0, xk, hx⟩ := hw
    have h1 := ih (b := x k) ⟨x, x0, rfl, fun i hi => hx i (by omega)⟩
    have h2 := hB _ _ (hx k (by omega))
    rw [xk] at h2
    rw [pow_succ, pow_succ, Matrix.mul_apply]
    calc t ^ k * t ≤ (A ^ k) a (x k) * A (x k) b := mul_le_mul h1 h2 ht (pow_nonneg' A hA k _ _)
      _ ≤ ∑ c, (A ^ k) a c * A c b := single_le_sum (f := fun c => (A ^ k) a c * A c b) (fun c _ => mul_nonneg (pow_nonneg' A hA k _ _) (hA _ _)) (mem_univ (x k))

theorem one_add_pow (A : Matrix (Fin d) (Fin d) K) (m : Nat) (i j : Fin d) :
    ((1 + A) ^ m) i j = ∑ k ∈ range (m + 1), (A ^ k) i j * (m.choose k : K) := by
  rw [add_comm, (Commute.one_right A).add_pow, Matrix.sum_apply]
  refine sum_congr rfl fun k _ => ?_
  rw [one_pow, mul_one, ← Matrix.diagonal_natCast, Matrix.mul_diagonal]

theorem one_add_pow_ge (A : Matrix (Fin d) (Fin d) K) (hA : ∀ i j, 0 ≤ A i j) (m k : Nat) (hk : 0 < k) (hkm : k ≤ m) (i : Fin d) :
    1 + (A ^ k) i i ≤ ((1 + A) ^ m) i i := by
  rw [one_add_pow]
  have hsub : ({0, k} : Finset Nat) ⊆ range (m + 1) := by
    intro z hz; simp only [mem_insert, mem_singleton] at hz; rw [mem_range]; omega
  have h0 : ∀ z ∈ range (m + 1), z ∉ ({0, k} : Finset Nat) → 0 ≤ (A ^ z) i i * (m.choose z : K) := fun z _ _ =>
    mul_nonneg (pow_nonneg' A hA z i i) (Nat.cast_nonneg _)
  refine le_trans ?_ (sum_le_sum_of_subset_of_nonneg hsub h0)
  rw [sum_pair (by omega), pow_zero, Matrix.one_apply_eq, Nat.choose_zero_right, Nat.cast_one, mul_one]
  have h1 : (1 : K) ≤ (m.choose k : K) := by exact_mod_cast Nat.choose_pos hkm
  have h2 := mul_le_mul_of_nonneg_left h1 (pow_nonneg' A hA k i i)
  rw [mul_one] at h2
  exact add_le_add le_rfl h2

/-- `k · t^k` decreases in `k ≥ 1` when `t ≤ 1/2`. -/
theorem mul_pow_antitone {t : K} (ht : 0 ≤ t) (ht2 : t ≤ 1 / 2) {k m : Nat} (hk : 0 < k) (hkm : k ≤ m) : (m : K) * t ^ m ≤ k * t ^ k := by
  induction m, hkm using Nat.le_induction with
  | base => exact le_rfl
  | succ m hm ih =>
    refine le_trans ?_ ih
    have h1 : ((m + 1 : Nat) : K) ≤ 2 * m := by
      have : m + 1 ≤ 2 * m := by omega
      exact_mod_cast this
    have hp : 0 ≤ t ^ m := pow_nonneg ht m
    rw [pow_succ]
    calc ((m + 1 : Nat) : K) * (t ^ m * t) ≤ (2 * m) * (t ^ m * (1 / 2)) :=
          mul_le_mul h1 (mul_le_mul_of_nonneg_left ht2 hp) (mul_nonneg hp ht) (by positivity)
      _ = m * t ^ m := by ring

/-- A cycle of entries `≥ 1/2` makes `h` at least `d / (2d)^d`. -/
theorem h_ge (W : Matrix (Fin d) (Fin d) K) (hW : ∀ i j, 0 ≤ W i j) {a : Fin d} (hc : TransGen (fun i j => 1 / 2 ≤ W i j) a a) :
    (d : K) * (1 / (2 * d)) ^ d ≤ h W := by
  have hd : 0 < d := a.pos
  have hdK : (0 : K) < d := by exact_mod_cast hd
  set A : Matrix (Fin d) (Fin d) K := (1 / (d : K)) • W with hA
  have hA0 : ∀ i j, 0 ≤ A i j := fun i j => by
    rw [hA, Matrix.smul_apply, smul_eq_mul]; exact mul_nonneg (by positivity) (hW i j)
  obtain ⟨k, hk, x, hinj, hwalk⟩ := short_cycle hc
  have hkd : k ≤ d := by simpa using Fintype.card_le_of_injective x hinj
  have hpow : ∀ i, (1 / (2 * (d : K))) ^ k ≤ (A ^ k) (x i) (x i) := fun i => by
    refine walk_le A hA0 _ (by positivity) (B := fun i j => 1 / 2 ≤ W i j) ?_ k (hwalk i)
    intro i j hij
    rw [hA, Matrix.smul_apply, smul_eq_mul]
    calc 1 / (2 * (d : K)) = 1 / d * (1 / 2) := by field_simp
      _ ≤ 1 / d * W i j := mul_le_mul_of_nonneg_left hij (by positivity)
  have htr : (d : K) + k * (1 / (2 * (d : K))) ^ k ≤ Matrix.trace ((1 + A) ^ d) := by
    unfold Matrix.trace
    calc (d : K) + k * (1 / (2 * (d : K))) ^ k ≤ ∑ i : Fin d, (1 + (A ^ k) i i) := by
          rw [sum_add_distrib]
          simp only [sum_const, card_univ, Fintype.card_fin, nsmul_eq_mul, mul_one]
          refine add_le_add le_rfl ?_
          calc (k : K) * (1 / (2 * (d : K))) ^ k = ∑ i : Fin k, (1 / (2 * (d : K))) ^ k := by simp
            _ ≤ ∑ i : Fin k, (A ^ k) (x i) (x i) := sum_le_sum fun i _ => hpow i
            _ = ∑ v ∈ univ.map ⟨x, hinj⟩, (A ^ k) v v := by rw [sum_map]; rfl
            _ ≤ ∑ v, (A ^ k) v v := sum_le_sum_of_subset_of_nonneg (subset_univ _) fun v _ _ => pow_nonneg' A hA0 k v v
      _ ≤ ∑ i : Fin d, Matrix.diag ((1 + A) ^ d) i := sum_le_sum fun i _ => one_add_pow_ge A hA0 d k hk hkd i
  have hm := mul_pow_antitone (t := 1 / (2 * (d : K))) (by positivity) (by
    have h1 : (1 : K) ≤ d := by exact_mod_cast hd
    rw [one_div_le_one_div (by positivity) (by norm_num)]
    linarith) hk hkd
  unfold h
  rw [← hA]
  linarith

/-! ### The graph -/

theorem addDirectedEdge_arrow (G : GG d) (a b : Fin d) (hab : a ≠ b) (i j : Fin d) :
    (G.addDirectedEdge a b).Arrow i j ↔ (i = a ∧ j = b) ∨ (¬ (i = b ∧ j = a) ∧ G.Arrow i j) := by
  unfold GG.Arrow
  simp [GG.addDirectedEdge, upd_apply]
  grind

theorem graph_fold (B : Fin d → Fin d → Prop) [∀ i j, Decidable (B i j)] (hir : ∀ i, ¬ B i i) (l : List (Fin d × Fin d)) (G : GG d) (i j : Fin d) :
    ((l.foldl (fun G p => if B p.1 p.2 then G.addDirectedEdge p.1 p.2 else G) G).Arrow i j → ((i, j) ∈ l ∧ B i j) ∨ G.Arrow i j) ∧
    ((∀ a b, B a b → ¬ B b a) → B i j → ((i, j) ∈ l ∨ G.Arrow i j) →
      (l.foldl (fun G p => if B p.1 p.2 then G.addDirectedEdge p.1 p.2 else G) G).Arrow i j) := by
  induction l generalizing G with
  | nil => simp
  | cons p l ih =>
    rw [List.foldl_cons]
    by_cases hB : B p.1 p.2
    · rw [if_pos hB]
      have hne : p.1 ≠ p.2 := fun e => hir p.2 (by rw [e] at hB; exact hB)
      have hadd := addDirectedEdge_arrow G p.1 p.2 hne i j
      obtain ⟨h1, h2⟩ := ih (G.addDirectedEdge p.1 p.2)
      refine ⟨fun h => ?_, fun has hij h => h2 has hij ?_⟩
      · rcases h1 h with h | h
        · exact Or.inl ⟨List.mem_cons_of_mem _ h.1, h.2⟩
        · rcases hadd.1 h with ⟨rfl, rfl⟩ | h
          · exact Or.inl ⟨List.mem_cons_self, hB⟩
          · exact Or.inr h.2
      · rcases h with h | h
        · rcases List.mem_cons.1 h with h | h
          · subst h; exact Or.inr (hadd.2 (Or.inl ⟨rfl, rfl⟩))
          · exact Or.inl h
        · refine Or.inr (hadd.2 (Or.inr ⟨?_, h⟩))
          rintro ⟨rfl, rfl⟩
          exact has _ _ hB hij
    · rw [if_neg hB]
      obtain ⟨h1, h2⟩ := ih G
      refine ⟨fun h => ?_, fun has hij h => h2 has hij ?_⟩
      · rcases h1 h with h | h
        · exact Or.inl ⟨List.mem_cons_of_mem _ h.1, h.2⟩
        · exact Or.inr h
      · rcases h with h | h
        · rcases List.mem_cons.1 h with h | h
          · subst h; exact absurd hij hB
          · exact Or.inl h
        · exact Or.inr h

theorem mem_pairs (i j : Fin d) : (i, j) ∈ (List.finRange d).flatMap fun i => (List.finRange d).map fun j => (i, j) := by simp

theorem empty_arrow (i j : Fin d) : ¬ (GG.empty d).Arrow i j := by
  unfold GG.Arrow
  intro h
  have := h.1
  simp at this

theorem graph_sub (B : Fin d → Fin d → Prop) [∀ i j, Decidable (B i j)] (hir : ∀ i, ¬ B i i) (i j : Fin d) (h : (graph B).Arrow i j) : B i j := by
  rcases (graph_fold B hir _ _ i j).1 h with h | h
  · exact h.2
  · exact absurd h (empty_arrow i j)

theorem graph_arrow (B : Fin d → Fin d → Prop) [∀ i j, Decidable (B i j)] (hir : ∀ i, ¬ B i i) (has : ∀ a b, B a b → ¬ B b a) (i j : Fin d) :
    (graph B).Arrow i j ↔ B i j :=
  ⟨graph_sub B hir i j, fun h => (graph_fold B hir _ _ i j).2 has h (Or.inl (mem_pairs i j))⟩

/-! ### The property -/

variable (sig : K → K) (mask : Fin d → Fin d → Bool) (tau rho0 mult htol big : K) (opt : Nat → K → Logits d K → Logits d K)

/-- The parameters when the optimisation loop ends. -/
def final : Logits d K := rounds sig mask tau mult htol big opt 100 rho0 fun _ _ => 0

/-- **C75, the part that holds.** Whatever the optimiser does: if the loop ended because the acyclicity term is within the tolerance, and the
tolerance is below `d / (2d)^d`, the returned graph has no directed cycle and its edges are exactly the entries that reach the threshold. -/
theorem C75_acyclic_partial (hsig : ∀ z, 0 ≤ sig z) (hmask : ∀ i, mask i i = false) (htol' : htol < (d : K) * (1 / (2 * d)) ^ d)
    (hend : h (weights sig mask tau (final sig mask tau rho0 mult htol big opt)) ≤ htol) :
    Acyclic (calm sig mask tau rho0 mult htol big opt).Arrow ∧
    ∀ i j, (calm sig mask tau rho0 mult htol big opt).Arrow i j ↔
      mask i j = true ∧ 1 / 2 ≤ sig (final sig mask tau rho0 mult htol big opt i j / tau) := by
  set L := final sig mask tau rho0 mult htol big opt with hL
  have hW : ∀ i j, 0 ≤ weights sig mask tau L i j := fun i j => by
    unfold weights; rw [Matrix.of_apply]; split
    · exact hsig _
    · exact le_rfl
  have hB : ∀ i j, edges sig mask tau L i j ↔ mask i j = true ∧ 1 / 2 ≤ sig (L i j / tau) := fun i j => by
    unfold edges weights
    rw [Matrix.of_apply]
    by_cases hm : mask i j = true
    · simp [hm]
    · simp [hm]
  have hir : ∀ i, ¬ edges sig mask tau L i i := fun i hi => by have := ((hB i i).1 hi).1; rw [hmask i] at this; exact Bool.noConfusion this
  have hac : ∀ a, ¬ TransGen (edges sig mask tau L) a a := by
    intro a ha
    have := h_ge (weights sig mask tau L) hW ha
    exact absurd (lt_of_lt_of_le htol' this) (not_lt.2 hend)
  have hcalm : calm sig mask tau rho0 mult htol big opt = graph (edges sig mask tau L) := rfl
  rw [hcalm]
  constructor
  · intro a ha
    exact hac a (TransGen.mono (fun i j hij => graph_sub _ hir i j hij) _ _ ha)
  · intro i j
    rw [graph_arrow _ hir (fun a b h1 h2 => hac a (TransGen.tail (.single h1) h2)), hB]

/-- With the default tolerance this covers up to seven variables. -/
theorem C75_seven_variables_partial (hsig : ∀ z, 0 ≤ sig z) (hmask : ∀ i, mask i i = false) (hd : d ≤ 7) (hd0 : 0 < d)
    (hend : h (weights sig mask tau (final sig mask tau rho0 mult (1 / 10 ^ 8) big opt)) ≤ 1 / 10 ^ 8) :
    Acyclic (calm sig mask tau rho0 mult (1 / 10 ^ 8) big opt).Arrow := by
  refine (C75_acyclic_partial sig mask tau rho0 mult (1 / 10 ^ 8) big opt hsig hmask ?_ hend).1
  clear hend
  interval_cases d <;> norm_num

/-- The loop ends because the tolerance is met or because the penalty is exhausted or after its last round; when the optimiser always returns the
same parameters these are the final ones. -/
theorem rounds_const (L0 : Logits d K) (fuel : Nat) (rho : K) (L : Logits d K) :
    rounds sig mask tau mult htol big (fun _ _ _ => L0) (fuel + 1) rho L = L0 := by
  induction fuel generalizing rho L with
  | zero => unfold rounds; dsimp only; split <;> rfl
  | succ f ih =>
    rw [rounds]
    split
    · rfl
    · exact ih _ _

/-- The parameters after each round when nothing stops the loop. -/
def afterRounds (opt : Nat → K → Logits d K → Logits d K) (mult rho : K) (fuel : Nat) (L : Logits d K) : Nat → Logits d K
  | 0 => L
  | j + 1 => opt (fuel - 1 - j) (rho * mult ^ j) (afterRounds opt mult rho fuel L j)

theorem afterRounds_shift (fuel : Nat) (rho : K) (L : Logits d K) (j : Nat) :
    afterRounds opt mult rho (fuel + 1) L (j + 1) = afterRounds opt mult (rho * mult) fuel (opt fuel rho L) j := by
  induction j with
  | zero => simp [afterRounds]
  | succ j ih =>
    rw [afterRounds, ih, afterRounds, pow_succ', ← mul_assoc, show fuel + 1 - 1 - (j + 1) = fuel - 1 - j by omega]

theorem rounds_stop (fuel : Nat) (rho : K) (L : Logits d K) :
    ∃ k, k ≤ fuel + 1 ∧ 0 < k ∧ rounds sig mask tau mult htol big opt (fuel + 1) rho L = afterRounds opt mult rho (fuel + 1) L k ∧
      (∀ j, 0 < j → j < k → htol < h (weights sig mask tau (afterRounds opt mult rho (fuel + 1) L j)) ∧ rho * mult ^ j ≤ big) ∧
      (h (weights sig mask tau (afterRounds opt mult rho (fuel + 1) L k)) ≤ htol ∨ big < rho * mult ^ k ∨ k = fuel + 1) := by
  induction fuel generalizing rho L with
  | zero =>
    refine ⟨1, le_rfl, Nat.one_pos, ?_, fun j h1 h2 => absurd h2 (by omega), Or.inr (Or.inr rfl)⟩
    unfold rounds; dsimp only; split <;> simp [rounds, afterRounds]
  | succ f ih =>
    by_cases hs : h (weights sig mask tau (opt (f + 1) rho L)) ≤ htol ∨ big < rho * mult
    · refine ⟨1, by omega, Nat.one_pos, ?_, fun j h1 h2 => absurd h2 (by omega), ?_⟩
      · rw [rounds, if_pos hs]; simp [afterRounds]
      · simpa [afterRounds] using hs
    · obtain ⟨k, h1, h2, h3, h4, h5⟩ := ih (rho * mult) (opt (f + 1) rho L)
      refine ⟨k + 1, by omega, by omega, ?_, ?_, ?_⟩
      · rw [rounds, if_neg hs, h3, afterRounds_shift]
      · intro j hj hjk
        obtain ⟨i, rfl⟩ : ∃ i, j = i + 1 := ⟨j - 1, by omega⟩
        rw [afterRounds_shift]
        rcases Nat.eq_zero_or_pos i with rfl | hi
        · push Not at hs
          simpa [afterRounds] using hs
        · have := h4 i hi (by omega)
          rwa [mul_assoc, ← pow_succ'] at this
      · rw [afterRounds_shift, pow_succ', ← mul_assoc]
        exact h5.imp_right fun h => h.imp_right fun h => by omega

/-- **C75, when the loop ends.** The returned parameters are those after some round `k` of at most a hundred: at every earlier round the acyclicity
term was above the tolerance and the penalty within its bound, and the last round met the tolerance, exhausted the penalty or was the hundredth. -/
theorem C75_stop_rule : ∃ k, 0 < k ∧ k ≤ 100 ∧ final sig mask tau rho0 mult htol big opt = afterRounds opt mult rho0 100 (fun _ _ => 0) k ∧
    (∀ j, 0 < j → j < k → htol < h (weights sig mask tau (afterRounds opt mult rho0 100 (fun _ _ => 0) j)) ∧ rho0 * mult ^ j ≤ big) ∧
    (h (weights sig mask tau (final sig mask tau rho0 mult htol big opt)) ≤ htol ∨ big < rho0 * mult ^ k ∨ k = 100) := by
  obtain ⟨k, h1, h2, h3, h4, h5⟩ := rounds_stop sig mask tau mult htol big opt 99 rho0 fun _ _ => 0
  refine ⟨k, h2, h1, h3, h4, ?_⟩
  have : final sig mask tau rho0 mult htol big opt = _ := h3
  rw [this]
  exact h5

/-- A run: an optimiser that reaches the tolerance only in its third round is called three times. -/
example (L0 : Logits d K) (h0 : htol < h (weights sig mask tau (fun _ _ => 0))) (h1 : h (weights sig mask tau L0) ≤ htol) (hb : rho0 * mult ^ 2 ≤ big)
    (hb1 : rho0 * mult ≤ big) :
    final sig mask tau rho0 mult htol big (fun f _ _ => if f ≤ 97 then L0 else fun _ _ => 0) = L0 := by
  have e1 : ¬ (h (weights sig mask tau (fun _ _ => 0)) ≤ htol ∨ big < rho0 * mult) := by push Not; exact ⟨h0, hb1⟩
  have e2 : ¬ (h (weights sig mask tau (fun _ _ => 0)) ≤ htol ∨ big < rho0 * mult * mult) := by
    push Not; exact ⟨h0, by rwa [mul_assoc, ← pow_two]⟩
  have e3 : h (weights sig mask tau L0) ≤ htol ∨ big < rho0 * mult * mult * mult := Or.inl h1
  unfold final
  rw [rounds, if_neg (by omega : ¬ 99 ≤ 97), if_neg e1]
  rw [rounds, if_neg (by omega : ¬ 98 ≤ 97), if_neg e2]
  rw [rounds, if_pos (le_refl 97), if_pos e3]

/-! ### The tolerance does not exclude cycles from eight variables on -/

/-- A cycle of eight edges. -/
def cyc (t : ℚ) : Matrix (Fin 8) (Fin 8) ℚ := Matrix.of fun i j => if j = i + 1 then t else 0

theorem cyc_pow (t : ℚ) (k : Nat) (i j : Fin 8) : (cyc t ^ k) i j = if j = i + Fin.ofNat 8 k then t ^ k else 0 := by
  induction k generalizing j with
  | zero =>
    rw [pow_zero, Matrix.one_apply]
    have : Fin.ofNat 8 0 = 0 := rfl
    simp [eq_comm, this]
  | succ k ih =>
    rw [pow_succ, Matrix.mul_apply]
    have hc : ∀ c, cyc t c j = if j = c + 1 then t else 0 := fun c => rfl
    simp only [ih, hc, ite_mul, zero_mul]
    rw [sum_ite_eq' univ (i + Fin.ofNat 8 k)]
    simp only [mul_ite, mul_zero]
    have e : Fin.ofNat 8 (k + 1) = Fin.ofNat 8 k + 1 := by ext; simp [Fin.ofNat, Fin.val_add]
    simp only [mem_univ, if_true, e, add_assoc, pow_succ]

theorem h_cyc : h (cyc (1 / 2)) = 8 * (1 / 16) ^ 8 := by
  have e : (1 / ((8 : Nat) : ℚ)) • cyc (1 / 2) = cyc (1 / 16) := by
    ext i j; simp only [Matrix.smul_apply, cyc, Matrix.of_apply, smul_eq_mul, mul_ite, mul_zero]; norm_num
  unfold h
  rw [e]
  have : ∀ i, ((1 + cyc (1 / 16)) ^ 8 : Matrix (Fin 8) (Fin 8) ℚ) i i = 1 + (1 / 16) ^ 8 := by
    intro i
    rw [one_add_pow]
    simp only [cyc_pow, left_eq_add]
    rw [sum_range_succ, sum_range_succ']
    have z : ∀ k ∈ range 7, (if Fin.ofNat 8 (k + 1) = 0 then ((1 : ℚ) / 16) ^ (k + 1) else 0) * ((Nat.choose 8 (k + 1) : Nat) : ℚ) = 0 := by
      intro k hk
      rw [mem_range] at hk
      have : Fin.ofNat 8 (k + 1) ≠ 0 := by interval_cases k <;> decide
      rw [if_neg this, zero_mul]
    rw [sum_eq_zero z]
    have e8 : Fin.ofNat 8 8 = 0 := by decide
    have e0 : Fin.ofNat 8 0 = 0 := by decide
    simp [e8, e0]
  unfold Matrix.trace
  simp only [Matrix.diag_apply, this]
  simp

/-- **C75, violated.** Eight variables, default tolerance, moral graph a ring: with the logits of one direction of the ring at their initial value
`0` and the others driven to weight `0`, the acyclicity term is `8/16^8 < 1e-8`, so the loop stops as converged, and the returned graph is a
directed cycle through all eight variables. -/
theorem C75_tolerance_violated : ∃ (sig : ℚ → ℚ) (mask : Fin 8 → Fin 8 → Bool) (opt : Nat → ℚ → Logits 8 ℚ → Logits 8 ℚ),
    (∀ z, 0 ≤ sig z ∧ sig z ≤ 1) ∧ Monotone sig ∧ sig 0 = 1 / 2 ∧ (∀ i, mask i i = false) ∧ (∀ i j, mask i j = mask j i) ∧
    h (weights sig mask (1 / 2) (final sig mask (1 / 2) (1 / 10 ^ 5) 3 (1 / 10 ^ 8) (10 ^ 16) opt)) ≤ 1 / 10 ^ 8 ∧
    ∀ i, (calm sig mask (1 / 2) (1 / 10 ^ 5) 3 (1 / 10 ^ 8) (10 ^ 16) opt).Arrow i (i + 1) := by
  let sig : ℚ → ℚ := fun z => if z < 0 then 0 else if z = 0 then 1 / 2 else 1
  let mask : Fin 8 → Fin 8 → Bool := fun i j => decide (j = i + 1 ∨ i = j + 1)
  let L0 : Logits 8 ℚ := fun i j => if j = i + 1 then 0 else -1
  have hfin : final sig mask (1 / 2) (1 / 10 ^ 5) 3 (1 / 10 ^ 8) (10 ^ 16) (fun _ _ _ => L0) = L0 := rounds_const _ _ _ _ _ _ _ _ _ _
  have hw : weights sig mask (1 / 2) L0 = cyc (1 / 2) := by
    ext i j
    simp only [weights, cyc, Matrix.of_apply, mask, L0, sig]
    by_cases e : j = i + 1
    · simp [e]
    · simp only [e, false_or, if_false]
      norm_num
  refine ⟨sig, mask, fun _ _ _ => L0, ?_, ?_, ?_, ?_, ?_, ?_, ?_⟩
  · intro z; simp only [sig]; split
    · norm_num
    · split <;> norm_num
  · intro a b hab
    simp only [sig]
    rcases lt_trichotomy a 0 with h1 | h1 | h1
    · rw [if_pos h1]; split_ifs <;> norm_num
    · subst h1
      rcases eq_or_lt_of_le hab with h2 | h2
      · rw [← h2]
      · rw [if_neg (lt_irrefl _), if_pos rfl, if_neg (not_lt.2 h2.le), if_neg (ne_of_gt h2)]; norm_num
    · have h2 := lt_of_lt_of_le h1 hab
      rw [if_neg (not_lt.2 h1.le), if_neg (ne_of_gt h1), if_neg (not_lt.2 h2.le), if_neg (ne_of_gt h2)]
  · simp [sig]
  · intro i; simp only [mask]; revert i; decide
  · intro i j; simp only [mask]; revert i j; decide
  · rw [hfin, hw, h_cyc]; norm_num
  · intro i
    have hcalm : calm sig mask (1 / 2) (1 / 10 ^ 5) 3 (1 / 10 ^ 8) (10 ^ 16) (fun _ _ _ => L0) = graph (edges sig mask (1 / 2) L0) := by
      unfold calm
      have e := hfin
      unfold final at e
      rw [e]
    rw [hcalm]
    have hB : ∀ i j, edges sig mask (1 / 2) L0 i j ↔ j = i + 1 := by
      intro i j
      unfold edges
      rw [hw, cyc, Matrix.of_apply]
      by_cases e : j = i + 1
      · simp [e]
      · simp [e]
    rw [graph_arrow _ (fun i hi => by have := (hB i i).1 hi; clear hi; revert this; revert i; decide) (fun a b h1 h2 => by
      have a1 := (hB _ _).1 h1
      have a2 := (hB _ _).1 h2
      clear h1 h2
      revert a b; decide), hB]

/-- **C75, violated.** Nothing checks the graph when the loop ends without meeting the tolerance: an optimiser stuck at three logits of a ring
above zero gives a directed 3-cycle, with the acyclicity term far above the tolerance. -/
theorem C75_unconverged_violated : ∃ (sig : ℚ → ℚ) (mask : Fin 3 → Fin 3 → Bool) (opt : Nat → ℚ → Logits 3 ℚ → Logits 3 ℚ),
    (∀ z, 0 ≤ sig z ∧ sig z ≤ 1) ∧ (∀ i, mask i i = false) ∧ (∀ i j, mask i j = mask j i) ∧
    (1 : ℚ) / 10 ^ 8 < h (weights sig mask (1 / 2) (final sig mask (1 / 2) (1 / 10 ^ 5) 3 (1 / 10 ^ 8) (10 ^ 16) opt)) ∧
    ∀ i, (calm sig mask (1 / 2) (1 / 10 ^ 5) 3 (1 / 10 ^ 8) (10 ^ 16) opt).Arrow i (i + 1) := by
  let sig : ℚ → ℚ := fun z => if z < 0 then 0 else 1
  let mask : Fin 3 → Fin 3 → Bool := fun i j => decide (i ≠ j)
  let L0 : Logits 3 ℚ := fun i j => if j = i + 1 then 1 else -1
  have hfin : final sig mask (1 / 2) (1 / 10 ^ 5) 3 (1 / 10 ^ 8) (10 ^ 16) (fun _ _ _ => L0) = L0 := rounds_const _ _ _ _ _ _ _ _ _ _
  have hB : ∀ i j, edges sig mask (1 / 2) L0 i j ↔ j = i + 1 := by
    simp only [edges, weights, Matrix.of_apply, mask, L0, sig]
    decide +kernel
  refine ⟨sig, mask, fun _ _ _ => L0, ?_, ?_, ?_, ?_, ?_⟩
  · intro z; simp only [sig]; split <;> norm_num
  · intro i; simp [mask]
  · intro i j; simp only [mask]; revert i j; decide
  · rw [hfin]
    have hW : ∀ i j, 0 ≤ weights sig mask (1 / 2) L0 i j := by
      simp only [weights, Matrix.of_apply, mask, L0, sig]; decide +kernel
    have hs : ∀ i j : Fin 3, j = i + 1 → 1 / 2 ≤ weights sig mask (1 / 2) L0 i j := fun i j e => (hB i j).2 e
    have hc : TransGen (fun i j => 1 / 2 ≤ weights sig mask (1 / 2) L0 i j) 0 0 :=
      TransGen.tail (b := (2 : Fin 3)) (TransGen.tail (b := (1 : Fin 3)) (TransGen.single (hs 0 1 rfl)) (hs 1 2 rfl)) (hs 2 0 rfl)
    refine lt_of_lt_of_le ?_ (h_ge _ hW hc)
    norm_num
  · intro i
    have hcalm : calm sig mask (1 / 2) (1 / 10 ^ 5) 3 (1 / 10 ^ 8) (10 ^ 16) (fun _ _ _ => L0) = graph (edges sig mask (1 / 2) L0) := by
      unfold calm
      have e := hfin
      unfold final at e
      rw [e]
    rw [hcalm, graph_arrow _ (fun i hi => by have := (hB i i).1 hi; clear hi; revert this; revert i; decide) (fun a b h1 h2 => by
      have a1 := (hB _ _).1 h1
      have a2 := (hB _ _).1 h2
      clear h1 h2
      revert a b; decide), hB]

end CL.Calm
