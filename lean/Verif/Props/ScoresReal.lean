import Verif.Props.Scores
import Mathlib.Analysis.Matrix.PosDef
import Mathlib.Analysis.SpecialFunctions.Log.Basic

/-!
# C74 over the real numbers: BIC of a positive definite covariance matrix
-/
open Finset Spec Matrix
namespace CL.Score
variable {n : Nat}

/-- Positive definiteness, spelled out: symmetric, and every nonzero linear combination of the variables has positive variance. -/
structure PositiveDefinite (cov : Fin n → Fin n → ℝ) : Prop where
  symm : ∀ a b, cov a b = cov b a
  pos : ∀ w : Fin n → ℝ, w ≠ 0 → 0 < ∑ a, ∑ b, w a * cov a b * w b

theorem PositiveDefinite.posDef {cov : Fin n → Fin n → ℝ} (h : PositiveDefinite cov) : (Matrix.of cov).PosDef := by
  refine Matrix.PosDef.of_dotProduct_mulVec_pos ?_ ?_
  · ext a b; simp [h.symm b a]
  · intro w hw
    have := h.pos w hw
    simp only [dotProduct, mulVec, Pi.star_apply, star_trivial, Matrix.of_apply, Finset.mul_sum]
    simpa only [mul_assoc] using this

theorem PositiveDefinite.nondegenerate {cov : Fin n → Fin n → ℝ} (h : PositiveDefinite cov) : Nondegenerate cov := by
  intro S
  have := (h.posDef.submatrix (e := fun a : S => a.1) Subtype.val_injective).det_pos
  exact ne_of_gt this

theorem logLaw : LogLaw Real.log := fun _ _ ha hb => Real.log_mul ha hb

/-- **C74, BIC over the reals.** -/
theorem C74_bic_score_equivalent_real {cov : Fin n → Fin n → ℝ} (h : PositiveDefinite cov) (m lam : ℝ)
    (lst : Finset (Fin n) → List (Fin n)) (hlst : ∀ S, (lst S).Nodup ∧ (lst S).toFinset = S) :
    Ges.ScoreEquiv fun i S => bic Real.log cov m lam i (lst S) :=
  C74_bic_score_equivalent logLaw h.symm h.nondegenerate m lam lst hlst

/-- The variance of `x_i - ∑ b_a x_{PA a}`. -/
def residualVariance (cov : Fin n → Fin n → ℝ) (i : Fin n) (PA : List (Fin n)) (b : Fin PA.length → ℝ) : ℝ :=
  cov i i - 2 * ∑ a, b a * cov i (PA.get a) + ∑ a, ∑ c, b a * cov (PA.get a) (PA.get c) * b c

/-- **C74, what BIC measures.** The score of `i` given parents `PA` is `n · log s² + λ · |PA| · log n`, where `s²` is the least variance a linear
combination of the parents can leave in `x_i`. -/
theorem C74_bic_least_squares {cov : Fin n → Fin n → ℝ} (h : PositiveDefinite cov) (m lam : ℝ) (i : Fin n) (PA : List (Fin n)) (hl : PA.Nodup)
    (hi : i ∉ PA) : ∃ s2, IsLeast (Set.range (residualVariance cov i PA)) s2 ∧ 0 < s2 ∧
      bic Real.log cov m lam i PA = m * Real.log s2 + lam * PA.length * Real.log m := by
  set A : Matrix (Fin PA.length) (Fin PA.length) ℝ := Matrix.of fun a b => cov (PA.get a) (PA.get b) with hA
  set y : Fin PA.length → ℝ := fun a => cov i (PA.get a) with hy
  have hpd : A.PosDef := h.posDef.submatrix (e := PA.get) (List.nodup_iff_injective_get.1 hl)
  have hu : IsUnit A.det := isUnit_iff_ne_zero.2 (ne_of_gt hpd.det_pos)
  have hAt : Aᵀ = A := by ext a b; simp [hA, h.symm]
  set bs : Fin PA.length → ℝ := y ᵥ* A⁻¹ with hbs
  have hbA : bs ᵥ* A = y := by rw [hbs, vecMul_vecMul, Matrix.nonsing_inv_mul _ hu, vecMul_one]
  have hform : ∀ b, residualVariance cov i PA b = (cov i i - bs ⬝ᵥ y) + (b - bs) ⬝ᵥ (A *ᵥ (b - bs)) := by
    intro b
    have e1 : residualVariance cov i PA b = cov i i - 2 * (b ⬝ᵥ y) + b ⬝ᵥ (A *ᵥ b) := by
      unfold residualVariance
      simp only [dotProduct, mulVec, Finset.mul_sum, hA, hy, Matrix.of_apply, mul_assoc]
    have e2 : bs ⬝ᵥ (A *ᵥ b) = b ⬝ᵥ y := by rw [dotProduct_mulVec, hbA, dotProduct_comm]
    have e3 : b ⬝ᵥ (A *ᵥ bs) = b ⬝ᵥ y := by
      rw [← hbA, ← mulVec_transpose, hAt]
    have e4 : bs ⬝ᵥ (A *ᵥ bs) = bs ⬝ᵥ y := by rw [dotProduct_mulVec, hbA, dotProduct_comm]
    rw [e1, mulVec_sub, sub_dotProduct, dotProduct_sub, dotProduct_sub, e2, e3, e4]
    ring
  have hleast : IsLeast (Set.range (residualVariance cov i PA)) (cov i i - bs ⬝ᵥ y) := by
    constructor
    · exact ⟨bs, by rw [hform]; simp⟩
    · rintro _ ⟨b, rfl⟩
      rw [hform]
      have := hpd.posSemidef.dotProduct_mulVec_nonneg (b - bs)
      simp only [star_trivial] at this
      linarith
  have hpos : 0 < cov i i - bs ⬝ᵥ y := by
    have e := minor_insert cov i PA hl hi (h.nondegenerate _) h.symm
    have p1 : 0 < minor cov (insert i PA.toFinset) := (h.posDef.submatrix (e := fun a : (insert i PA.toFinset : Finset _) => a.1) Subtype.val_injective).det_pos
    have p2 : 0 < minor cov PA.toFinset := (h.posDef.submatrix (e := fun a : PA.toFinset => a.1) Subtype.val_injective).det_pos
    rw [e] at p1
    exact pos_of_mul_pos_right p1 p2.le
  refine ⟨_, hleast, hpos, ?_⟩
  unfold bic
  split
  · rename_i hnil
    subst hnil
    simp [dotProduct]
  · dsimp only
    rw [← hA, ← hy, ← hbs]
    ring

/-- **C74, consequence for GES.** With the BIC score (`ges(X, score_func="local_score_BIC")`) `Record["score"]` is the BIC score of every DAG in the
returned equivalence class, and at most that of the graph without edges. -/
theorem C74_ges_bic_score {cov : Fin n → Fin n → ℝ} (h : PositiveDefinite cov) (m lam : ℝ)
    (lst : Finset (Fin n) → List (Fin n)) (hlst : ∀ S, (lst S).Nodup ∧ (lst S).toFinset = S) {big : ℝ} (hbig : 0 ≤ big) {maxP fuel : Nat}
    (hf : n * n + 1 ≤ fuel) {R : Ges.Result n ℝ} (hR : Ges.ges (fun i S => bic Real.log cov m lam i (lst S)) big maxP fuel = some R)
    {D : Fin n → Fin n → Prop} (hD : Ges.Essential R.G D) :
    R.score = Ges.dagScore (fun i S => bic Real.log cov m lam i (lst S)) D ∧
    R.score ≤ Ges.dagScore (fun i S => bic Real.log cov m lam i (lst S)) Ges.noEdge :=
  Ges.C36_ges_score (C74_bic_score_equivalent_real h m lam lst hlst) hbig hf hR hD

/-! ### A case that meets the hypotheses -/

/-- Three variables with variance 2 and covariances 1. -/
def exCov : Fin 3 → Fin 3 → ℝ := fun a b => if a = b then 2 else 1

theorem exCov_pd : PositiveDefinite exCov := by
  refine ⟨fun a b => by simp only [exCov, eq_comm], fun w hw => ?_⟩
  have h0 : 0 < w 0 ^ 2 + w 1 ^ 2 + w 2 ^ 2 := by
    by_contra hc
    have a0 := sq_nonneg (w 0)
    have a1 := sq_nonneg (w 1)
    have a2 := sq_nonneg (w 2)
    have b0 : w 0 = 0 := pow_eq_zero_iff (two_ne_zero) |>.1 (by linarith)
    have b1 : w 1 = 0 := pow_eq_zero_iff (two_ne_zero) |>.1 (by linarith)
    have b2 : w 2 = 0 := pow_eq_zero_iff (two_ne_zero) |>.1 (by linarith)
    exact hw (funext fun a => by fin_cases a <;> assumption)
  have e : ∑ a, ∑ b, w a * exCov a b * w b = (w 0 ^ 2 + w 1 ^ 2 + w 2 ^ 2) + (w 0 + w 1 + w 2) ^ 2 := by
    simp only [Fin.sum_univ_three, exCov]
    simp
    ring
  rw [e]
  have := sq_nonneg (w 0 + w 1 + w 2)
  linarith

def exChain (a b : Fin 3) : Prop := (a = 0 ∧ b = 1) ∨ (a = 1 ∧ b = 2)
def exFork (a b : Fin 3) : Prop := (a = 1 ∧ b = 0) ∨ (a = 1 ∧ b = 2)

theorem exChain_acyclic : Acyclic exChain := by
  intro x hx
  have : ∀ a b, Relation.TransGen exChain a b → a.1 < b.1 := by
    intro a b h
    induction h with
    | single h => rcases h with ⟨rfl, rfl⟩ | ⟨rfl, rfl⟩ <;> decide
    | tail _ h ih => rcases h with ⟨rfl, rfl⟩ | ⟨rfl, rfl⟩ <;> (refine Nat.lt_trans ih ?_; decide)
  exact Nat.lt_irrefl _ (this x x hx)

theorem exFork_acyclic : Acyclic exFork := by
  intro x hx
  have : ∀ a b, Relation.TransGen exFork a b → a = 1 ∧ b ≠ 1 := by
    intro a b h
    induction h with
    | single h => rcases h with ⟨rfl, rfl⟩ | ⟨rfl, rfl⟩ <;> decide
    | tail _ h ih => exact ⟨ih.1, by rcases h with ⟨rfl, rfl⟩ | ⟨rfl, rfl⟩ <;> decide⟩
  exact (this x x hx).2 (this x x hx).1

theorem ex_equiv : MarkovEquiv exChain exFork := by
  constructor
  · unfold Adj exChain exFork; decide
  · unfold UnshieldedCollider Collider Adj exChain exFork; decide

/-- The chain `0 → 1 → 2` and the fork `0 ← 1 → 2` have the same BIC score. -/
theorem C74_example : Ges.dagScore (fun i S => bic Real.log exCov 100 1 i (S.sort (· ≤ ·))) exChain =
    Ges.dagScore (fun i S => bic Real.log exCov 100 1 i (S.sort (· ≤ ·))) exFork :=
  C74_bic_score_equivalent_real exCov_pd 100 1 (fun S => S.sort (· ≤ ·)) (fun S => ⟨S.sort_nodup _, S.sort_toFinset _⟩) _ _ exChain_acyclic
    exFork_acyclic ex_equiv

end CL.Score
