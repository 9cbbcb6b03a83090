import Verif.Model.Scores
import Verif.Proofs.ScoreEquiv
import Verif.Props.GesMain
import Mathlib.LinearAlgebra.Matrix.SchurComplement
import Mathlib.LinearAlgebra.Matrix.Determinant.Basic
import Mathlib.Data.List.FinRange
import Verif.Proofs.ChiSq
import Mathlib.Tactic.Ring

/-!
# C74: BIC and BDeu do not depend on the order of parents and are score equivalent
-/
open Finset Spec Matrix
namespace CL.Score
variable {n : Nat} {V : Type} [DecidableEq V] {K : Type} [Field K]

/-- The determinant of the covariance matrix of the variables in `S`. -/
noncomputable def minor (cov : V → V → K) (S : Finset V) : K := (Matrix.of fun a b : S => cov a.1 b.1).det

theorem minor_list (cov : V → V → K) (l : List V) (hl : l.Nodup) :
    (Matrix.of fun a b : Fin l.length => cov (l.get a) (l.get b)).det = minor cov l.toFinset := by
  unfold minor
  let e : Fin l.length ≃ l.toFinset := (hl.getEquiv l).trans (Equiv.subtypeEquivRight fun x => by simp)
  rw [← Matrix.det_submatrix_equiv_self e]
  rfl

theorem minor_insert (cov : V → V → K) (i : V) (l : List V) (hl : l.Nodup) (hi : i ∉ l) (h0 : minor cov l.toFinset ≠ 0)
    (hsym : ∀ a b, cov a b = cov b a) :
    minor cov (insert i l.toFinset) = minor cov l.toFinset *
      (cov i i - ((fun a : Fin l.length => cov i (l.get a)) ᵥ* (Matrix.of fun a b : Fin l.length => cov (l.get a) (l.get b))⁻¹) ⬝ᵥ
        (fun a : Fin l.length => cov i (l.get a))) := by
  set A : Matrix (Fin l.length) (Fin l.length) K := Matrix.of fun a b => cov (l.get a) (l.get b) with hA
  have hdet : A.det = minor cov l.toFinset := minor_list cov l hl
  have hu : IsUnit A.det := by rw [hdet]; exact isUnit_iff_ne_zero.2 h0
  haveI := A.invertibleOfIsUnitDet hu
  let B : Matrix (Fin l.length) Unit K := Matrix.of fun a _ => cov i (l.get a)
  let C : Matrix Unit (Fin l.length) K := Matrix.of fun _ a => cov i (l.get a)
  let D : Matrix Unit Unit K := Matrix.of fun _ _ => cov i i
  have hb := Matrix.det_fromBlocks₁₁ A B C D
  rw [hdet] at hb
  have hd : (D - C * ⅟A * B).det = cov i i - ((fun a : Fin l.length => cov i (l.get a)) ᵥ* A⁻¹) ⬝ᵥ (fun a : Fin l.length => cov i (l.get a)) := by
    rw [Matrix.det_unique, Matrix.sub_apply, Matrix.invOf_eq_nonsing_inv]
    rfl
  rw [hd] at hb
  rw [← hb]
  have : (i :: l).toFinset = insert i l.toFinset := by simp
  rw [← this, ← minor_list cov (i :: l) (List.nodup_cons.2 ⟨hi, hl⟩)]
  let e : Fin (i :: l).length ≃ Fin l.length ⊕ Unit :=
    { toFun := fun k => Fin.cases (Sum.inr ()) (fun k => Sum.inl k) k
      invFun := fun s => s.elim (fun k => k.succ) fun _ => 0
      left_inv := fun k => by refine Fin.cases ?_ ?_ k <;> simp
      right_inv := fun s => by rcases s with k | k <;> simp }
  rw [← Matrix.det_submatrix_equiv_self e]
  refine congrArg Matrix.det ?_
  ext a b
  refine Fin.cases ?_ (fun a => ?_) a <;> refine Fin.cases ?_ (fun b => ?_) b
  · rfl
  · rfl
  · exact hsym _ _
  · rfl


/-- What is needed of the logarithm. -/
def LogLaw (lg : K → K) : Prop := ∀ a b, a ≠ 0 → b ≠ 0 → lg (a * b) = lg a + lg b

/-- Every principal minor is nonzero (true of every positive definite covariance matrix). -/
def Nondegenerate (cov : V → V → K) : Prop := ∀ S : Finset V, minor cov S ≠ 0

theorem LogLaw.one {lg : K → K} (h : LogLaw lg) : lg 1 = 0 := by
  have := h 1 1 one_ne_zero one_ne_zero
  rw [mul_one] at this
  exact left_eq_add.1 this

theorem minor_empty (cov : V → V → K) : minor cov ∅ = 1 := by unfold minor; exact Matrix.det_isEmpty

theorem minor_singleton (cov : V → V → K) (i : V) : minor cov {i} = cov i i := by
  have := minor_list cov [i] (List.nodup_singleton i)
  simp only [List.toFinset_cons, List.toFinset_nil, insert_empty_eq] at this
  rw [← this]
  exact Matrix.det_fin_one _

/-- The BIC score is `n · log (det Σ_{PA ∪ i} / det Σ_PA) + λ · log n · |PA|`. -/
theorem bic_spec {lg : K → K} (hlg : LogLaw lg) {cov : V → V → K} (hsym : ∀ a b, cov a b = cov b a) (hnd : Nondegenerate cov) (m lam : K) (i : V)
    (PA : List V) (hl : PA.Nodup) (hi : i ∉ PA) :
    bic lg cov m lam i PA = m * (lg (minor cov (insert i PA.toFinset)) - lg (minor cov PA.toFinset)) + lg m * lam * PA.toFinset.card := by
  unfold bic
  split
  · rename_i h
    subst h
    rw [List.toFinset_nil, insert_empty_eq, minor_singleton, minor_empty, hlg.one]
    simp
  · dsimp only
    have hins := minor_insert cov i PA hl hi (hnd _) hsym
    have hne : (cov i i - ((fun a : Fin PA.length => cov i (PA.get a)) ᵥ* (Matrix.of fun a b : Fin PA.length => cov (PA.get a) (PA.get b))⁻¹) ⬝ᵥ
        (fun a : Fin PA.length => cov i (PA.get a))) ≠ 0 := by
      intro h0
      rw [h0, mul_zero] at hins
      exact hnd _ hins
    rw [hins, hlg _ _ (hnd _) hne, List.toFinset_card_of_nodup hl]
    ring

theorem choose_two_succ (k : Nat) : ((k + 1).choose 2 : Nat) = k.choose 2 + k := by
  rw [Nat.choose_succ_succ' k 1, Nat.choose_one_right, Nat.add_comm]

/-- **C74, BIC.** For every covariance matrix (symmetric, no singular principal minor), sample size and penalty, and whatever order the parents
are listed in, Markov equivalent DAGs have the same BIC score. -/
theorem C74_bic_score_equivalent {lg : K → K} (hlg : LogLaw lg) {cov : Fin n → Fin n → K} (hsym : ∀ a b, cov a b = cov b a)
    (hnd : Nondegenerate cov) (m lam : K) (lst : Finset (Fin n) → List (Fin n)) (hlst : ∀ S, (lst S).Nodup ∧ (lst S).toFinset = S) :
    Ges.ScoreEquiv fun i S => bic lg cov m lam i (lst S) := by
  intro D F hD hF h
  classical
  let f : Finset (Fin n) → K := fun S => m * lg (minor cov S) + lg m * lam * (S.card.choose 2 : Nat)
  have key : ∀ E : Fin n → Fin n → Prop, Acyclic E → Ges.dagScore (fun i S => bic lg cov m lam i (lst S)) E =
      ∑ v, (f (insert v (univ.filter fun w => E w v)) - f (univ.filter fun w => E w v)) := by
    intro E hE
    unfold Ges.dagScore
    refine sum_congr rfl fun v _ => ?_
    have hv : v ∉ univ.filter fun w => E w v := by simp [ScoreEq.acyclic_irrefl hE v]
    generalize hS : (univ.filter fun w => E w v) = S at hv ⊢
    have hvl : v ∉ lst S := fun hm => hv (by rw [← (hlst S).2]; exact List.mem_toFinset.2 hm)
    dsimp only
    rw [bic_spec hlg hsym hnd m lam v (lst S) (hlst S).1 hvl, (hlst S).2]
    simp only [f]
    rw [card_insert_of_notMem hv, choose_two_succ]
    push_cast
    ring
  rw [key D hD, key F hF]
  exact ScoreEq.score_equiv hD hF h f

/-- **C74, BIC.** The order in which the parents are listed does not matter. -/
theorem C74_bic_parent_order {lg : K → K} (hlg : LogLaw lg) {cov : V → V → K} (hsym : ∀ a b, cov a b = cov b a) (hnd : Nondegenerate cov)
    (m lam : K) (i : V) {PA PA' : List V} (hl : PA.Nodup) (hi : i ∉ PA) (hp : PA.Perm PA') : bic lg cov m lam i PA = bic lg cov m lam i PA' := by
  rw [bic_spec hlg hsym hnd m lam i PA hl hi, bic_spec hlg hsym hnd m lam i PA' (hp.nodup_iff.1 hl) (fun h => hi (hp.mem_iff.2 h)),
    List.toFinset_eq_of_perm _ _ hp]

/-! ### BDeu -/

variable {N : Nat}

theorem sum_image_pairs {A B : Type} [DecidableEq A] [DecidableEq B] (key : Fin N → A) (va : Fin N → B) (H : A → B → K) :
    ∑ c ∈ univ.image key, ∑ b ∈ (univ.filter fun k => key k = c).image va, H c b = ∑ p ∈ univ.image (fun k => (key k, va k)), H p.1 p.2 := by
  rw [← sum_fiberwise_of_maps_to (s := univ.image fun k => (key k, va k)) (t := univ.image key) (g := fun p => p.1)]
  · refine sum_congr rfl fun c _ => ?_
    refine sum_bij (fun b _ => (c, b)) ?_ ?_ ?_ ?_
    · intro b hb
      simp only [mem_image, mem_filter, mem_univ, true_and] at hb ⊢
      obtain ⟨k, hk, rfl⟩ := hb
      exact ⟨⟨k, by rw [hk]⟩, trivial⟩
    · intro b _ b' _ h; exact (Prod.mk.inj h).2
    · intro p hp
      simp only [mem_image, mem_filter, mem_univ, true_and] at hp
      obtain ⟨⟨k, rfl⟩, hc⟩ := hp
      exact ⟨va k, mem_image.2 ⟨k, by simpa using hc, rfl⟩, by rw [← hc]⟩
    · intro b _; rfl
  · intro p hp
    obtain ⟨k, -, rfl⟩ := mem_image.1 hp
    exact mem_image_of_mem _ (mem_univ k)

/-- The configuration of the variables in `S` in sample `k`. -/
def config (data : Fin N → V → Int) (S : Finset V) (k : Fin N) : S → Int := fun v => data k v.1

/-- The logarithm of the Dirichlet-multinomial marginal likelihood of the variables in `S`, up to a term that does not depend on the data. -/
def dirichlet (lgam : K → K) (alpha : K) (r : V → Nat) (data : Fin N → V → Int) (S : Finset V) : K :=
  ∑ c ∈ univ.image (config data S),
    (lgam ((#{k | config data S k = c} : Nat) + alpha / ((∏ v ∈ S, r v : Nat) : K)) - lgam (alpha / ((∏ v ∈ S, r v : Nat) : K)))

theorem config_eq (data : Fin N → V → Int) (S : Finset V) (k l : Fin N) : config data S k = config data S l ↔ ∀ v ∈ S, data k v = data l v := by
  unfold config
  constructor
  · intro h v hv; exact congrFun h ⟨v, hv⟩
  · intro h; funext v; exact h v.1 v.2

theorem rowsWith_length (data : Fin N → V → Int) (PA : List V) (key : List Int) : (rowsWith data PA key).length = #{k | PA.map (data k) = key} := by
  unfold rowsWith
  rw [← List.toFinset_card_of_nodup ((List.nodup_finRange N).filter _)]
  refine congrArg Finset.card ?_
  ext k; simp

/-- **C74, what BDeu measures.** Minus (log structure prior + the difference of the Dirichlet-multinomial log marginal likelihoods of the variables
with and without `i`). The structure prior counts samples where the usual definition counts variables. -/
theorem C74_bdeu_formula (lg lgam : K → K) (alpha sp : K) (r : V → Nat) (data : Fin N → V → Int) (hN : 0 < N) (i : V) (PA : List V) (hl : PA.Nodup)
    (hi : i ∉ PA) : bdeu lg lgam alpha sp r data i PA =
      -(PA.toFinset.card * lg (sp / ((N : K) - 1)) + (((N : K) - 1) - PA.toFinset.card) * lg (1 - sp / ((N : K) - 1)) +
        (dirichlet lgam alpha r data (insert i PA.toFinset) - dirichlet lgam alpha r data PA.toFinset)) := by
  unfold bdeu
  dsimp only
  have hks : (if PA = [] then [[]] else keys data PA) = keys data PA := by
    split
    · rename_i h
      subst h
      unfold keys
      have : ∀ (l : List (Fin N)), l ≠ [] → (l.map fun k => ([] : List V).map (data k)).dedup = [[]] := by
        intro l hl
        induction l with
        | nil => exact absurd rfl hl
        | cons a l ih =>
          cases l with
          | nil => simp
          | cons b l =>
            rw [List.map_cons, List.dedup_cons_of_mem (by simp)]
            exact ih (by simp)
      rw [this]
      intro h
      have := congrArg List.length h
      simp at this
      omega
    · rfl
  rw [hks, List.toFinset_card_of_nodup hl]
  refine congrArg Neg.neg (congrArg _ ?_)
  unfold keys
  have hq : (((PA.map r).prod : Nat) : K) = ((∏ v ∈ PA.toFinset, r v : Nat) : K) := by rw [List.prod_toFinset _ hl]
  have hq2 : ((∏ v ∈ insert i PA.toFinset, r v : Nat) : K) = (r i : K) * ((∏ v ∈ PA.toFinset, r v : Nat) : K) := by
    rw [prod_insert (by simpa using hi), Nat.cast_mul]
  rw [← List.sum_toFinset _ (List.nodup_dedup _), hq]
  generalize hQ : ((∏ v ∈ PA.toFinset, r v : Nat) : K) = Q at hq2 ⊢
  have himg : (((List.finRange N).map fun k => PA.map (data k)).dedup).toFinset = univ.image fun k => PA.map (data k) := by
    ext c; simp
  rw [himg]
  -- the two kinds of terms
  have hgrp : ∀ c, bdeuGroup lgam alpha Q (r i) data i (rowsWith data PA c) =
      -(lgam ((#{k | PA.map (data k) = c} : Nat) + alpha / Q) - lgam (alpha / Q)) +
      ∑ b ∈ (univ.filter fun k => PA.map (data k) = c).image (fun k => data k i),
        (lgam ((#{k | PA.map (data k) = c ∧ data k i = b} : Nat) + alpha / (r i * Q)) - lgam (alpha / (r i * Q))) := by
    intro c
    unfold bdeuGroup
    rw [rowsWith_length, ← List.sum_toFinset _ (List.nodup_dedup _)]
    have e1 : (((rowsWith data PA c).map fun k => data k i).dedup).toFinset = (univ.filter fun k => PA.map (data k) = c).image fun k => data k i := by
      ext b; simp [rowsWith]
    rw [e1]
    have e2 : ∀ b, ((rowsWith data PA c).filter fun k => data k i = b).length = #{k | PA.map (data k) = c ∧ data k i = b} := by
      intro b
      unfold rowsWith
      rw [List.filter_filter, ← List.toFinset_card_of_nodup ((List.nodup_finRange N).filter _)]
      refine congrArg Finset.card ?_
      ext k; simp [and_comm]
    simp only [e2]
    rw [neg_sub]
  simp only [hgrp]
  rw [sum_add_distrib, sum_neg_distrib, sum_image_pairs (fun k => PA.map (data k)) (fun k => data k i) fun c b =>
    (lgam ((#{k | PA.map (data k) = c ∧ data k i = b} : Nat) + alpha / (r i * Q)) - lgam (alpha / (r i * Q))), add_comm, ← sub_eq_add_neg]
  have hc1 : ∀ k l, PA.map (data k) = PA.map (data l) ↔ config data PA.toFinset k = config data PA.toFinset l := by
    intro k l
    rw [config_eq, List.map_inj_left]; simp
  have hc2 : ∀ k l, (PA.map (data k), data k i) = (PA.map (data l), data l i) ↔
      config data (insert i PA.toFinset) k = config data (insert i PA.toFinset) l := by
    intro k l
    rw [config_eq, Prod.mk.injEq, List.map_inj_left]; simp [and_comm]
  congr 1
  · unfold dirichlet
    rw [hq2]
    refine ChiSpec.sum_image_congr hc2 fun k => ?_
    have : (univ.filter fun l => PA.map (data l) = PA.map (data k) ∧ data l i = data k i) =
        univ.filter fun l => config data (insert i PA.toFinset) l = config data (insert i PA.toFinset) k := by
      refine filter_congr fun l _ => ?_
      rw [← hc2, Prod.mk.injEq]
    simp only [this]
  · unfold dirichlet
    rw [hQ]
    refine ChiSpec.sum_image_congr hc1 fun k => ?_
    have : (univ.filter fun l => PA.map (data l) = PA.map (data k)) =
        univ.filter fun l => config data PA.toFinset l = config data PA.toFinset k := filter_congr fun l _ => hc1 l k
    simp only [this]

/-- **C74, BDeu.** For every discrete data set with at least one sample, every pair of priors and numbers of states, and whatever order the parents
are listed in, Markov equivalent DAGs have the same BDeu score. -/
theorem C74_bdeu_score_equivalent (lg lgam : K → K) (alpha sp : K) (r : Fin n → Nat) (data : Fin N → Fin n → Int) (hN : 0 < N)
    (lst : Finset (Fin n) → List (Fin n)) (hlst : ∀ S, (lst S).Nodup ∧ (lst S).toFinset = S) :
    Ges.ScoreEquiv fun i S => bdeu lg lgam alpha sp r data i (lst S) := by
  intro D F hD hF h
  classical
  let a := lg (sp / ((N : K) - 1))
  let b := lg (1 - sp / ((N : K) - 1))
  let f : Finset (Fin n) → K := fun S =>
    -(((S.card.choose 2 : Nat) : K) * (a - b) + S.card * (((N : K) - 1) * b) + dirichlet lgam alpha r data S)
  have key : ∀ E : Fin n → Fin n → Prop, Acyclic E → Ges.dagScore (fun i S => bdeu lg lgam alpha sp r data i (lst S)) E =
      ∑ v, (f (insert v (univ.filter fun w => E w v)) - f (univ.filter fun w => E w v)) := by
    intro E hE
    unfold Ges.dagScore
    refine sum_congr rfl fun v _ => ?_
    have hv : v ∉ univ.filter fun w => E w v := by simp [ScoreEq.acyclic_irrefl hE v]
    generalize hS : (univ.filter fun w => E w v) = S at hv ⊢
    have hvl : v ∉ lst S := fun hm => hv (by rw [← (hlst S).2]; exact List.mem_toFinset.2 hm)
    dsimp only
    rw [C74_bdeu_formula lg lgam alpha sp r data hN v (lst S) (hlst S).1 hvl, (hlst S).2]
    simp only [f, a, b]
    rw [card_insert_of_notMem hv, choose_two_succ]
    push_cast
    ring
  rw [key D hD, key F hF]
  exact ScoreEq.score_equiv hD hF h f

/-- **C74, BDeu.** The order in which the parents are listed does not matter. -/
theorem C74_bdeu_parent_order (lg lgam : K → K) (alpha sp : K) (r : V → Nat) (data : Fin N → V → Int) (hN : 0 < N) (i : V) {PA PA' : List V}
    (hl : PA.Nodup) (hi : i ∉ PA) (hp : PA.Perm PA') :
    bdeu lg lgam alpha sp r data i PA = bdeu lg lgam alpha sp r data i PA' := by
  rw [C74_bdeu_formula lg lgam alpha sp r data hN i PA hl hi,
    C74_bdeu_formula lg lgam alpha sp r data hN i PA' (hp.nodup_iff.1 hl) (fun h => hi (hp.mem_iff.2 h)), List.toFinset_eq_of_perm _ _ hp]

/-- **C74, BDeu.** The number of states a variable is given by default is the number of different values in its column. -/
theorem C74_bdeu_default_states (data : Fin N → V → Int) (v : V) : defaultStates data v = (univ.image fun k => data k v).card := by
  unfold defaultStates
  rw [← List.toFinset_card_of_nodup (List.nodup_dedup _)]
  congr 1
  ext x
  simp

/-- Four samples with three different values. -/
example : defaultStates (fun (k : Fin 4) (_ : Fin 1) => if k = 0 then 7 else if k = 3 then -1 else 0) 0 = 3 := by decide

end CL.Score
