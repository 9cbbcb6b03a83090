import Verif.Props.CalmLoss
import Verif.Props.Calm
import Verif.Props.LinearPC
import Verif.Proofs.MeekChickering
import Verif.Proofs.LinearModel

/-!
# C222: minimisers of CALM's loss over binary masks
-/
namespace CL.CalmLoss
open Matrix Relation Spec
variable {N d : Nat}

/-! ### Counting edges -/

open Classical in
noncomputable def edgeNum (E : Fin d → Fin d → Prop) : Nat := (Finset.univ.filter fun p : Fin d × Fin d => E p.1 p.2).card

open Classical in
theorem edgeNum_adj {E : Fin d → Fin d → Prop} (h : Acyclic E) : (Finset.univ.filter fun p : Fin d × Fin d => Adj E p.1 p.2).card = 2 * edgeNum E := by
  have h1 : (Finset.univ.filter fun p : Fin d × Fin d => Adj E p.1 p.2) =
      (Finset.univ.filter fun p : Fin d × Fin d => E p.1 p.2) ∪ (Finset.univ.filter fun p : Fin d × Fin d => E p.2 p.1) := by
    ext p
    simp only [Finset.mem_union, Finset.mem_filter, Finset.mem_univ, true_and]
    exact Iff.rfl
  have h2 : Disjoint (Finset.univ.filter fun p : Fin d × Fin d => E p.1 p.2) (Finset.univ.filter fun p : Fin d × Fin d => E p.2 p.1) := by
    rw [Finset.disjoint_filter]
    intro p _ a b
    exact h p.1 ((TransGen.single a).tail b)
  have h3 : (Finset.univ.filter fun p : Fin d × Fin d => E p.2 p.1).card = edgeNum E := by
    refine Finset.card_equiv (Equiv.prodComm _ _) fun p => ?_
    simp
  rw [h1, Finset.card_union_of_disjoint h2, h3]
  unfold edgeNum
  omega

theorem edgeNum_le {D F : Fin d → Fin d → Prop} (hD : Acyclic D) (hF : Acyclic F) (h : ∀ a b, Adj D a b → Adj F a b) : edgeNum D ≤ edgeNum F := by
  classical
  have := Finset.card_le_card (s := Finset.univ.filter fun p : Fin d × Fin d => Adj D p.1 p.2) (t := Finset.univ.filter fun p : Fin d × Fin d => Adj F p.1 p.2)
    fun p hp => by
      simp only [Finset.mem_filter, Finset.mem_univ, true_and] at hp ⊢
      exact h _ _ hp
  rw [edgeNum_adj hD, edgeNum_adj hF] at this
  omega

/-- An independence map with no more edges is Markov equivalent. -/
theorem equiv_of_sparse {D F : Fin d → Fin d → Prop} (hD : Acyclic D) (hF : Acyclic F) (hI : IMap D F) (hc : edgeNum F ≤ edgeNum D) : MarkovEquiv D F := by
  classical
  rcases imap_equiv_or_drop hD hF hI with h | ⟨F', x, y, hF', hm, hxy, hI'⟩
  · exact h
  · exfalso
    have hsub : Acyclic fun a b => F' a b ∧ ¬ (a = x ∧ b = y) := fun a t => hF' a ((TransGen.mono (p := F') fun _ _ h => h.1) a a t)
    have h1 := edgeNum_le hD hsub fun a b => hI'.adj hsub hD
    have h2 := edgeNum_le hF' hF fun a b h => (hm.1 a b).1 h
    have h3 : edgeNum (fun a b => F' a b ∧ ¬ (a = x ∧ b = y)) < edgeNum F' := by
      unfold edgeNum
      refine Finset.card_lt_card ((Finset.ssubset_iff_of_subset ?_).2 ⟨(x, y), ?_, ?_⟩)
      · intro p hp
        simp only [Finset.mem_filter, Finset.mem_univ, true_and] at hp ⊢
        exact hp.1
      · simpa using hxy
      · simp
    omega

/-! ### The acyclicity term -/

theorem hTerm_acyclic {W : Matrix (Fin d) (Fin d) ℝ} (hac : ∀ i, ¬ TransGen (fun i j => W i j ≠ 0) i i) : hTerm W = 0 := by
  obtain ⟨f, hf⟩ := rank_of_acyclic hac
  have key : ∀ k : Nat, (∀ i, ((1 + (1 / (d : ℝ)) • W) ^ k) i i = 1) ∧ ∀ i j, ((1 + (1 / (d : ℝ)) • W) ^ k) i j ≠ 0 → i = j ∨ f i < f j := by
    intro k
    induction k with
    | zero =>
      refine ⟨fun i => by simp, fun i j h => ?_⟩
      by_contra hn
      push Not at hn
      exact h (by rw [pow_zero, one_apply_ne hn.1])
    | succ k ih =>
      have hfac : ∀ i j, (1 + (1 / (d : ℝ)) • W) i j ≠ 0 → i = j ∨ f i < f j := by
        intro i j h
        by_cases hij : i = j
        · exact Or.inl hij
        · right
          refine hf i j fun h0 => h ?_
          rw [Matrix.add_apply, one_apply_ne hij, Matrix.smul_apply, h0]; simp
      have hdiag : ∀ i, (1 + (1 / (d : ℝ)) • W) i i = 1 := by
        intro i
        have : W i i = 0 := by
          by_contra h
          exact hac i (.single h)
        rw [Matrix.add_apply, one_apply_eq, Matrix.smul_apply, this]; simp
      constructor
      · intro i
        rw [pow_succ, mul_apply, Finset.sum_eq_single i]
        · rw [ih.1, hdiag, one_mul]
        · intro b _ hb
          by_contra h
          rcases ih.2 i b (left_ne_zero_of_mul h) with h1 | h1
          · exact hb h1.symm
          · rcases hfac b i (right_ne_zero_of_mul h) with h2 | h2
            · exact hb h2
            · omega
        · intro h; exact absurd (Finset.mem_univ i) h
      · intro i j h
        rw [pow_succ, mul_apply] at h
        obtain ⟨b, -, hb⟩ := Finset.exists_ne_zero_of_sum_ne_zero h
        rcases ih.2 i b (left_ne_zero_of_mul hb) with h1 | h1 <;> rcases hfac b j (right_ne_zero_of_mul hb) with h2 | h2
        · exact Or.inl (h1.trans h2)
        · right; rw [h1]; exact h2
        · right; rw [← h2]; exact h1
        · right; omega
  unfold hTerm trace
  simp only [diag_apply, (key d).1, Finset.sum_const, Finset.card_univ, Fintype.card_fin, nsmul_eq_mul, mul_one, sub_self]

theorem acyclic_of_hTerm {W : Matrix (Fin d) (Fin d) ℝ} (hb : ∀ i j, W i j = 0 ∨ W i j = 1) (h0 : hTerm W = 0) : Acyclic fun i j => W i j = 1 := by
  intro a t
  have hd : (0 : ℝ) < d := by
    have := a.pos
    exact_mod_cast this
  have h := Calm.h_ge W (fun i j => by rcases hb i j with h | h <;> rw [h] <;> norm_num) (a := a)
    ((TransGen.mono (p := fun i j => 1 / 2 ≤ W i j) fun i j (h : W i j = 1) => show 1 / 2 ≤ W i j by rw [h]; norm_num) a a t)
  have e : Calm.h W = hTerm W := rfl
  rw [e, h0] at h
  have : (0 : ℝ) < d * (1 / (2 * d)) ^ d := by positivity
  linarith

/-! ### Weights and least squares -/

theorem res_fit (X : Fin N → Fin d → ℝ) {F : Fin d → Fin d → Prop} {B : Matrix (Fin d) (Fin d) ℝ} (hB : ∀ i j, B i j ≠ 0 → F i j) (j : Fin d) (S : Finset (Fin d))
    (hS : ∀ i, F i j → i ∈ S) : Fit X j S fun n => residual X B n j := by
  refine ⟨(∑ m, X m j) / N - ∑ i, B i j * ((∑ m, X m i) / N), fun i => B i j, fun n => ?_⟩
  have : ∑ s ∈ S, B s j * X n s = ∑ i, B i j * X n i := by
    refine Finset.sum_subset (Finset.subset_univ S) fun i _ hi => ?_
    have : B i j = 0 := by
      by_contra h
      exact hi (hS i (hB i j h))
    rw [this, zero_mul]
  show residual X B n j = _
  rw [this, residual]
  simp only [mul_sub, Finset.sum_sub_distrib]
  ring

theorem res_sum (X : Fin N → Fin d → ℝ) (B : Matrix (Fin d) (Fin d) ℝ) (j : Fin d) : ∑ n, residual X B n j = 0 := by
  rcases Nat.eq_zero_or_pos N with h | h
  · subst h; simp
  have hN : (N : ℝ) ≠ 0 := by exact_mod_cast h.ne'
  have hc : ∀ i, ∑ n, (X n i - (∑ m, X m i) / N) = 0 := by
    intro i
    rw [Finset.sum_sub_distrib, Finset.sum_const, Finset.card_univ, Fintype.card_fin, nsmul_eq_mul]
    field_simp; ring
  simp only [residual, Finset.sum_sub_distrib (f := fun n => X n j - (∑ m, X m j) / N)]
  rw [hc j, Finset.sum_comm]
  simp only [← Finset.mul_sum, hc, mul_zero, Finset.sum_const_zero, sub_zero]

theorem ls_weights (X : Fin N → Fin d → ℝ) (F : Fin d → Fin d → Prop) : ∃ B : Matrix (Fin d) (Fin d) ℝ, (∀ i j, B i j ≠ 0 → F i j) ∧
    ∀ B' : Matrix (Fin d) (Fin d) ℝ, (∀ i j, B' i j ≠ 0 → F i j) → ∀ j, ∑ n, residual X B n j ^ 2 ≤ ∑ n, residual X B' n j ^ 2 := by
  classical
  have h : ∀ j, ∃ b : Fin d → ℝ, (∀ i, b i ≠ 0 → F i j) ∧
      Spec.Residual X j (Finset.univ.filter fun i => F i j) fun n => (X n j - (∑ m, X m j) / N) - ∑ i, b i * (X n i - (∑ m, X m i) / N) := by
    intro j
    obtain ⟨u, hu⟩ := exists_residual X j (Finset.univ.filter fun i => F i j)
    obtain ⟨b0, b, hb⟩ := hu.1
    refine ⟨fun i => if F i j then b i else 0, fun i hi => by by_contra hn; simp [hn] at hi, ?_⟩
    have he : u = fun n => (X n j - (∑ m, X m j) / N) - ∑ i, (if F i j then b i else 0) * (X n i - (∑ m, X m i) / N) := by
      funext n
      have hN : (N : ℝ) ≠ 0 := by exact_mod_cast (n.pos).ne'
      have hm : (∑ m, X m j) / N = b0 + ∑ i, (if F i j then b i else 0) * ((∑ m, X m i) / N) := by
        have h0 := hu.sum_zero
        simp only [hb, Finset.sum_sub_distrib, Finset.sum_add_distrib, Finset.sum_const, Finset.card_univ, Fintype.card_fin, nsmul_eq_mul] at h0
        rw [Finset.sum_comm] at h0
        simp only [← Finset.mul_sum, Finset.sum_filter] at h0
        have h1 : ∑ m, X m j = N * b0 + ∑ i, (if F i j then b i * ∑ m, X m i else 0) := by linarith
        rw [h1, add_div, mul_div_cancel_left₀ _ hN, Finset.sum_div]
        congr 1
        refine Finset.sum_congr rfl fun i _ => ?_
        by_cases hi : F i j <;> simp [hi, mul_div_assoc]
      rw [hb n, hm]
      have h2 : ∑ s with F s j, b s * X n s = ∑ i, (if F i j then b i else 0) * X n i := by
        rw [Finset.sum_filter]
        exact Finset.sum_congr rfl fun i _ => by by_cases hi : F i j <;> simp [hi]
      rw [h2]
      simp only [mul_sub, Finset.sum_sub_distrib]
      ring
    rw [← he]
    exact hu
  choose b hb using h
  refine ⟨of fun i j => b j i, fun i j hij => (hb j).1 i hij, fun B' hB' j => ?_⟩
  exact (hb j).2.2 _ (res_fit X hB' j _ fun i hi => by simpa using hi)

theorem cov_det_of_model {X : Fin N → Fin d → ℝ} {D : Fin d → Fin d → Prop} (hac : Acyclic D) (hm : LinearModel D X) (hN : 0 < N) : (covEmp X).det ≠ 0 := by
  intro h0
  obtain ⟨v, hv, hv0⟩ := exists_mulVec_eq_zero_iff.2 h0
  have hNR : (0 : ℝ) < N := by exact_mod_cast hN
  have hq : ∑ n, (∑ j, v j * centred X n j) ^ 2 = 0 := by
    have h1 : v ⬝ᵥ (covEmp X *ᵥ v) = 0 := by rw [hv0]; simp
    have h2 : v ⬝ᵥ (covEmp X *ᵥ v) = (∑ n, (∑ j, v j * centred X n j) ^ 2) / N := by
      simp only [dotProduct, mulVec, covEmp, of_apply, pow_two, Finset.sum_mul_sum, Finset.mul_sum, Finset.sum_mul, Finset.sum_div]
      rw [Finset.sum_comm' (t' := Finset.univ) (s' := fun _ => Finset.univ) (by simp)]
      rw [Finset.sum_comm]
      conv_rhs => rw [Finset.sum_comm]
      refine Finset.sum_congr rfl fun j _ => ?_
      conv_rhs => rw [Finset.sum_comm]
      refine Finset.sum_congr rfl fun k _ => Finset.sum_congr rfl fun n _ => ?_
      ring
    rw [h2, div_eq_zero_iff] at h1
    exact h1.resolve_right hNR.ne'
  have hz : ∀ n, ∑ j, v j * centred X n j = 0 := fun n =>
    pow_eq_zero_iff (two_ne_zero) |>.1 ((Finset.sum_eq_zero_iff_of_nonneg fun n _ => sq_nonneg _).1 hq n (Finset.mem_univ n))
  refine hv (funext fun i => hm.independent hac v (∑ j, v j * ((∑ m, X m j) / N)) (fun t => ?_) i)
  have := hz t
  simp only [centred, mul_sub, Finset.sum_sub_distrib] at this
  linarith

/-- Weights along `F` that attain the minimum make `F` an independence map of the true graph. -/
theorem imap_of_optimum {X : Fin N → Fin d → ℝ} {D F : Fin d → Fin d → Prop} (hac : Acyclic D) (hm : LinearModel D X) (hf : FisherZ.FaithfulData D X) (hN : 0 < N)
    (hF : Acyclic F) {B : Matrix (Fin d) (Fin d) ℝ} (hB : ∀ i j, B i j ≠ 0 → F i j) (hopt : likelihood B (covEmp X) = 1 / 2 * Real.log (covEmp X).det) :
    IMap D F := by
  classical
  have hdet := cov_det_of_model hac hm hN
  have hBac : ∀ i, ¬ TransGen (fun i j => B i j ≠ 0) i i := fun i t => hF i ((TransGen.mono (p := F) hB) i i t)
  have hBd : (1 - B).det ≠ 0 := by rw [det_of_acyclic hBac]; exact one_ne_zero
  have horth := (C220_optimum X hdet B hBd).1 hopt
  have hpos : ∀ j, 0 < ∑ n, residual X B n j ^ 2 := by
    intro j
    have h1 := (quad_posDef (cov_posDef hdet) hBd).diag_pos (i := j)
    rw [quad_entry] at h1
    have hNR : (0 : ℝ) < N := by exact_mod_cast hN
    have := (div_pos_iff_of_pos_right hNR).1 h1
    simpa only [pow_two] using this
  have hmF : LinearModel F X := by
    refine ⟨fun j => (∑ m, X m j) / N - ∑ i, B i j * ((∑ m, X m i) / N), fun i j => B i j, fun j n => residual X B n j, fun i j h => ?_, fun n j => ?_,
      res_sum X B, hpos, horth⟩
    · by_contra hn; exact h (hB i j hn)
    · simp only [residual, mul_sub, Finset.sum_sub_distrib]; ring
  intro Z a b hab ha hb hs hc
  obtain ⟨u, hu⟩ := exists_residual X a Z.toFinset
  obtain ⟨v, hv⟩ := exists_residual X b Z.toFinset
  have ha' : a ∉ Z.toFinset := by simpa using ha
  have hb' : b ∉ Z.toFinset := by simpa using hb
  have hres : ∀ {x : Fin d} {w : Fin N → ℝ}, x ∉ Z.toFinset → Spec.Residual X x Z.toFinset w → 0 < ∑ k, w k ^ 2 := by
    intro x w hx hw
    refine lt_of_le_of_ne (Finset.sum_nonneg fun k _ => sq_nonneg _) fun h0 => ?_
    have hz : ∀ k, w k = 0 := fun k =>
      pow_eq_zero_iff (two_ne_zero) |>.1 ((Finset.sum_eq_zero_iff_of_nonneg fun n _ => sq_nonneg _).1 h0.symm k (Finset.mem_univ k))
    obtain ⟨c0, c, hc⟩ := hw.1
    have := hm.independent hac (fun i => if i = x then 1 else if i ∈ Z.toFinset then -c i else 0) c0 (fun t => ?_) x
    · simp at this
    · have h1 := hc t
      rw [hz t] at h1
      have h2 : ∑ i, (if i = x then 1 else if i ∈ Z.toFinset then -c i else 0) * X t i = X t x - ∑ s ∈ Z.toFinset, c s * X t s := by
        have h3 : ∀ i, (if i = x then (1 : ℝ) else if i ∈ Z.toFinset then -c i else 0) * X t i =
            (if i = x then X t i else 0) - (if i ∈ Z.toFinset then c i * X t i else 0) := by
          intro i
          by_cases h : i = x
          · subst h; simp [hx]
          · by_cases h' : i ∈ Z.toFinset <;> simp [h, h']
        simp only [h3, Finset.sum_sub_distrib, Finset.sum_ite_eq', Finset.mem_univ, if_true, Finset.sum_ite_mem, Finset.univ_inter]
      rw [h2]; linarith
  have h0 := hmF.dsep_orth hF ha' hb' (by simpa using hs) hu hv
  refine hf a b Z.toFinset hab ha' hb' (by simpa using hc) ⟨u, v, hu, hv, hres ha' hu, hres hb' hv, ?_⟩
  rw [h0, zero_div]

/-! ### The theorem -/

/-- A mask that CALM's continuous masks relax: zeros and ones inside the moral graph, without cycle according to the acyclicity term. -/
def HardMask (moral : Fin d → Fin d → Bool) (mask : Matrix (Fin d) (Fin d) ℝ) : Prop :=
  (∀ i j, mask i j = 0 ∨ mask i j = 1) ∧ (∀ i j, mask i j = 1 → moral i j = true) ∧ hTerm mask = 0

/-- **C222** (exactness of the objective). On data of a linear model over an acyclic graph, faithful to it, with a moral graph that contains its edges: for all small enough sparsity
penalties, every minimiser of the loss over masks and weights has a mask Markov equivalent to the true graph. -/
theorem C222_minimiser {X : Fin N → Fin d → ℝ} {D : Fin d → Fin d → Prop} (hac : Acyclic D) (hm : LinearModel D X) (hf : FisherZ.FaithfulData D X) (hN : 0 < N)
    (moral : Fin d → Fin d → Bool) (hmoral : ∀ i j, D i j → moral i j = true) :
    ∃ lam0 > 0, ∀ lam, 0 < lam → lam < lam0 → ∀ (rho : ℝ) (mask param : Matrix (Fin d) (Fin d) ℝ), HardMask moral mask →
      (∀ mask' param', HardMask moral mask' → loss (covEmp X) lam rho mask param ≤ loss (covEmp X) lam rho mask' param') →
      MarkovEquiv D fun i j => mask i j = 1 := by
  classical
  have hdet := cov_det_of_model hac hm hN
  have hNR : (0 : ℝ) < N := by exact_mod_cast hN
  obtain ⟨b, hbdef⟩ : ∃ b, b = 1 / 2 * Real.log (covEmp X).det := ⟨_, rfl⟩
  -- least squares weights of every graph
  choose BF hBF1 hBF2 using fun F : Fin d → Fin d → Prop => ls_weights X F
  have hacB : ∀ {F : Fin d → Fin d → Prop} {B : Matrix (Fin d) (Fin d) ℝ}, Acyclic F → (∀ i j, B i j ≠ 0 → F i j) →
      ∀ i, ¬ TransGen (fun i j => B i j ≠ 0) i i := fun hF hB i t => hF i ((TransGen.mono (p := _) hB) i i t)
  have hdB : ∀ {F : Fin d → Fin d → Prop} {B : Matrix (Fin d) (Fin d) ℝ}, Acyclic F → (∀ i j, B i j ≠ 0 → F i j) → (1 - B).det ≠ 0 :=
    fun hF hB => by rw [det_of_acyclic (hacB hF hB)]; exact one_ne_zero
  have hpos : ∀ {B : Matrix (Fin d) (Fin d) ℝ}, (1 - B).det ≠ 0 → ∀ j, 0 < (∑ n, residual X B n j ^ 2) / N := by
    intro B hB j
    have h1 := (quad_posDef (cov_posDef hdet) hB).diag_pos (i := j)
    rw [quad_entry] at h1
    simpa only [pow_two] using h1
  have hBFle : ∀ {F : Fin d → Fin d → Prop} {B : Matrix (Fin d) (Fin d) ℝ}, Acyclic F → (∀ i j, B i j ≠ 0 → F i j) →
      likelihood (BF F) (covEmp X) ≤ likelihood B (covEmp X) := by
    intro F B hF hB
    rw [C220_acyclic X _ (hacB hF (hBF1 F)), C220_acyclic X _ (hacB hF hB)]
    refine mul_le_mul_of_nonneg_left (Finset.sum_le_sum fun j _ => Real.log_le_log (hpos (hdB hF (hBF1 F)) j) ?_) (by norm_num)
    exact div_le_div_of_nonneg_right (hBF2 F B hB j) hNR.le
  -- the smallest positive gap
  obtain ⟨eps, heps, hgap⟩ : ∃ eps > 0, ∀ F : Fin d → Fin d → Prop, b < likelihood (BF F) (covEmp X) → b + eps ≤ likelihood (BF F) (covEmp X) := by
    have hfin : ∀ s : Finset (Fin d → Fin d → Prop), ∃ eps > 0, ∀ F ∈ s, b < likelihood (BF F) (covEmp X) → b + eps ≤ likelihood (BF F) (covEmp X) := by
      intro s
      induction s using Finset.induction_on with
      | empty => exact ⟨1, one_pos, by simp⟩
      | insert F s _ ih =>
        obtain ⟨e, he, h⟩ := ih
        by_cases hb : b < likelihood (BF F) (covEmp X)
        · refine ⟨min e (likelihood (BF F) (covEmp X) - b), lt_min he (by linarith), fun G hG hb' => ?_⟩
          rcases Finset.mem_insert.1 hG with rfl | hG
          · have := min_le_right e (likelihood (BF G) (covEmp X) - b); linarith
          · have := min_le_left e (likelihood (BF F) (covEmp X) - b); have := h G hG hb'; linarith
        · refine ⟨e, he, fun G hG hb' => ?_⟩
          rcases Finset.mem_insert.1 hG with rfl | hG
          · exact absurd hb' hb
          · exact h G hG hb'
    obtain ⟨e, he, h⟩ := hfin Finset.univ
    exact ⟨e, he, fun F => h F (Finset.mem_univ F)⟩
  -- counting
  have hcount : ∀ mask : Matrix (Fin d) (Fin d) ℝ, (∀ i j, mask i j = 0 ∨ mask i j = 1) → ∑ i, ∑ j, mask i j = edgeNum fun i j => mask i j = 1 := by
    intro mask hb
    unfold edgeNum
    rw [Finset.card_filter, Nat.cast_sum, Fintype.sum_prod_type]
    refine Finset.sum_congr rfl fun i _ => Finset.sum_congr rfl fun j _ => ?_
    rcases hb i j with h | h <;> simp [h]
  refine ⟨eps / (edgeNum D + 1), by positivity, fun lam hl0 hl rho mask param hmask hmin => ?_⟩
  obtain ⟨hbin, -, hh⟩ := hmask
  obtain ⟨F, hFdef⟩ : ∃ F : Fin d → Fin d → Prop, F = fun i j => mask i j = 1 := ⟨_, rfl⟩
  have hFac : Acyclic F := by rw [hFdef]; exact acyclic_of_hTerm hbin hh
  obtain ⟨B, hBdef⟩ : ∃ B : Matrix (Fin d) (Fin d) ℝ, B = of fun i j => mask i j * param i j := ⟨_, rfl⟩
  have hBF : ∀ i j, B i j ≠ 0 → F i j := by
    intro i j h
    rw [hBdef, of_apply] at h
    rw [hFdef]
    exact (hbin i j).resolve_left (left_ne_zero_of_mul h)
  -- the true graph
  obtain ⟨BD, hBD, hBDopt⟩ := C220_true_model X D hac hm hdet
  have hBDb : likelihood BD (covEmp X) = b := by
    refine le_antisymm ?_ (by rw [hbdef]; exact C220_bound X hdet BD (hdB hac hBD))
    obtain ⟨b0, C, e, hsup, hgen, hmean, -, hunc⟩ := hm
    have hCD : ∀ i j, (of C : Matrix (Fin d) (Fin d) ℝ) i j ≠ 0 → D i j := fun i j h => by by_contra hn; exact h (hsup i j hn)
    have hres : ∀ n j, residual X (of C) n j = e j n := by
      intro n j
      have hs : residual X (of C) n j = e j n + (b0 j + ∑ i, C i j * ((∑ m, X m i) / N) - (∑ m, X m j) / N) := by
        rw [residual, hgen n j]
        simp only [of_apply, mul_sub, Finset.sum_sub_distrib]
        ring
      have h0 := res_sum X (of C) j
      have h1 : ∀ m, residual X (of C) m j = e j m + (b0 j + ∑ i, C i j * ((∑ m, X m i) / N) - (∑ m, X m j) / N) := by
        intro m
        rw [residual, hgen m j]
        simp only [of_apply, mul_sub, Finset.sum_sub_distrib]
        ring
      simp only [h1, Finset.sum_add_distrib, hmean j, zero_add, Finset.sum_const, Finset.card_univ, Fintype.card_fin, nsmul_eq_mul] at h0
      rw [hs, (mul_eq_zero.1 h0).resolve_left hNR.ne', add_zero]
    have := (C220_optimum X hdet (of C) (hdB hac hCD)).2 fun j k hjk => by simp_rw [hres]; exact hunc j k hjk
    rw [hbdef, ← this]
    exact hBDopt _ (hdB hac hCD)
  obtain ⟨mD, hmD⟩ : ∃ mD : Matrix (Fin d) (Fin d) ℝ, mD = of fun i j => if D i j then 1 else 0 := ⟨_, rfl⟩
  have hmDbin : ∀ i j, mD i j = 0 ∨ mD i j = 1 := by
    intro i j; rw [hmD, of_apply]; by_cases h : D i j <;> simp [h]
  have hmDD : (fun i j => mD i j = 1) = D := by
    funext i j; rw [hmD, of_apply]; by_cases h : D i j <;> simp [h]
  have hmDh : hTerm mD = 0 := hTerm_acyclic fun i t => hac i ((TransGen.mono (p := D) fun i j (h : mD i j ≠ 0) => by
    rw [← hmDD]; exact (hmDbin i j).resolve_left h) i i t)
  have hmDB : (of fun i j => mD i j * BD i j : Matrix (Fin d) (Fin d) ℝ) = BD := by
    ext i j
    rw [of_apply, hmD, of_apply]
    by_cases h : D i j
    · simp [h]
    · have : BD i j = 0 := by by_contra hn; exact h (hBD i j hn)
      simp [this]
  have hcmp := hmin mD BD ⟨hmDbin, fun i j h => hmoral i j (by have : (fun i j => mD i j = 1) i j := h
                                                               rwa [hmDD] at this), hmDh⟩
  unfold loss at hcmp
  rw [hmDB, hBDb, hh, hmDh, hcount _ hbin, hcount _ hmDbin, hmDD, ← hBdef, ← hFdef] at hcmp
  have hb1 : b ≤ likelihood B (covEmp X) := by rw [hbdef]; exact C220_bound X hdet B (hdB hFac hBF)
  have hopt : likelihood (BF F) (covEmp X) = b := by
    refine le_antisymm (not_lt.1 fun hlt => ?_) (by rw [hbdef]; exact C220_bound X hdet _ (hdB hFac (hBF1 F)))
    have h1 := hgap F hlt
    have h2 := hBFle hFac hBF
    have h3 : lam * (edgeNum D + 1) < eps := (lt_div_iff₀ (by positivity)).1 hl
    have h4 : 0 ≤ lam * (edgeNum F : ℝ) := by positivity
    nlinarith
  have hcard : edgeNum F ≤ edgeNum D := by
    have : lam * (edgeNum F : ℝ) ≤ lam * (edgeNum D : ℝ) := by linarith
    exact_mod_cast le_of_mul_le_mul_left this hl0
  rw [← hFdef]
  exact equiv_of_sparse hac hFac (imap_of_optimum hac hm hf hN hFac (hBF1 F) (hopt.trans hbdef)) hcard

/-- **C222** (minimisers exist): among the masks within the moral graph and all weights, the loss attains its minimum. -/
theorem C222_exists {X : Fin N → Fin d → ℝ} (hdet : (covEmp X).det ≠ 0) (hN : 0 < N) (moral : Fin d → Fin d → Bool) (lam rho : ℝ) :
    ∃ mask param : Matrix (Fin d) (Fin d) ℝ, HardMask moral mask ∧
      ∀ mask' param', HardMask moral mask' → loss (covEmp X) lam rho mask param ≤ loss (covEmp X) lam rho mask' param' := by
  classical
  have hNR : (0 : ℝ) < N := by exact_mod_cast hN
  choose BF hBF1 hBF2 using fun F : Fin d → Fin d → Prop => ls_weights X F
  obtain ⟨M, hM⟩ : ∃ M : (Fin d → Fin d → Prop) → Matrix (Fin d) (Fin d) ℝ, M = fun F => of fun i j => if F i j then 1 else 0 := ⟨_, rfl⟩
  have hMB : ∀ F, (of fun i j => M F i j * BF F i j : Matrix (Fin d) (Fin d) ℝ) = BF F := by
    intro F
    ext i j
    rw [of_apply, hM]
    by_cases h : F i j
    · simp [h]
    · have : BF F i j = 0 := by by_contra hn; exact h (hBF1 F i j hn)
      simp [this]
  have hMm : ∀ mask : Matrix (Fin d) (Fin d) ℝ, (∀ i j, mask i j = 0 ∨ mask i j = 1) → M (fun i j => mask i j = 1) = mask := by
    intro mask hb
    ext i j
    rw [hM]
    rcases hb i j with h | h <;> simp [h]
  have hne : (Finset.univ.filter fun F : Fin d → Fin d → Prop => HardMask moral (M F)).Nonempty := by
    refine ⟨fun _ _ => False, ?_⟩
    simp only [Finset.mem_filter, Finset.mem_univ, true_and]
    have h0 : M (fun _ _ => False) = 0 := by rw [hM]; ext i j; simp
    rw [h0]
    refine ⟨fun _ _ => Or.inl rfl, fun i j h => absurd h (by simp), hTerm_acyclic fun i t => ?_⟩
    obtain ⟨c, h, -⟩ := TransGen.head'_iff.1 t
    exact h rfl
  obtain ⟨F, hF, hmin⟩ := Finset.exists_min_image _ (fun F => loss (covEmp X) lam rho (M F) (BF F)) hne
  refine ⟨M F, BF F, (Finset.mem_filter.1 hF).2, fun mask' param' hm => (hmin (fun i j => mask' i j = 1) (by
    rw [Finset.mem_filter, hMm _ hm.1]; exact ⟨Finset.mem_univ _, hm⟩)).trans ?_⟩
  obtain ⟨hb, -, hh⟩ := hm
  have hac := acyclic_of_hTerm hb hh
  have hB' : ∀ i j, (of fun i j => mask' i j * param' i j : Matrix (Fin d) (Fin d) ℝ) i j ≠ 0 → mask' i j = 1 :=
    fun i j h => (hb i j).resolve_left (left_ne_zero_of_mul h)
  have hacB : ∀ {B : Matrix (Fin d) (Fin d) ℝ}, (∀ i j, B i j ≠ 0 → mask' i j = 1) → ∀ i, ¬ TransGen (fun i j => B i j ≠ 0) i i :=
    fun hB i t => hac i ((TransGen.mono (p := fun i j => mask' i j = 1) hB) i i t)
  have h1 := hBF1 fun i j => mask' i j = 1
  have hpos : ∀ j, 0 < (∑ n, residual X (BF fun i j => mask' i j = 1) n j ^ 2) / N := by
    intro j
    have h2 := (quad_posDef (cov_posDef hdet) (by rw [det_of_acyclic (hacB h1)]; exact one_ne_zero)).diag_pos (i := j)
    rw [quad_entry] at h2
    simpa only [pow_two] using h2
  unfold loss
  rw [hMB, hMm _ hb, C220_acyclic X _ (hacB h1), C220_acyclic X _ (hacB hB')]
  have := mul_le_mul_of_nonneg_left (Finset.sum_le_sum fun j (_ : j ∈ Finset.univ) => Real.log_le_log (hpos j)
    (div_le_div_of_nonneg_right (hBF2 _ _ hB' j) hNR.le)) (by norm_num : (0 : ℝ) ≤ 1 / 2)
  linarith

/-- Three columns of eight samples with the graph `0 → 2 ← 1` meet the hypotheses. -/
theorem C222_case : Acyclic FisherZ.exD ∧ LinearModel FisherZ.exD (FisherZ.cols 3 FisherZ.exLin) ∧ FisherZ.FaithfulData FisherZ.exD (FisherZ.cols 3 FisherZ.exLin) ∧
    (covEmp (FisherZ.cols 3 FisherZ.exLin)).det ≠ 0 ∧ ¬ MarkovEquiv FisherZ.exD (fun _ _ => False) :=
  ⟨FisherZ.exD_acyclic, FisherZ.exLin_model, FisherZ.exLin_faithful, cov_det_of_model FisherZ.exD_acyclic FisherZ.exLin_model (by norm_num), fun h => by
    rcases (h.1 0 2).1 (Or.inl (by simp [FisherZ.exD])) with h | h <;> exact h⟩

end CL.CalmLoss
