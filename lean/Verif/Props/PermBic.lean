import Verif.Props.GraspExact

/-!
# C224: permutation searches with BIC on data of a linear model
-/
namespace CL.Perm
open Spec Score Filter Finset
variable {p : Nat}

/-- Eventually a positive value of `x A + λ k log x` is at least `eps`. -/
theorem eventually_gap {A lam eps : ℝ} (hlam : 0 < lam) (k : ℤ) {N : Nat} (hN : 0 < N) :
    ∀ᶠ r : Nat in atTop, 0 < ((r * N : Nat) : ℝ) * A + lam * k * Real.log ((r * N : Nat) : ℝ) →
      eps ≤ ((r * N : Nat) : ℝ) * A + lam * k * Real.log ((r * N : Nat) : ℝ) := by
  have hlog : ∀ c : ℝ, ∀ᶠ r : Nat in atTop, c ≤ Real.log ((r * N : Nat) : ℝ) := by
    intro c
    have h : Tendsto (fun r : Nat => Real.log ((r * N : Nat) : ℝ)) atTop atTop :=
      Real.tendsto_log_atTop.comp (tendsto_natCast_atTop_atTop.comp (tendsto_id.atTop_mul_const' hN))
    exact h.eventually_ge_atTop c
  have hc : 0 < lam * |(k : ℝ)| + 1 := by positivity
  rcases lt_trichotomy A 0 with h | h | h
  · filter_upwards [eventually_strong h hc hN, hlog 0] with r h1 h2 h3
    exfalso
    have : lam * k * Real.log ((r * N : Nat) : ℝ) ≤ lam * |(k : ℝ)| * Real.log ((r * N : Nat) : ℝ) :=
      mul_le_mul_of_nonneg_right (mul_le_mul_of_nonneg_left (le_abs_self _) hlam.le) h2
    nlinarith
  · subst h
    filter_upwards [hlog 0, hlog (eps / lam)] with r h1 h2 h3
    rw [mul_zero, zero_add] at h3 ⊢
    have hk : 1 ≤ k := by
      by_contra hk
      have hk0 : (k : ℝ) ≤ 0 := by exact_mod_cast (by omega : k ≤ 0)
      have : lam * k * Real.log ((r * N : Nat) : ℝ) ≤ 0 := mul_nonpos_of_nonpos_of_nonneg (mul_nonpos_of_nonneg_of_nonpos hlam.le hk0) h1
      linarith
    have hk1 : (1 : ℝ) ≤ k := by exact_mod_cast hk
    have h4 : eps ≤ lam * Real.log ((r * N : Nat) : ℝ) := by rw [mul_comm]; exact (div_le_iff₀ hlam).1 h2
    have h5 : lam * Real.log ((r * N : Nat) : ℝ) ≤ lam * k * Real.log ((r * N : Nat) : ℝ) :=
      mul_le_mul_of_nonneg_right (le_mul_of_one_le_right hlam.le hk1) h1
    linarith
  · filter_upwards [eventually_strong (neg_lt_zero.2 h) hc hN, hlog 0, hlog eps] with r h1 h2 h3 _
    have : -(lam * |(k : ℝ)| * Real.log ((r * N : Nat) : ℝ)) ≤ lam * k * Real.log ((r * N : Nat) : ℝ) := by
      rw [← neg_mul, ← mul_neg]
      exact mul_le_mul_of_nonneg_right (mul_le_mul_of_nonneg_left (neg_abs_le _) hlam.le) h2
    nlinarith

/-- The BIC of a DAG on repeated data. -/
theorem repeat_dagScore {N : Nat} {data : Fin N → Fin p → ℝ} (hN : 2 ≤ N) (hind : AffinelyIndependent data) (lam : ℝ)
    {lst : Finset (Fin p) → List (Fin p)} (hlst : ∀ S, (lst S).Nodup ∧ (lst S).toFinset = S) {F : Fin p → Fin p → Prop} (hF : Acyclic F) :
    ∃ (A : ℝ) (k : ℤ), ∀ r : Nat, 0 < r → Ges.dagScore (fun i S => bicData (repeatData r data) lam i (lst S)) F =
      ((r * N : Nat) : ℝ) * A + lam * k * Real.log ((r * N : Nat) : ℝ) +
        p * (((r * N : Nat) : ℝ) * (Real.log r - Real.log (((r * N : Nat) : ℝ) - 1))) := by
  classical
  have hres := fun v => exists_residual data v (univ.filter fun w => F w v)
  choose u hu using hres
  have hnv : ∀ v, v ∉ lst (univ.filter fun w => F w v) := by
    intro v h
    rw [← List.mem_toFinset, (hlst _).2, mem_filter] at h
    exact hF v (.single h.2)
  refine ⟨∑ v, Real.log (∑ k, u v k ^ 2), ∑ v, ((lst (univ.filter fun w => F w v)).length : ℤ), fun r hr => ?_⟩
  have hrN : 2 ≤ r * N := hN.trans (Nat.le_mul_of_pos_left N hr)
  have hr' : (0 : ℝ) < r := by exact_mod_cast hr
  have hind' : AffinelyIndependent (repeatData r data) := fun c c0 hc => hind c c0 fun k => by
    have := hc (finProdFinEquiv (⟨0, hr⟩, k))
    simpa [repeatData] using this
  have h1 : (0 : ℝ) < ((r * N : Nat) : ℝ) - 1 := by
    have : ((2 : Nat) : ℝ) ≤ ((r * N : Nat) : ℝ) := by exact_mod_cast hrN
    push_cast at this ⊢
    linarith
  have hv : ∀ v, bicData (repeatData r data) lam v (lst (univ.filter fun w => F w v)) =
      ((r * N : Nat) : ℝ) * Real.log (∑ k, u v k ^ 2) + lam * ((lst (univ.filter fun w => F w v)).length : ℤ) * Real.log ((r * N : Nat) : ℝ) +
        ((r * N : Nat) : ℝ) * (Real.log r - Real.log (((r * N : Nat) : ℝ) - 1)) := by
    intro v
    have hu' := hu v
    rw [← (hlst (univ.filter fun w => F w v)).2] at hu'
    obtain ⟨h3, -⟩ := C80_bic_residual hN hind lam (hlst _).1 (hnv v) hu'
    obtain ⟨-, h2⟩ := C80_bic_residual hrN hind' lam (hlst _).1 (hnv v) (repeat_residual hu' r)
    rw [h2, sum_repeat r fun k => u v k ^ 2, Real.log_div (mul_pos hr' h3).ne' h1.ne', Real.log_mul hr'.ne' h3.ne']
    push_cast
    ring
  unfold Ges.dagScore
  rw [sum_congr rfl fun v _ => by convert hv v]
  rw [sum_add_distrib, sum_add_distrib, ← mul_sum, sum_const, card_univ, Fintype.card_fin, nsmul_eq_mul, ← sum_mul, ← mul_sum]
  push_cast
  ring

/-- Eventually no two orders have total scores that differ by less than the tolerance without being equal. -/
theorem repeat_gap {N : Nat} {data : Fin N → Fin p → ℝ} (hN : 2 ≤ N) (hind : AffinelyIndependent data) {lam : ℝ} (hlam : 0 < lam) (eps : ℝ)
    {lst : Finset (Fin p) → List (Fin p)} (hlst : ∀ S, (lst S).Nodup ∧ (lst S).toFinset = S) :
    ∀ᶠ r : Nat in atTop, ∀ l l' : List (Fin p), l.Perm (List.finRange p) → l'.Perm (List.finRange p) →
      total (trScore fun i S => - bicData (repeatData r data) lam i (lst S)) l < total (trScore fun i S => - bicData (repeatData r data) lam i (lst S)) l' + eps →
      total (trScore fun i S => - bicData (repeatData r data) lam i (lst S)) l ≤ total (trScore fun i S => - bicData (repeatData r data) lam i (lst S)) l' := by
  classical
  have key : ∀ q : (Fin p → Fin p → Prop) × (Fin p → Fin p → Prop), ∀ᶠ r : Nat in atTop, Acyclic q.1 → Acyclic q.2 →
      Ges.dagScore (fun i S => bicData (repeatData r data) lam i (lst S)) q.1 < Ges.dagScore (fun i S => bicData (repeatData r data) lam i (lst S)) q.2 →
      Ges.dagScore (fun i S => bicData (repeatData r data) lam i (lst S)) q.1 + eps ≤
        Ges.dagScore (fun i S => bicData (repeatData r data) lam i (lst S)) q.2 := by
    rintro ⟨F, F'⟩
    by_cases h : Acyclic F ∧ Acyclic F'
    · obtain ⟨A, k, h1⟩ := repeat_dagScore hN hind lam hlst h.1
      obtain ⟨A', k', h2⟩ := repeat_dagScore hN hind lam hlst h.2
      filter_upwards [eventually_gap (A := A' - A) (eps := eps) hlam (k' - k) (show 0 < N by omega), eventually_gt_atTop 0] with r hr h0 _ _ hlt
      rw [h1 r h0, h2 r h0] at hlt ⊢
      push_cast at hr hlt ⊢
      have := hr (by linarith)
      linarith
    · exact Eventually.of_forall fun r h1 h2 => absurd ⟨h1, h2⟩ h
  filter_upwards [eventually_all.2 key] with r hr l l' hl hl' hlt
  rw [total_dagScore hl, total_dagScore hl'] at hlt ⊢
  simp only [neg_neg] at hlt ⊢
  by_contra hn
  have := hr ⟨_, _⟩ (acyclic_of_order (finalParents_before (fun i S => - bicData (repeatData r data) lam i (lst S)) l))
    (acyclic_of_order (finalParents_before (fun i S => - bicData (repeatData r data) lam i (lst S)) l')) (by dsimp only; linarith)
  dsimp only at this
  linarith

variable {D : Fin p → Fin p → Prop}

/-- **C224 (GRaSP, BIC, any start).** On linear faithful data, from some number of repetitions on: `grasp` with the BIC score ends, whatever the
start and the shuffles, with the CPDAG of a minimal independence map of the true graph. -/
theorem C224_grasp (hD : Acyclic D) {N : Nat} {data : Fin N → Fin p → ℝ} (hm : LinearModel D data) (hN : 2 ≤ N) (hf : FisherZ.FaithfulData D data)
    {lam : ℝ} (hlam : 0 < lam) {lst : Finset (Fin p) → List (Fin p)} (hlst : ∀ S, (lst S).Nodup ∧ (lst S).toFinset = S) {eps : ℝ} (he : 0 ≤ eps) :
    ∃ r0, ∀ r, r0 ≤ r → ∀ (R : Rand p), R.Ok → ∀ (depth : Nat) (l : List (Fin p)), l.Perm (List.finRange p) →
      ∃ f0, ∀ fuel cfuel, f0 ≤ fuel → p * p + p < cfuel →
      ∃ o H F, grasp (fun i S => - bicData (repeatData r data) lam i (lst S)) eps R depth l fuel cfuel = some (o, .ok H) ∧ Acyclic F ∧ MinimalIMap D F ∧
        (∀ a b, F a b ↔ o.order.idxOf a < o.order.idxOf b ∧ ¬ DSep D {x | o.order.idxOf x < o.order.idxOf b ∧ x ≠ a} b a) ∧
        ∀ a b, (H.g a b = .null ↔ ¬ Adj F a b) ∧ (H.Arrow a b ↔ Compelled F a b) := by
  have hind : AffinelyIndependent data := fun c c0 hc => hm.independent hD c c0 hc
  obtain ⟨r1, h1⟩ := C80_repeat_strong hD hm hN hf hlam
  obtain ⟨r2, h2⟩ := eventually_atTop.1 (repeat_gap hN hind hlam eps hlst)
  refine ⟨max r1 r2, fun r hr R hR depth l hl => ?_⟩
  obtain ⟨g1, g2, g3⟩ := h1 r (le_of_max_le_left hr)
  have hc : LocallyConsistent (fun v S => - (fun i S => - bicData (repeatData r data) lam i (lst S)) v S) D := by
    simpa using C80_bic_locally_consistent hD g1 g2 hlam g3 hlst
  refine ⟨betterCount (trScore fun i S => - bicData (repeatData r data) lam i (lst S)) l + 1, fun fuel cfuel hfu hcf => ?_⟩
  obtain ⟨o, G, e, -⟩ := C203_terminates_partial he (h2 r (le_of_max_le_right hr)) hR (depth := depth) hl (show _ < fuel by omega) cfuel
  obtain ⟨H, F, rfl, k1, k2, k3, k4⟩ := C204_minimal_imap_partial hD hc he hR hcf hl e
  exact ⟨o, H, F, e, k1, k2, k3, k4⟩

/-- **C224 (GRaSP, BIC, a start in causal order).** The true equivalence class is returned. -/
theorem C224_grasp_causal (hD : Acyclic D) {N : Nat} {data : Fin N → Fin p → ℝ} (hm : LinearModel D data) (hN : 2 ≤ N) (hf : FisherZ.FaithfulData D data)
    {lam : ℝ} (hlam : 0 < lam) {lst : Finset (Fin p) → List (Fin p)} (hlst : ∀ S, (lst S).Nodup ∧ (lst S).toFinset = S) {eps : ℝ} (he : 0 ≤ eps) :
    ∃ r0, ∀ r, r0 ≤ r → ∀ (R : Rand p), R.Ok → ∀ (depth : Nat) (l : List (Fin p)), l.Perm (List.finRange p) → (∀ a b, D a b → l.idxOf a < l.idxOf b) →
      ∃ f0, ∀ fuel cfuel, f0 ≤ fuel → p * p + p < cfuel →
      ∃ o H, grasp (fun i S => - bicData (repeatData r data) lam i (lst S)) eps R depth l fuel cfuel = some (o, .ok H) ∧
        ∀ a b, (H.g a b = .null ↔ ¬ Adj D a b) ∧ (H.Arrow a b ↔ Compelled D a b) := by
  have hind : AffinelyIndependent data := fun c c0 hc => hm.independent hD c c0 hc
  obtain ⟨r1, h1⟩ := C80_repeat_strong hD hm hN hf hlam
  obtain ⟨r2, h2⟩ := eventually_atTop.1 (repeat_gap hN hind hlam eps hlst)
  refine ⟨max r1 r2, fun r hr R hR depth l hl ho => ?_⟩
  obtain ⟨g1, g2, g3⟩ := h1 r (le_of_max_le_left hr)
  have hse : Ges.ScoreEquiv fun i S => bicData (repeatData r data) lam i (lst S) := C74_bic_score_equivalent_real (sampleCov_posDef g2 fun c c0 hc => g1.independent hD c c0 hc) ((r * N : Nat) : ℝ) lam lst hlst
  exact C204_causal_start_partial hD (by simpa using C80_bic_locally_consistent hD g1 g2 hlam g3 hlst) (by simpa using hse) he
    (h2 r (le_of_max_le_right hr)) hR hl ho depth

/-- **C224 (BOSS, BIC, columns in causal order).** With enough repetitions of linear faithful data the true equivalence class is returned. -/
theorem C224_boss_causal (hD : ∀ a b, D a b → a < b) {N : Nat} {data : Fin N → Fin p → ℝ} (hm : LinearModel D data) (hN : 2 ≤ N) (hf : FisherZ.FaithfulData D data)
    {lam : ℝ} (hlam : 0 < lam) {lst : Finset (Fin p) → List (Fin p)} (hlst : ∀ S, (lst S).Nodup ∧ (lst S).toFinset = S) :
    ∃ r0, ∀ r, r0 ≤ r → ∀ (eps : ℝ), 0 < eps → ∀ sched : Nat → List (Fin p), ∃ f0, ∀ fuel cfuel, f0 ≤ fuel → p * p + p < cfuel →
      ∃ order H, boss (fun i S => - bicData (repeatData r data) lam i (lst S)) eps sched fuel cfuel = some (order, .ok H) ∧
        ∀ a b, (H.g a b = .null ↔ ¬ Adj D a b) ∧ (H.Arrow a b ↔ Compelled D a b) := by
  have hac : Acyclic D := acyclic_of_rank (ρ := fun a => a.val) fun a b h => hD a b h
  obtain ⟨r1, h1⟩ := C80_repeat_strong hac hm hN hf hlam
  refine ⟨r1, fun r hr eps he sched => ?_⟩
  obtain ⟨g1, g2, g3⟩ := h1 r hr
  have hse : Ges.ScoreEquiv fun i S => bicData (repeatData r data) lam i (lst S) := C74_bic_score_equivalent_real (sampleCov_posDef g2 fun c c0 hc => g1.independent hac c c0 hc) ((r * N : Nat) : ℝ) lam lst hlst
  exact C82_boss_causal_partial hD (by simpa using C80_bic_locally_consistent hac g1 g2 hlam g3 hlst) (by simpa using hse) he sched

/-- The eight samples of the collider `0 → 2 ← 1` meet the hypotheses: repeated often enough, GRaSP started at 0, 1, 2 and BOSS recover the collider. -/
theorem C224_example {eps : ℝ} (he : 0 < eps) : ∃ r0, ∀ r, r0 ≤ r → ∀ (R : Rand 3), R.Ok → ∀ depth, ∃ f0, ∀ fuel cfuel, f0 ≤ fuel → 12 < cfuel →
    ∃ o H, grasp (fun i S => - bicData (repeatData r (FisherZ.cols 3 FisherZ.exLin)) 2 i (S.sort (· ≤ ·))) eps R depth (List.finRange 3) fuel cfuel = some (o, .ok H) ∧
      H.g 0 1 = .null ∧ H.g 0 2 ≠ .null ∧ H.g 1 2 ≠ .null := by
  obtain ⟨r0, h⟩ := C224_grasp_causal FisherZ.exD_acyclic FisherZ.exLin_model (by norm_num) FisherZ.exLin_faithful (lam := 2) (by norm_num)
    (lst := fun S => S.sort (· ≤ ·)) (fun S => ⟨S.sort_nodup (· ≤ ·), S.sort_toFinset (· ≤ ·)⟩) he.le
  refine ⟨r0, fun r hr R hR depth => ?_⟩
  obtain ⟨f0, h0⟩ := h r hr R hR depth (List.finRange 3) (List.Perm.refl _) (by
    intro a b hab
    rw [List.idxOf_finRange, List.idxOf_finRange]
    unfold FisherZ.exD at hab
    revert a b; decide)
  refine ⟨f0, fun fuel cfuel hf hc => ?_⟩
  obtain ⟨o, H, e, hH⟩ := h0 fuel cfuel hf (by omega)
  refine ⟨o, H, e, (hH 0 1).1.2 (by unfold Adj FisherZ.exD; decide), fun h => (hH 0 2).1.1 h (by unfold Adj FisherZ.exD; decide),
    fun h => (hH 1 2).1.1 h (by unfold Adj FisherZ.exD; decide)⟩

end CL.Perm
