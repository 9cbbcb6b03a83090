import Verif.Props.GesConsistent
import Verif.Props.ScoresReal
import Verif.Props.LinearPC
import Mathlib.Order.Filter.AtTopBot.Basic
import Mathlib.Analysis.SpecialFunctions.Sqrt

/-!
# C80: GES and exact search with BIC on data of a linear structural equation model
-/
open Finset Spec
namespace CL.Score
variable {N n : Nat}

/-- A column minus its mean. -/
noncomputable def centred (data : Fin N → Fin n → ℝ) (i : Fin n) (k : Fin N) : ℝ := data k i - (∑ l, data l i) / N

theorem centred_sum {data : Fin N → Fin n → ℝ} (hN : 0 < N) (i : Fin n) : ∑ k, centred data i k = 0 := by
  have : (N : ℝ) ≠ 0 := by positivity
  simp only [centred, sum_sub_distrib, sum_const, card_univ, Fintype.card_fin, nsmul_eq_mul]
  field_simp
  ring

theorem sum_centred_mul {data : Fin N → Fin n → ℝ} (w : Fin n → ℝ) : ∑ a, ∑ b, w a * sampleCov data a b * w b = (∑ k, (∑ a, w a * centred data a k) ^ 2) / ((N : ℝ) - 1) := by
  have : ∀ a b, w a * sampleCov data a b * w b = (∑ k, (w a * centred data a k) * (w b * centred data b k)) / ((N : ℝ) - 1) := fun a b => by
    unfold sampleCov centred
    rw [mul_div_assoc', div_mul_eq_mul_div, mul_sum, sum_mul]
    congr 1
    exact sum_congr rfl fun k _ => by ring
  simp only [this, ← sum_div]
  congr 1
  simp only [pow_two, sum_mul_sum]
  calc _ = ∑ a, ∑ k, ∑ b, w a * centred data a k * (w b * centred data b k) := sum_congr rfl fun a _ => sum_comm
    _ = _ := sum_comm

/-- No nontrivial affine combination of the columns is constant. -/
def AffinelyIndependent (data : Fin N → Fin n → ℝ) : Prop := ∀ (c : Fin n → ℝ) (c0 : ℝ), (∀ k, ∑ i, c i * data k i = c0) → ∀ i, c i = 0

theorem sampleCov_posDef {data : Fin N → Fin n → ℝ} (hN : 2 ≤ N) (h : AffinelyIndependent data) : PositiveDefinite (sampleCov data) := by
  have hN1 : (0 : ℝ) < (N : ℝ) - 1 := by
    have : ((2 : Nat) : ℝ) ≤ N := by exact_mod_cast hN
    push_cast at this
    linarith
  refine ⟨fun a b => ?_, fun w hw => ?_⟩
  · unfold sampleCov
    congr 1
    exact sum_congr rfl fun k _ => by ring
  · rw [sum_centred_mul]
    refine div_pos ?_ hN1
    rw [lt_iff_le_and_ne]
    refine ⟨sum_nonneg fun k _ => sq_nonneg _, fun h0 => hw ?_⟩
    have hz : ∀ k, ∑ a, w a * centred data a k = 0 := fun k => by
      have := (sum_eq_zero_iff_of_nonneg (fun k _ => sq_nonneg (∑ a, w a * centred data a k))).1 h0.symm k (mem_univ k)
      exact pow_eq_zero_iff (two_ne_zero) |>.1 this
    funext i
    refine h w (∑ a, w a * ((∑ l, data l a) / N)) (fun k => ?_) i
    have := hz k
    simp only [centred, mul_sub, sum_sub_distrib] at this
    linarith

/-- The residual variance is the mean square of a fit. -/
theorem residualVariance_eq (data : Fin N → Fin n → ℝ) (i : Fin n) (PA : List (Fin n)) (b : Fin PA.length → ℝ) :
    residualVariance (sampleCov data) i PA b = (∑ k, (centred data i k - ∑ a, b a * centred data (PA.get a) k) ^ 2) / ((N : ℝ) - 1) := by
  have e1 : ∀ v w, sampleCov data v w = (∑ k, centred data v k * centred data w k) / ((N : ℝ) - 1) := fun v w => rfl
  unfold residualVariance
  have e2 : ∑ a, b a * sampleCov data i (PA.get a) = (∑ k, centred data i k * ∑ a, b a * centred data (PA.get a) k) / ((N : ℝ) - 1) := by
    simp only [e1, mul_div_assoc', ← sum_div]
    congr 1
    simp only [mul_sum]
    rw [sum_comm]
    exact sum_congr rfl fun k _ => sum_congr rfl fun a _ => by ring
  have e3 : ∑ a, ∑ c, b a * sampleCov data (PA.get a) (PA.get c) * b c = (∑ k, (∑ a, b a * centred data (PA.get a) k) ^ 2) / ((N : ℝ) - 1) := by
    simp only [e1, mul_div_assoc', div_mul_eq_mul_div, ← sum_div]
    congr 1
    simp only [pow_two, sum_mul_sum, mul_sum, sum_mul]
    calc _ = ∑ a, ∑ k, ∑ c, b a * (centred data (PA.get a) k * centred data (PA.get c) k) * b c := sum_congr rfl fun a _ => sum_comm
      _ = ∑ k, ∑ a, ∑ c, b a * (centred data (PA.get a) k * centred data (PA.get c) k) * b c := sum_comm
      _ = _ := sum_congr rfl fun k _ => sum_congr rfl fun a _ => sum_congr rfl fun c _ => by ring
  rw [e1 i i, e2, e3, mul_div_assoc', ← sub_div, ← add_div]
  congr 1
  rw [mul_sum, ← sum_sub_distrib, ← sum_add_distrib]
  exact sum_congr rfl fun k _ => by ring

theorem sum_list {PA : List (Fin n)} (hl : PA.Nodup) (f : Fin n → ℝ) : ∑ a : Fin PA.length, f (PA.get a) = ∑ s ∈ PA.toFinset, f s := by
  rw [List.sum_toFinset _ hl, ← List.sum_ofFn]
  congr 1
  apply List.ext_get
  · simp
  · intro m h1 h2
    simp

/-- **C80.** BIC of `i` given `PA`: with `u` the residual of the regression of column `i` on the columns `PA` (with intercept),
`N · log (∑ u² / (N - 1)) + λ · |PA| · log N`. -/
theorem C80_bic_residual {data : Fin N → Fin n → ℝ} (hN : 2 ≤ N) (h : AffinelyIndependent data) (lam : ℝ) {i : Fin n} {PA : List (Fin n)} (hl : PA.Nodup)
    (hi : i ∉ PA) {u : Fin N → ℝ} (hu : Residual data i PA.toFinset u) :
    0 < ∑ k, u k ^ 2 ∧ bicData data lam i PA = N * Real.log ((∑ k, u k ^ 2) / ((N : ℝ) - 1)) + lam * PA.length * Real.log N := by
  have hN1 : (0 : ℝ) < (N : ℝ) - 1 := by
    have : ((2 : Nat) : ℝ) ≤ N := by exact_mod_cast hN
    push_cast at this
    linarith
  have hN0 : (N : ℝ) ≠ 0 := by
    have : (0 : ℝ) < N := by linarith
    exact this.ne'
  obtain ⟨s2, ⟨⟨b, hb⟩, hmin⟩, hpos, hbic⟩ := C74_bic_least_squares (sampleCov_posDef hN h) N lam i PA hl hi
  have hs : s2 = (∑ k, u k ^ 2) / ((N : ℝ) - 1) := by
    apply le_antisymm
    · obtain ⟨b0, c, hc⟩ := hu.1
      have h0 := hu.sum_zero
      refine hmin ⟨fun a => c (PA.get a), ?_⟩
      rw [residualVariance_eq]
      congr 1
      refine sum_congr rfl fun k _ => ?_
      congr 1
      have e : ∀ k, u k = centred data i k - ∑ s ∈ PA.toFinset, c s * centred data s k + ((∑ l, data l i) / N - b0 - ∑ s ∈ PA.toFinset, c s * ((∑ l, data l s) / N)) := by
        intro k
        rw [hc]
        simp only [centred, mul_sub, sum_sub_distrib]
        ring
      have hz : (∑ l, data l i) / N - b0 - ∑ s ∈ PA.toFinset, c s * ((∑ l, data l s) / N) = 0 := by
        simp only [e, sum_add_distrib, sum_sub_distrib, centred_sum (show 0 < N by omega)] at h0
        rw [sum_comm] at h0
        simp only [← mul_sum, centred_sum (show 0 < N by omega), mul_zero, sum_const_zero, sub_zero, zero_add, sum_const, card_univ, Fintype.card_fin, nsmul_eq_mul] at h0
        rw [← mul_sub, ← mul_sub] at h0
        exact (mul_eq_zero.1 h0).resolve_left hN0
      rw [e k, hz, add_zero, sum_list hl fun s => c s * centred data s k]
    · rw [← hb, residualVariance_eq, div_le_div_iff_of_pos_right hN1]
      refine hu.2 _ ⟨(∑ l, data l i) / N - ∑ a, b a * ((∑ l, data l (PA.get a)) / N), fun s => ∑ a : Fin PA.length, if PA.get a = s then b a else 0, fun k => ?_⟩
      have e : ∑ s ∈ PA.toFinset, (∑ a : Fin PA.length, if PA.get a = s then b a else 0) * data k s = ∑ a, b a * data k (PA.get a) := by
        simp only [sum_mul]
        rw [sum_comm]
        refine sum_congr rfl fun a _ => ?_
        rw [sum_eq_single (PA.get a)]
        · simp
        · intro s _ hs
          rw [if_neg (fun e => hs e.symm), zero_mul]
        · intro hn
          exact absurd (List.mem_toFinset.2 (List.get_mem PA a)) hn
      rw [e]
      simp only [centred, mul_sub, sum_sub_distrib]
      ring
  subst hs
  refine ⟨?_, hbic⟩
  by_contra hcon
  exact absurd hpos (not_lt.2 (div_nonpos_of_nonpos_of_nonneg (not_lt.1 hcon) hN1.le))

/-- Regressing on one more column. -/
theorem residual_insert {data : Fin N → Fin n → ℝ} {i j : Fin n} {S : Finset (Fin n)} {u v : Fin N → ℝ} (hu : Residual data i S u) (hv : Residual data j S v)
    (hpos : 0 < ∑ k, v k ^ 2) : Residual data i (insert j S) (fun k => u k - (∑ k, u k * v k) / (∑ k, v k ^ 2) * v k) ∧
      ∑ k, (u k - (∑ k, u k * v k) / (∑ k, v k ^ 2) * v k) ^ 2 = ∑ k, u k ^ 2 - (∑ k, u k * v k) ^ 2 / ∑ k, v k ^ 2 := by
  set A := ∑ k, u k * v k with hA
  set B := ∑ k, v k ^ 2 with hB
  have hsq : ∑ k, (u k - A / B * v k) ^ 2 = ∑ k, u k ^ 2 - A ^ 2 / B := by
    have : ∀ k, (u k - A / B * v k) ^ 2 = u k ^ 2 - 2 * (A / B) * (u k * v k) + (A / B) ^ 2 * v k ^ 2 := fun k => by ring
    simp only [this, sum_add_distrib, sum_sub_distrib, ← mul_sum]
    rw [← hA, ← hB]
    field_simp
    ring
  refine ⟨?_, hsq⟩
  obtain ⟨b0, b, hb⟩ := hu.1
  obtain ⟨c0, c, hc⟩ := hv.1
  have hvS : ∀ s ∈ S, ∑ k, (u k - A / B * v k) * data k s = 0 := fun s hs => by
    simp only [sub_mul, sum_sub_distrib, mul_assoc, ← mul_sum]
    rw [hu.orth hs, hv.orth hs]
    ring
  have h0 : ∑ k, (u k - A / B * v k) = 0 := by
    rw [sum_sub_distrib, ← mul_sum, hu.sum_zero, hv.sum_zero]
    ring
  by_cases hj : j ∈ S
  · -- then `v = 0`
    exfalso
    have : ∑ k, v k ^ 2 = 0 := by
      have e : ∀ k, v k ^ 2 = v k * data k j - (c0 * v k + ∑ s ∈ S, c s * (v k * data k s)) := fun k => by
        rw [pow_two]
        nth_rewrite 2 [hc k]
        simp only [mul_sub, mul_add, mul_sum]
        congr 2
        · ring
        · exact sum_congr rfl fun s _ => by ring
      simp only [e, sum_sub_distrib, sum_add_distrib, ← mul_sum]
      rw [hv.orth hj, hv.sum_zero, sum_comm]
      simp only [← mul_sum]
      rw [sum_eq_zero fun s hs => by rw [hv.orth hs, mul_zero]]
      ring
    rw [hB, this] at hpos
    exact lt_irrefl _ hpos
  · refine residual_of_orth ⟨b0 - A / B * c0, fun s => if s = j then A / B else b s - A / B * c s, fun k => ?_⟩ h0 ?_
    · dsimp only
      rw [sum_insert hj, if_pos rfl, hb, hc]
      have : ∑ s ∈ S, (if s = j then A / B else b s - A / B * c s) * data k s = ∑ s ∈ S, b s * data k s - A / B * ∑ s ∈ S, c s * data k s := by
        rw [mul_sum, ← sum_sub_distrib]
        refine sum_congr rfl fun s hs => ?_
        rw [if_neg (fun e : s = j => hj (e ▸ hs))]
        ring
      rw [this]
      ring
    · intro s hs
      rcases mem_insert.1 hs with rfl | hs
      · have e : ∀ k, (u k - A / B * v k) * data k s = (u k - A / B * v k) * v k + (c0 * (u k - A / B * v k) + ∑ t ∈ S, c t * ((u k - A / B * v k) * data k t)) := fun k => by
          have : data k s = v k + (c0 + ∑ t ∈ S, c t * data k t) := by rw [hc]; ring
          nth_rewrite 1 [this]
          simp only [mul_add, mul_sum]
          congr 2
          · ring
          · exact sum_congr rfl fun t _ => by ring
        simp only [e, sum_add_distrib, ← mul_sum]
        rw [h0, sum_comm]
        simp only [← mul_sum]
        rw [sum_eq_zero (f := fun t => c t * _) fun t ht => by rw [hvS t ht, mul_zero]]
        simp only [sub_mul, sum_sub_distrib, mul_assoc, ← mul_sum, ← pow_two]
        rw [← hA, ← hB]
        field_simp
        ring
      · exact hvS s hs

/-- What a further parent changes: `N · log (1 - ρ²) + λ · log N`, with `ρ` the partial correlation. -/
theorem C80_bic_change {data : Fin N → Fin n → ℝ} (hN : 2 ≤ N) (h : AffinelyIndependent data) (lam : ℝ) {lst : Finset (Fin n) → List (Fin n)}
    (hlst : ∀ S, (lst S).Nodup ∧ (lst S).toFinset = S) {i j : Fin n} {S : Finset (Fin n)} (hij : i ≠ j) (hi : i ∉ S) (hj : j ∉ S) :
    ∃ ρ, PartialCorr data i j S ρ ∧ |ρ| < 1 ∧
      bicData data lam i (lst (insert j S)) = bicData data lam i (lst S) + (N * Real.log (1 - ρ ^ 2) + lam * Real.log N) := by
  have mem : ∀ {T : Finset (Fin n)} {t}, t ∈ lst T ↔ t ∈ T := fun {T t} => by rw [← List.mem_toFinset, (hlst T).2]
  have len : ∀ T, (lst T).length = T.card := fun T => by rw [← List.toFinset_card_of_nodup (hlst T).1, (hlst T).2]
  obtain ⟨u, hu⟩ := exists_residual data i S
  obtain ⟨v, hv⟩ := exists_residual data j S
  have hu0 := (C80_bic_residual hN h lam (hlst S).1 (fun hm => hi (mem.1 hm)) (u := u) (by rwa [(hlst S).2]))
  have hv0 := (C80_bic_residual hN h lam (hlst S).1 (fun hm => hj (mem.1 hm)) (u := v) (by rwa [(hlst S).2])).1
  obtain ⟨hr, hsq⟩ := residual_insert hu hv hv0
  have hr0 := C80_bic_residual hN h lam (hlst (insert j S)).1 (fun hm => (mem_insert.1 (mem.1 hm)).elim hij hi) (by rw [(hlst _).2]; exact hr)
  rw [hsq] at hr0
  set A := ∑ k, u k * v k
  set B := ∑ k, v k ^ 2
  set C := ∑ k, u k ^ 2
  have hN1 : (0 : ℝ) < (N : ℝ) - 1 := by
    have : ((2 : Nat) : ℝ) ≤ N := by exact_mod_cast hN
    push_cast at this
    linarith
  have hρ : (A / √(C * B)) ^ 2 = A ^ 2 / (C * B) := by
    rw [div_pow, Real.sq_sqrt (mul_pos hu0.1 hv0).le]
  have h1 : 1 - (A / √(C * B)) ^ 2 = (C - A ^ 2 / B) / C := by
    rw [hρ]
    have := hu0.1.ne'
    field_simp
  refine ⟨A / √(C * B), ⟨u, v, hu, hv, hu0.1, hv0, rfl⟩, ?_, ?_⟩
  · rw [← sq_lt_one_iff_abs_lt_one]
    have := div_pos hr0.1 hu0.1
    rw [← h1] at this
    linarith
  · rw [hr0.2, hu0.2, h1, len, len, card_insert_of_notMem hj, Real.log_div hr0.1.ne' hN1.ne', Real.log_div hu0.1.ne' hN1.ne', Real.log_div hr0.1.ne' hu0.1.ne']
    push_cast
    ring

/-- Every dependence of `D` is strong enough in the data to outweigh the penalty. -/
def StrongDependence (D : Fin n → Fin n → Prop) (data : Fin N → Fin n → ℝ) (lam : ℝ) : Prop :=
  ∀ i j (S : Finset (Fin n)) ρ, i ≠ j → i ∉ S → j ∉ S → DConn D S i j → PartialCorr data i j S ρ → N * Real.log (1 - ρ ^ 2) + lam * Real.log N < 0

/-- **C80.** On data of a linear structural equation model over the DAG `D` with uncorrelated errors, in which every d-connected pair has a partial
correlation that outweighs the penalty, BIC is locally consistent for `D`. -/
theorem C80_bic_locally_consistent {D : Fin n → Fin n → Prop} (hD : Acyclic D) {data : Fin N → Fin n → ℝ} (hm : LinearModel D data) (hN : 2 ≤ N) {lam : ℝ}
    (hlam : 0 < lam) (hs : StrongDependence D data lam) {lst : Finset (Fin n) → List (Fin n)} (hlst : ∀ S, (lst S).Nodup ∧ (lst S).toFinset = S) :
    LocallyConsistent (fun i S => bicData data lam i (lst S)) D := by
  intro i j S hij hi hj
  have hind : AffinelyIndependent data := fun c c0 hc => hm.independent hD c c0 hc
  obtain ⟨ρ, h1, -, h2⟩ := C80_bic_change hN hind lam hlst hij hi hj
  dsimp only
  rw [h2]
  constructor
  · intro hc
    have := hs i j S ρ hij hi hj (not_not.1 hc) h1
    linarith
  · intro hsep
    obtain ⟨u, v, hu, hv, -, -, rfl⟩ := h1
    rw [hm.dsep_orth hD hi hj hsep hu hv]
    have : 0 < lam * Real.log N := mul_pos hlam (Real.log_pos (by exact_mod_cast hN))
    simpa using this

/-- **C80, GES with BIC.** On such data GES returns the essential graph of `D` (parent limit not binding). -/
theorem C80_ges_bic {D : Fin n → Fin n → Prop} (hD : Acyclic D) {data : Fin N → Fin n → ℝ} (hm : LinearModel D data) (hN : 2 ≤ N) {lam : ℝ}
    (hlam : 0 < lam) (hs : StrongDependence D data lam) {lst : Finset (Fin n) → List (Fin n)} (hlst : ∀ S, (lst S).Nodup ∧ (lst S).toFinset = S)
    {big : ℝ} (hbig : 0 ≤ big) {maxP : Nat} (hmax : n ≤ maxP) :
    ∃ R, (∀ fuel, n * n + 1 ≤ fuel → Ges.ges (fun i S => bicData data lam i (lst S)) big maxP fuel = some R) ∧ Ges.Essential R.G D :=
  Ges.C79_ges_consistent hD (C80_bic_locally_consistent hD hm hN hlam hs hlst) hbig hmax

/-! ### Enough repetitions make every dependence strong -/

/-- The data set repeated `r` times. -/
def repeatData (r : Nat) (data : Fin N → Fin n → ℝ) : Fin (r * N) → Fin n → ℝ := fun k => data (finProdFinEquiv.symm k).2

theorem sum_repeat (r : Nat) (f : Fin N → ℝ) : ∑ k : Fin (r * N), f (finProdFinEquiv.symm k).2 = r * ∑ k, f k := by
  rw [← finProdFinEquiv.sum_comp]
  simp [Fintype.sum_prod_type]

theorem repeat_model {D : Fin n → Fin n → Prop} {data : Fin N → Fin n → ℝ} (hm : LinearModel D data) {r : Nat} (hr : 0 < r) :
    LinearModel D (repeatData r data) := by
  obtain ⟨b0, B, e, h1, h2, h3, h4, h5⟩ := hm
  have hr' : (0 : ℝ) < r := by exact_mod_cast hr
  refine ⟨b0, B, fun i k => e i (finProdFinEquiv.symm k).2, h1, fun k i => h2 _ i, fun i => ?_, fun i => ?_, fun i j hij => ?_⟩
  · rw [sum_repeat r (e i), h3, mul_zero]
  · rw [sum_repeat r fun k => e i k ^ 2]
    exact mul_pos hr' (h4 i)
  · rw [sum_repeat r fun k => e i k * e j k, h5 i j hij, mul_zero]

theorem repeat_residual {data : Fin N → Fin n → ℝ} {x : Fin n} {S : Finset (Fin n)} {u : Fin N → ℝ} (hu : Residual data x S u) (r : Nat) :
    Residual (repeatData r data) x S fun k => u (finProdFinEquiv.symm k).2 := by
  obtain ⟨b0, b, hb⟩ := hu.1
  refine residual_of_orth ⟨b0, b, fun k => hb _⟩ ?_ fun s hs => ?_
  · rw [sum_repeat r u, hu.sum_zero, mul_zero]
  · exact (sum_repeat r fun k => u k * data k s).trans (by rw [hu.orth hs, mul_zero])

theorem repeat_corr {data : Fin N → Fin n → ℝ} {x y : Fin n} {S : Finset (Fin n)} {ρ : ℝ} (h : PartialCorr data x y S ρ) {r : Nat} (hr : 0 < r) :
    PartialCorr (repeatData r data) x y S ρ := by
  obtain ⟨u, v, hu, hv, h1, h2, rfl⟩ := h
  have hr' : (0 : ℝ) < r := by exact_mod_cast hr
  have e1 := sum_repeat r fun k => u k ^ 2
  have e2 := sum_repeat r fun k => v k ^ 2
  have e3 := sum_repeat r fun k => u k * v k
  refine ⟨_, _, repeat_residual hu r, repeat_residual hv r, ?_, ?_, ?_⟩
  · rw [e1]; exact mul_pos hr' h1
  · rw [e2]; exact mul_pos hr' h2
  · rw [e1, e2, e3, show (r : ℝ) * (∑ k, u k ^ 2) * (r * ∑ k, v k ^ 2) = r ^ 2 * ((∑ k, u k ^ 2) * ∑ k, v k ^ 2) by ring, Real.sqrt_mul (sq_nonneg _),
      Real.sqrt_sq hr'.le, mul_div_mul_left _ _ hr'.ne']

open Filter in
theorem eventually_strong {a lam : ℝ} (ha : a < 0) (hlam : 0 < lam) {N : Nat} (hN : 0 < N) :
    ∀ᶠ r : Nat in atTop, ((r * N : Nat) : ℝ) * a + lam * Real.log ((r * N : Nat) : ℝ) < 0 := by
  obtain ⟨r0, hr0⟩ := exists_nat_gt ((2 * lam / -a) ^ 2)
  refine eventually_atTop.2 ⟨r0 + 1, fun r hr => ?_⟩
  have hx : ((2 * lam / -a) ^ 2) < ((r * N : Nat) : ℝ) := by
    refine hr0.trans ?_
    have : r0 < r * N := lt_of_lt_of_le (by omega) (Nat.le_mul_of_pos_right r hN)
    exact_mod_cast this
  generalize ((r * N : Nat) : ℝ) = x at hx
  have ha' : 0 < -a := by linarith
  have hx0 : 0 < x := lt_of_le_of_lt (sq_nonneg _) hx
  have hs : 2 * lam / -a < √x := by
    rw [← Real.sqrt_sq (show 0 ≤ 2 * lam / -a by positivity)]
    exact Real.sqrt_lt_sqrt (sq_nonneg _) hx
  have hlog : Real.log x < 2 * √x := by
    have h1 := Real.log_le_sub_one_of_pos (Real.sqrt_pos.2 hx0)
    have h2 : Real.log (√x) = Real.log x / 2 := Real.log_sqrt hx0.le
    linarith
  have h3 : 2 * lam < √x * -a := (div_lt_iff₀ ha').1 hs
  have h4 : √x * √x = x := Real.mul_self_sqrt hx0.le
  have h5 : 0 < √x := Real.sqrt_pos.2 hx0
  have h6 : 2 * lam * √x < √x * -a * √x := mul_lt_mul_of_pos_right h3 h5
  have h7 : lam * Real.log x < lam * (2 * √x) := mul_lt_mul_of_pos_left hlog hlam
  have h8 : √x * -a * √x = x * -a := by rw [mul_right_comm, h4]
  linarith

open Filter in
/-- **C80, faithfulness is enough for large samples.** For linear, faithful data with uncorrelated errors and every penalty `λ > 0` there is a number
of repetitions from which on every dependence is strong enough. -/
theorem C80_repeat_strong {D : Fin n → Fin n → Prop} (hD : Acyclic D) {data : Fin N → Fin n → ℝ} (hm : LinearModel D data) (hN : 2 ≤ N)
    (hf : FisherZ.FaithfulData D data) {lam : ℝ} (hlam : 0 < lam) :
    ∃ r0, ∀ r, r0 ≤ r → LinearModel D (repeatData r data) ∧ 2 ≤ r * N ∧ StrongDependence D (repeatData r data) lam := by
  have hind : AffinelyIndependent data := fun c c0 hc => hm.independent hD c c0 hc
  have key : ∀ q : Fin n × Fin n × Finset (Fin n), ∀ᶠ r : Nat in atTop, ∀ ρ, q.1 ≠ q.2.1 → q.1 ∉ q.2.2 → q.2.1 ∉ q.2.2 → DConn D q.2.2 q.1 q.2.1 →
      PartialCorr (repeatData r data) q.1 q.2.1 q.2.2 ρ → ((r * N : Nat) : ℝ) * Real.log (1 - ρ ^ 2) + lam * Real.log ((r * N : Nat) : ℝ) < 0 := by
    rintro ⟨i, j, S⟩
    dsimp only
    by_cases hq : i ≠ j ∧ i ∉ S ∧ j ∉ S ∧ DConn D S i j
    · obtain ⟨h1, h2, h3, h4⟩ := hq
      obtain ⟨ρ, hρ, hlt, -⟩ := C80_bic_change hN hind lam (lst := fun S => S.toList) (fun S => ⟨S.nodup_toList, S.toList_toFinset⟩) h1 h2 h3
      have hne : ρ ≠ 0 := fun e => hf i j S h1 h2 h3 h4 (e ▸ hρ)
      have hsq : ρ ^ 2 < 1 := (sq_lt_one_iff_abs_lt_one ρ).2 hlt
      have hsq0 : 0 < ρ ^ 2 := by positivity
      have hneg : Real.log (1 - ρ ^ 2) < 0 := Real.log_neg (by linarith) (by linarith)
      filter_upwards [eventually_strong hneg hlam (show 0 < N by omega), eventually_gt_atTop 0] with r hr hr0 ρ' _ _ _ _ hρ'
      rw [hρ'.unique (repeat_corr hρ hr0)]
      exact hr
    · exact Eventually.of_forall fun r ρ a b c d => absurd ⟨a, b, c, d⟩ hq
  obtain ⟨r0, h0⟩ := eventually_atTop.1 ((eventually_all.2 key).and (eventually_gt_atTop 0))
  refine ⟨r0, fun r hr => ?_⟩
  obtain ⟨h1, h2⟩ := h0 r hr
  refine ⟨repeat_model hm h2, le_trans hN (Nat.le_mul_of_pos_left N h2), fun i j S ρ a b c d e => h1 (i, j, S) ρ a b c d e⟩

/-- **C80, GES with BIC under faithfulness.** For every DAG, every data set of a linear model over it with uncorrelated errors that is faithful to it
and every penalty, from some number of repetitions of the data on GES returns the essential graph of the DAG. -/
theorem C80_ges_bic_faithful {D : Fin n → Fin n → Prop} (hD : Acyclic D) {data : Fin N → Fin n → ℝ} (hm : LinearModel D data) (hN : 2 ≤ N)
    (hf : FisherZ.FaithfulData D data) {lam : ℝ} (hlam : 0 < lam) {lst : Finset (Fin n) → List (Fin n)} (hlst : ∀ S, (lst S).Nodup ∧ (lst S).toFinset = S)
    {big : ℝ} (hbig : 0 ≤ big) {maxP : Nat} (hmax : n ≤ maxP) :
    ∃ r0, ∀ r, r0 ≤ r → ∃ R, (∀ fuel, n * n + 1 ≤ fuel → Ges.ges (fun i S => bicData (repeatData r data) lam i (lst S)) big maxP fuel = some R) ∧
      Ges.Essential R.G D := by
  obtain ⟨r0, h0⟩ := C80_repeat_strong hD hm hN hf hlam
  exact ⟨r0, fun r hr => C80_ges_bic hD (h0 r hr).1 (h0 r hr).2.1 hlam (h0 r hr).2.2 hlst hbig hmax⟩

/-- **C80, exact search with BIC.** -/
theorem C80_dp_bic {D : Fin n → Fin n → Prop} (hD : Acyclic D) {data : Fin N → Fin n → ℝ} (hm : LinearModel D data) (hN : 2 ≤ N) {lam : ℝ}
    (hlam : 0 < lam) (hs : StrongDependence D data lam) {lst : Finset (Fin n) → List (Fin n)} (hlst : ∀ S, (lst S).Nodup ∧ (lst S).toFinset = S)
    (sp : Exact.ShortestPath n ℝ) {order : Fin n → List (Fin n)} (ho : Exact.Lists (fun j i => decide (j ≠ i)) order) {maxPar : Nat} (hmax : n ≤ maxPar) (ext : Bool) :
    ∃ s, Exact.dp sp (Exact.parentGraphs (fun i S => bicData data lam i (lst S)) maxPar order fun _ _ => false) ext = some s ∧
      MarkovEquiv D fun j i => Exact.toMatrix s j i = true :=
  Exact.C79_dp_consistent hD (C80_bic_locally_consistent hD hm hN hlam hs hlst)
    (C74_bic_score_equivalent_real (sampleCov_posDef hN fun c c0 hc => hm.independent hD c c0 hc) N lam lst hlst) sp ho hmax ext

/-! ### An example: the collider of `LinearPC` -/

/-- The eight samples of `exLin` are linear and faithful, so that enough repetitions of them are recovered by GES with the penalty GES uses. -/
example : ∃ r0, ∀ r, r0 ≤ r → ∃ R, (∀ fuel, 3 * 3 + 1 ≤ fuel →
    Ges.ges (fun i S => bicData (repeatData r (FisherZ.cols 3 FisherZ.exLin)) 2 i (S.sort (· ≤ ·))) 1000 3 fuel = some R) ∧ Ges.Essential R.G FisherZ.exD :=
  C80_ges_bic_faithful FisherZ.exD_acyclic FisherZ.exLin_model (by norm_num) FisherZ.exLin_faithful (by norm_num)
    (fun S => ⟨S.sort_nodup (· ≤ ·), S.sort_toFinset (· ≤ ·)⟩) (by norm_num) le_rfl

end CL.Score
