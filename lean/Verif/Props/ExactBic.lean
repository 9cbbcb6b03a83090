import Verif.Model.ExactBic
import Verif.Props.BicConsistent

/-!
# C175: the score of the exact search
-/
open Finset Spec
namespace CL.ExactBic
open Matrix
variable {N n : Nat} {data : Fin N → Fin n → ℝ}

theorem gram_mulVec (S : Finset (Fin n)) (v : S → ℝ) (a : S) : (gramS data S *ᵥ v) a = ∑ k, data k a * ∑ b : S, v b * data k b := by
  simp only [mulVec, dotProduct, gramS, of_apply, sum_mul]
  rw [sum_comm]
  refine sum_congr rfl fun k _ => ?_
  rw [mul_sum]
  exact sum_congr rfl fun b _ => by ring

theorem gram_det {S : Finset (Fin n)} (h : LinearIndependent ℝ (fun (a : S) (k : Fin N) => data k a)) : (gramS data S).det ≠ 0 := by
  intro hd
  obtain ⟨v, hv, h0⟩ := Matrix.exists_mulVec_eq_zero_iff.2 hd
  have hq : ∑ k, (∑ b : S, v b * data k b) ^ 2 = 0 := by
    have : ∑ a : S, v a * (gramS data S *ᵥ v) a = 0 := by simp [h0]
    rw [← this]
    simp only [gram_mulVec, mul_sum]
    rw [sum_comm]
    refine sum_congr rfl fun k _ => ?_
    rw [sq, sum_mul]
    refine sum_congr rfl fun a _ => ?_
    rw [mul_sum, ← mul_sum, mul_assoc, mul_sum]
    simp only [mul_sum]
  have hk : ∀ k, ∑ b : S, v b * data k b = 0 := fun k => by
    have := (sum_eq_zero_iff_of_nonneg fun k _ => sq_nonneg _).1 hq k (mem_univ k)
    exact pow_eq_zero_iff (two_ne_zero) |>.1 this
  refine hv (funext fun a => Fintype.linearIndependent_iff.1 h v ?_ a)
  funext k
  simpa [Finset.sum_apply] using hk k

/-- The residuals are orthogonal to the parents. -/
theorem lsResid_orth {S : Finset (Fin n)} (h : LinearIndependent ℝ (fun (a : S) (k : Fin N) => data k a)) (i : Fin n) (a : S) :
    ∑ k, lsResid data i S k * data k a = 0 := by
  have hm : gramS data S *ᵥ lsCoef data i S = fun a : S => ∑ k, data k a * data k i := by
    unfold lsCoef
    rw [mulVec_mulVec, Matrix.mul_nonsing_inv _ (gram_det h).isUnit, one_mulVec]
  have := congrFun hm a
  rw [gram_mulVec] at this
  unfold lsResid
  simp only [sub_mul, sum_sub_distrib]
  rw [sub_eq_zero, sum_congr rfl fun k _ => mul_comm (data k i) _, ← this]
  exact sum_congr rfl fun k _ => mul_comm _ _

/-- Least squares: the residual has the smallest sum of squares of all linear combinations of the parents. -/
theorem rss_min {S : Finset (Fin n)} (h : LinearIndependent ℝ (fun (a : S) (k : Fin N) => data k a)) (i : Fin n) (b : S → ℝ) :
    rss data i S ≤ ∑ k, (data k i - ∑ a : S, b a * data k a) ^ 2 := by
  unfold rss
  have e : ∀ k, data k i - ∑ a : S, b a * data k a = lsResid data i S k + ∑ a : S, (lsCoef data i S a - b a) * data k a := fun k => by
    simp only [lsResid, sub_mul, sum_sub_distrib]
    ring
  have c : ∑ k, lsResid data i S k * ∑ a : S, (lsCoef data i S a - b a) * data k a = 0 := by
    simp only [mul_sum]
    rw [sum_comm]
    refine sum_eq_zero fun a _ => ?_
    rw [sum_congr rfl fun k _ => show lsResid data i S k * ((lsCoef data i S a - b a) * data k a) = (lsCoef data i S a - b a) * (lsResid data i S k * data k a) by ring,
      ← mul_sum, lsResid_orth h, mul_zero]
  have : ∑ k, (data k i - ∑ a : S, b a * data k a) ^ 2 = ∑ k, lsResid data i S k ^ 2 + ∑ k, (∑ a : S, (lsCoef data i S a - b a) * data k a) ^ 2 := by
    simp only [e, add_sq, sum_add_distrib]
    rw [sum_congr rfl fun k _ => mul_assoc 2 (lsResid data i S k) _, ← mul_sum, c]
    ring
  rw [this]
  exact le_add_of_nonneg_right (sum_nonneg fun k _ => sq_nonneg _)

/-- The least sum of squares of `i` after subtracting a linear combination of the variables `S` (no intercept). -/
def LeastSquares (data : Fin N → Fin n → ℝ) (i : Fin n) (S : Finset (Fin n)) (r : ℝ) : Prop :=
  IsLeast {s | ∃ b : Fin n → ℝ, s = ∑ k, (data k i - ∑ a ∈ S, b a * data k a) ^ 2} r

theorem sum_sub_S (S : Finset (Fin n)) (b : Fin n → ℝ) (k : Fin N) : ∑ a : S, b a * data k a = ∑ a ∈ S, b a * data k a :=
  Finset.sum_coe_sort S fun a => b a * data k a

theorem rss_least {S : Finset (Fin n)} (h : LinearIndependent ℝ (fun (a : S) (k : Fin N) => data k a)) (i : Fin n) : LeastSquares data i S (rss data i S) := by
  classical
  constructor
  · refine ⟨fun a => if ha : a ∈ S then lsCoef data i S ⟨a, ha⟩ else 0, ?_⟩
    unfold rss lsResid
    refine sum_congr rfl fun k _ => ?_
    rw [← sum_sub_S]
    simp
  · rintro s ⟨b, rfl⟩
    simpa only [sum_sub_S] using rss_min h i (fun a : S => b a)

/-- The parents are linearly independent and there are more samples than parents. -/
def Regular (data : Fin N → Fin n → ℝ) (S : Finset (Fin n)) : Prop := LinearIndependent ℝ (fun (a : S) (k : Fin N) => data k a) ∧ S.card < N

/-- **C175.** For linearly independent parents, fewer than samples, the score is `N log(RSS/N) + |S| log N` with `RSS` the least sum of squared residuals
(`-inf` for a perfect fit). -/
theorem C175_score_partial {S : Finset (Fin n)} (h : Regular data S) (i : Fin n) (r : ℝ) (hr : LeastSquares data i S r) :
    bicNode data i S = if r = 0 then ⊥ else ((N * Real.log (r / N) + S.card * Real.log N : ℝ) : WithBot ℝ) := by
  have e : r = rss data i S := hr.unique (rss_least h.1 i)
  unfold bicNode
  by_cases h0 : S = ∅
  · subst h0
    have : rss data i ∅ = ∑ k, data k i ^ 2 := by simp [rss, lsResid]
    rw [if_pos rfl, e, this]
    simp [logTerm]
  · rw [if_neg h0, if_neg (by push Not; exact ⟨h.1, h.2⟩), ← e]
    unfold logTerm
    by_cases h2 : r = 0
    · rw [if_pos h2, if_pos h2]
      rfl
    · rw [if_neg h2, if_neg h2]
      rfl

/-- **C175.** A parent that does not improve the fit makes the score worse (smaller is better). -/
theorem C175_parsimony {S T : Finset (Fin n)} (hS : Regular data S) (hT : Regular data T) (hST : S.card < T.card) (i : Fin n) (r : ℝ) (hr : 0 < r)
    (h1 : LeastSquares data i S r) (h2 : LeastSquares data i T r) : bicNode data i S < bicNode data i T := by
  rw [C175_score_partial hS i r h1, C175_score_partial hT i r h2, if_neg hr.ne', if_neg hr.ne', WithBot.coe_lt_coe]
  have hN : 2 ≤ N := by
    have := hT.2
    omega
  have hl : 0 < Real.log N := Real.log_pos (by exact_mod_cast hN)
  have : (S.card : ℝ) < T.card := by exact_mod_cast hST
  nlinarith

theorem regular_scale {S : Finset (Fin n)} {c : Fin n → ℝ} (hc : ∀ j, c j ≠ 0) (h : Regular data S) : Regular (fun k j => c j * data k j) S := by
  refine ⟨?_, h.2⟩
  have := h.1.units_smul fun a : S => Units.mk0 (c a) (hc a)
  exact this

theorem scale_back {c : Fin n → ℝ} (hc : ∀ j, c j ≠ 0) : (fun k j => (c j)⁻¹ * (c j * data k j)) = data := by
  funext k j
  rw [← mul_assoc, inv_mul_cancel₀ (hc j), one_mul]

theorem least_scale {S : Finset (Fin n)} {c : Fin n → ℝ} (hc : ∀ j, c j ≠ 0) {i : Fin n} {r : ℝ} (h : LeastSquares data i S r) :
    LeastSquares (fun k j => c j * data k j) i S (c i ^ 2 * r) := by
  obtain ⟨⟨b, hb⟩, hmin⟩ := h
  constructor
  · refine ⟨fun a => c i * b a * (c a)⁻¹, ?_⟩
    rw [hb, mul_sum]
    refine sum_congr rfl fun k _ => ?_
    rw [← mul_pow, mul_sub, mul_sum]
    congr 2
    refine sum_congr rfl fun a _ => ?_
    field_simp [hc a]
  · rintro s ⟨b, rfl⟩
    have := hmin ⟨fun a => (c i)⁻¹ * b a * c a, rfl⟩
    calc c i ^ 2 * r ≤ c i ^ 2 * ∑ k, (data k i - ∑ a ∈ S, (c i)⁻¹ * b a * c a * data k a) ^ 2 := mul_le_mul_of_nonneg_left this (sq_nonneg _)
      _ = _ := by
        rw [mul_sum]
        refine sum_congr rfl fun k _ => ?_
        rw [← mul_pow, mul_sub, mul_sum]
        congr 2
        refine sum_congr rfl fun a _ => ?_
        field_simp [hc i]

/-- **C175.** Changing the units of the variables adds the same number to all scores of a node: it does not change which parent set is better. -/
theorem C175_units {c : Fin n → ℝ} (hc : ∀ j, c j ≠ 0) (i : Fin n) (S : Finset (Fin n)) :
    bicNode (fun k j => c j * data k j) i S = bicNode data i S + ((N * Real.log (c i ^ 2) : ℝ) : WithBot ℝ) := by
  by_cases hreg : Regular data S
  · have hl := rss_least hreg.1 i
    have h0 : rss data i S = 0 ∨ 0 < rss data i S := by
      rcases (sum_nonneg fun k _ => sq_nonneg (lsResid data i S k)).eq_or_lt with h | h
      · exact .inl h.symm
      · exact .inr h
    rw [C175_score_partial (regular_scale hc hreg) i _ (least_scale hc hl), C175_score_partial hreg i _ hl]
    have hci : c i ^ 2 ≠ 0 := pow_ne_zero _ (hc i)
    rcases h0 with h0 | h0
    · rw [h0, mul_zero, if_pos rfl]
      rfl
    · rw [if_neg (mul_ne_zero hci h0.ne'), if_neg h0.ne', ← WithBot.coe_add, WithBot.coe_inj]
      have hN : (N : ℝ) ≠ 0 := by
        have := hreg.2
        have : 0 < N := by omega
        positivity
      rw [mul_div_assoc, Real.log_mul hci (div_ne_zero h0.ne' hN)]
      ring
  · have hreg' : ¬ Regular (fun k j => c j * data k j) S := fun h => hreg (by
      have := regular_scale (c := fun j => (c j)⁻¹) (fun j => inv_ne_zero (hc j)) h
      rwa [scale_back hc] at this)
    unfold Regular at hreg hreg'
    rw [not_and_or, not_lt] at hreg hreg'
    unfold bicNode
    by_cases hS : S = ∅
    · subst hS
      rw [if_pos rfl, if_pos rfl]
      have hN : N = 0 := by
        rcases hreg with h | h
        · exact absurd (linearIndependent_empty_type) h
        · simpa using h
      subst hN
      simp [logTerm]
    · rw [if_neg hS, if_neg hS, if_pos hreg, if_pos hreg']
      rfl

/-! ## Linear models -/

theorem regular_of_affine (hN : 2 ≤ N) (h : Score.AffinelyIndependent data) (S : Finset (Fin n)) : Regular data S := by
  classical
  have ext : ∀ (g : S → ℝ) (c0 : ℝ), (∀ k, ∑ a : S, g a * data k a = c0) → ∀ a, g a = 0 := fun g c0 hg a => by
    have := h (fun j => if hj : j ∈ S then g ⟨j, hj⟩ else 0) c0 (fun k => by
      rw [← hg k, ← Finset.sum_subset (subset_univ S)]
      · rw [← Finset.sum_coe_sort S]
        simp
      · intro j _ hj
        simp [hj]) a
    simpa using this
  constructor
  · rw [Fintype.linearIndependent_iff]
    intro g hg
    refine ext g 0 fun k => ?_
    simpa [Finset.sum_apply] using congrFun hg k
  · have hli : LinearIndependent ℝ (fun (o : Option S) (k : Fin N) => o.elim (1 : ℝ) fun a => data k a) := by
      rw [Fintype.linearIndependent_iff]
      intro g hg
      have hk : ∀ k, ∑ a : S, g (some a) * data k a = -g none := fun k => by
        have := congrFun hg k
        rw [Fintype.sum_option] at this
        simp only [Option.elim, Pi.add_apply, Pi.smul_apply, smul_eq_mul, mul_one, Finset.sum_apply, Pi.zero_apply] at this
        linarith
      have hs := ext (fun a => g (some a)) _ hk
      rintro (_ | a)
      · have := hk ⟨0, by omega⟩
        simp only [hs, zero_mul, sum_const_zero] at this
        linarith
      · exact hs a
    have := hli.fintype_card_le_finrank
    simp at this
    omega

/-- Every variable has mean zero. -/
def Centred (data : Fin N → Fin n → ℝ) : Prop := ∀ j, ∑ k, data k j = 0

theorem lsResid_residual (hc : Centred data) {S : Finset (Fin n)} (h : Regular data S) (i : Fin n) : Residual data i S (lsResid data i S) := by
  classical
  refine residual_of_orth ⟨0, fun a => if ha : a ∈ S then lsCoef data i S ⟨a, ha⟩ else 0, fun k => ?_⟩ ?_ ?_
  · unfold lsResid
    rw [zero_add, ← sum_sub_S]
    simp
  · unfold lsResid
    rw [sum_sub_distrib, hc i, sum_comm]
    have : ∀ x : S, ∑ k, lsCoef data i S x * data k x = 0 := fun x => by rw [← mul_sum, hc x, mul_zero]
    simp only [this, sum_const_zero, sub_zero]
  · intro a ha
    exact lsResid_orth h.1 i ⟨a, ha⟩

/-- **C175.** On centred data the score is that of `local_score_BIC` with penalty weight 1, up to a constant. -/
theorem C175_centred_partial (hN : 2 ≤ N) (hc : Centred data) (h : Score.AffinelyIndependent data) {i : Fin n} {PA : List (Fin n)} (hl : PA.Nodup) (hi : i ∉ PA) :
    bicNode data i PA.toFinset = ((Score.bicData data 1 i PA + N * Real.log (((N : ℝ) - 1) / N) : ℝ) : WithBot ℝ) := by
  have hr := regular_of_affine hN h PA.toFinset
  obtain ⟨h0, hb⟩ := Score.C80_bic_residual hN h 1 hl hi (lsResid_residual hc hr i)
  have hN2 : (2 : ℝ) ≤ N := by exact_mod_cast hN
  rw [C175_score_partial hr i _ (rss_least hr.1 i), if_neg (show rss data i PA.toFinset ≠ 0 from h0.ne'), hb, WithBot.coe_inj,
    List.toFinset_card_of_nodup hl]
  have e : rss data i PA.toFinset / N = (rss data i PA.toFinset / ((N : ℝ) - 1)) * (((N : ℝ) - 1) / N) := by
    have : (N : ℝ) - 1 ≠ 0 := by linarith
    field_simp
  have h1 : rss data i PA.toFinset / ((N : ℝ) - 1) ≠ 0 := div_ne_zero h0.ne' (by linarith)
  have h2 : ((N : ℝ) - 1) / N ≠ 0 := div_ne_zero (by linarith) (by linarith)
  rw [e, Real.log_mul h1 h2]
  unfold rss
  ring

theorem bicNum_eq (hN : 2 ≤ N) (hc : Centred data) (h : Score.AffinelyIndependent data) {i : Fin n} {S : Finset (Fin n)} (hi : i ∉ S) :
    bicNum data i S = Score.bicData data 1 i (S.sort (· ≤ ·)) + N * Real.log (((N : ℝ) - 1) / N) := by
  have := C175_centred_partial hN hc h (i := i) (S.sort_nodup (· ≤ ·)) (by simpa using hi)
  rw [S.sort_toFinset] at this
  unfold bicNum
  rw [this]
  rfl

theorem sort_lst (S : Finset (Fin n)) : (S.sort (· ≤ ·)).Nodup ∧ (S.sort (· ≤ ·)).toFinset = S := ⟨S.sort_nodup _, S.sort_toFinset _⟩

theorem bicNum_consistent {D : Fin n → Fin n → Prop} (hD : Acyclic D) (hm : LinearModel D data) (hN : 2 ≤ N) (hc : Centred data)
    (hs : Score.StrongDependence D data 1) : LocallyConsistent (bicNum data) D := by
  have hind : Score.AffinelyIndependent data := fun c c0 hc => hm.independent hD c c0 hc
  have hl := Score.C80_bic_locally_consistent hD hm hN one_pos hs (lst := fun S => S.sort (· ≤ ·)) sort_lst
  intro i j S hij hi hj
  have := hl i j S hij hi hj
  rw [bicNum_eq hN hc hind hi, bicNum_eq hN hc hind (by simp [hij, hi])]
  simpa using this

theorem bicNum_equiv (hN : 2 ≤ N) (hc : Centred data) (h : Score.AffinelyIndependent data) : Ges.ScoreEquiv (bicNum data) := by
  classical
  have hse := Score.C74_bic_score_equivalent_real (Score.sampleCov_posDef hN h) N 1 (fun S => S.sort (· ≤ ·)) sort_lst
  intro D F hD hF hDF
  have e : ∀ E : Fin n → Fin n → Prop, Acyclic E →
      Ges.dagScore (bicNum data) E = Ges.dagScore (fun i S => Score.bicData data 1 i (S.sort (· ≤ ·))) E + ∑ _v : Fin n, N * Real.log (((N : ℝ) - 1) / N) := by
    intro E hE
    unfold Ges.dagScore
    rw [← sum_add_distrib]
    refine sum_congr rfl fun v _ => bicNum_eq hN hc h ?_
    simpa using hE.irrefl v
  rw [e D hD, e F hF]
  exact congrArg (· + _) (hse D F hD hF hDF)

/-- **C175.** Exact search with its own score (dynamic programming, A*) recovers a linear model from centred data, up to Markov equivalence. -/
theorem C175_search_partial {D : Fin n → Fin n → Prop} (hD : Acyclic D) (hm : LinearModel D data) (hN : 2 ≤ N) (hc : Centred data)
    (hs : Score.StrongDependence D data 1) {order : Fin n → List (Fin n)} (ho : Exact.Lists (fun j i => decide (j ≠ i)) order) {maxPar : Nat} (hmax : n ≤ maxPar)
    (ext : Bool) :
    (∀ sp : Exact.ShortestPath n ℝ, ∃ s, Exact.dp sp (Exact.parentGraphs (bicNum data) maxPar order fun _ _ => false) ext = some s ∧
      MarkovEquiv D fun j i => Exact.toMatrix s j i = true) ∧
    ∀ Q : PQ.HeapQ (Finset (Fin n)) (Exact.Structs n) (WithTop ℝ),
      let pgs := Exact.parentGraphs (bicNum data) maxPar order fun _ _ => false
      ∃ f0, ∀ f, f0 ≤ f → ∃ s, Exact.astar Q pgs ext (Exact.simpleH pgs) f = some s ∧ MarkovEquiv D fun j i => Exact.toMatrix s j i = true := by
  have hind : Score.AffinelyIndependent data := fun c c0 hc => hm.independent hD c c0 hc
  exact ⟨fun sp => Exact.C79_dp_consistent hD (bicNum_consistent hD hm hN hc hs) (bicNum_equiv hN hc hind) sp ho hmax ext,
    fun Q => Exact.C79_astar_consistent hD (bicNum_consistent hD hm hN hc hs) (bicNum_equiv hN hc hind) Q ho hmax ext⟩

/-! ## Where the score fails -/

/-- **C175, violated.** Linearly dependent parents (for instance a column that is a copy of another), or at least as many parents as samples, get the score
`-inf`, the best there is, whatever the target. -/
theorem C175_collinear_violated (i : Fin n) (S : Finset (Fin n)) (hS : S ≠ ∅)
    (h : N ≤ S.card ∨ ∃ a ∈ S, ∃ b ∈ S, a ≠ b ∧ ∃ c : ℝ, ∀ k, data k b = c * data k a) :
    bicNode data i S = ⊥ ∧ ∀ T, bicNode data i S ≤ bicNode data i T := by
  have e : bicNode data i S = ⊥ := by
    unfold bicNode
    rw [if_neg hS, if_pos]
    rcases h with h | ⟨a, ha, b, hb, hab, c, hc⟩
    · exact .inr h
    · left
      intro hli
      classical
      have := Fintype.linearIndependent_iff.1 hli (fun x => if x = ⟨b, hb⟩ then 1 else if x = ⟨a, ha⟩ then -c else 0) (by
        funext k
        rw [Finset.sum_apply, ← Finset.add_sum_erase _ _ (mem_univ (⟨b, hb⟩ : S)), ← Finset.add_sum_erase _ _ (mem_erase.2 ⟨by simpa using hab, mem_univ (⟨a, ha⟩ : S)⟩),
          Finset.sum_eq_zero]
        · simp [hab, hc]
        · intro x hx
          simp only [mem_erase, mem_univ, and_true] at hx
          simp [hx.1, hx.2]) ⟨b, hb⟩
      simp at this
  exact ⟨e, fun T => e ▸ bot_le⟩

/-- Two unrelated variables with mean 9. -/
def shifted : Fin 4 → Fin 2 → ℝ := fun k j => 9 + ![![1, -1, 1, -1], ![1, 1, -1, -1]] j k

theorem shifted_model : LinearModel Ges.noEdge shifted := by
  refine ⟨fun _ => 9, fun _ _ => 0, fun j k => ![![1, -1, 1, -1], ![1, 1, -1, -1]] j k, fun _ _ _ => rfl, fun k i => by simp [shifted], ?_, ?_, ?_⟩
  · intro i
    fin_cases i <;> simp [Fin.sum_univ_succ]
  · intro i
    fin_cases i <;> simp [Fin.sum_univ_succ] <;> norm_num
  · intro i j hij
    fin_cases i <;> fin_cases j <;> simp [Fin.sum_univ_succ] at hij ⊢

theorem shifted_empty (i : Fin 2) : bicNum shifted i ∅ = 4 * Real.log 82 := by
  have : ∑ k, shifted k i ^ 2 = 328 := by
    fin_cases i <;> simp [shifted, Fin.sum_univ_succ] <;> norm_num
  simp only [bicNum, bicNode, logTerm, this]
  norm_num

theorem shifted_edge : bicNum shifted 1 {0} = 4 * Real.log (163 / 82) + Real.log 4 := by
  have hr : Regular shifted {0} := regular_of_affine (by norm_num) (fun c c0 hc => shifted_model.independent Ges.noEdge_acyclic c c0 hc) _
  have hl : LeastSquares shifted 1 {0} (326 / 41) := by
    constructor
    · refine ⟨fun _ => 81 / 82, ?_⟩
      simp [shifted, Fin.sum_univ_succ]
      norm_num
    · rintro s ⟨b, rfl⟩
      simp [shifted, Fin.sum_univ_succ]
      nlinarith [sq_nonneg (b 0 - 81 / 82)]
  rw [bicNum, C175_score_partial hr 1 _ hl, if_neg (by norm_num), WithBot.unbotD_coe, card_singleton]
  norm_num

/-- **C175, violated.** Without an intercept, means that are not zero look like dependence: for two unrelated variables with mean 9 the search with `bic_score_node`
returns a graph with an edge. -/
theorem C175_shift_violated : LinearModel Ges.noEdge shifted ∧
    ∀ (sp : Exact.ShortestPath 2 ℝ) (order : Fin 2 → List (Fin 2)), Exact.Lists (fun j i => decide (j ≠ i)) order → ∀ maxPar, 2 ≤ maxPar → ∀ ext,
      ∃ s, Exact.dp sp (Exact.parentGraphs (bicNum shifted) maxPar order fun _ _ => false) ext = some s ∧ ∃ j i, Exact.toMatrix s j i = true := by
  refine ⟨shifted_model, fun sp order ho maxPar hmax ext => ?_⟩
  obtain ⟨s, h1, h2, h3⟩ := Exact.C32_dp_optimal sp ho (bicNum shifted) maxPar (Exact.exists_admissible hmax) ext
  refine ⟨s, h1, ?_⟩
  by_contra hno
  push Not at hno
  have he : Exact.parentsOf (Exact.toMatrix s) = fun _ => ∅ := by
    funext i
    simp [Exact.parentsOf, hno]
  rw [he] at h3
  have := h3 (fun i => if i = 1 then {0} else ∅) ⟨by decide, by simp, fun i => by split_ifs <;> simp; omega, ?_⟩
  · simp only [totalScore, Fin.sum_univ_two, shifted_empty] at this
    norm_num at this
    rw [shifted_empty, shifted_edge] at this
    have l1 : Real.log (163 / 82) ≤ Real.log 2 := Real.log_le_log (by norm_num) (by norm_num)
    have l2 : Real.log 4 = 2 * Real.log 2 := by
      rw [show (4 : ℝ) = 2 ^ 2 by norm_num, Real.log_pow]
      norm_num
    have l3 : 6 * Real.log 2 < Real.log 82 := by
      have : 6 * Real.log 2 = Real.log (2 ^ 6) := by
        rw [Real.log_pow]
        norm_num
      rw [this]
      exact Real.log_lt_log (by norm_num) (by norm_num)
    have l4 : 0 < Real.log 2 := Real.log_pos (by norm_num)
    linarith
  · refine Spec.acyclic_of_rank (ρ := fun i : Fin 2 => i.val) fun a b hab => ?_
    split_ifs at hab with hb
    · subst hb
      simp at hab
      subst hab
      decide
    · simp at hab

/-- The hypotheses of the recovery theorem can be met: centred, unrelated variables. -/
example : ∃ data : Fin 4 → Fin 2 → ℝ, LinearModel Ges.noEdge data ∧ Centred data ∧ Regular data {0, 1} := by
  have hm : LinearModel Ges.noEdge (fun (k : Fin 4) (j : Fin 2) => (![![1, -1, 1, -1], ![1, 1, -1, -1]] : Fin 2 → Fin 4 → ℝ) j k) := by
    refine ⟨fun _ => 0, fun _ _ => 0, fun j k => ![![1, -1, 1, -1], ![1, 1, -1, -1]] j k, fun _ _ _ => rfl, fun k i => by simp, ?_, ?_, ?_⟩
    · intro i
      fin_cases i <;> simp [Fin.sum_univ_succ]
    · intro i
      fin_cases i <;> simp [Fin.sum_univ_succ] <;> norm_num
    · intro i j hij
      fin_cases i <;> fin_cases j <;> simp [Fin.sum_univ_succ] at hij ⊢
  refine ⟨_, hm, fun j => ?_, regular_of_affine (by norm_num) (fun c c0 hc => hm.independent Ges.noEdge_acyclic c c0 hc) _⟩
  fin_cases j <;> simp [Fin.sum_univ_succ]

end CL.ExactBic
